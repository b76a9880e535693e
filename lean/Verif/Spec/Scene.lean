import Verif.Model.Scene
import Verif.Spec.Paths

/-! # Specification vocabulary for scenes -/

namespace DiffeRT2d
namespace Spec

/-- The keys of a mapping are distinct (as they are in every Python mapping). -/
def Distinct {V : Type*} (m : PyDict V) : Prop := (m.map Prod.fst).Nodup

/-- A `PyTreeDict` made from a mapping. -/
def IsMapping {V : Type*} (d : PyTreeDict V) : Prop := ∃ m : PyDict V, Distinct m ∧ d = .fromMapping m

/-- A scene: its transmitters and receivers are mappings. -/
structure IsScene (s : Scene) : Prop where
  tx : IsMapping s.transmitters
  rx : IsMapping s.receivers

/-- The point stored under a name. -/
def pointNamed {V : Type*} (m : PyDict V) (name : String) (p : V) : Prop := (name, p) ∈ m

/-- The operations of the scene-editing API, with their arguments. -/
inductive Edit where
  | withTransmitters (m : PyDict (V2 F))
  | withReceivers (m : PyDict (V2 F))
  | withObjects (os : List Obj)
  | filterObjects (keep : Obj → Bool)
  | updateTransmitters (m : PyDict (V2 F))
  | updateReceivers (m : PyDict (V2 F))
  | addObjects (os : List Obj)

/-- Calling an operation. -/
def Edit.call : Edit → Scene → Except PyErr Scene
  | .withTransmitters m, s => s.withTransmitters m
  | .withReceivers m, s => s.withReceivers m
  | .withObjects os, s => .ok (s.withObjects os)
  | .filterObjects keep, s => .ok (s.filterObjects keep)
  | .updateTransmitters m, s => s.updateTransmitters m
  | .updateReceivers m, s => s.updateReceivers m
  | .addObjects os, s => .ok (s.addObjects os)

/-- Calling operations one after the other. -/
def calls : List Edit → Scene → Except PyErr Scene
  | [], s => .ok s
  | e :: es, s => do calls es (← e.call s)

/-- The arguments of an operation are possible keyword arguments: distinct names, none of which is `self`. -/
def Edit.Legal : Edit → Prop
  | .withTransmitters m | .withReceivers m | .updateTransmitters m | .updateReceivers m =>
    Distinct m ∧ "self" ∉ m.map Prod.fst
  | _ => True

/-- What a scene is for its user: which point has which name, in which order, and the list of objects. -/
structure View where
  txNames : List String
  tx : String → Option (V2 F)
  rxNames : List String
  rx : String → Option (V2 F)
  objects : List Obj

/-- New names go after the old ones. -/
def appendNew (old new : List String) : List String := old ++ new.filter (· ∉ old)

/-- New points win. -/
def override (old : String → Option (V2 F)) (new : PyDict (V2 F)) (name : String) : Option (V2 F) :=
  (new.lookup name).or (old name)

/-- The intended effect of an operation. -/
def Edit.effect : Edit → View → View
  | .withTransmitters m, v => { v with txNames := m.map Prod.fst, tx := fun name => m.lookup name }
  | .withReceivers m, v => { v with rxNames := m.map Prod.fst, rx := fun name => m.lookup name }
  | .withObjects os, v => { v with objects := os }
  | .filterObjects keep, v => { v with objects := v.objects.filter keep }
  | .updateTransmitters m, v =>
    { v with txNames := appendNew v.txNames (m.map Prod.fst), tx := override v.tx m }
  | .updateReceivers m, v =>
    { v with rxNames := appendNew v.rxNames (m.map Prod.fst), rx := override v.rx m }
  | .addObjects os, v => { v with objects := v.objects ++ os }

/-- The point that indexing returns, if any. -/
def found (r : Except PyErr (V2 F)) : Option (V2 F) :=
  match r with
  | .ok p => some p
  | .error _ => none

/-- A scene seen by its user. -/
def viewOf (s : Scene) : View where
  txNames := s.transmitters.iter
  tx name := found (s.transmitters.getItem name)
  rxNames := s.receivers.iter
  rx name := found (s.receivers.getItem name)
  objects := s.objects

/-- The name a point gets by a renaming. -/
def newName (names : PyDict String) (name : String) : String := (names.lookup name).getD name

/-- The end points of a wall or a RIS, or the vertex. -/
def Shape.points : Shape → List Pt
  | .wall o d => [o, d]
  | .ris o d _ => [o, d]
  | .vertex p => [p]

/-- Named points with finite coordinates. -/
def finPoints (m : PyDict Pt) : PyDict (V2 F) := m.map fun kv => (kv.1, V2.fin kv.2)

/-- The scene with these transmitters, receivers and objects (finite coordinates). -/
def sceneOf (tx rx : PyDict Pt) (shapes : List Shape) : Scene :=
  .make (finPoints tx) (finPoints rx) (shapes.map Shape.obj)

/-- All objects of the scene have the same class. -/
def Homogeneous (s : Scene) : Prop := ∀ o ∈ s.objects, ∀ o' ∈ s.objects, o.cls = o'.cls

end Spec
end DiffeRT2d
