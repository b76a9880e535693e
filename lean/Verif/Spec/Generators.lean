import Verif.Spec.Traversal
import Verif.Model.Generators

/-! # Specification vocabulary for generators -/

namespace DiffeRT2d
namespace Spec

/-- What tracing and checking one path gives: a tuple, or the exception of the path class or of the validity check. -/
noncomputable def pathResult {Key : Type} (s : Scene) (m : Scene.PathMethod Key) (v : Scene.ValidOpts) (key : Option Key)
    (t r : String × V2 F) (c : List ℤ) : Except PyErr Scene.Traced :=
  match m.trace key t.2 (objectsAt s c) r.2 with
  | .error e => .error e
  | .ok path =>
    match path.isValid v.E (s.objects.map Obj.interact) c ((objectsAt s c).map Obj.interact) v.tol v.patch v.approx v.kw with
    | .error e => .error e
    | .ok valid => .ok ⟨t.1, r.1, valid, path, c⟩

/-- A scene (with named transmitters and receivers), a path class, validity options, candidates, and the random key of each path. The path
class and the validity may depend on the surroundings. -/
structure Job (Key : Type) where
  scene : Scene
  tx : PyDict (V2 F)
  rx : PyDict (V2 F)
  cands : List (List ℤ)
  keys : ℕ → Option Key
  method : Env → Scene.PathMethod Key
  opts : Scene.ValidOpts

/-- The number of paths. -/
def Job.count {Key : Type} (j : Job Key) : ℕ := j.tx.length * j.rx.length * j.cands.length

/-- The result of path number `n`, traced in the surroundings `E`: paths are numbered by transmitter, then receiver, then candidate. -/
noncomputable def Job.result {Key : Type} (j : Job Key) (E : Env) (n : ℕ) : Except PyErr Scene.Traced :=
  match ((j.tx ×ˢ j.rx) ×ˢ j.cands)[n]? with
  | none => .error .indexError
  | some ((t, r), c) => pathResult j.scene (j.method E) { j.opts with E := E } (j.keys n) t r c

/-- What the caller of `next` sees of a result. -/
def seen {α : Type*} : Except PyErr α → Next α
  | .ok a => .item a
  | .error e => .raised e

/-- What the caller of `next` sees of the `n`-th element of a list. -/
def seenAt {α : Type*} (l : List α) (n : ℕ) : Next α :=
  match l[n]? with
  | some a => .item a
  | none => .stopIteration

/-- The object gives the same answers in any surroundings when `approx` is given. -/
def HonoursApprox (o : Obj) : Prop := ∀ (E E' : Env) (b : Bool) (kw : ActKw),
  (∀ ps, o.interact.contains E (some b) kw ps = o.interact.contains E' (some b) kw ps) ∧
  ∀ patch p q, o.interact.intersects E (some b) kw patch p q = o.interact.intersects E' (some b) kw patch p q

end Spec
end DiffeRT2d
