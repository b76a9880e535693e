import Verif.Spec.Scene
import Verif.Spec.Graph

/-! # Specification vocabulary for path traversals -/

namespace DiffeRT2d
namespace Spec

/-- Random keys as free terms: `child k i` is the `i`-th key that splitting `k` gives (whatever the number of keys
asked for, so that two terms are distinct only if they come from different keys or positions). -/
inductive KeyTerm where
  | user
  | child (k : KeyTerm) (i : ℕ)
  deriving DecidableEq

/-- `jax.random.split(k, n)` on terms. -/
def KeyTerm.split (k : KeyTerm) (n : ℕ) : List KeyTerm := (List.range n).map k.child

/-- The orders requested are not negative. -/
def NonNegative (o : Scene.Orders) : Prop := 0 ≤ o.order.getD o.minOrder

/-- The objects at the indices of a candidate. -/
def objectsAt (s : Scene) (c : List ℤ) : List Obj := c.filterMap fun i => s.objects[i.toNat]?

/-- `path` and `valid` are what the path class and the validity check give for one transmitter, one receiver and
one candidate, with the given random key: the path is traced through the objects of the candidate and
checked against all the objects of the scene. -/
def TracedAs {Key : Type} (s : Scene) (m : Scene.PathMethod Key) (v : Scene.ValidOpts) (key : Option Key)
    (transmitter receiver : V2 F) (candidate : List ℤ) (path : Path) (valid : Truthy) : Prop :=
  m.trace key transmitter (objectsAt s candidate) receiver = .ok path ∧
  path.isValid v.E (s.objects.map Obj.interact) candidate ((objectsAt s candidate).map Obj.interact) v.tol v.patch
    v.approx v.kw = .ok valid

/-- The validity is accepted: true in hard mode, above one half in approximate mode. -/
def Accepted (E : Env) (approx : Option Bool) (valid : Truthy) : Prop :=
  (Hard E approx ∧ Holds valid) ∨ (Soft E approx ∧ Lt (F.fin (1 / 2)) valid.toF)

/-- The path class does not use its random key. -/
def KeyIndependent {Key : Type} (m : Scene.PathMethod Key) : Prop :=
  ∀ k k' tx os rx, m.trace k tx os rx = m.trace k' tx os rx

/-- The weight of a path: its validity as a number times the value of the function. -/
noncomputable def weighted (s : Scene) (f : Scene.PathFun) (transmitter receiver : V2 F) (t : Scene.Traced) : F :=
  t.valid.toF * f transmitter receiver t.path (objectsAt s t.candidate)

/-- The entry of an array at row `a`, column `b`. -/
def gridAt {α : Type*} (z : Scene.Grid α) (a b : ℕ) : Option α := z[a]?.bind fun row => row[b]?

/-- The shape of an array: the lengths of its rows. -/
def gridShape {α : Type*} (z : Scene.Grid α) : List ℕ := z.map List.length

/-- `jax.random.split` gives as many keys as requested. -/
def SplitCount {Key : Type} (split : Key → ℕ → List Key) : Prop := ∀ k n, (split k n).length = n

end Spec
end DiffeRT2d
