import Verif.Spec.Specular

/-! # Vocabulary for the laws relating several scenes -/

namespace DiffeRT2d
namespace Spec

/-- The path class traces one point per object, plus the two ends. -/
def OnePointEach {Key : Type} (m : Scene.PathMethod Key) : Prop :=
  ∀ k t os r p, m.trace k t os r = .ok p → p.xys.length = os.length + 2

/-- The points after the map `f`. -/
def mapPoints (f : Affine) (d : PyDict Pt) : PyDict Pt := d.map fun kv => (kv.1, f.app kv.2)

/-- `x'` is `x` moved by `f`: same names, same candidate, same validity, same loss, moved points. -/
def MovedBy (f : Affine) (x x' : Scene.Traced) : Prop :=
  x'.tx = x.tx ∧ x'.rx = x.rx ∧ x'.candidate = x.candidate ∧ x'.valid = x.valid ∧
    ∃ pts loss, x.path = finitePath pts loss ∧ x'.path = finitePath (pts.map f.app) loss

/-- `σ` says where the objects of the list `os` are in the list `os'`. -/
def Rearranged (σ : Equiv.Perm ℕ) (os os' : List Obj) : Prop := ∀ j : ℕ, os'[σ j]? = os[j]?

/-- A candidate after the rearrangement. -/
def renumber (σ : Equiv.Perm ℕ) (c : List ℤ) : List ℤ := c.map fun i => (σ i.toNat : ℤ)

/-- A tuple of `all_paths` after the rearrangement: only the numbers of the objects change. -/
def renumberTuple (σ : Equiv.Perm ℕ) (x : Scene.Traced) : Scene.Traced := { x with candidate := renumber σ x.candidate }

/-- The same segment, possibly drawn from its other end. -/
def SameSegment (w w' : Pt × Pt) : Prop := w' = w ∨ w' = (w.2, w.1)

/-- The same walls in the same order, some of them drawn from their other end. -/
def Redrawn (walls walls' : List (Pt × Pt)) : Prop := List.Forall₂ SameSegment walls walls'

/-- A function of the path that looks at how many objects there are but not at the objects. -/
def IgnoresObjects (f : Scene.PathFun) : Prop :=
  ∀ t r p (os os' : List Obj), os.length = os'.length → f t r p os = f t r p os'

/-- A grid of real coordinates. -/
def finGrid (X : List (List ℝ)) : Scene.Grid F := X.map fun row => row.map F.fin

/-- The function has the same value on a path and on that path moved by `A`. -/
def MotionInvariant (A : Affine) (f : Scene.PathFun) : Prop :=
  ∀ t r pts loss (os os' : List Obj), os.length = os'.length →
    f (V2.fin (A.app t)) (V2.fin (A.app r)) (finitePath (pts.map A.app) loss) os' = f (V2.fin t) (V2.fin r) (finitePath pts loss) os

/-- The walls moved by `A` are the same segments as before (in any order, drawn from any end). -/
def SymmetricUnder (A : Affine) (walls : List (Pt × Pt)) : Prop :=
  ∃ walls', Redrawn (walls.map (mapWall A)) walls' ∧ walls'.Perm walls

/-- The abscissae and the ordinates of the points of a grid moved by `A`. -/
def movedX (A : Affine) (X Y : List (List ℝ)) : List (List ℝ) := List.zipWith (List.zipWith fun x y => (A.app ⟨x, y⟩).x) X Y

@[inherit_doc movedX]
def movedY (A : Affine) (X Y : List (List ℝ)) : List (List ℝ) := List.zipWith (List.zipWith fun x y => (A.app ⟨x, y⟩).y) X Y

/-- `q` is on the wall `w` extended at both ends by `patch` and by the tolerance of 1/200. -/
def OnExtended (w : Pt × Pt) (patch : ℝ) (q : Pt) : Prop :=
  ∃ s, q = pointAt w.1 w.2 s ∧ -(patch + 5 / 1000 * (1 + 2 * patch)) ≤ s ∧ s ≤ 1 + (patch + 5 / 1000 * (1 + 2 * patch))

end Spec
end DiffeRT2d
