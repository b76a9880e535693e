import Verif.Spec.Placing

/-! # The smallest circle around the receivers -/

namespace DiffeRT2d.Spec

/-- The disc of centre `c` and radius `R` contains all the points. -/
def Encloses (pts : List Pt) (c : Pt) (R : ℝ) : Prop := ∀ a ∈ pts, eucl a c ≤ R

/-- `c` and `R` are the centre and the radius of a smallest circle around the points. -/
def SmallestCircle (pts : List Pt) (c : Pt) (R : ℝ) : Prop := Encloses pts c R ∧ ∀ c' R', Encloses pts c' R' → R ≤ R'

/-- The places of the receivers, moved by the guard of the path length. -/
def places (eps : ℝ) (rx : PyDict Pt) : List Pt := rx.map fun r => guarded eps r.2

end DiffeRT2d.Spec
