import Verif.Spec.Fields

/-! # Vocabulary: one truth value, computed exactly, roughly and less roughly -/

namespace DiffeRT2d
namespace Spec

/-- The degrees `v` and `v'` are on the side of `b` (at least 1/2 if it is true, at most 1/2 if it is false), and
`v'` is at least as close to it as `v`. -/
def Closer (b : Bool) (v v' : ℝ) : Prop :=
  if b = true then 1 / 2 ≤ v ∧ v ≤ v' ∧ v' ≤ 1 else 0 ≤ v' ∧ v' ≤ v ∧ v ≤ 1 / 2

/-- `exact` is a Boolean, `rough` and `fine` are degrees on its side, and `fine` is at least as close to it. -/
def Refined (exact rough fine : Truthy) : Prop :=
  ∃ b v v', exact = .b b ∧ rough = .f (F.fin v) ∧ fine = .f (F.fin v') ∧ Closer b v v'

/-- The number a Boolean stands for. -/
noncomputable def bit (b : Bool) : ℝ := if b = true then 1 else 0

end Spec
end DiffeRT2d
