import Verif.Spec.Rounded

/-! # Vocabulary for rounding errors -/

namespace DiffeRT2d
namespace Spec

/-- Rounding errs by at most `u` relatively, plus `η` absolutely (underflow). -/
structure Accurate (A : FloatOps) (u η : ℝ) : Prop where
  error : ∀ x r : ℝ, A.rnd x = F.fin r → |r - x| ≤ u * |x| + η
  unit : 0 ≤ u ∧ u ≤ 1 / 8
  under : 0 ≤ η ∧ η ≤ 1

/-- The power received along a path, in exact arithmetic: the coefficient once for each interaction, divided by the squared distance
(with the height). -/
noncomputable def exactPower (c height : ℝ) (pts : List Pt) : ℝ := c ^ (pts.length - 2) / (height ^ 2 + polyLength pts ^ 2)

/-- The points of a path are within `B` of the axes. -/
def Within (B : ℝ) (pts : List Pt) : Prop := ∀ p ∈ pts, |p.x| ≤ B ∧ |p.y| ≤ B

end Spec
end DiffeRT2d
