import Verif.Spec.Geometry

/-! # Vocabulary: deep shadow -/

namespace DiffeRT2d
namespace Spec

/-- The line of sight from `t` to `r` crosses the wall `w` (longer by `patch` of its length at both ends), and both are cut far from their ends: at no less
than `3 / alpha - 0.005` of their lengths. -/
def DeepShadow (alpha patch : ℝ) (w : Pt × Pt) (t r : Pt) : Prop :=
  ¬ Parallel w.1 w.2 t r ∧ ∃ x y : ℝ, pointAt (pointAt w.1 w.2 (-patch)) (pointAt w.1 w.2 (1 + patch)) x = pointAt t r y ∧
    3 / alpha - 1 / 200 ≤ x ∧ x ≤ 1 - (3 / alpha - 1 / 200) ∧ 3 / alpha - 1 / 200 ≤ y ∧ y ≤ 1 - (3 / alpha - 1 / 200)

end Spec
end DiffeRT2d
