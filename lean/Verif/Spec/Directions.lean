import Verif.Spec.Grad

/-! # Vocabulary for the directions of gradients -/

namespace DiffeRT2d
namespace Spec

/-- The vector of length `k` from `a` towards `b`. -/
noncomputable def towards (k : ℝ) (a b : Pt) : Pt := ⟨k * ((b.x - a.x) / eucl a b), k * ((b.y - a.y) / eucl a b)⟩

/-- How fast the power received along a path grows when the path gets shorter. -/
noncomputable def steepness (coef height : ℝ) (pts : List Pt) : ℝ :=
  2 * coef ^ (pts.length - 2) * polyLength pts / (height ^ 2 + polyLength pts ^ 2) ^ 2

/-- The pull of a path on its first end: towards the next point of the path. -/
noncomputable def pullStart (coef height : ℝ) (pts : List Pt) : Pt :=
  match pts with
  | t :: p :: _ => towards (steepness coef height pts) t p
  | _ => ⟨0, 0⟩

/-- The pull of a path on its last end: towards the previous point of the path. -/
noncomputable def pullEnd (coef height : ℝ) (pts : List Pt) : Pt :=
  match pts.reverse with
  | r :: p :: _ => towards (steepness coef height pts) r p
  | _ => ⟨0, 0⟩

end Spec
end DiffeRT2d
