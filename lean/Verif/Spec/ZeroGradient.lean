import Verif.Spec.Opaque
import Verif.Spec.Specular
import Verif.Model.Presets

/-! # The figure of the zero-gradient region (`papers/eucap2024/plot_zero_gradient.py`) -/

namespace DiffeRT2d.Spec

/-- The walls of the preset room with a wall of length `ratio` in its middle. -/
noncomputable def middleWalls (ratio : ℝ) : List (Pt × Pt) := roomWalls 0 1 0 1 ++ [(⟨1 / 2, 1 / 2 * (1 - ratio)⟩, ⟨1 / 2, 1 / 2 * (1 + ratio)⟩)]

/-- The default transmitter of `square_scene_with_wall`. -/
noncomputable def middleTx : Pt := ⟨1 / 5, 1 / 2⟩

/-- Behind the wall: on or beyond its line, within the angle at which the transmitter sees it. -/
def Behind (ratio : ℝ) (r : Pt) : Prop := 1 / 2 ≤ r.x ∧ 3 / 10 * |r.y - 1 / 2| ≤ ratio / 2 * (r.x - 1 / 5)

/-- In sight: inside of the room (up to 0.005), and before the wall (up to 0.01) or out of the angle at which the transmitter sees it, lengthened by
0.005 of its length at both ends. -/
def InSight (ratio : ℝ) (r : Pt) : Prop :=
  0.005 ≤ r.x ∧ r.x ≤ 0.995 ∧ 0.005 ≤ r.y ∧ r.y ≤ 0.995 ∧ (r.x ≤ 0.49 ∨ (ratio / 2 + 0.005 * ratio) * (r.x - 1 / 5) < 3 / 10 * |r.y - 1 / 2|)

end DiffeRT2d.Spec
