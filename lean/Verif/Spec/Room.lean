import Verif.Spec.Rays
import Mathlib.Algebra.Ring.Parity

/-! # Rectangular rooms and the mirror images of a point in their walls -/

namespace DiffeRT2d.Spec
open Classical

/-- The closed room `[x0, x1] × [y0, y1]`. -/
def WithinRoom (x0 x1 y0 y1 : ℝ) (p : Pt) : Prop := x0 ≤ p.x ∧ p.x ≤ x1 ∧ y0 ≤ p.y ∧ p.y ≤ y1

/-- Inside the room, not on a wall. -/
def InsideRoom (x0 x1 y0 y1 : ℝ) (p : Pt) : Prop := x0 < p.x ∧ p.x < x1 ∧ y0 < p.y ∧ p.y < y1

/-- The image number `m` of the coordinate `z` between two mirrors at `z0` and `z1`: `z` itself for `m = 0`; the mirror at `z1` exchanges the images `m` and `1 - m`, the mirror
at `z0` the images `m` and `-1 - m`. The even ones are `z` displaced by multiples of `2 * (z1 - z0)`, the odd ones are the other way round. -/
noncomputable def cell (z0 z1 z : ℝ) (m : ℤ) : ℝ := (if Even m then z else z0 + z1 - z) + m * (z1 - z0)

/-- The image `(m, m')` of `r` in the walls of the room, seen through `|m| + |m'|` reflections. -/
noncomputable def roomImage (x0 x1 y0 y1 : ℝ) (r : Pt) (m : ℤ × ℤ) : Pt := ⟨cell x0 x1 r.x m.1, cell y0 y1 r.y m.2⟩

/-- Away from the walls of the room, by more than 1/200 of its width and of its height. -/
def WellInside (x0 x1 y0 y1 : ℝ) (p : Pt) : Prop :=
  x0 + (x1 - x0) / 200 < p.x ∧ p.x < x1 - (x1 - x0) / 200 ∧ y0 + (y1 - y0) / 200 < p.y ∧ p.y < y1 - (y1 - y0) / 200

/-- The straight line from `p` to `u` keeps away from the corners of the tiling of the plane by the images of the room: where it meets one of the vertical lines `x0 + j * (x1 - x0)`, it is
more than 1/200 of the height of the room away from the horizontal lines `y0 + k * (y1 - y0)`, and conversely. -/
def KeepsClear (x0 x1 y0 y1 : ℝ) (p u : Pt) : Prop :=
  ∀ (s : ℝ) (j k : ℤ), 0 ≤ s → s ≤ 1 →
    ((pointAt p u s).x = x0 + j * (x1 - x0) → (y1 - y0) / 200 < |(pointAt p u s).y - (y0 + k * (y1 - y0))|) ∧
    ((pointAt p u s).y = y0 + k * (y1 - y0) → (x1 - x0) / 200 < |(pointAt p u s).x - (x0 + j * (x1 - x0))|)

end DiffeRT2d.Spec
