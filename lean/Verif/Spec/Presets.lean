import Verif.Model.Presets
import Verif.Spec.Scene

/-! # Specification vocabulary for scene constructors -/

namespace DiffeRT2d
namespace Spec

/-- The walls around a polygon: from each corner to the next one, and from the last one to the first. -/
def closedPolygon (corners : List Pt) : List Shape :=
  List.zipWith Shape.wall corners (corners.rotate 1)

/-- The corners of the axis-aligned square with centre `c` and side `s`, from the corner with the smallest
coordinates (if `s` is positive), counterclockwise. -/
noncomputable def squareCorners (c : Pt) (s : ℝ) : List Pt :=
  [⟨c.x - s / 2, c.y - s / 2⟩, ⟨c.x + s / 2, c.y - s / 2⟩, ⟨c.x + s / 2, c.y + s / 2⟩, ⟨c.x - s / 2, c.y + s / 2⟩]

/-- The centre of the room. -/
noncomputable def roomCentre : Pt := ⟨1 / 2, 1 / 2⟩

/-- The room `[0, 1] × [0, 1]`. -/
def InRoom (p : Pt) : Prop := 0 ≤ p.x ∧ p.x ≤ 1 ∧ 0 ≤ p.y ∧ p.y ≤ 1

/-- The end points of the walls of a scene, in order. -/
def wallEnds : List Obj → List (V2 F)
  | [] => []
  | .wall w :: os => w.origin :: w.dest :: wallEnds os
  | _ :: os => wallEnds os

end Spec
end DiffeRT2d
