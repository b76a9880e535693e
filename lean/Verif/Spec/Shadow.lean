import Verif.Spec.Opaque
import Verif.Spec.Specular
import Verif.Model.Presets

/-! # The scene of the quickstart (`docs/source/quickstart.md`) -/

namespace DiffeRT2d.Spec

/-- The four walls of the square room, and the wall that the quickstart adds. -/
noncomputable def quickstartWalls : List (Pt × Pt) := roomWalls 0 1 0 1 ++ [(⟨4 / 5, 1 / 5⟩, ⟨4 / 5, 4 / 5⟩)]

/-- The transmitter of the quickstart. -/
noncomputable def quickstartTx : Pt := ⟨1 / 5, 1 / 5⟩

/-- The shadow: behind the added wall, above the line through its lower end and the mirror image of the transmitter in the floor, and below the line through its
upper end and the mirror image in the ceiling. -/
def InShadow (r : Pt) : Prop := 4 / 5 < r.x ∧ r.x < 1 ∧ (2 * r.x - 1) / 3 ≤ r.y ∧ r.y ≤ (32 - 25 * r.x) / 15

/-- Where the plot must not be dark with one reflection: on the left of the added wall, below the shadow or above it (with a margin). -/
def Lit (r : Pt) : Prop :=
  (0.005 ≤ r.x ∧ r.x ≤ 0.79 ∧ 0.005 ≤ r.y ∧ r.y ≤ 0.995) ∨
  (0.81 ≤ r.x ∧ r.x ≤ 0.99 ∧ 0.005 ≤ r.y ∧ r.y ≤ (2 * r.x - 1) / 3 - 0.01) ∨
  (0.81 ≤ r.x ∧ r.x ≤ 0.99 ∧ (32 - 25 * r.x) / 15 + 0.01 ≤ r.y ∧ r.y ≤ 0.995)

/-- `scene = Scene.square_scene(); scene = scene.add_objects(Wall(xys=[[0.8, 0.2], [0.8, 0.8]]))` (docs/source/quickstart.md:29-49). The receiver
is replaced by the points of the grid. -/
noncomputable def quickstartScene : Scene := (Scene.squareScene).addObjects [Scene.segment 0.8 0.2 0.8 0.8]

end DiffeRT2d.Spec
