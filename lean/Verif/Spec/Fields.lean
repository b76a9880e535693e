import Verif.Spec.Specular
import Verif.Model.Presets

/-! # Vocabulary for the values accumulated over the paths of a scene of walls -/

namespace DiffeRT2d
namespace Spec

/-- `c` is a path candidate among `n` objects, of one of the orders `lo` to `hi`. -/
def InRange (n : ℕ) (lo hi : ℤ) (c : List ℤ) : Prop :=
  IsCandidate n c ∧ lo ≤ c.length ∧ (c.length : ℤ) ≤ hi

/-- The user's function `f` returns, on finite data, the real number `g`, which depends on the ends and the points
of the path only. -/
def RealFun (f : Scene.PathFun) (g : Pt → Pt → List Pt → ℝ) : Prop :=
  ∀ t r pts loss os, 2 ≤ pts.length → f (V2.fin t) (V2.fin r) (finitePath pts loss) os = F.fin (g t r pts)

/-- `received_power` as a function for `accumulate_over_paths`. -/
noncomputable def powerFun (E : Env) (c height : ℝ) : Scene.PathFun := fun t r path os =>
  receivedPower E t r path (os.map Obj.interact) (F.fin c) (F.fin height)

end Spec
end DiffeRT2d
