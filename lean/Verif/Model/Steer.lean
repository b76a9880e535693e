import Verif.Model.GradPaths

/-!
# Model of the tuning of a RIS by `minimize`

`RIS.phi` is a leaf of the pytree (geometry.py:692-696), so that a user may give `minimize` (optimize.py:46-97) the objective
`lambda x: sum(RIS(xys=xys, phi=x[0]).evaluate_cartesian(path) for path in paths)`, and it is differentiated as any other (optimize.py:85).
-/

namespace DiffeRT2d
open Classical

/-- `sum(RIS(xys=[o, d], phi=x[0]).evaluate_cartesian(path) for path in paths)` (geometry.py:698-711). Each path has three points. -/
noncomputable def steering (o d : V2 F) (paths : List (V2 F × V2 F × V2 F)) (x : List F) : F :=
  F.sum (paths.map fun p => (RIS.mk ⟨o, d⟩ (x.headD F.nan)).evaluate p.1 p.2.1 p.2.2)

/-- The same under differentiation with respect to `x` (rules of `Model/Grad.lean`). -/
noncomputable def Rev.steering (o d : V2 F) (paths : List (V2 F × V2 F × V2 F)) (x : List (Rev ℕ)) : Rev ℕ :=
  Rev.sum (paths.map fun p => Rev.risEvaluate ⟨Rev.constV o, Rev.constV d⟩ (x.headD (Rev.const F.nan)) (Rev.constV p.2.1) (Rev.constV p.2.2))

/-- `minimize(objective, x0=[phi0], ...)` (optimize.py:46-97), with the gradient of `Model/Grad.lean`. -/
noncomputable def steer {Key : Type} (M : Minimizer Key) (o d : V2 F) (paths : List (V2 F × V2 F × V2 F)) (phi0 : F) : Except PyErr (List F × F) :=
  minimize (M.differentiating (Rev.steering o d paths)) (steering o d paths) [phi0]

end DiffeRT2d
