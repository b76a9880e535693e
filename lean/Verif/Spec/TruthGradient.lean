import Verif.Model.TruthGradient
import Verif.Spec.Grad

/-! # The derivatives of truth values -/

namespace DiffeRT2d.Spec
variable {ι : Type}

/-- The differentiated program `a` has the value `v`, and what it sends back to the inputs is `g` times what it is given: its gradient is `g`. -/
def Gives (a : Rev ι) (v : ℝ) (g : ι → ℝ) : Prop := a.val = F.fin v ∧ ∀ (c : ℝ) (i : ι), a.pull (F.fin c) i = F.fin (c * g i)

/-- The sigmoid with slope `a`. -/
noncomputable def smooth (a x : ℝ) : ℝ := 1 / (1 + Real.exp (-(a * x)))

/-- The hard sigmoid with slope `a`: `0`, then a line, then `1`. -/
noncomputable def ramp (a x : ℝ) : ℝ := max 0 (min 1 (1 / 2 + a * x / 6))

/-- What is sent back to the first of two operands of a maximum: all if it is the largest, one half in case of a tie. -/
noncomputable def share (v w : ℝ) : ℝ := if w < v then 1 else if v < w then 0 else 1 / 2

end DiffeRT2d.Spec
