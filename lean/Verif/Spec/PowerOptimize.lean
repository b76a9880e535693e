import Verif.Model.PowerOptimize
import Verif.Spec.Grad

/-! # Vocabulary for the optimization of the position of a transmitter -/

namespace DiffeRT2d
namespace Spec

/-- The receivers `rx` get the powers `power`, whose gradients are `gradient`; then `out` is the value and the gradient of minus the smallest of
the powers (over 100): the value is that of a receiver that gets least; the gradient is NaN if any receiver's gradient is NaN; otherwise it is a
mean of the gradients of the receivers that get least. -/
structure WorstServed (rx : PyDict Pt) (power : String × Pt → ℝ) (gradient : String × Pt → V2 F) (out : F × V2 F) : Prop where
  value : ∃ r ∈ rx, (∀ r' ∈ rx, power r ≤ power r') ∧ out.1 = F.fin (-(power r / 100))
  either : ∀ r ∈ rx, gradient r = ⟨F.nan, F.nan⟩ ∨ ∃ g : Pt, gradient r = V2.fin g
  nan : (∃ r ∈ rx, gradient r = ⟨F.nan, F.nan⟩) → out.2 = ⟨F.nan, F.nan⟩
  mean : ∀ g : String × Pt → Pt, (∀ r ∈ rx, gradient r = V2.fin (g r)) → ∃ w : String × Pt → ℝ, (∀ r ∈ rx, 0 ≤ w r) ∧ (rx.map w).sum = 1 ∧
    (∀ r ∈ rx, w r ≠ 0 → ∀ r' ∈ rx, power r ≤ power r') ∧
    out.2 = V2.fin ⟨-((rx.map fun r => w r * (g r).x).sum / 100), -((rx.map fun r => w r * (g r).y).sum / 100)⟩

/-- `x` is not a real number. -/
def NotReal (x : F) : Prop := ∀ r : ℝ, x ≠ F.fin r

end Spec
end DiffeRT2d
