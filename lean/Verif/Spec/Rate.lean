import Verif.Spec.Precision
import Verif.Spec.Accuracy

/-! # Vocabulary for the rate at which errors vanish

A family of floating point arithmetics `A n`, a filter `l` that says in which direction `n` grows, and a size `ε n` of the errors. -/

namespace DiffeRT2d
namespace Spec
open Filter Topology

variable {ι : Type}

/-- The arithmetics `A n` round with errors of size `ε n`: on every bounded set of numbers, rounding eventually does not overflow and
errs by at most a constant times `ε n`. -/
structure ErrsBy (A : ι → FloatOps) (l : Filter ι) (ε : ι → ℝ) : Prop where
  contract : ∀ n, FloatContract (A n)
  pos : ∀ n, 0 ≤ ε n
  small : Tendsto ε l (𝓝 0)
  rnd : ∀ M : ℝ, ∃ C : ℝ, ∀ᶠ n in l, ∀ x : ℝ, |x| ≤ M → ∃ r, (A n).rnd x = F.fin r ∧ |r - x| ≤ C * ε n

/-- The floats `f n` are eventually finite, and off from the real `x` by at most a constant times `ε n`. -/
def OffBy (l : Filter ι) (ε : ι → ℝ) (f : ι → F) (x : ℝ) : Prop := ∃ C : ℝ, ∀ᶠ n in l, ∃ r, f n = F.fin r ∧ |r - x| ≤ C * ε n

/-- The computed points `f n` are off from `p` by at most a constant times `ε n`. -/
def OffByPt (l : Filter ι) (ε : ι → ℝ) (f : ι → V2 F) (p : Pt) : Prop := OffBy l ε (fun n => (f n).x) p.x ∧ OffBy l ε (fun n => (f n).y) p.y

/-- The computed lists `f n` have as many points as `pts`, and are off from them, point by point, by at most a constant times `ε n`. -/
def OffByPts (l : Filter ι) (ε : ι → ℝ) (f : ι → List (V2 F)) (pts : List Pt) : Prop :=
  ∃ g : List (ι → V2 F), (∀ n, f n = g.map (· n)) ∧ List.Forall₂ (OffByPt l ε) g pts

/-- In addition, rounding does not shrink large numbers by more than half (it may overflow), the computed logistic function errs by at most a
constant times `ε n`, and `ε n` is never zero. -/
structure ErrsEverywhereBy (A : ι → FloatOps) (l : Filter ι) (ε : ι → ℝ) : Prop extends ErrsBy A l ε where
  ne : ∀ n, 0 < ε n
  large : ∀ (n : ι) (x : ℝ), 1 ≤ x → Le (F.fin (x / 2)) ((A n).rnd x)
  logistic : ∃ C : ℝ, ∀ᶠ n in l, ∀ x : ℝ, ∃ r, (A n).logistic (F.fin x) = F.fin r ∧ |r - 1 / (1 + Real.exp (-x))| ≤ C * ε n

/-- The activations `kw n`, computed in floating point, are off from the real function `s` by at most a constant times `ε n`, and so they are
from zero at arguments as negative as `-1 / ε n`. -/
structure StepsOff (l : Filter ι) (ε : ι → ℝ) (kw : ι → ActKw) (s : ℝ → ℝ) : Prop where
  step : ∀ n, FloatStep (kw n)
  near : ∀ (f : ι → F) (x : ℝ), OffBy l ε f x → OffBy l ε (fun n => activation (kw n) (f n)) (s x)
  low : ∀ c : ℝ, 0 < c → OffBy l ε (fun n => activation (kw n) (F.fin (-(c / ε n)))) 0

end Spec
end DiffeRT2d
