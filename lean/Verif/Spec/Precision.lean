import Verif.Spec.Rounded
import Verif.Spec.Stability

/-! # Vocabulary for increasing precision

A family of floating point arithmetics `A n`, and a filter `l` that says in which direction `n` grows. -/

namespace DiffeRT2d
namespace Spec
open Filter Topology

variable {ι : Type}

/-- The arithmetics `A n` become exact: on every bounded set of numbers, rounding eventually neither overflows nor errs by more
than any given amount; and so for the logistic function. -/
structure BecomeExact (A : ι → FloatOps) (l : Filter ι) : Prop where
  contract : ∀ n, FloatContract (A n)
  rnd : ∀ M ε : ℝ, 0 < ε → ∀ᶠ n in l, ∀ x : ℝ, |x| ≤ M → ∃ r, (A n).rnd x = F.fin r ∧ |r - x| < ε
  logistic : ∀ ε : ℝ, 0 < ε → ∀ᶠ n in l, ∀ x : ℝ, ∃ r, (A n).logistic (F.fin x) = F.fin r ∧ |r - 1 / (1 + Real.exp (-x))| < ε

/-- The floats `f n` are eventually finite, and tend to the real `x`. -/
def Approaches (l : Filter ι) (f : ι → F) (x : ℝ) : Prop := ∃ g : ι → ℝ, (∀ᶠ n in l, f n = F.fin (g n)) ∧ Tendsto g l (𝓝 x)

/-- The computed points `f n` approach the point `p`. -/
def ApproachesPt (l : Filter ι) (f : ι → V2 F) (p : Pt) : Prop := Approaches l (fun n => (f n).x) p.x ∧ Approaches l (fun n => (f n).y) p.y

/-- The computed lists `f n` have as many points as `pts`, and approach them point by point. -/
def ApproachesPts (l : Filter ι) (f : ι → List (V2 F)) (pts : List Pt) : Prop :=
  ∃ g : List (ι → V2 F), (∀ n, f n = g.map (· n)) ∧ List.Forall₂ (ApproachesPt l) g pts

/-- The activations `kw n`, computed in floating point, approach the real function `s`, which vanishes at minus infinity. -/
structure StepsApproach (l : Filter ι) (kw : ι → ActKw) (s : ℝ → ℝ) : Prop where
  step : ∀ n, FloatStep (kw n)
  near : ∀ (f : ι → F) (x : ℝ), Approaches l f x → Approaches l (fun n => activation (kw n) (f n)) (s x)
  low : Tendsto s atBot (𝓝 0)

/-- A point stored in the arithmetic `A`: its coordinates are rounded. -/
noncomputable def store (A : FloatOps) (p : Pt) : V2 F := ⟨A.rnd p.x, A.rnd p.y⟩

/-- A wall stored in the arithmetic `A`. -/
noncomputable def storeWall (A : FloatOps) (w : Pt × Pt) : Wall := ⟨store A w.1, store A w.2⟩

end Spec
end DiffeRT2d
