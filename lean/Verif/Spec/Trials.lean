import Verif.Spec.GradPaths

/-! # Vocabulary for tracing with several trials -/

namespace DiffeRT2d.Spec

/-- A descent of `n` steps through the parameters `xs` is spoilt: the gradient is not defined at one of the parameters visited, early enough for the
loss of the trial (the objective before the last step) to be affected. -/
def Spoilt (Singular : List ℝ → Prop) (n : ℕ) (xs : ℕ → List F) : Prop := ∃ m, m + 1 < n ∧ ∃ θ : List ℝ, xs m = θ.map F.fin ∧ Singular θ

/-- The trial `w` is selected among `many` trials through the parameters `xs i`: a spoilt one if there is one, and otherwise the first of those with the
least value of the objective `f` before the last step. -/
def Selected (Singular : List ℝ → Prop) (f : List F → F) (n many : ℕ) (xs : ℕ → ℕ → List F) (w : ℕ) : Prop :=
  w < many ∧ ((∃ i < many, Spoilt Singular n (xs i)) → Spoilt Singular n (xs w) ∧ ∀ i < w, ¬ Spoilt Singular n (xs i)) ∧
  ((∀ i < many, ¬ Spoilt Singular n (xs i)) → ∀ i < many, ∃ a b : ℝ, f (xs w (n - 1)) = F.fin a ∧ f (xs i (n - 1)) = F.fin b ∧ a ≤ b ∧ (i < w → a < b))

end DiffeRT2d.Spec
