import Verif.Model.Optimize

/-! # Specification vocabulary for the optimization toolbox -/

namespace DiffeRT2d
namespace Spec

/-- `xs`, `sts` are the successive iterates and optimizer states from `x0`, for `n` updates: each iterate
is the previous one plus the update the optimizer computes from the gradient there. -/
structure Run {Key : Type} (M : Minimizer Key) (f : List F → F) (x0 : List F) (n : ℕ)
    (xs : ℕ → List F) (sts : ℕ → M.optimizer.State) : Prop where
  start : xs 0 = x0
  init : sts 0 = M.optimizer.init x0
  step : ∀ k < n, xs (k + 1) =
    List.zipWith (· + ·) (xs k) (M.optimizer.update (M.grad f (xs k)) (sts k)).1
  state : ∀ k < n, sts (k + 1) = (M.optimizer.update (M.grad f (xs k)) (sts k)).2

/-- `loss` is not larger than `other` (neither is NaN): the order of the extended reals. -/
def NotLarger (loss other : F) : Prop :=
  loss = F.ninf ∨ other = F.pinf ∨ ∃ a b : ℝ, loss = F.fin a ∧ other = F.fin b ∧ a ≤ b

/-- `loss` is smaller than `other`. -/
def Smaller (loss other : F) : Prop :=
  (loss = F.ninf ∧ (other = F.pinf ∨ ∃ b : ℝ, other = F.fin b)) ∨
    (other = F.pinf ∧ ∃ a : ℝ, loss = F.fin a) ∨ ∃ a b : ℝ, loss = F.fin a ∧ other = F.fin b ∧ a < b

/-- Trial `i` of `minimize_many_random_uniform`: minimization from the uniform draw of the `i`-th key. -/
def Trials {Key : Type} (M : Minimizer Key) (f : List F → F) (key : Key) (n many : ℕ)
    (trials : List (List F × F)) : Prop :=
  List.Forall₂ (fun k t => minimize M f (M.uniform k n) = .ok t) (M.split key many) trials

end Spec
end DiffeRT2d
