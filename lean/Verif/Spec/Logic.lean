import Verif.Model.Logic
import Mathlib.Data.EReal.Basic
import Mathlib.Topology.Algebra.Order.LiminfLimsup
import Mathlib.Topology.Instances.Real.Lemmas

/-!
# Specification vocabulary for `differt2d.logic`

Nothing here mentions how the code computes: only what truth values, comparisons and soft steps are.
-/

namespace DiffeRT2d.Spec

open Filter

/-- The extended real a non-NaN float stands for. -/
noncomputable def toEReal : F → Option EReal
  | .nan => none
  | .pinf => some ⊤
  | .ninf => some ⊥
  | .fin x => some (x : EReal)

/-- IEEE `a < b`: both are numbers and the order of the extended reals says so. -/
def Lt (a b : F) : Prop := ∃ x y, toEReal a = some x ∧ toEReal b = some y ∧ x < y
/-- IEEE `a <= b`. -/
def Le (a b : F) : Prop := ∃ x y, toEReal a = some x ∧ toEReal b = some y ∧ x ≤ y

/-- Python/NumPy truth of a scalar: a Boolean itself; a float iff it is not zero (NaN is true). -/
def Holds : Truthy → Prop
  | .b v => v = true
  | .f x => x ≠ F.fin 0

/-- The float encoding of a crisp truth value. -/
noncomputable def crisp (v : Bool) : Truthy := .f (F.fin (if v then 1 else 0))

/-- `x` is a truth degree `r` in `[0,1]`: a Boolean (0 or 1) or a float in `[0,1]`. -/
def Degree (x : Truthy) (r : ℝ) : Prop :=
  0 ≤ r ∧ r ≤ 1 ∧ (x = .f (F.fin r) ∨ (x = .b true ∧ r = 1) ∨ (x = .b false ∧ r = 0))

/-- A family of real soft steps (slope `a > 0`). -/
structure SoftStepReal (s : ℝ → ℝ → ℝ) : Prop where
  range : ∀ a x, 0 < a → 0 ≤ s a x ∧ s a x ≤ 1
  mono : ∀ a, 0 < a → Monotone (s a)
  half : ∀ a, 0 < a → s a 0 = 1 / 2
  above : ∀ a x, 0 < a → (1 / 2 < s a x ↔ 0 < x)
  odd : ∀ a x, 0 < a → s a (-x) = 1 - s a x
  sharpen : ∀ a b x, 0 < a → a ≤ b → |s a x - 1 / 2| ≤ |s b x - 1 / 2|
  limitPos : ∀ x, 0 < x → Tendsto (fun a => s a x) atTop (nhds 1)
  limitNeg : ∀ x, x < 0 → Tendsto (fun a => s a x) atTop (nhds 0)

/-- A float function `f x alpha` is a soft step: real on finite arguments, with the right limits at
the infinities, and NaN goes through. -/
def SoftStep (f : F → F → F) : Prop :=
  ∃ s, SoftStepReal s ∧ (∀ a x : ℝ, 0 < a → f (F.fin x) (F.fin a) = F.fin (s a x)) ∧
    (∀ a : ℝ, 0 < a → f F.pinf (F.fin a) = F.fin 1 ∧ f F.ninf (F.fin a) = F.fin 0 ∧
      f F.nan (F.fin a) = F.nan)

/-- Keyword settings with a positive slope and a soft step as activation. -/
def GoodKw (kw : ActKw) : Prop := SoftStep kw.function ∧ ∃ a : ℝ, 0 < a ∧ kw.alpha = F.fin a

/-- The call runs in hard mode: `approx=False`, or `approx=None` while approximation is disabled. -/
def Hard (E : Env) (approx : Option Bool) : Prop :=
  approx = some false ∨ (approx = none ∧ E.enableApprox = false)

/-- The call runs in approximate mode: `approx=True`, or `approx=None` while approximation is enabled. -/
def Soft (E : Env) (approx : Option Bool) : Prop :=
  approx = some true ∨ (approx = none ∧ E.enableApprox = true)

end DiffeRT2d.Spec
