import Verif.Spec.Paths
import Verif.Model.Rounded
import Mathlib.Data.Int.Log

/-! # Vocabulary for rounded arithmetic -/

namespace DiffeRT2d
namespace Spec
open Classical

/-- What is assumed of a floating point arithmetic: rounding a number gives a number (or an infinity), is monotone and odd, and
is exact on the multiples of 1/2 up to 6; the logistic function is monotone, with values in `[0, 1]`, and 1/2 at 0. -/
structure FloatContract (A : FloatOps) : Prop where
  number : ∀ x, A.rnd x ≠ F.nan
  mono : ∀ x y, x ≤ y → Le (A.rnd x) (A.rnd y)
  odd : ∀ x, A.rnd (-x) = -A.rnd x
  halves : ∀ k : ℤ, |k| ≤ 12 → A.rnd (k / 2) = F.fin (k / 2)
  logistic_nan : A.logistic F.nan = F.nan
  logistic_range : ∀ x, x ≠ F.nan → ∃ r, A.logistic x = F.fin r ∧ 0 ≤ r ∧ r ≤ 1
  logistic_mono : ∀ x y, Le x y → Le (A.logistic x) (A.logistic y)
  logistic_zero : A.logistic (F.fin 0) = F.fin (1 / 2)

/-- Rounding never overflows. -/
def NoOverflow (A : FloatOps) : Prop := ∀ x, ∃ r, A.rnd x = F.fin r

/-- Round to the nearest integer, ties to even. -/
noncomputable def roundEven (x : ℝ) : ℤ :=
  if Int.fract x < 1 / 2 ∨ (Int.fract x = 1 / 2 ∧ Even ⌊x⌋) then ⌊x⌋ else ⌊x⌋ + 1

/-- The exponent of the unit in the last place of `x`, with `p` bits of precision and least exponent `emin`. -/
noncomputable def ulpExp (p : ℕ) (emin : ℤ) (x : ℝ) : ℤ := max (Int.log 2 |x|) emin - (p - 1)

/-- `x` rounded to nearest, ties to even, with `p` bits of precision and gradual underflow below `2 ^ emin`. -/
noncomputable def nearest (p : ℕ) (emin : ℤ) (x : ℝ) : ℝ :=
  roundEven (x / 2 ^ ulpExp p emin x) * 2 ^ ulpExp p emin x

/-- IEEE 754 binary formats: precision `p`, exponents `emin` to `emax`, round to nearest even; the logistic function is rounded
correctly. -/
noncomputable def ieee (p : ℕ) (emin emax : ℤ) : FloatOps where
  rnd x := if nearest p emin x ≥ 2 ^ (emax + 1) then F.pinf else if nearest p emin x ≤ -2 ^ (emax + 1) then F.ninf else F.fin (nearest p emin x)
  logistic x := match nnSigmoid x with
    | F.fin y => F.fin (nearest p emin y)
    | y => y

/-- The same without an upper bound on the exponent: `ieee p emin emax` computes the same as long as nothing overflows. -/
noncomputable def unbounded (p : ℕ) (emin : ℤ) : FloatOps := { ieee p emin 0 with rnd := fun x => F.fin (nearest p emin x) }

/-- `float32`. -/
noncomputable def float32 : FloatOps := ieee 24 (-126) 127
/-- `float64`. -/
noncomputable def float64 : FloatOps := ieee 53 (-1022) 1023

/-- A soft step, as far as floating point goes: NaN goes through, other values give a number in `[0, 1]`, monotonically, and
1/2 at 0. -/
structure FloatStep (kw : ActKw) : Prop where
  nan : activation kw F.nan = F.nan
  range : ∀ x, x ≠ F.nan → ∃ r, activation kw x = F.fin r ∧ 0 ≤ r ∧ r ≤ 1
  mono : ∀ x y, Le x y → Le (activation kw x) (activation kw y)
  half : activation kw (F.fin 0) = F.fin (1 / 2)

/-- The built-in classes of objects. -/
def BuiltIn (o : Obj) : Prop := ∀ c i b, o ≠ .user c i b

end Spec
end DiffeRT2d
