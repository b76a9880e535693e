import Verif.Lemmas.Precision
import Verif.Lemmas.Ieee
import Mathlib.Analysis.SpecificLimits.Basic

/-! The IEEE formats become exact. -/

namespace DiffeRT2d
open Classical Spec Filter Topology

theorem roundEven_error (x : ℝ) : |(roundEven x : ℝ) - x| ≤ 1 / 2 := by
  have h1 := Int.floor_add_fract x
  have h2 := Int.fract_nonneg x
  have h3 := Int.fract_lt_one x
  unfold roundEven
  split_ifs with h
  · have : Int.fract x ≤ 1 / 2 := by rcases h with h | h; exacts [h.le, h.1.le]
    rw [abs_le]; constructor <;> linarith
  · have : 1 / 2 ≤ Int.fract x := by
      by_contra hc; exact h (.inl (not_le.mp hc))
    push_cast
    rw [abs_le]; constructor <;> linarith

/-- The error of rounding: half a unit in the last place. -/
theorem nearest_error_ulp (p : ℕ) (emin : ℤ) (x : ℝ) : |nearest p emin x - x| ≤ 2 ^ ulpExp p emin x / 2 := by
  have hp := two_zpow_pos (ulpExp p emin x)
  have := roundEven_error (x / 2 ^ ulpExp p emin x)
  have e : nearest p emin x - x = ((roundEven (x / 2 ^ ulpExp p emin x) : ℝ) - x / 2 ^ ulpExp p emin x) * 2 ^ ulpExp p emin x := by
    rw [nearest, sub_mul, div_mul_cancel₀ _ hp.ne']
  rw [e, abs_mul, abs_of_pos hp]
  nlinarith

/-- Relative error in the normal range, absolute error below. -/
theorem nearest_error (p : ℕ) (emin : ℤ) (x : ℝ) : |nearest p emin x - x| ≤ max |x| (2 ^ emin) * 2 ^ (-(p : ℤ)) := by
  by_cases h0 : x = 0
  · subst h0; rw [nearest_zero]; simp
  have h := nearest_error_ulp p emin x
  refine h.trans ?_
  have h1 : (2 : ℝ) ^ max (Int.log 2 |x|) emin ≤ max |x| (2 ^ emin) := by
    rcases le_total (Int.log 2 |x|) emin with hl | hl
    · rw [max_eq_right hl]; exact le_max_right _ _
    · rw [max_eq_left hl]
      exact (by exact_mod_cast Int.zpow_log_le_self (b := 2) (by norm_num) (abs_pos.mpr h0) : (2 : ℝ) ^ Int.log 2 |x| ≤ |x|).trans (le_max_left _ _)
  have h2 : (2 : ℝ) ^ ulpExp p emin x / 2 = 2 ^ max (Int.log 2 |x|) emin * 2 ^ (-(p : ℤ)) := by
    rw [← zpow_add₀ (by norm_num), div_eq_iff (by norm_num), ← zpow_add_one₀ (by norm_num)]
    congr 1
    unfold ulpExp; ring
  rw [h2]
  exact mul_le_mul_of_nonneg_right h1 (two_zpow_pos _).le

theorem ieee_becomes_exact {ι : Type} {l : Filter ι} {p : ι → ℕ} {emin emax : ι → ℤ} (hp : Tendsto p l atTop) (hx : Tendsto emax l atTop)
    (h4 : ∀ n, 4 ≤ p n) (h0 : ∀ n, emin n ≤ 0) (h3 : ∀ n, 3 ≤ emax n) : BecomeExact (fun n => ieee (p n) (emin n) (emax n)) l := by
  have hq : Tendsto (fun n => (2 : ℝ) ^ (-(p n : ℤ))) l (𝓝 0) := by
    have := (tendsto_pow_atTop_nhds_zero_of_lt_one (r := (1 / 2 : ℝ)) (by norm_num) (by norm_num)).comp hp
    refine this.congr fun n => ?_
    simp [zpow_neg]
  have hE : ∀ n, (2 : ℝ) ^ emin n ≤ 1 := fun n => zpow_le_one_of_nonpos₀ (by norm_num) (h0 n)
  have small : ∀ M ε : ℝ, 0 < ε → ∀ᶠ n in l, ∀ x : ℝ, |x| ≤ M → |nearest (p n) (emin n) x - x| < ε := by
    intro M ε hε
    have : Tendsto (fun n => max M 1 * (2 : ℝ) ^ (-(p n : ℤ))) l (𝓝 0) := by simpa using hq.const_mul (max M 1)
    filter_upwards [this.eventually_lt_const hε] with n hn x hx
    refine (nearest_error _ _ _).trans_lt (lt_of_le_of_lt ?_ hn)
    exact mul_le_mul_of_nonneg_right (max_le_max hx (hE n)) (two_zpow_pos _).le
  refine ⟨fun n => ieee_contract (h4 n) (h0 n) (h3 n), ?_, ?_⟩
  · intro M ε hε
    have hb : ∀ᶠ n in l, |M| + 1 < (2 : ℝ) ^ (emax n + 1) := by
      obtain ⟨k, hk⟩ := pow_unbounded_of_one_lt (|M| + 1) (one_lt_two (α := ℝ))
      filter_upwards [hx.eventually_ge_atTop (k : ℤ)] with n hn
      refine hk.trans_le ?_
      rw [← zpow_natCast]
      exact zpow_le_zpow_right₀ (by norm_num) (by linarith)
    filter_upwards [small M ε hε, small M 1 one_pos, hb] with n a1 a2 a3 x hx
    refine ⟨nearest (p n) (emin n) x, ?_, a1 x hx⟩
    refine ieee_rnd_of_lt ?_
    have := a2 x hx
    have h1 := abs_sub_abs_le_abs_sub (nearest (p n) (emin n) x) x
    have := le_abs_self M
    linarith
  · intro ε hε
    filter_upwards [small 1 ε hε] with n hn x
    have hr : |1 / (1 + Real.exp (-x))| ≤ 1 := by
      have := Real.exp_pos (-x)
      rw [abs_of_pos (by positivity), div_le_one (by positivity)]; linarith
    exact ⟨_, rfl, hn _ hr⟩

end DiffeRT2d
