import Mathlib.Analysis.SpecialFunctions.Sqrt
import Mathlib.Analysis.Calculus.MeanValue
import Mathlib.Analysis.Calculus.Deriv.Inv
import Mathlib.Analysis.Calculus.Deriv.MeanValue
import Mathlib.Topology.Order.Compact

/-! # Gradient descent on the length of a path with one reflection: facts about real functions -/

namespace DiffeRT2d.OneWall

/-- The distance from a fixed point to the point of parameter `t` on a line. -/
noncomputable def far (A a h t : ℝ) : ℝ := Real.sqrt (A * (t - a) ^ 2 + h ^ 2)

/-- Its derivative. -/
noncomputable def slope (A a h t : ℝ) : ℝ := A * (t - a) / far A a h t

/-- Its second derivative. -/
noncomputable def bend (A a h t : ℝ) : ℝ := A * h ^ 2 / far A a h t ^ 3

variable {A a h : ℝ}

theorem inside_pos (hA : 0 ≤ A) (hh : 0 < h) (t : ℝ) : 0 < A * (t - a) ^ 2 + h ^ 2 := by positivity

theorem far_pos (hA : 0 ≤ A) (hh : 0 < h) (t : ℝ) : 0 < far A a h t := Real.sqrt_pos.mpr (inside_pos hA hh t)

theorem far_sq (hA : 0 ≤ A) (t : ℝ) : far A a h t ^ 2 = A * (t - a) ^ 2 + h ^ 2 := Real.sq_sqrt (by positivity)

theorem far_ge (hA : 0 ≤ A) (hh : 0 < h) (t : ℝ) : h ≤ far A a h t := Real.le_sqrt_of_sq_le (by nlinarith [mul_nonneg hA (sq_nonneg (t - a))])

theorem far_deriv (hA : 0 ≤ A) (hh : 0 < h) (t : ℝ) : HasDerivAt (far A a h) (slope A a h t) t := by
  have h1 : HasDerivAt (fun t => A * (t - a) ^ 2 + h ^ 2) (A * (2 * (t - a))) t := by
    have := ((((hasDerivAt_id t).sub_const a).pow 2).const_mul A).add_const (h ^ 2)
    simpa using this
  have := h1.sqrt (inside_pos hA hh t).ne'
  have e : slope A a h t = A * (2 * (t - a)) / (2 * Real.sqrt (A * (t - a) ^ 2 + h ^ 2)) := by
    have := (far_pos (a := a) hA hh t).ne'
    unfold slope
    unfold far at this ⊢
    field_simp
  rw [e]; exact this

theorem slope_deriv (hA : 0 ≤ A) (hh : 0 < h) (t : ℝ) : HasDerivAt (slope A a h) (bend A a h t) t := by
  have h0 := (far_pos (a := a) hA hh t).ne'
  have h1 : HasDerivAt (fun t => A * (t - a)) A t := by simpa using ((hasDerivAt_id t).sub_const a).const_mul A
  have := h1.div (far_deriv (a := a) hA hh t) h0
  have e : bend A a h t = (A * far A a h t - A * (t - a) * slope A a h t) / far A a h t ^ 2 := by
    have h2 := far_sq (a := a) (h := h) hA t
    unfold bend slope
    field_simp
    linear_combination (-A) * h2
  rw [e]; exact this

theorem bend_pos (hA : 0 < A) (hh : 0 < h) (t : ℝ) : 0 < bend A a h t := by
  have := far_pos (a := a) hA.le hh t
  unfold bend; positivity

theorem bend_le (hA : 0 ≤ A) (hh : 0 < h) (t : ℝ) : bend A a h t ≤ A / h := by
  have h1 := far_ge (a := a) hA hh t
  have h2 : h ^ 3 ≤ far A a h t ^ 3 := by gcongr
  have h3 := far_pos (a := a) hA hh t
  unfold bend
  rw [div_le_div_iff₀ (by positivity) hh]
  nlinarith [mul_le_mul_of_nonneg_left h2 hA]

theorem bend_continuous (hA : 0 ≤ A) (hh : 0 < h) : Continuous (bend A a h) := by
  unfold bend far
  refine Continuous.div (by fun_prop) (by fun_prop) fun t => ?_
  exact pow_ne_zero _ (far_pos (a := a) hA hh t).ne'

/-- The two slopes cancel at the point that divides the feet in the ratio of the distances. -/
theorem balance {b k : ℝ} (hA : 0 ≤ A) (hh : 0 < h) (hk : 0 < k) :
    slope A a h ((a * k + b * h) / (h + k)) + slope A b k ((a * k + b * h) / (h + k)) = 0 := by
  set t := (a * k + b * h) / (h + k) with ht
  set z := (b - a) / (h + k) with hz
  have h0 : h + k ≠ 0 := by positivity
  have h1 : t - a = h * z := by rw [ht, hz]; field_simp; ring
  have h2 : t - b = -(k * z) := by rw [ht, hz]; field_simp; ring
  have s1 : far A a h t = h * Real.sqrt (A * z ^ 2 + 1) := by
    rw [far, h1, show A * (h * z) ^ 2 + h ^ 2 = h ^ 2 * (A * z ^ 2 + 1) by ring, Real.sqrt_mul (by positivity), Real.sqrt_sq hh.le]
  have s2 : far A b k t = k * Real.sqrt (A * z ^ 2 + 1) := by
    rw [far, h2, show A * (-(k * z)) ^ 2 + k ^ 2 = k ^ 2 * (A * z ^ 2 + 1) by ring, Real.sqrt_mul (by positivity), Real.sqrt_sq hk.le]
  have hs : Real.sqrt (A * z ^ 2 + 1) ≠ 0 := (Real.sqrt_pos.mpr (by positivity)).ne'
  rw [slope, slope, s1, s2, h1, h2]
  field_simp
  ring

/-- One step of gradient descent. -/
noncomputable def next (lr A a h b k t : ℝ) : ℝ := t - lr * (slope A a h t + slope A b k t)

/-- With a small enough rate, a step is a contraction, with the same factor for all the parameters of a bounded set. -/
theorem contraction {b k lr : ℝ} (hA : 0 < A) (hh : 0 < h) (hk : 0 < k) (hlr : 0 < lr) (hL : lr * (A / h + A / k) < 2) (R : ℝ) (hR : 0 ≤ R) :
    ∃ q, 0 ≤ q ∧ q < 1 ∧ ∀ s t, |s| ≤ R → |t| ≤ R → |next lr A a h b k s - next lr A a h b k t| ≤ q * |s - t| := by
  have hd : ∀ t, HasDerivAt (next lr A a h b k) (1 - lr * (bend A a h t + bend A b k t)) t := fun t =>
    (hasDerivAt_id t).sub (((slope_deriv hA.le hh t).add (slope_deriv hA.le hk t)).const_mul lr)
  have hc : Continuous fun t => |1 - lr * (bend A a h t + bend A b k t)| := by
    have h1 := bend_continuous (a := a) hA.le hh
    have h2 := bend_continuous (a := b) hA.le hk
    fun_prop
  obtain ⟨m, -, hm⟩ := (isCompact_Icc (a := -R) (b := R)).exists_isMaxOn ⟨0, by simpa using hR⟩ hc.continuousOn
  refine ⟨|1 - lr * (bend A a h m + bend A b k m)|, abs_nonneg _, ?_, fun s t hs ht => ?_⟩
  · have p1 := bend_pos (a := a) hA hh m
    have p2 := bend_pos (a := b) hA hk m
    have l1 := bend_le (a := a) hA.le hh m
    have l2 := bend_le (a := b) hA.le hk m
    rw [abs_lt]
    constructor
    · nlinarith [mul_le_mul_of_nonneg_left (add_le_add l1 l2) hlr.le]
    · nlinarith [mul_pos hlr (add_pos p1 p2)]
  · have := (convex_Icc (-R) R).norm_image_sub_le_of_norm_hasDerivWithin_le (f := next lr A a h b k) (fun x _ => (hd x).hasDerivWithinAt)
      (fun x hx => hm hx) (abs_le.mp ht) (abs_le.mp hs)
    simpa using this

/-- The iterates approach the fixed point geometrically. -/
theorem iterate_close {g : ℝ → ℝ} {c q R : ℝ} (hq : 0 ≤ q) (hq1 : q < 1) (hfix : g c = c)
    (hg : ∀ s, |s - c| ≤ R → |g s - c| ≤ q * |s - c|) (x : ℝ) (hx : |x - c| ≤ R) (n : ℕ) : |g^[n] x - c| ≤ q ^ n * |x - c| := by
  induction n generalizing x with
  | zero => simp
  | succ n ih =>
    rw [Function.iterate_succ_apply]
    have h1 := hg x hx
    have h2 : q * |x - c| ≤ 1 * |x - c| := by gcongr
    refine (ih (g x) (by linarith)).trans ?_
    calc q ^ n * |g x - c| ≤ q ^ n * (q * |x - c|) := by gcongr
      _ = q ^ (n + 1) * |x - c| := by ring

end DiffeRT2d.OneWall
