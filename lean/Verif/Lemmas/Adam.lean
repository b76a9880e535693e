import Verif.Spec.Optimize
import Verif.Lemmas.Float

/-! # The update rule of Adam, coordinate by coordinate -/

namespace DiffeRT2d
open Classical Spec

/-- First moments of a sequence of gradients. -/
noncomputable def am (g : ℕ → ℝ) : ℕ → ℝ
  | 0 => 0
  | k + 1 => (1 - 0.9) * g k + 0.9 * am g k

/-- Second moments. -/
noncomputable def av (g : ℕ → ℝ) : ℕ → ℝ
  | 0 => 0
  | k + 1 => (1 - 0.999) * (g k * g k) + 0.999 * av g k

/-- The update of step `k`. -/
noncomputable def au (lr : ℝ) (g : ℕ → ℝ) (k : ℕ) : ℝ :=
  -lr * (am g (k + 1) / (1 - 0.9 ^ (k + 1)) / (Real.sqrt (av g (k + 1) / (1 - 0.999 ^ (k + 1))) + 1e-8))

theorem av_nonneg (g : ℕ → ℝ) (k : ℕ) : 0 ≤ av g k := by
  induction k with
  | zero => simp [av]
  | succ k ih =>
    simp only [av]
    have := mul_self_nonneg (g k)
    nlinarith

theorem am_sq (g : ℕ → ℝ) (k : ℕ) : am g k ^ 2 ≤ 10 * ((1 - (30 / 37 : ℝ) ^ k) * (37 / 7)) * av g k := by
  induction k with
  | zero => simp [am, av]
  | succ k ih =>
    have hv := av_nonneg g k
    simp only [am, av]
    have hs : 0 ≤ (1 - (30 / 37 : ℝ) ^ k) * (37 / 7) := by
      have : (30 / 37 : ℝ) ^ k ≤ 1 := pow_le_one₀ (by norm_num) (by norm_num)
      nlinarith
    have hs' : (1 - (30 / 37 : ℝ) ^ (k + 1)) * (37 / 7) = 1 + 30 / 37 * ((1 - (30 / 37 : ℝ) ^ k) * (37 / 7)) := by
      rw [pow_succ]; ring
    rw [hs']
    set S := (1 - (30 / 37 : ℝ) ^ k) * (37 / 7) with hS
    clear_value S
    set v := av g k
    set m := am g k
    clear_value v m
    generalize g k = x
    -- `2 a c ≤ W + q S a²` with `a = x / 10`, `c = 9 m / 10`, `W = 9.99 v`
    have hW : 0 ≤ 9.99 * v := by nlinarith
    have hq : 0 ≤ 30 / 37 * S := by nlinarith
    have hc : (0.9 * m) ^ 2 ≤ 30 / 37 * S * (9.99 * v) := by
      have : (30 / 37 : ℝ) * S * (9.99 * v) = 0.81 * (10 * S * v) := by ring
      rw [this]
      nlinarith
    have h2 : 2 * (0.1 * x) * (0.9 * m) ≤ 9.99 * v + 30 / 37 * S * (0.1 * x) ^ 2 := by
      apply le_of_sq_le_sq'
      · nlinarith [sq_nonneg (9.99 * v - 30 / 37 * S * (0.1 * x) ^ 2), mul_le_mul_of_nonneg_left hc (sq_nonneg (0.1 * x))]
      · positivity
    nlinarith
where
  le_of_sq_le_sq' {a b : ℝ} (h : a ^ 2 ≤ b ^ 2) (hb : 0 ≤ b) : a ≤ b := by
    exact le_of_abs_le (abs_le_of_sq_le_sq h hb)

theorem pow_fact (k : ℕ) : (1 - (30 / 37 : ℝ) ^ k) * (1 - 0.999 ^ k) ≤ (1 - 0.9 ^ k) ^ 2 := by
  have h1 : (30 / 37 : ℝ) ^ k * 0.999 ^ k = 0.9 ^ k * 0.9 ^ k := by
    rw [← mul_pow, ← mul_pow]; norm_num
  have h2 : 0 ≤ (30 / 37 : ℝ) ^ k := by positivity
  have h3 : 0 ≤ (0.999 : ℝ) ^ k := by positivity
  have h4 : 0 ≤ (0.9 : ℝ) ^ k := by positivity
  have h5 : 2 * (0.9 : ℝ) ^ k ≤ (30 / 37) ^ k + 0.999 ^ k := by
    have := sq_nonneg ((30 / 37 : ℝ) ^ k - 0.999 ^ k)
    apply am_sq.le_of_sq_le_sq' _ (by positivity)
    nlinarith
  nlinarith

theorem pow9 (k : ℕ) : 0 < 1 - (0.9 : ℝ) ^ (k + 1) := by
  have : ((0.9:ℝ)) ^ (k + 1) < 1 := pow_lt_one₀ (by norm_num) (by norm_num) (by omega)
  linarith

theorem pow999 (k : ℕ) : 0 < 1 - (0.999 : ℝ) ^ (k + 1) := by
  have : ((0.999:ℝ)) ^ (k + 1) < 1 := pow_lt_one₀ (by norm_num) (by norm_num) (by omega)
  linarith

theorem au_ratio (g : ℕ → ℝ) (k : ℕ) :
    |am g (k + 1) / (1 - 0.9 ^ (k + 1)) / (Real.sqrt (av g (k + 1) / (1 - 0.999 ^ (k + 1))) + 1e-8)| < Real.sqrt (370 / 7) := by
  set A := (1 : ℝ) - 0.9 ^ (k + 1) with hA
  set B := (1 : ℝ) - 0.999 ^ (k + 1) with hB
  have hA0 : 0 < A := pow9 k
  have hB0 : 0 < B := pow999 k
  have hm := am_sq g (k + 1)
  have hv := av_nonneg g (k + 1)
  have hp := pow_fact (k + 1)
  rw [← hA, ← hB] at hp
  set m := am g (k + 1)
  set v := av g (k + 1)
  have h1 : |m / A| ≤ Real.sqrt (370 / 7) * Real.sqrt (v / B) := by
    rw [← Real.sqrt_mul (by norm_num), ← Real.sqrt_sq_eq_abs]
    apply Real.sqrt_le_sqrt
    rw [div_pow, div_le_iff₀ (by positivity)]
    have e : 370 / 7 * (v / B) * A ^ 2 = 370 / 7 * v * (A ^ 2 / B) := by ring
    rw [e]
    have h2 : 1 - (30 / 37 : ℝ) ^ (k + 1) ≤ A ^ 2 / B := by rw [le_div_iff₀ hB0]; exact hp
    calc m ^ 2 ≤ _ := hm
      _ = 370 / 7 * v * (1 - (30 / 37 : ℝ) ^ (k + 1)) := by ring
      _ ≤ _ := mul_le_mul_of_nonneg_left h2 (by positivity)
  have h3 : 0 ≤ Real.sqrt (v / B) := Real.sqrt_nonneg _
  have h4 : 0 < Real.sqrt (v / B) + 1e-8 := by positivity
  rw [abs_div, abs_of_pos h4, div_lt_iff₀ h4]
  have h5 : 0 < Real.sqrt (370 / 7) := Real.sqrt_pos.mpr (by norm_num)
  nlinarith

theorem abs_au (lr : ℝ) (g : ℕ → ℝ) (k : ℕ) : |au lr g k| ≤ |lr| * Real.sqrt (370 / 7) := by
  rw [au, abs_mul, abs_neg]
  exact mul_le_mul_of_nonneg_left (au_ratio g k).le (abs_nonneg _)

theorem abs_au_lt {lr : ℝ} (h : 0 < lr) (g : ℕ → ℝ) (k : ℕ) : |au lr g k| < lr * Real.sqrt (370 / 7) := by
  rw [au, abs_mul, abs_neg, abs_of_pos h]
  exact mul_lt_mul_of_pos_left (au_ratio g k) h

theorem au_first (lr : ℝ) (g : ℕ → ℝ) : au lr g 0 = -lr * (g 0 / (|g 0| + 1e-8)) := by
  simp only [au, am, av, zero_add, pow_one, mul_zero, add_zero]
  have e1 : (1 - 0.9 : ℝ) * g 0 / (1 - 0.9) = g 0 := by rw [mul_comm, mul_div_assoc, div_self (by norm_num), mul_one]
  have e2 : (1 - 0.999 : ℝ) * (g 0 * g 0) / (1 - 0.999) = g 0 ^ 2 := by
    rw [mul_comm, mul_div_assoc, div_self (by norm_num), mul_one]; ring
  rw [e1, e2, Real.sqrt_sq_eq_abs]

/-- One coordinate of the update of Adam. -/
theorem adam_coord (lr : F) (g : List F) (st : (adam lr).State) {i : ℕ} {x m v : F} (hg : g[i]? = some x) (hm : st.1[i]? = some m) (hv : st.2.1[i]? = some v) :
    let m' := F.fin (1 - 0.9) * x + F.fin 0.9 * m
    let v' := F.fin (1 - 0.999) * (x * x) + F.fin 0.999 * v
    let r := (adam lr).update g st
    r.1[i]? = some (-lr * (m' / F.fin (1 - 0.9 ^ (st.2.2 + 1)) / (F.sqrt (v' / F.fin (1 - 0.999 ^ (st.2.2 + 1))) + 1e-8))) ∧
    r.2.1[i]? = some m' ∧ r.2.2.1[i]? = some v' ∧ r.2.2.2 = st.2.2 + 1 := by
  simp [adam, List.getElem?_zipWith, hg, hm, hv]

end DiffeRT2d
