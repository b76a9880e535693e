import Verif.Lemmas.Wall
import Mathlib.Analysis.SpecialFunctions.Sqrt
import Mathlib.Analysis.SpecificLimits.Basic
import Mathlib.Algebra.Order.BigOperators.Ring.Finset
import Mathlib.Topology.Order.MonotoneConvergence
import Mathlib.Topology.Algebra.Order.LiminfLimsup

/-! # Gradient descent on a sum of lengths of vectors that depend on parameters in an affine way -/

namespace DiffeRT2d.SumLengths
open Finset Spec

/-- The difference of the directions of two vectors. -/
noncomputable def turn (u w : Pt) : Pt := ⟨(unit u).x - (unit w).x, (unit u).y - (unit w).y⟩

theorem sq_nn (p : Pt) : 0 ≤ dp p p := add_nonneg (mul_self_nonneg _) (mul_self_nonneg _)

theorem unit_dp_self (u : Pt) : dp (unit u) u = nrm u := by
  by_cases h : u = ⟨0, 0⟩
  · subst h; simp [unit_zero, dp, nrm]
  · have h0 := nrm_pos h
    have h1 := nrm_sq u
    have : len1 u = nrm u := by rw [len1, if_neg h0.ne']
    simp only [dp, unit, this]
    field_simp
    linarith

theorem unit_dp_le (u w : Pt) : dp (unit u) w ≤ nrm w := by
  have h1 := cauchy (unit u) w
  have h2 : nrm (unit u) ≤ 1 := by
    rw [nrm]; exact Real.sqrt_le_one.mpr (unit_sq_le u)
  calc dp (unit u) w ≤ nrm (unit u) * nrm w := h1
    _ ≤ 1 * nrm w := by gcongr; exact nrm_nonneg w
    _ = nrm w := one_mul _

/-- Turning costs length: the directions of two vectors are co-coercive. -/
theorem turn_le (u w : Pt) (hw : 0 < nrm w) : nrm w / 2 * dp (turn u w) (turn u w) ≤ dp (turn u w) (u - w) := by
  have hw0 : w ≠ ⟨0, 0⟩ := by rintro rfl; simp [nrm] at hw
  have ew := unit_dp_self w
  have sw := unit_sq hw0
  have e1 : w = V2.smul (nrm w) (unit w) := by
    have := unit_mul w
    rw [len1, if_neg hw.ne'] at this
    exact this.symm
  by_cases hu : u = ⟨0, 0⟩
  · subst hu
    simp only [dp, turn, unit_zero, V2.sub_x, V2.sub_y] at ew ⊢
    nlinarith
  · have su := unit_sq hu
    have eu := unit_dp_self u
    have hu0 := nrm_pos hu
    have wx := congrArg V2.x e1
    have wy := congrArg V2.y e1
    have ux : u.x = nrm u * (unit u).x := by
      have := unit_mul u
      rw [len1, if_neg hu0.ne'] at this
      exact (congrArg V2.x this).symm
    have uy : u.y = nrm u * (unit u).y := by
      have := unit_mul u
      rw [len1, if_neg hu0.ne'] at this
      exact (congrArg V2.y this).symm
    simp only [V2.smul] at wx wy
    simp only [dp, turn, V2.sub_x, V2.sub_y]
    rw [ux, uy, wx, wy]
    have hs : ((unit u).x - (unit w).x) ^ 2 + ((unit u).y - (unit w).y) ^ 2 = 2 - 2 * ((unit u).x * (unit w).x + (unit u).y * (unit w).y) := by
      linear_combination su + sw
    have key : ((unit u).x - (unit w).x) * (nrm u * (unit u).x - nrm w * (unit w).x) + ((unit u).y - (unit w).y) * (nrm u * (unit u).y - nrm w * (unit w).y)
        = (nrm u + nrm w) / 2 * (((unit u).x - (unit w).x) ^ 2 + ((unit u).y - (unit w).y) ^ 2) := by
      rw [hs]; linear_combination nrm u * su + nrm w * sw
    rw [key]
    nlinarith [mul_nonneg hu0.le (add_nonneg (sq_nonneg ((unit u).x - (unit w).x)) (sq_nonneg ((unit u).y - (unit w).y)))]

variable {N : ℕ} (K : Finset ℕ) (b : ℕ → Fin N → Pt) (u : (Fin N → ℝ) → ℕ → Pt)

/-- The vectors depend on the parameters in an affine way. -/
structure Affine : Prop where
  x : ∀ v w, ∀ k ∈ K, (u v k).x - (u w k).x = ∑ i, (v i - w i) * (b k i).x
  y : ∀ v w, ∀ k ∈ K, (u v k).y - (u w k).y = ∑ i, (v i - w i) * (b k i).y

/-- The gradient of the sum of the lengths. -/
noncomputable def G (v : Fin N → ℝ) (i : Fin N) : ℝ := ∑ k ∈ K, dp (unit (u v k)) (b k i)

/-- How much the directions differ. -/
noncomputable def Q (v w : Fin N → ℝ) : ℝ := ∑ k ∈ K, dp (turn (u v k) (u w k)) (turn (u v k) (u w k))

/-- The squared distance between two parameters. -/
def D (v w : Fin N → ℝ) : ℝ := ∑ i, (v i - w i) ^ 2

/-- The size of the dependence. -/
noncomputable def S : ℝ := ∑ k ∈ K, ∑ i, dp (b k i) (b k i)

/-- The sum of the lengths. -/
noncomputable def L (v : Fin N → ℝ) : ℝ := ∑ k ∈ K, nrm (u v k)

variable {K b u}

theorem Q_nonneg (v w : Fin N → ℝ) : 0 ≤ Q K u v w := Finset.sum_nonneg fun k _ => sq_nn _

theorem S_nonneg : 0 ≤ S K b := Finset.sum_nonneg fun k _ => Finset.sum_nonneg fun i _ => sq_nn _

theorem D_nonneg (v w : Fin N → ℝ) : 0 ≤ D v w := Finset.sum_nonneg fun i _ => sq_nonneg _

/-- The scalar product of the gradient with a displacement. -/
theorem G_dot (h : Affine K b u) (v w x : Fin N → ℝ) : ∑ i, (v i - w i) * G K b u x i = ∑ k ∈ K, dp (unit (u x k)) (u v k - u w k) := by
  simp only [G, Finset.mul_sum]
  rw [Finset.sum_comm]
  refine Finset.sum_congr rfl fun k hk => ?_
  rw [dp, V2.sub_x, V2.sub_y, h.x v w k hk, h.y v w k hk, Finset.mul_sum, Finset.mul_sum, ← Finset.sum_add_distrib]
  refine Finset.sum_congr rfl fun i _ => ?_
  simp only [dp]; ring

/-- The sum of the lengths is convex: first order. -/
theorem L_sub_le (h : Affine K b u) (v w : Fin N → ℝ) : L K u v - L K u w ≤ ∑ i, (v i - w i) * G K b u v i := by
  rw [G_dot h, L, L, ← Finset.sum_sub_distrib]
  refine Finset.sum_le_sum fun k _ => ?_
  have h1 := unit_dp_self (u v k)
  have h2 := unit_dp_le (u v k) (u w k)
  simp only [dp, V2.sub_x, V2.sub_y] at *
  nlinarith

theorem G_sub (v w : Fin N → ℝ) (i : Fin N) : G K b u v i - G K b u w i = ∑ k ∈ K, dp (turn (u v k) (u w k)) (b k i) := by
  rw [G, G, ← Finset.sum_sub_distrib]
  refine Finset.sum_congr rfl fun k _ => ?_
  simp only [dp, turn]; ring

theorem G_sub_sq (v w : Fin N → ℝ) : ∑ i, (G K b u v i - G K b u w i) ^ 2 ≤ S K b * Q K u v w := by
  have h1 : ∀ i, (G K b u v i - G K b u w i) ^ 2 ≤ (∑ k ∈ K, dp (b k i) (b k i)) * Q K u v w := by
    intro i
    rw [G_sub, Q]
    have hc : ∀ k, |dp (turn (u v k) (u w k)) (b k i)| ≤ Real.sqrt (dp (b k i) (b k i)) * Real.sqrt (dp (turn (u v k) (u w k)) (turn (u v k) (u w k))) := by
      intro k
      rw [← Real.sqrt_mul (sq_nn _), ← Real.sqrt_sq_eq_abs]
      apply Real.sqrt_le_sqrt
      simp only [dp]
      nlinarith [sq_nonneg ((turn (u v k) (u w k)).x * (b k i).y - (turn (u v k) (u w k)).y * (b k i).x)]
    have h2 : |∑ k ∈ K, dp (turn (u v k) (u w k)) (b k i)| ≤ ∑ k ∈ K, Real.sqrt (dp (b k i) (b k i)) * Real.sqrt (dp (turn (u v k) (u w k)) (turn (u v k) (u w k))) :=
      (Finset.abs_sum_le_sum_abs _ _).trans (Finset.sum_le_sum fun k _ => hc k)
    have h3 := Finset.sum_mul_sq_le_sq_mul_sq K (fun k => Real.sqrt (dp (b k i) (b k i))) (fun k => Real.sqrt (dp (turn (u v k) (u w k)) (turn (u v k) (u w k))))
    have e1 : ∀ p : Pt, Real.sqrt (dp p p) ^ 2 = dp p p := fun p => Real.sq_sqrt (sq_nn _)
    simp only [e1] at h3
    refine le_trans ?_ h3
    rw [← sq_abs]
    gcongr
  calc ∑ i, (G K b u v i - G K b u w i) ^ 2 ≤ ∑ i, (∑ k ∈ K, dp (b k i) (b k i)) * Q K u v w := Finset.sum_le_sum fun i _ => h1 i
    _ = S K b * Q K u v w := by rw [← Finset.sum_mul, S, Finset.sum_comm]

theorem coercive (h : Affine K b u) {ℓ : ℝ} (v w : Fin N → ℝ) (hw : ∀ k ∈ K, ℓ ≤ nrm (u w k)) (hℓ : 0 < ℓ) :
    ℓ / 2 * Q K u v w ≤ ∑ i, (v i - w i) * (G K b u v i - G K b u w i) := by
  have e : ∑ i, (v i - w i) * (G K b u v i - G K b u w i) = ∑ k ∈ K, dp (turn (u v k) (u w k)) (u v k - u w k) := by
    simp only [mul_sub, Finset.sum_sub_distrib]
    rw [G_dot h v w v, G_dot h v w w, ← Finset.sum_sub_distrib]
    refine Finset.sum_congr rfl fun k _ => ?_
    simp only [dp, turn]; ring
  rw [e, Q, Finset.mul_sum]
  refine Finset.sum_le_sum fun k hk => ?_
  have h1 := hw k hk
  refine le_trans ?_ (turn_le (u v k) (u w k) (hℓ.trans_le h1))
  have : 0 ≤ dp (turn (u v k) (u w k)) (turn (u v k) (u w k)) := sq_nn _
  gcongr

/-- One step of gradient descent gets nearer to a point where the gradient is zero. -/
theorem nearer (h : Affine K b u) {ℓ lr : ℝ} (v w : Fin N → ℝ) (hw : ∀ k ∈ K, ℓ ≤ nrm (u w k)) (hℓ : 0 < ℓ) (hlr : 0 ≤ lr) (h0 : ∀ i, G K b u w i = 0) :
    D (fun i => v i - lr * G K b u v i) w + lr * (ℓ - lr * S K b) * Q K u v w ≤ D v w := by
  have h1 := coercive h v w hw hℓ
  have h2 := G_sub_sq (K := K) (b := b) (u := u) v w
  simp only [h0, sub_zero] at h1 h2
  have e : D (fun i => v i - lr * G K b u v i) w = D v w - 2 * lr * ∑ i, (v i - w i) * G K b u v i + lr ^ 2 * ∑ i, G K b u v i ^ 2 := by
    simp only [D, Finset.mul_sum]
    rw [← Finset.sum_sub_distrib, ← Finset.sum_add_distrib]
    exact Finset.sum_congr rfl fun i _ => by ring
  rw [e]
  nlinarith [mul_le_mul_of_nonneg_left h1 hlr, mul_le_mul_of_nonneg_left h2 (sq_nonneg lr)]

/-- The excess of length, from the turns. -/
theorem excess (h : Affine K b u) (v w : Fin N → ℝ) (h0 : ∀ i, G K b u w i = 0) : L K u v - L K u w ≤ Real.sqrt (S K b * Q K u v w * D v w) := by
  have h2 := G_sub_sq (K := K) (b := b) (u := u) v w
  simp only [h0, sub_zero] at h2
  refine (L_sub_le h v w).trans (Real.le_sqrt_of_sq_le ?_)
  refine (Finset.sum_mul_sq_le_sq_mul_sq Finset.univ (fun i => v i - w i) (fun i => G K b u v i)).trans ?_
  rw [mul_comm (S K b * Q K u v w)]
  exact mul_le_mul_of_nonneg_left h2 (D_nonneg v w)

/-- Gradient descent brings the length to its minimum. -/
theorem descent (h : Affine K b u) {ℓ lr : ℝ} (w : Fin N → ℝ) (hw : ∀ k ∈ K, ℓ ≤ nrm (u w k)) (hℓ : 0 < ℓ) (hlr : 0 < lr) (hS : lr * S K b < ℓ)
    (h0 : ∀ i, G K b u w i = 0) (x : ℕ → Fin N → ℝ) (hx : ∀ n, x (n + 1) = fun i => x n i - lr * G K b u (x n) i) :
    Antitone (fun n => D (x n) w) ∧ ∀ tol : ℝ, 0 < tol → ∃ n0, ∀ n ≥ n0, L K u (x n) < L K u w + tol := by
  have hstep : ∀ n, D (x (n + 1)) w + lr * (ℓ - lr * S K b) * Q K u (x n) w ≤ D (x n) w := fun n => by
    rw [hx]; exact nearer h (x n) w hw hℓ hlr.le h0
  have hc : 0 < lr * (ℓ - lr * S K b) := mul_pos hlr (by linarith)
  have hanti : Antitone (fun n => D (x n) w) := antitone_nat_of_succ_le fun n => by
    have := hstep n
    nlinarith [mul_nonneg hc.le (Q_nonneg (K := K) (u := u) (x n) w)]
  refine ⟨hanti, fun tol htol => ?_⟩
  have hlim := tendsto_atTop_ciInf hanti ⟨0, by rintro _ ⟨n, rfl⟩; exact D_nonneg _ _⟩
  have hdiff : Filter.Tendsto (fun n => (D (x n) w - D (x (n + 1)) w) / (lr * (ℓ - lr * S K b)) * (S K b * D (x 0) w)) Filter.atTop (nhds 0) := by
    have h1 := (hlim.sub (hlim.comp (Filter.tendsto_add_atTop_nat 1))).div_const (lr * (ℓ - lr * S K b))
    have h2 := h1.mul_const (S K b * D (x 0) w)
    simpa using h2
  obtain ⟨n0, hn0⟩ := Filter.eventually_atTop.mp (hdiff.eventually_lt_const (sq_pos_of_pos htol))
  refine ⟨n0, fun n hn => ?_⟩
  have h1 := excess h (x n) w h0
  have h2 : Real.sqrt (S K b * Q K u (x n) w * D (x n) w) < tol := by
    rw [Real.sqrt_lt' htol]
    refine lt_of_le_of_lt ?_ (hn0 n hn)
    have hQ : Q K u (x n) w ≤ (D (x n) w - D (x (n + 1)) w) / (lr * (ℓ - lr * S K b)) := by
      rw [le_div_iff₀ hc]
      have := hstep n
      linarith
    have hD : D (x n) w ≤ D (x 0) w := hanti (Nat.zero_le n)
    have q0 := Q_nonneg (K := K) (u := u) (x n) w
    have s0 := S_nonneg (K := K) (b := b)
    have d0 := D_nonneg (x n) w
    calc S K b * Q K u (x n) w * D (x n) w = Q K u (x n) w * (S K b * D (x n) w) := by ring
      _ ≤ (D (x n) w - D (x (n + 1)) w) / (lr * (ℓ - lr * S K b)) * (S K b * D (x 0) w) := by gcongr; exact q0.trans hQ
  linarith

/-- How fast: among the first `T` points, one is nearly the shortest. -/
theorem rate (h : Affine K b u) {ℓ lr S' : ℝ} (w : Fin N → ℝ) (hw : ∀ k ∈ K, ℓ ≤ nrm (u w k)) (hℓ : 0 < ℓ) (hlr : 0 < lr) (hS' : S K b ≤ S') (hS : lr * S' < ℓ)
    (h0 : ∀ i, G K b u w i = 0) (x : ℕ → Fin N → ℝ) (hx : ∀ n, x (n + 1) = fun i => x n i - lr * G K b u (x n) i) (T : ℕ) (hT : 1 ≤ T) :
    ∃ n < T, L K u (x n) - L K u w ≤ D (x 0) w * Real.sqrt (S' / (lr * (ℓ - lr * S') * T)) := by
  have s0 := S_nonneg (K := K) (b := b)
  have hc : 0 < lr * (ℓ - lr * S') := mul_pos hlr (by linarith)
  have hT0 : (0 : ℝ) < T := by exact_mod_cast hT
  have hstep : ∀ n, D (x (n + 1)) w + lr * (ℓ - lr * S') * Q K u (x n) w ≤ D (x n) w := fun n => by
    have h1 := nearer h (x n) w hw hℓ hlr.le h0
    rw [← hx] at h1
    have : lr * (ℓ - lr * S') ≤ lr * (ℓ - lr * S K b) := by gcongr
    nlinarith [mul_le_mul_of_nonneg_right this (Q_nonneg (K := K) (u := u) (x n) w)]
  have hanti : Antitone (fun n => D (x n) w) := antitone_nat_of_succ_le fun n => by
    have := hstep n
    nlinarith [mul_nonneg hc.le (Q_nonneg (K := K) (u := u) (x n) w)]
  have hsum : ∀ T : ℕ, D (x T) w + lr * (ℓ - lr * S') * ∑ n ∈ Finset.range T, Q K u (x n) w ≤ D (x 0) w := by
    intro T
    induction T with
    | zero => simp
    | succ T ih =>
      rw [Finset.sum_range_succ]
      have := hstep T
      linarith
  obtain ⟨n, hn, hq⟩ : ∃ n ∈ Finset.range T, Q K u (x n) w ≤ D (x 0) w / (lr * (ℓ - lr * S') * T) := by
    by_contra hcon
    push Not at hcon
    have h1 : ∑ n ∈ Finset.range T, D (x 0) w / (lr * (ℓ - lr * S') * T) < ∑ n ∈ Finset.range T, Q K u (x n) w :=
      Finset.sum_lt_sum_of_nonempty ⟨0, Finset.mem_range.mpr hT⟩ hcon
    rw [Finset.sum_const, Finset.card_range, nsmul_eq_mul] at h1
    have e : (T : ℝ) * (D (x 0) w / (lr * (ℓ - lr * S') * T)) = D (x 0) w / (lr * (ℓ - lr * S')) := by field_simp
    rw [e, div_lt_iff₀ hc] at h1
    have := hsum T
    have := D_nonneg (x T) w
    linarith
  refine ⟨n, Finset.mem_range.mp hn, (excess h (x n) w h0).trans ?_⟩
  have d0 := D_nonneg (x 0) w
  have q0 := Q_nonneg (K := K) (u := u) (x n) w
  have dn := D_nonneg (x n) w
  have hD : D (x n) w ≤ D (x 0) w := hanti (Nat.zero_le n)
  rw [show D (x 0) w * Real.sqrt (S' / (lr * (ℓ - lr * S') * T)) = Real.sqrt (D (x 0) w ^ 2 * (S' / (lr * (ℓ - lr * S') * T))) by
    rw [Real.sqrt_mul (sq_nonneg _), Real.sqrt_sq d0]]
  apply Real.sqrt_le_sqrt
  calc S K b * Q K u (x n) w * D (x n) w ≤ S' * (D (x 0) w / (lr * (ℓ - lr * S') * T)) * D (x 0) w := by
        have : 0 ≤ S' := s0.trans hS'
        gcongr
    _ = D (x 0) w ^ 2 * (S' / (lr * (ℓ - lr * S') * T)) := by ring

theorem single_le {k : ℕ} (hk : k ∈ K) : ∑ i, dp (b k i) (b k i) ≤ S K b :=
  Finset.single_le_sum (f := fun k => ∑ i, dp (b k i) (b k i)) (fun k _ => Finset.sum_nonneg fun i _ => sq_nn _) hk

/-- A vector does not change much. -/
theorem move_le (h : Affine K b u) (v w : Fin N → ℝ) {k : ℕ} (hk : k ∈ K) : dp (u v k - u w k) (u v k - u w k) ≤ S K b * D v w := by
  have h1 := Finset.sum_mul_sq_le_sq_mul_sq Finset.univ (fun i => v i - w i) (fun i => (b k i).x)
  have h2 := Finset.sum_mul_sq_le_sq_mul_sq Finset.univ (fun i => v i - w i) (fun i => (b k i).y)
  have e : ∑ i, dp (b k i) (b k i) = ∑ i, (b k i).x ^ 2 + ∑ i, (b k i).y ^ 2 := by
    rw [← Finset.sum_add_distrib]; exact Finset.sum_congr rfl fun i _ => by simp only [dp]; ring
  have h3 := mul_le_mul_of_nonneg_right (single_le (K := K) (b := b) hk) (D_nonneg v w)
  rw [e] at h3
  rw [dp, V2.sub_x, V2.sub_y, h.x v w k hk, h.y v w k hk]
  change (∑ i, (v i - w i) * (b k i).x) ^ 2 ≤ D v w * _ at h1
  change (∑ i, (v i - w i) * (b k i).y) ^ 2 ≤ D v w * _ at h2
  nlinarith

theorem L_continuous (h : Affine K b u) : Continuous (L K u) := by
  have e : L K u = fun v => ∑ k ∈ K, nrm ⟨(u 0 k).x + ∑ i, (v i - 0) * (b k i).x, (u 0 k).y + ∑ i, (v i - 0) * (b k i).y⟩ := by
    funext v
    refine Finset.sum_congr rfl fun k hk => ?_
    congr 1
    have h1 := h.x v 0 k hk
    have h2 := h.y v 0 k hk
    ext
    · simp only [Pi.zero_apply] at h1 ⊢; linarith
    · simp only [Pi.zero_apply] at h2 ⊢; linarith
  rw [e]
  unfold nrm
  fun_prop

theorem D_continuous (w : Fin N → ℝ) : Continuous fun v => D v w := by unfold D; fun_prop

theorem entry_le (v w : Fin N → ℝ) (i : Fin N) : (v i - w i) ^ 2 ≤ D v w :=
  Finset.single_le_sum (f := fun i => (v i - w i) ^ 2) (fun i _ => sq_nonneg _) (Finset.mem_univ i)

/-- If the minimum is unique, what brings the length to its minimum without going away converges to it. -/
theorem to_minimum (h : Affine K b u) (w : Fin N → ℝ) (huniq : ∀ v, (∀ v', L K u v ≤ L K u v') → v = w) (x : ℕ → Fin N → ℝ)
    (hanti : Antitone fun n => D (x n) w) (hmin : ∀ v, L K u w ≤ L K u v) (hL : ∀ tol : ℝ, 0 < tol → ∃ n0, ∀ n ≥ n0, L K u (x n) < L K u w + tol) :
    Filter.Tendsto x Filter.atTop (nhds w) := by
  have key : ∀ tol : ℝ, 0 < tol → ∃ n0, ∀ n ≥ n0, D (x n) w < tol := by
    intro tol htol
    set T : Set (Fin N → ℝ) := {v | D v w ≤ D (x 0) w ∧ tol ≤ D v w} with hT
    have hclosed : IsClosed T := (isClosed_le (D_continuous w) continuous_const).inter (isClosed_le continuous_const (D_continuous w))
    have hbdd : Bornology.IsBounded T := by
      refine (Metric.isBounded_closedBall (x := w) (r := Real.sqrt (D (x 0) w))).subset fun v hv => ?_
      rw [Metric.mem_closedBall, dist_pi_le_iff (Real.sqrt_nonneg _)]
      intro i
      rw [Real.dist_eq]
      exact Real.abs_le_sqrt ((entry_le v w i).trans hv.1)
    have hcomp : IsCompact T := Metric.isCompact_of_isClosed_isBounded hclosed hbdd
    rcases T.eq_empty_or_nonempty with he | hne
    · refine ⟨0, fun n _ => ?_⟩
      by_contra hcon
      have : x n ∈ T := ⟨hanti (Nat.zero_le n), not_lt.mp hcon⟩
      rw [he] at this
      exact this
    · obtain ⟨v, hv, hvmin⟩ := hcomp.exists_isMinOn hne (L_continuous h).continuousOn
      have hgt : L K u w < L K u v := by
        by_contra hcon
        have := huniq v fun v' => (not_lt.mp hcon).trans (hmin v')
        subst this
        have h2 := hv.2
        simp [D] at h2
        linarith
      obtain ⟨n0, hn0⟩ := hL (L K u v - L K u w) (by linarith)
      refine ⟨n0, fun n hn => ?_⟩
      by_contra hcon
      have hm : x n ∈ T := ⟨hanti (Nat.zero_le n), not_lt.mp hcon⟩
      have h1 : L K u v ≤ L K u (x n) := hvmin hm
      have h2 := hn0 n hn
      linarith
  rw [tendsto_pi_nhds]
  intro i
  rw [Metric.tendsto_atTop]
  intro ε hε
  obtain ⟨n0, hn0⟩ := key (ε ^ 2) (by positivity)
  refine ⟨n0, fun n hn => ?_⟩
  rw [Real.dist_eq]
  exact abs_lt_of_sq_lt_sq ((entry_le _ _ i).trans_lt (hn0 n hn)) hε.le

end DiffeRT2d.SumLengths
