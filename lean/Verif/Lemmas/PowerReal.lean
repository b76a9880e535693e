import Mathlib.Analysis.SpecialFunctions.Pow.Real
import Mathlib.Tactic

/-! Real inequalities for the error of the received power. -/

namespace DiffeRT2d

theorem pow_bounds {u : ℝ} (u0 : 0 ≤ u) (u1 : u ≤ 1 / 8) (m : ℕ) (hm : m * u ≤ 1 / 200) :
    1 - m * u ≤ (1 - u) ^ m ∧ (1 + u) ^ m ≤ 1 + 1.01 * (m * u) := by
  have low : 1 - m * u ≤ (1 - u) ^ m := by
    have := one_add_mul_le_pow (a := -u) (by linarith) m
    have e : 1 + -u = 1 - u := by ring
    rw [e] at this; linarith
  refine ⟨low, ?_⟩
  have h2 : (1 + u) ^ m * (1 - u) ^ m ≤ 1 := by
    rw [← mul_pow]; exact pow_le_one₀ (mul_nonneg (by linarith) (by linarith)) (by nlinarith)
  have m0 : 0 ≤ m * u := by positivity
  have h4 : 0 < (1 + u) ^ m := by positivity
  have h5 : (1 + u) ^ m * (1 - m * u) ≤ 1 := (mul_le_mul_of_nonneg_left low h4.le).trans h2
  have h6 : (1 + 1.01 * (m * u)) * (1 - m * u) ≥ 1 := by nlinarith
  have h7 : 0 < 1 - m * u := by linarith
  by_contra hc
  rw [not_le] at hc
  have := mul_lt_mul_of_pos_right hc h7
  linarith

/-- The squares of the height and of a length known up to errors. -/
theorem denom_real {L M h ρ κ : ℝ} (L0 : 0 ≤ L) (h0 : 0 < h) (ρ0 : 0 ≤ ρ) (ρ1 : ρ ≤ 1 / 1000) (κ0 : 0 ≤ κ) (κ1 : κ ≤ 1 / 10)
    (hM : |M - L| ≤ ρ * L + κ * h) : |(h ^ 2 + M ^ 2) - (h ^ 2 + L ^ 2)| ≤ (2.1 * ρ + 1.2 * κ) * (h ^ 2 + L ^ 2) := by
  have e : (h ^ 2 + M ^ 2) - (h ^ 2 + L ^ 2) = (M - L) * (M - L) + (M - L) * (2 * L) := by ring
  rw [e]
  set t := ρ * L + κ * h with ht
  have t0 : 0 ≤ t := by positivity
  have h1 : |(M - L) * (M - L) + (M - L) * (2 * L)| ≤ t * t + t * (2 * L) := by
    refine (abs_add_le _ _).trans (add_le_add ?_ ?_)
    · rw [abs_mul]; exact mul_le_mul hM hM (abs_nonneg _) t0
    · rw [abs_mul, abs_of_nonneg (by linarith : 0 ≤ 2 * L)]; exact mul_le_mul_of_nonneg_right hM (by linarith)
  refine h1.trans ?_
  have h2 : t * t ≤ 2 * ρ ^ 2 * L ^ 2 + 2 * κ ^ 2 * h ^ 2 := by nlinarith [sq_nonneg (ρ * L - κ * h)]
  have h3 : t * (2 * L) ≤ 2 * ρ * L ^ 2 + κ * (h ^ 2 + L ^ 2) := by nlinarith [mul_nonneg κ0 (sq_nonneg (h - L))]
  have h4 : 2 * ρ ^ 2 * L ^ 2 ≤ 0.1 * ρ * L ^ 2 := by
    refine mul_le_mul_of_nonneg_right ?_ (sq_nonneg _); nlinarith
  have h5 : 2 * κ ^ 2 * h ^ 2 ≤ 0.2 * κ * h ^ 2 := by
    refine mul_le_mul_of_nonneg_right ?_ (sq_nonneg _); nlinarith
  have h6 : 0 ≤ ρ * h ^ 2 := by positivity
  have h7 : 0 ≤ κ * L ^ 2 := by positivity
  nlinarith

/-- The rounded denominator. -/
theorem denom_round {u η S H Q D : ℝ} (u0 : 0 ≤ u) (u1 : u ≤ 1 / 8) (a b : ℝ) (hS : S = a + b)
    (h1 : (1 - u) * a - η ≤ H) (h2 : H ≤ (1 + u) * a + η) (h3 : (1 - u) * b - η ≤ Q) (h4 : Q ≤ (1 + u) * b + η)
    (h5 : (1 - u) * (H + Q) - η ≤ D) (h6 : D ≤ (1 + u) * (H + Q) + η) (hη : η ≤ 1 / 100 * u * S) (S0 : 0 ≤ S) (η0 : 0 ≤ η) :
    |D - S| ≤ 3 * u * S := by
  have k1 : (1 - u) * ((1 - u) * S - 2 * η) - η ≤ D := by
    refine le_trans ?_ h5
    have := mul_le_mul_of_nonneg_left (show (1 - u) * S - 2 * η ≤ H + Q by rw [hS]; linarith) (show 0 ≤ 1 - u by linarith)
    linarith
  have k2 : D ≤ (1 + u) * ((1 + u) * S + 2 * η) + η := by
    refine h6.trans ?_
    have := mul_le_mul_of_nonneg_left (show H + Q ≤ (1 + u) * S + 2 * η by rw [hS]; linarith) (show 0 ≤ 1 + u by linarith)
    linarith
  have m1 : 0 ≤ u * S := mul_nonneg u0 S0
  have m2 : u * (u * S) ≤ 1 / 8 * (u * S) := mul_le_mul_of_nonneg_right u1 m1
  have m3 : u * η ≤ 1 / 8 * η := mul_le_mul_of_nonneg_right u1 η0
  have m4 : 0 ≤ u * η := mul_nonneg u0 η0
  have m5 : 0 ≤ u * (u * S) := mul_nonneg u0 m1
  rw [abs_le]
  constructor <;> nlinarith

theorem denom_both {u D S D' w z : ℝ} (u0 : 0 ≤ u) (D0 : 0 < D) (w0 : 0 ≤ 2.1 * w + 1.2 * z) (w1 : 2.1 * w + 1.2 * z ≤ 0.3)
    (hS : |S - D| ≤ (2.1 * w + 1.2 * z) * D) (hD : |D' - S| ≤ 3 * u * S) : |D' - D| ≤ (2.1 * w + 1.2 * z + 4 * u) * D := by
  have t := abs_sub_le D' S D
  generalize 2.1 * w + 1.2 * z = a at *
  have b1 : S ≤ 1.3 * D := by
    have := (abs_le.mp hS).2
    have : a * D ≤ 0.3 * D := mul_le_mul_of_nonneg_right w1 D0.le
    linarith
  have b2 : 3 * u * S ≤ 3 * u * (1.3 * D) := mul_le_mul_of_nonneg_left b1 (by linarith)
  have b3 : 0 ≤ u * D := mul_nonneg u0 D0.le
  nlinarith

/-- The quotient. -/
theorem quot_real {u η X x D E v a b s : ℝ} (u0 : 0 ≤ u) (u1 : u ≤ 1 / 1000) (X0 : 0 ≤ X) (x0 : 0 ≤ x) (D0 : 0 < D) (a0 : 0 ≤ a) (a1 : a ≤ 0.13) (b0 : 0 ≤ b) (b1 : b ≤ 1 / 1000)
    (s0 : 0 ≤ s) (η0 : 0 ≤ η) (hD : |E - D| ≤ a * D) (hx : |x - X| ≤ b * X + s) (v1 : (1 - u) * (x / E) - η ≤ v) (v2 : v ≤ (1 + u) * (x / E) + η) :
    |v - X / D| ≤ (1.2 * (u + b) + 1.15 * a) * (X / D) + (2 * (s / D) + η) := by
  rw [abs_le] at hD hx
  have E0 : 0 < E := by nlinarith [hD.1]
  set P := X / D with hP
  have P0 : 0 ≤ P := div_nonneg X0 D0.le
  have sD : 0 ≤ s / D := div_nonneg s0 D0.le
  have up : x / E ≤ (1 + 1.15 * a) * ((1 + b) * P + s / D) := by
    rw [div_le_iff₀ E0]
    have h1 : x ≤ ((1 + b) * P + s / D) * D := by
      have : ((1 + b) * P + s / D) * D = (1 + b) * X + s := by rw [hP]; field_simp
      rw [this]; linarith [hx.2]
    refine h1.trans ?_
    have h2 : D ≤ (1 + 1.15 * a) * E := by nlinarith [hD.1, mul_nonneg a0 D0.le]
    have h3 : 0 ≤ (1 + b) * P + s / D := by positivity
    calc ((1 + b) * P + s / D) * D ≤ ((1 + b) * P + s / D) * ((1 + 1.15 * a) * E) := mul_le_mul_of_nonneg_left h2 h3
      _ = _ := by ring
  have low : (1 - a) * ((1 - b) * P) - s / D ≤ x / E := by
    rw [le_div_iff₀ E0]
    have h1 : (1 - b) * X - s ≤ x := by linarith [hx.1]
    by_cases hneg : (1 - a) * ((1 - b) * P) - s / D ≤ 0
    · exact (mul_nonpos_of_nonpos_of_nonneg hneg E0.le).trans x0
    · have h2 : E ≤ (1 + a) * D := by linarith [hD.2]
      have h3 := mul_le_mul_of_nonneg_left h2 (not_le.mp hneg).le
      refine h3.trans (le_trans ?_ h1)
      have e1 : P * D = X := by rw [hP]; field_simp
      have e2 : s / D * D = s := by field_simp
      have e3 : ((1 - a) * ((1 - b) * P) - s / D) * ((1 + a) * D) = (1 - a) * (1 + a) * (1 - b) * (P * D) - (1 + a) * (s / D * D) := by ring
      rw [e3, e1, e2]
      have : (1 - a) * (1 + a) * ((1 - b) * X) ≤ (1 - b) * X := mul_le_of_le_one_left (mul_nonneg (by linarith) X0) (by nlinarith)
      have : 0 ≤ a * s := mul_nonneg a0 s0
      linarith
  have uP : 0 ≤ u * P := by positivity
  have bP : 0 ≤ b * P := by positivity
  have aP : 0 ≤ a * P := by positivity
  have us : 0 ≤ u * (s / D) := by positivity
  have as' : a * (s / D) ≤ 0.13 * (s / D) := mul_le_mul_of_nonneg_right a1 sD
  have us' : u * (s / D) ≤ 1 / 1000 * (s / D) := mul_le_mul_of_nonneg_right u1 sD
  have ab : b * (a * P) ≤ 0.13 * (b * P) := by nlinarith
  have ab0 : 0 ≤ b * (a * P) := by positivity
  rw [abs_le]
  constructor
  · have h := mul_le_mul_of_nonneg_left low (show 0 ≤ 1 - u by linarith)
    have e : (1 - u) * ((1 - a) * ((1 - b) * P) - s / D) = (1 - u) * (P - b * P - a * P + b * (a * P)) - s / D + u * (s / D) := by ring
    rw [e] at h
    have : u * (P - b * P - a * P + b * (a * P)) ≤ u * P := by
      refine mul_le_mul_of_nonneg_left ?_ u0; nlinarith
    have e1 : (1 - u) * (P - b * P - a * P + b * (a * P)) = (P - b * P - a * P + b * (a * P)) - u * (P - b * P - a * P + b * (a * P)) := by ring
    have e2 : (1.2 * (u + b) + 1.15 * a) * P = 1.2 * (u * P) + 1.2 * (b * P) + 1.15 * (a * P) := by ring
    rw [e1] at h
    rw [e2]
    linarith
  · have h := mul_le_mul_of_nonneg_left up (show 0 ≤ 1 + u by linarith)
    set W := (1 + 1.15 * a) * ((1 + b) * P + s / D) with hW
    have W1 : W ≤ P + 1.15 * (a * P) + b * P + 1.15 * (b * (a * P)) + 1.15 * (s / D) := by rw [hW]; nlinarith
    have W2 : W ≤ 1.155 * P + 1.15 * (s / D) := by nlinarith
    have h8 : u * W ≤ 1.155 * (u * P) + 1.15 * (u * (s / D)) := by
      have := mul_le_mul_of_nonneg_left W2 u0
      linarith
    have e1 : (1 + u) * W = W + u * W := by ring
    have e2 : (1.2 * (u + b) + 1.15 * a) * P = 1.2 * (u * P) + 1.2 * (b * P) + 1.15 * (a * P) := by ring
    rw [e1] at h
    rw [e2]
    linarith

/-- One step of the accumulation. -/
theorem acc_step {u η q w P R z t a b : ℝ} (u0 : 0 ≤ u) (u1 : u ≤ 1 / 8) (q0 : 0 ≤ q) (q1 : q ≤ 1) (z0 : 0 ≤ z) (a0 : 0 ≤ a)
    (hw : |w - P| ≤ R * P + z) (η0 : 0 ≤ η) (hη : η ≤ z / 4)
    (t1 : (1 - u) * (q * w) - η ≤ t) (t2 : t ≤ (1 + u) * (q * w) + η) (b1 : (1 - u) * (a + t) - η ≤ b) (b2 : b ≤ (1 + u) * (a + t) + η) :
    (1 - u) * (a + (1 - u) * (1 - R) * (q * P)) - 3 * z ≤ b ∧ b ≤ (1 + u) * (a + (1 + u) * (1 + R) * (q * P) + 3 * z) := by
  rw [abs_le] at hw
  have qz : q * z ≤ z := mul_le_of_le_one_left z0 q1
  have w1 : q * w ≤ (1 + R) * (q * P) + z := by nlinarith [mul_le_mul_of_nonneg_left hw.2 q0]
  have w2 : (1 - R) * (q * P) - z ≤ q * w := by nlinarith [mul_le_mul_of_nonneg_left hw.1 q0]
  have x1 : t ≤ (1 + u) * ((1 + R) * (q * P) + z) + η := by
    have := mul_le_mul_of_nonneg_left w1 (show 0 ≤ 1 + u by linarith); linarith
  have x2 : (1 - u) * ((1 - R) * (q * P) - z) - η ≤ t := by
    have := mul_le_mul_of_nonneg_left w2 (show 0 ≤ 1 - u by linarith); linarith
  have uz : u * z ≤ 1 / 8 * z := mul_le_mul_of_nonneg_right u1 z0
  have uz0 : 0 ≤ u * z := mul_nonneg u0 z0
  constructor
  · have y : (1 - u) * ((1 - u) * ((1 - R) * (q * P)) - z - z / 4) ≤ (1 - u) * t := mul_le_mul_of_nonneg_left (by linarith) (by linarith)
    nlinarith
  · have y : (1 + u) * t ≤ (1 + u) * ((1 + u) * ((1 + R) * (q * P)) + 1.125 * z + z / 4) := mul_le_mul_of_nonneg_left (by linarith) (by linarith)
    have : (1 + u) * ((1 + u) * ((1 + R) * (q * P)) + 1.125 * z + z / 4) + η ≤ (1 + u) * ((1 + u) * ((1 + R) * (q * P)) + 3 * z) := by nlinarith
    nlinarith

theorem acc_low {u R S z k n y a b : ℝ} (u0 : 0 ≤ u) (u1 : u ≤ 1 / 8) (R1 : R ≤ 1) (k0 : 0 ≤ k) (k1 : k ≤ 1) (z0 : 0 ≤ z) (S0 : 0 ≤ S)
    (s : (1 - u) * (a + (1 - u) * (1 - R) * y) - 3 * z ≤ b) {m : ℕ} (hk : k = (1 - u) ^ m) (hn : n = m) :
    (1 - u) ^ (m + 1) * (a + (1 - u) * (1 - R) * (y + S)) - (n + 1) * (3 * z) ≤ (1 - u) ^ m * (b + (1 - u) * (1 - R) * S) - n * (3 * z) := by
  rw [pow_succ, ← hk]
  have h1 := mul_le_mul_of_nonneg_left s k0
  have h2 : k * (3 * z) ≤ 3 * z := mul_le_of_le_one_left (by linarith) k1
  have h3 : 0 ≤ (1 - u) * (1 - R) * S := mul_nonneg (mul_nonneg (by linarith) (by linarith)) S0
  have h4 : (1 - u) * ((1 - u) * (1 - R) * S) ≤ (1 - u) * (1 - R) * S := mul_le_of_le_one_left h3 (by linarith)
  have h5 := mul_le_mul_of_nonneg_left h4 k0
  linarith

theorem acc_up {u R S z n y a b : ℝ} {m : ℕ} (u0 : 0 ≤ u) (R0 : 0 ≤ R) (k0 : 0 ≤ (1 + u) ^ m) (z0 : 0 ≤ z) (S0 : 0 ≤ S) (n0 : 0 ≤ n)
    (s : b ≤ (1 + u) * (a + (1 + u) * (1 + R) * y + 3 * z)) :
    (1 + u) ^ m * (b + (1 + u) * (1 + R) * S + n * (3 * z)) ≤ (1 + u) ^ (m + 1) * (a + (1 + u) * (1 + R) * (y + S) + (n + 1) * (3 * z)) := by
  rw [pow_succ, mul_assoc ((1 + u) ^ m) (1 + u)]
  refine mul_le_mul_of_nonneg_left ?_ k0
  have h3 : 0 ≤ (1 + u) * (1 + R) * S := mul_nonneg (mul_nonneg (by linarith) (by linarith)) S0
  have h4 : (1 + u) * (1 + R) * S ≤ (1 + u) * ((1 + u) * (1 + R) * S) := le_mul_of_one_le_left h3 (by linarith)
  have h5 : n * (3 * z) ≤ (1 + u) * (n * (3 * z)) := le_mul_of_one_le_left (by positivity) (by linarith)
  linarith

/-- The accumulated relative error. -/
theorem acc_final {u R S v z m : ℝ} {k : ℕ} (hm : m = k) (hu : u = 1 / 16777216) (R0 : 0 ≤ R) (R1 : R ≤ 1 / 5) (S0 : 0 ≤ S) (z0 : 0 ≤ z) (hk : m ≤ 80000)
    (l1 : (1 - u) ^ k * ((1 - u) * (1 - R) * S) - m * (3 * z) ≤ v) (l2 : v ≤ (1 + u) ^ k * ((1 + u) * (1 + R) * S + m * (3 * z))) :
    |v - S| ≤ (R + (m + 1) * (8 / 100000000)) * S + m * (4 * z) := by
  have u0 : 0 ≤ u := by rw [hu]; norm_num
  obtain ⟨p1, p2⟩ := pow_bounds (u := u) u0 (by rw [hu]; norm_num) (k + 1) (by rw [hu]; push_cast; rw [← hm]; linarith)
  obtain ⟨q1, q2⟩ := pow_bounds (u := u) u0 (by rw [hu]; norm_num) k (by rw [hu]; rw [← hm]; linarith)
  push_cast at p1 p2
  rw [← hm] at p1 p2 q1 q2
  have m0 : 0 ≤ m := by rw [hm]; exact Nat.cast_nonneg k
  have e1 : (1 - u) ^ k * ((1 - u) * (1 - R) * S) = (1 - u) ^ (k + 1) * ((1 - R) * S) := by rw [pow_succ]; ring
  have e2 : (1 + u) ^ k * ((1 + u) * (1 + R) * S + m * (3 * z)) = (1 + u) ^ (k + 1) * ((1 + R) * S) + (1 + u) ^ k * (m * (3 * z)) := by rw [pow_succ]; ring
  rw [e1] at l1
  rw [e2] at l2
  generalize (1 - u) ^ (k + 1) = a at *
  generalize (1 + u) ^ (k + 1) = a' at *
  generalize (1 + u) ^ k = a'' at *
  have mz : 0 ≤ m * z := mul_nonneg m0 z0
  have mS : 0 ≤ m * S := mul_nonneg m0 S0
  have RS : 0 ≤ R * S := mul_nonneg R0 S0
  have mRS : m * (R * S) ≤ 1 / 5 * (m * S) := by nlinarith
  have mRS0 : 0 ≤ m * (R * S) := mul_nonneg m0 RS
  have RS1 : R * S ≤ 1 / 5 * S := mul_le_mul_of_nonneg_right R1 S0
  have p1' : 1 - (m + 1) * (6 / 100000000) ≤ a := by rw [hu] at p1; linarith
  have p2' : a' ≤ 1 + (m + 1) * (61 / 1000000000) := by rw [hu] at p2; linarith
  have q2' : a'' ≤ 4 / 3 := by rw [hu] at q2; linarith
  rw [abs_le]
  constructor
  · have h := mul_le_mul_of_nonneg_right p1' (show 0 ≤ (1 - R) * S from mul_nonneg (by linarith) S0)
    have e : (1 - (m + 1) * (6 / 100000000)) * ((1 - R) * S) = S - R * S - 6 / 100000000 * (m * S + S - m * (R * S) - R * S) := by ring
    have e' : (R + (m + 1) * (8 / 100000000)) * S = R * S + 8 / 100000000 * (m * S + S) := by ring
    rw [e] at h
    rw [e']
    linarith
  · have h := mul_le_mul_of_nonneg_right p2' (show 0 ≤ (1 + R) * S from mul_nonneg (by linarith) S0)
    have h' := mul_le_mul_of_nonneg_right q2' (show 0 ≤ m * (3 * z) by linarith)
    have e : (1 + (m + 1) * (61 / 1000000000)) * ((1 + R) * S) = S + R * S + 61 / 1000000000 * (m * S + S + m * (R * S) + R * S) := by ring
    have e' : (R + (m + 1) * (8 / 100000000)) * S = R * S + 8 / 100000000 * (m * S + S) := by ring
    rw [e] at h
    rw [e']
    linarith

end DiffeRT2d
