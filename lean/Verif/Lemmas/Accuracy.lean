import Verif.Spec.Accuracy
import Verif.Lemmas.RoundedPower
import Verif.Lemmas.PrecisionFormats

/-! Rounding errors in `path_length`. -/

namespace DiffeRT2d
open Classical Spec

theorem ieee_accurate {p : ℕ} {emin emax : ℤ} (hp : 3 ≤ p) (he : emin ≤ 0) : Accurate (ieee p emin emax) (2 ^ (-(p : ℤ))) (2 ^ (emin - p)) := by
  have h8 : (2 : ℝ) ^ (-(p : ℤ)) ≤ 1 / 8 := by
    have : (2 : ℝ) ^ (-(p : ℤ)) ≤ 2 ^ (-3 : ℤ) := zpow_le_zpow_right₀ (by norm_num) (by omega)
    refine this.trans (by norm_num [zpow_neg])
  refine ⟨?_, ⟨(two_zpow_pos _).le, h8⟩, (two_zpow_pos _).le, ?_⟩
  · intro x r h
    have hr : r = nearest p emin x := by
      simp only [ieee] at h
      split_ifs at h
      exact (F.fin.inj h).symm
    subst hr
    refine (nearest_error p emin x).trans ?_
    rw [sub_eq_add_neg, zpow_add₀ (by norm_num), mul_comm ((2 : ℝ) ^ (-(p : ℤ))), ← add_mul]
    exact mul_le_mul_of_nonneg_right (max_le (by have := two_zpow_pos emin; linarith) (by have := abs_nonneg x; linarith)) (two_zpow_pos _).le
  · have : (2 : ℝ) ^ (emin - p) ≤ 2 ^ (0 : ℤ) := zpow_le_zpow_right₀ (by norm_num) (by omega)
    simpa using this

variable {A : FloatOps} {u η : ℝ}

/-- The computed value of a non-negative number. -/
theorem Spec.Accurate.nonneg (h : Accurate A u η) {x r : ℝ} (hx : 0 ≤ x) (e : A.rnd x = F.fin r) : (1 - u) * x - η ≤ r ∧ r ≤ (1 + u) * x + η := by
  have := h.error x r e
  rw [abs_of_nonneg hx, abs_le] at this
  constructor <;> nlinarith [this.1, this.2]
theorem Spec.Accurate.abs' (h : Accurate A u η) {x r : ℝ} (e : A.rnd x = F.fin r) : (1 - u) * |x| - η ≤ |r| ∧ |r| ≤ (1 + u) * |x| + η := by
  have := h.error x r e
  have h1 := abs_abs_sub_abs_le r x
  rw [abs_le] at h1
  constructor <;> nlinarith [h1.1, h1.2]

/-- A coordinate of the guarded difference, squared: it overflows, or is close to that of the difference. -/
theorem coord_error (hA : FloatContract A) (h : Accurate A u η) {ε : ℝ} (hε : 0 ≤ ε) (a b : ℝ) :
    A.mul (A.add (A.sub (F.fin b) (F.fin a)) (F.fin ε)) (A.add (A.sub (F.fin b) (F.fin a)) (F.fin ε)) = F.pinf ∨
    ∃ c s : ℝ, A.mul (A.add (A.sub (F.fin b) (F.fin a)) (F.fin ε)) (A.add (A.sub (F.fin b) (F.fin a)) (F.fin ε)) = F.fin s ∧ 0 ≤ s ∧
      |c| ≤ (1 + u) ^ 2 * |b - a| + ((1 + u) * ε + (2 + u) * η) ∧ (1 - u) ^ 2 * |b - a| ≤ |c| + (ε + 2 * η) ∧
      (1 - u) * c ^ 2 - η ≤ s ∧ s ≤ (1 + u) * c ^ 2 + η := by
  obtain ⟨u0, u1⟩ := h.unit
  obtain ⟨e0, e1⟩ := h.under
  have e : A.sub (F.fin b) (F.fin a) = A.rnd (b - a) := by rw [FloatOps.sub, F.fin_sub]; rfl
  rw [e]
  cases e1 : A.rnd (b - a) with
  | nan => exact absurd e1 (hA.number _)
  | pinf => left; rfl
  | ninf => left; rfl
  | fin d =>
    have e' : A.add (F.fin d) (F.fin ε) = A.rnd (d + ε) := rfl
    rw [e']
    cases e2 : A.rnd (d + ε) with
    | nan => exact absurd e2 (hA.number _)
    | pinf => left; rfl
    | ninf => left; rfl
    | fin c =>
      have h0 : Le (F.fin 0) (A.mul (F.fin c) (F.fin c)) := Props.sq_nonneg' hA (by simp)
      rcases nonneg_cases h0 with ⟨s, e3, s0⟩ | e3
      · right
        obtain ⟨p1, p2⟩ := h.abs' e1
        obtain ⟨q1, q2⟩ := h.abs' e2
        have e4 : A.rnd (c * c) = F.fin s := e3
        obtain ⟨r1, r2⟩ := h.nonneg (mul_self_nonneg c) e4
        have t1 : |d + ε| ≤ |d| + ε := by have := abs_add_le d ε; rwa [abs_of_nonneg hε] at this
        have t2 : |d| - ε ≤ |d + ε| := by
          have := abs_sub_abs_le_abs_sub d (-ε)
          rwa [abs_neg, abs_of_nonneg hε, sub_neg_eq_add] at this
        have n1 := abs_nonneg (b - a)
        refine ⟨c, s, e3, s0, ?_, ?_, by rw [pow_two]; exact r1, by rw [pow_two]; exact r2⟩
        · calc |c| ≤ (1 + u) * |d + ε| + η := q2
            _ ≤ (1 + u) * (((1 + u) * |b - a| + η) + ε) + η := by nlinarith
            _ = _ := by ring
        · have : (1 - u) * ((1 - u) * |b - a| - η - ε) ≤ |c| + η := by nlinarith
          nlinarith [mul_nonneg u0 hε, mul_nonneg u0 e0]
      · exact .inl e3

theorem norm_le_add {a b c d k t : ℝ} (hk : 0 ≤ k) (ht : 0 ≤ t) (h1 : |a| ≤ k * |c| + t) (h2 : |b| ≤ k * |d| + t) :
    Real.sqrt (a ^ 2 + b ^ 2) ≤ k * Real.sqrt (c ^ 2 + d ^ 2) + 2 * t := by
  have hs := Real.sqrt_nonneg (c ^ 2 + d ^ 2)
  have hq : Real.sqrt (c ^ 2 + d ^ 2) ^ 2 = c ^ 2 + d ^ 2 := Real.sq_sqrt (by positivity)
  have m1 : |c| ≤ Real.sqrt (c ^ 2 + d ^ 2) := Real.abs_le_sqrt (by nlinarith [sq_nonneg d])
  have m2 : |d| ≤ Real.sqrt (c ^ 2 + d ^ 2) := Real.abs_le_sqrt (by nlinarith [sq_nonneg c])
  rw [Real.sqrt_le_left (by positivity)]
  have a2 : a ^ 2 ≤ (k * |c| + t) ^ 2 := by rw [← sq_abs a]; exact pow_le_pow_left₀ (abs_nonneg a) h1 2
  have b2 : b ^ 2 ≤ (k * |d| + t) ^ 2 := by rw [← sq_abs b]; exact pow_le_pow_left₀ (abs_nonneg b) h2 2
  have c2 := sq_abs c; have d2 := sq_abs d
  have := mul_nonneg (mul_nonneg hk ht) hs
  have x1 : k * t * |c| ≤ k * t * Real.sqrt (c ^ 2 + d ^ 2) := mul_le_mul_of_nonneg_left m1 (mul_nonneg hk ht)
  have x2 : k * t * |d| ≤ k * t * Real.sqrt (c ^ 2 + d ^ 2) := mul_le_mul_of_nonneg_left m2 (mul_nonneg hk ht)
  have e1 : (k * |c| + t) ^ 2 + (k * |d| + t) ^ 2 = k ^ 2 * (c ^ 2 + d ^ 2) + 2 * (k * t * |c|) + 2 * (k * t * |d|) + 2 * t ^ 2 := by
    rw [← c2, ← d2]; ring
  have e2 : (k * Real.sqrt (c ^ 2 + d ^ 2) + 2 * t) ^ 2 = k ^ 2 * (c ^ 2 + d ^ 2) + 4 * (k * t * Real.sqrt (c ^ 2 + d ^ 2)) + 4 * t ^ 2 := by
    rw [← hq]; ring_nf; rw [Real.sqrt_sq hs]
  nlinarith [sq_nonneg t]

theorem sqrt_le_add {s a t : ℝ} (ha : 0 ≤ a) (ht : 0 ≤ t) (h : s ≤ a ^ 2 + t) : Real.sqrt s ≤ a + Real.sqrt t := by
  rw [Real.sqrt_le_left (by positivity)]
  nlinarith [Real.sq_sqrt ht, Real.sqrt_nonneg t, mul_nonneg ha (Real.sqrt_nonneg t)]

/-- The sum of two rounded squares. -/
theorem squares_real {u η c d sx sy s B : ℝ} (u0 : 0 ≤ u) (u1 : u ≤ 1 / 8) (e0 : 0 ≤ η) (B2 : B ^ 2 = c ^ 2 + d ^ 2)
    (cx3 : (1 - u) * c ^ 2 - η ≤ sx) (cx4 : sx ≤ (1 + u) * c ^ 2 + η) (dx3 : (1 - u) * d ^ 2 - η ≤ sy) (dx4 : sy ≤ (1 + u) * d ^ 2 + η)
    (w1 : (1 - u) * (sx + sy) - η ≤ s) (w2 : s ≤ (1 + u) * (sx + sy) + η) : s ≤ ((1 + u) * B) ^ 2 + 5 * η ∧ ((1 - u) * B) ^ 2 ≤ s + 3 * η := by
  have ue := mul_nonneg u0 e0
  constructor
  · have h1 : (1 + u) * (sx + sy) ≤ (1 + u) * ((1 + u) * (c ^ 2 + d ^ 2) + 2 * η) := mul_le_mul_of_nonneg_left (by linarith) (by linarith)
    have h2 : (1 + u) * ((1 + u) * (c ^ 2 + d ^ 2) + 2 * η) = ((1 + u) * B) ^ 2 + 2 * η + 2 * (u * η) := by rw [← B2]; ring
    have h3 : u * η ≤ 1 / 8 * η := mul_le_mul_of_nonneg_right u1 e0
    linarith
  · have h1 : (1 - u) * ((1 - u) * (c ^ 2 + d ^ 2) - 2 * η) ≤ (1 - u) * (sx + sy) := mul_le_mul_of_nonneg_left (by linarith) (by linarith)
    have h2 : (1 - u) * ((1 - u) * (c ^ 2 + d ^ 2) - 2 * η) = ((1 - u) * B) ^ 2 - 2 * η + 2 * (u * η) := by rw [← B2]; ring
    linarith

/-- The real arithmetic of `step_error`. -/
theorem step_real {u ε η r D B S m : ℝ} (u0 : 0 ≤ u) (u1 : u ≤ 1 / 8) (hε : 0 ≤ ε) (e0 : 0 ≤ η) (r0 : 0 ≤ r) (ηr : η ≤ r) (m1 : (1 - u) * S - η ≤ m) (m2 : m ≤ (1 + u) * S + η)
    (b1 : B ≤ (1 + u) ^ 2 * D + 2 * ((1 + u) * ε + (2 + u) * η)) (b2 : (1 - u) ^ 2 * D ≤ B + 2 * (ε + 2 * η))
    (s1 : S ≤ (1 + u) * B + 9 / 4 * r) (s2 : (1 - u) * B ≤ S + 2 * r) :
    (1 - u) ^ 4 * D - (3 * ε + 10 * r) ≤ m ∧ m ≤ (1 + u) ^ 4 * D + (3 * ε + 10 * r) := by
  have hu2 : (1 + u) ^ 2 ≤ 81 / 64 := by nlinarith
  constructor
  · have t1 : (1 - u) ^ 2 * B - (1 - u) * (2 * r) ≤ (1 - u) * S := by
      have : (1 - u) * ((1 - u) * B - 2 * r) ≤ (1 - u) * S := mul_le_mul_of_nonneg_left (by linarith) (by linarith)
      linarith [show (1 - u) * ((1 - u) * B - 2 * r) = (1 - u) ^ 2 * B - (1 - u) * (2 * r) by ring]
    have t2 : (1 - u) ^ 4 * D ≤ (1 - u) ^ 2 * B + (1 - u) ^ 2 * (2 * (ε + 2 * η)) := by
      have : (1 - u) ^ 2 * ((1 - u) ^ 2 * D) ≤ (1 - u) ^ 2 * (B + 2 * (ε + 2 * η)) := mul_le_mul_of_nonneg_left b2 (by positivity)
      linarith [show (1 - u) ^ 2 * ((1 - u) ^ 2 * D) = (1 - u) ^ 4 * D by ring, mul_add ((1 - u) ^ 2) B (2 * (ε + 2 * η))]
    have t3 : (1 - u) ^ 2 ≤ 1 := by nlinarith
    have t4 : (1 - u) ^ 2 * (2 * (ε + 2 * η)) ≤ 1 * (2 * (ε + 2 * η)) := mul_le_mul_of_nonneg_right t3 (by positivity)
    have t5 : (1 - u) * (2 * r) ≤ 1 * (2 * r) := mul_le_mul_of_nonneg_right (by linarith) (by positivity)
    linarith
  · have t1 : (1 + u) * S ≤ (1 + u) ^ 2 * B + (1 + u) * (9 / 4 * r) := by
      have : (1 + u) * S ≤ (1 + u) * ((1 + u) * B + 9 / 4 * r) := mul_le_mul_of_nonneg_left s1 (by linarith)
      linarith [show (1 + u) * ((1 + u) * B + 9 / 4 * r) = (1 + u) ^ 2 * B + (1 + u) * (9 / 4 * r) by ring]
    have t2 : (1 + u) ^ 2 * B ≤ (1 + u) ^ 4 * D + (1 + u) ^ 2 * (2 * ((1 + u) * ε + (2 + u) * η)) := by
      have : (1 + u) ^ 2 * B ≤ (1 + u) ^ 2 * ((1 + u) ^ 2 * D + 2 * ((1 + u) * ε + (2 + u) * η)) := mul_le_mul_of_nonneg_left b1 (by positivity)
      linarith [show (1 + u) ^ 2 * ((1 + u) ^ 2 * D + 2 * ((1 + u) * ε + (2 + u) * η)) = (1 + u) ^ 4 * D + (1 + u) ^ 2 * (2 * ((1 + u) * ε + (2 + u) * η)) by ring]
    have t3 : (1 + u) * ε + (2 + u) * η ≤ 9 / 8 * ε + 17 / 8 * η := by nlinarith [mul_nonneg (sub_nonneg.mpr u1) hε, mul_nonneg (sub_nonneg.mpr u1) e0]
    have t4 : (1 + u) ^ 2 * (2 * ((1 + u) * ε + (2 + u) * η)) ≤ 81 / 64 * (2 * (9 / 8 * ε + 17 / 8 * η)) :=
      mul_le_mul hu2 (by linarith) (by positivity) (by norm_num)
    have t5 : (1 + u) * (9 / 4 * r) ≤ 9 / 8 * (9 / 4 * r) := mul_le_mul_of_nonneg_right (by linarith) (by positivity)
    linarith

/-- One step of `path_length`. -/
theorem step_error (hA : FloatContract A) (h : Accurate A u η) {ε : ℝ} (hε : 0 ≤ ε) (p q : Pt) :
    A.vnorm (A.vadd (A.vsub (V2.fin q) (V2.fin p)) ⟨F.fin ε, F.fin ε⟩) = F.pinf ∨
    ∃ m : ℝ, A.vnorm (A.vadd (A.vsub (V2.fin q) (V2.fin p)) ⟨F.fin ε, F.fin ε⟩) = F.fin m ∧ 0 ≤ m ∧
      (1 - u) ^ 4 * eucl p q - (3 * ε + 10 * Real.sqrt η) ≤ m ∧ m ≤ (1 + u) ^ 4 * eucl p q + (3 * ε + 10 * Real.sqrt η) := by
  obtain ⟨u0, u1⟩ := h.unit
  obtain ⟨e0, e1⟩ := h.under
  have hroot : ∀ x : F, Le (F.fin 0) x → A.sqrt x = F.pinf ∨ ∃ s m : ℝ, x = F.fin s ∧ 0 ≤ s ∧ A.sqrt x = F.fin m ∧ 0 ≤ m ∧
      (1 - u) * Real.sqrt s - η ≤ m ∧ m ≤ (1 + u) * Real.sqrt s + η := by
    intro x hx
    have h0 := Props.sqrt_nonneg' hA hx
    rcases nonneg_cases h0 with ⟨m, em, m0⟩ | em
    · right
      rcases nonneg_cases hx with ⟨s, rfl, s0⟩ | rfl
      · have e : A.sqrt (F.fin s) = A.rnd (Real.sqrt s) := by rw [FloatOps.sqrt, F.sqrt, if_neg s0.not_gt]; rfl
        obtain ⟨r1, r2⟩ := h.nonneg (Real.sqrt_nonneg s) (e.symm.trans em)
        exact ⟨s, m, rfl, s0, em, m0, r1, r2⟩
      · exact absurd em (by rw [show A.sqrt F.pinf = F.pinf from rfl]; simp)
    · exact .inl em
  have inf_add : ∀ x : F, Le (F.fin 0) x → A.add F.pinf x = F.pinf ∧ A.add x F.pinf = F.pinf := by
    intro x hx
    rcases nonneg_cases hx with ⟨s, rfl, s0⟩ | rfl <;> exact ⟨rfl, rfl⟩
  have hsq : ∀ a b : ℝ, Le (F.fin 0) (A.mul (A.add (A.sub (F.fin b) (F.fin a)) (F.fin ε)) (A.add (A.sub (F.fin b) (F.fin a)) (F.fin ε))) := fun a b =>
    Props.sq_nonneg' hA (Props.radd_ne_nan hA (Props.rsub_ne_nan hA ⟨_, rfl⟩ ⟨_, rfl⟩) ⟨_, rfl⟩)
  have hx := coord_error hA h hε p.x q.x
  have hy := coord_error hA h hε p.y q.y
  have gx := hsq p.x q.x
  have gy := hsq p.y q.y
  show A.sqrt (A.add _ _) = _ ∨ ∃ m, A.sqrt (A.add _ _) = _ ∧ _
  change A.sqrt (A.add (A.mul (A.add (A.sub (F.fin q.x) (F.fin p.x)) (F.fin ε)) (A.add (A.sub (F.fin q.x) (F.fin p.x)) (F.fin ε)))
    (A.mul (A.add (A.sub (F.fin q.y) (F.fin p.y)) (F.fin ε)) (A.add (A.sub (F.fin q.y) (F.fin p.y)) (F.fin ε)))) = _ ∨
    ∃ m, A.sqrt (A.add (A.mul (A.add (A.sub (F.fin q.x) (F.fin p.x)) (F.fin ε)) (A.add (A.sub (F.fin q.x) (F.fin p.x)) (F.fin ε)))
    (A.mul (A.add (A.sub (F.fin q.y) (F.fin p.y)) (F.fin ε)) (A.add (A.sub (F.fin q.y) (F.fin p.y)) (F.fin ε)))) = _ ∧ _
  generalize A.mul (A.add (A.sub (F.fin q.x) (F.fin p.x)) (F.fin ε)) (A.add (A.sub (F.fin q.x) (F.fin p.x)) (F.fin ε)) = X at *
  generalize A.mul (A.add (A.sub (F.fin q.y) (F.fin p.y)) (F.fin ε)) (A.add (A.sub (F.fin q.y) (F.fin p.y)) (F.fin ε)) = Y at *
  rcases hx with rfl | ⟨c, sx, rfl, sx0, cx1, cx2, cx3, cx4⟩
  · left; rw [(inf_add Y gy).1]; rfl
  rcases hy with rfl | ⟨d, sy, rfl, sy0, dx1, dx2, dx3, dx4⟩
  · left; rfl
  rcases hroot _ (Props.add_nonneg' hA gx gy) with hr | ⟨s, m, es, s0, em, m0, m1, m2⟩
  · exact .inl hr
  right
  have es' : A.rnd (sx + sy) = F.fin s := es
  obtain ⟨w1, w2⟩ := h.nonneg (add_nonneg sx0 sy0) es'
  set D := eucl p q with hD
  have hDe : D = Real.sqrt ((q.x - p.x) ^ 2 + (q.y - p.y) ^ 2) := rfl
  have D0 : 0 ≤ D := Real.sqrt_nonneg _
  set B := Real.sqrt (c ^ 2 + d ^ 2) with hB
  have B0 : 0 ≤ B := Real.sqrt_nonneg _
  have B2 : B ^ 2 = c ^ 2 + d ^ 2 := Real.sq_sqrt (by positivity)
  set r := Real.sqrt η with hr
  have r0 : 0 ≤ r := Real.sqrt_nonneg _
  have r2 : r ^ 2 = η := Real.sq_sqrt e0
  have r1 : r ≤ 1 := Real.sqrt_le_one.mpr e1
  have ηr : η ≤ r := by rw [← r2, pow_two]; exact mul_le_of_le_one_left r0 r1
  have b1 : B ≤ (1 + u) ^ 2 * D + 2 * ((1 + u) * ε + (2 + u) * η) := norm_le_add (by positivity) (by positivity) cx1 dx1
  have b2 : (1 - u) ^ 2 * D ≤ B + 2 * (ε + 2 * η) := by
    have := norm_le_add (a := (1 - u) ^ 2 * (q.x - p.x)) (b := (1 - u) ^ 2 * (q.y - p.y)) (c := c) (d := d) (k := 1) (t := ε + 2 * η) zero_le_one (by positivity)
      (by rw [abs_mul, abs_of_nonneg (by positivity)]; linarith) (by rw [abs_mul, abs_of_nonneg (by positivity)]; linarith)
    rw [one_mul, show ((1 - u) ^ 2 * (q.x - p.x)) ^ 2 + ((1 - u) ^ 2 * (q.y - p.y)) ^ 2 = ((1 - u) ^ 2) ^ 2 * ((q.x - p.x) ^ 2 + (q.y - p.y) ^ 2) by ring,
      Real.sqrt_mul (by positivity), Real.sqrt_sq (by positivity)] at this
    exact this
  obtain ⟨v1, v2⟩ := squares_real u0 u1 e0 B2 cx3 cx4 dx3 dx4 w1 w2
  have k5 : Real.sqrt (5 * η) ≤ 9 / 4 * r := by
    rw [Real.sqrt_le_left (by positivity), mul_pow, r2]; linarith
  have k3 : Real.sqrt (3 * η) ≤ 2 * r := by
    rw [Real.sqrt_le_left (by positivity), mul_pow, r2]; linarith
  have s1 : Real.sqrt s ≤ (1 + u) * B + 9 / 4 * r := by
    refine (sqrt_le_add (t := 5 * η) (a := (1 + u) * B) (by positivity) (by positivity) ?_).trans (by linarith)
    exact v1
  have s2 : (1 - u) * B ≤ Real.sqrt s + 2 * r := by
    have h1 : (1 - u) * B ≤ Real.sqrt (s + 3 * η) := by
      rw [← Real.sqrt_sq (show 0 ≤ (1 - u) * B from mul_nonneg (by linarith) B0)]
      exact Real.sqrt_le_sqrt v2
    have h2 : Real.sqrt (s + 3 * η) ≤ Real.sqrt s + Real.sqrt (3 * η) := sqrt_le_add (Real.sqrt_nonneg s) (by positivity) (by rw [Real.sq_sqrt s0])
    linarith
  obtain ⟨z1, z2⟩ := step_real u0 u1 hε e0 r0 ηr m1 m2 b1 b2 s1 s2
  exact ⟨m, em, m0, z1, z2⟩

/-- The sum of the steps. -/
theorem sum_error (hA : FloatContract A) (h : Accurate A u η) {E : Env} (hε : 0 ≤ E.eps) (ps : List Pt) (p : Pt) (acc : F) (ha : acc = F.pinf ∨ ∃ a : ℝ, acc = F.fin a ∧ 0 ≤ a) :
    let total := (List.zipWith (fun q p => A.vnorm (A.vadd (A.vsub q p) ⟨F.fin E.eps, F.fin E.eps⟩)) (ps.map V2.fin) ((p :: ps).map V2.fin)).foldl A.add acc
    total = F.pinf ∨ ∃ a S : ℝ, acc = F.fin a ∧ total = F.fin S ∧
      (1 - u) ^ ps.length * (a + (1 - u) ^ 4 * polyLength (p :: ps)) - ps.length * (3 * E.eps + 11 * Real.sqrt η) ≤ S ∧
      S ≤ (1 + u) ^ ps.length * (a + (1 + u) ^ 4 * polyLength (p :: ps) + ps.length * (3 * E.eps + 11 * Real.sqrt η)) := by
  obtain ⟨u0, u1⟩ := h.unit
  obtain ⟨e0, e1⟩ := h.under
  have r0 : 0 ≤ Real.sqrt η := Real.sqrt_nonneg _
  have ηr : η ≤ Real.sqrt η := by
    have r2 : Real.sqrt η ^ 2 = η := Real.sq_sqrt e0
    have r1 : Real.sqrt η ≤ 1 := Real.sqrt_le_one.mpr e1
    nlinarith
  induction ps generalizing p acc with
  | nil =>
    rcases ha with rfl | ⟨a, rfl, -⟩
    · exact .inl rfl
    · exact .inr ⟨a, a, rfl, rfl, by simp [polyLength], by simp [polyLength]⟩
  | cons q ps ih =>
    simp only [List.map_cons, List.zipWith_cons_cons, List.foldl_cons]
    set m' := A.vnorm (A.vadd (A.vsub (V2.fin q) (V2.fin p)) ⟨F.fin E.eps, F.fin E.eps⟩) with hm'
    have hm := step_error hA h hε p q
    rw [← hm'] at hm
    have m0 : Le (F.fin 0) m' := by
      rcases hm with e | ⟨m, e, m0, -⟩ <;> rw [e]
      · exact Le.pinf (by simp)
      · exact Le.fin.mpr m0
    have a0 : Le (F.fin 0) acc := by
      rcases ha with e | ⟨m, e, m0⟩ <;> rw [e]
      · exact Le.pinf (by simp)
      · exact Le.fin.mpr m0
    have s0 := nonneg_cases (Props.add_nonneg' hA a0 m0)
    rcases ih q (A.add acc m') s0.symm with e | ⟨b, S, e2, e3, l1, l2⟩
    · exact .inl e
    right
    rcases ha with rfl | ⟨a, rfl, a0⟩
    · rcases hm with e | ⟨m, e, -⟩ <;> rw [e] at e2 <;> cases e2
    rcases hm with e | ⟨m, e, m0, m1, m2⟩
    · rw [e] at e2; cases e2
    have e4 : A.rnd (a + m) = F.fin b := by rw [e] at e2; exact e2
    obtain ⟨b1, b2⟩ := h.nonneg (add_nonneg (Le.fin.mp a0) m0) e4
    refine ⟨a, S, rfl, e3, ?_, ?_⟩
    · refine le_trans ?_ l1
      simp only [List.length_cons, polyLength, Nat.cast_succ]
      set k := ps.length
      set L := polyLength (q :: ps)
      have k1 : (1 - u) ^ k ≤ 1 := pow_le_one₀ (by linarith) (by linarith)
      have k0 : 0 ≤ (1 - u) ^ k := pow_nonneg (by linarith) k
      have L0 : 0 ≤ L := polyLength_nonneg _
      have x1 : (1 - u) ^ 4 * L * (1 - u) ≤ (1 - u) ^ 4 * L := mul_le_of_le_one_right (by positivity) (by linarith)
      have x2 : (1 - u) * (a + ((1 - u) ^ 4 * eucl p q - (3 * E.eps + 10 * Real.sqrt η))) ≤ (1 - u) * (a + m) := mul_le_mul_of_nonneg_left (by linarith) (by linarith)
      have x4 : 0 ≤ u * (3 * E.eps + 10 * Real.sqrt η) := by positivity
      have x3 : (1 - u) * (a + (1 - u) ^ 4 * (eucl p q + L)) - (3 * E.eps + 11 * Real.sqrt η) ≤ b + (1 - u) ^ 4 * L := by
        nlinarith
      have x5 := mul_le_mul_of_nonneg_left x3 k0
      have x6 : (1 - u) ^ k * (3 * E.eps + 11 * Real.sqrt η) ≤ 1 * (3 * E.eps + 11 * Real.sqrt η) := mul_le_mul_of_nonneg_right k1 (by positivity)
      have x7 : (1 - u) ^ (k + 1) * (a + (1 - u) ^ 4 * (eucl p q + L)) = (1 - u) ^ k * ((1 - u) * (a + (1 - u) ^ 4 * (eucl p q + L))) := by ring
      rw [x7]
      linarith [mul_sub ((1 - u) ^ k) ((1 - u) * (a + (1 - u) ^ 4 * (eucl p q + L))) (3 * E.eps + 11 * Real.sqrt η)]
    · refine l2.trans ?_
      simp only [List.length_cons, polyLength, Nat.cast_succ]
      set k := ps.length
      set L := polyLength (q :: ps)
      have k0 : 0 ≤ (1 + u) ^ k := pow_nonneg (by linarith) k
      have L0 : 0 ≤ L := polyLength_nonneg _
      rw [pow_succ (1 + u) k, mul_assoc ((1 + u) ^ k)]
      refine mul_le_mul_of_nonneg_left ?_ k0
      have x2 : (1 + u) * (a + m) ≤ (1 + u) * (a + ((1 + u) ^ 4 * eucl p q + (3 * E.eps + 10 * Real.sqrt η))) := mul_le_mul_of_nonneg_left (by linarith) (by linarith)
      have x4 : 0 ≤ u * (Real.sqrt η) := by positivity
      have x5 : 0 ≤ u * ((1 + u) ^ 4 * L) := by positivity
      have x6 : 0 ≤ u * ((k : ℝ) * (3 * E.eps + 11 * Real.sqrt η)) := by positivity
      nlinarith

end DiffeRT2d
