import Verif.Lemmas.Accuracy
import Verif.Lemmas.PowerReal

/-! The error of the received power in `float32`. -/

namespace DiffeRT2d
open Classical Spec

variable {A : FloatOps} {u η : ℝ}

/-- Repeated multiplication. -/
theorem power_error (hA : FloatContract A) (h : Accurate A u η) {c : ℝ} (c0 : 0 ≤ c) (c1 : c ≤ 1) (k : ℕ) :
    ∃ x : ℝ, A.power (F.fin c) k = F.fin x ∧ 0 ≤ x ∧ x ≤ 1 ∧ (1 - u) ^ k * c ^ k - k * η ≤ x ∧ x ≤ (1 + u) ^ k * (c ^ k + k * η) := by
  obtain ⟨u0, u1⟩ := h.unit
  obtain ⟨e0, -⟩ := h.under
  induction k with
  | zero => exact ⟨1, F.one_eq, zero_le_one, le_rfl, by simp, by simp⟩
  | succ k ih =>
    obtain ⟨x, ex, x0, x1, l1, l2⟩ := ih
    obtain ⟨y, ey, y0, y1⟩ := power_range hA c0 c1 (k + 1)
    refine ⟨y, ey, y0, y1, ?_⟩
    have e : A.rnd (x * c) = F.fin y := by rw [FloatOps.power, ex] at ey; exact ey
    obtain ⟨m1, m2⟩ := h.nonneg (mul_nonneg x0 c0) e
    have kη : 0 ≤ (k : ℝ) * η := by positivity
    constructor
    · refine le_trans ?_ m1
      have h1 : (1 - u) ^ (k + 1) * c ^ (k + 1) - (1 - u) * c * (k * η) ≤ (1 - u) * (x * c) := by
        have := mul_le_mul_of_nonneg_right l1 (mul_nonneg (show 0 ≤ 1 - u by linarith) c0)
        rw [pow_succ, pow_succ]
        linarith
      have h2 : (1 - u) * c * (k * η) ≤ k * η := mul_le_of_le_one_left kη (by nlinarith)
      push_cast; linarith
    · refine m2.trans ?_
      have h1 : (1 + u) * (x * c) ≤ (1 + u) ^ (k + 1) * (c ^ (k + 1) + k * η * c) := by
        have := mul_le_mul_of_nonneg_right l2 (mul_nonneg (show 0 ≤ 1 + u by linarith) c0)
        rw [pow_succ, pow_succ]
        linarith
      have h2 : k * η * c ≤ k * η := mul_le_of_le_one_right kη c1
      have h3 : 1 ≤ (1 + u) ^ (k + 1) := one_le_pow₀ (by linarith)
      have h4 : (1 + u) ^ (k + 1) * (c ^ (k + 1) + k * η * c) ≤ (1 + u) ^ (k + 1) * (c ^ (k + 1) + k * η) := mul_le_mul_of_nonneg_left (by linarith) (by linarith)
      have h5 : η ≤ (1 + u) ^ (k + 1) * η := le_mul_of_one_le_left e0 h3
      push_cast
      linarith

theorem f32_accurate : Accurate float32 (2 ^ (-24 : ℤ)) (2 ^ (-150 : ℤ)) := ieee_accurate (p := 24) (emin := -126) (emax := 127) (by norm_num) (by norm_num)
theorem f32_contract : FloatContract float32 := ieee_contract (by norm_num) (by norm_num) (by norm_num)

/-- `float32` does not overflow below `2 ^ 120`. -/
theorem f32_rnd {x B : ℝ} (hx : |x| ≤ B) (hB : B ≤ 2 ^ 120) : ∃ r, float32.rnd x = F.fin r ∧ |r| ≤ 2 * B + 1 := by
  have h1 := nearest_error 24 (-126) x
  have h2 : max |x| ((2 : ℝ) ^ (-126 : ℤ)) * 2 ^ (-((24 : ℕ) : ℤ)) ≤ |x| + 1 := by
    have a : (2 : ℝ) ^ (-((24 : ℕ) : ℤ)) ≤ 1 := by norm_num [zpow_neg]
    have b : (2 : ℝ) ^ (-126 : ℤ) ≤ 1 := by norm_num [zpow_neg]
    have c : max |x| ((2 : ℝ) ^ (-126 : ℤ)) ≤ |x| + 1 := max_le (by linarith) (by linarith [abs_nonneg x])
    have d : 0 ≤ max |x| ((2 : ℝ) ^ (-126 : ℤ)) := (abs_nonneg x).trans (le_max_left _ _)
    exact (mul_le_of_le_one_right d a).trans c
  have h3 : |nearest 24 (-126) x| ≤ 2 * B + 1 := by
    have := abs_sub_abs_le_abs_sub (nearest 24 (-126) x) x
    linarith
  refine ⟨_, ieee_rnd_of_lt (h3.trans_lt ?_), h3⟩
  have : (2 : ℝ) ^ ((127 : ℤ) + 1) = 2 ^ 128 := by norm_num
  rw [this]
  have : (2 : ℝ) ^ 128 = 256 * 2 ^ 120 := by norm_num
  have : (1 : ℝ) ≤ 2 ^ 120 := by norm_num
  linarith

/-- One segment. -/
theorem f32_step {E : Env} (hε : 0 ≤ E.eps) (hε' : E.eps ≤ 1) {p q : Pt} (h : Within (2 ^ 40) [p, q]) :
    ∃ m : ℝ, float32.vnorm (float32.vadd (float32.vsub (V2.fin q) (V2.fin p)) ⟨F.fin E.eps, F.fin E.eps⟩) = F.fin m ∧ 0 ≤ m ∧ m ≤ 2 ^ 48 := by
  have coord : ∀ a b : ℝ, |a| ≤ 2 ^ 40 → |b| ≤ 2 ^ 40 → ∃ r, float32.mul (float32.add (float32.sub (F.fin b) (F.fin a)) (F.fin E.eps)) (float32.add (float32.sub (F.fin b) (F.fin a)) (F.fin E.eps)) = F.fin r ∧ |r| ≤ 2 ^ 88 := by
    intro a b ha hb
    obtain ⟨d, e1, d1⟩ := f32_rnd (x := b - a) (B := 2 ^ 41) (by have := abs_sub b a; linarith [this]) (by norm_num)
    obtain ⟨c, e2, c1⟩ := f32_rnd (x := d + E.eps) (B := 2 ^ 42 + 2) (by have := abs_add_le d E.eps; rw [abs_of_nonneg hε] at this; linarith) (by norm_num)
    have c1' : |c| ≤ 2 ^ 43 + 5 := by linarith
    obtain ⟨s, e3, s1⟩ := f32_rnd (x := c * c) (B := (2 ^ 43 + 5) * (2 ^ 43 + 5)) (by rw [abs_mul]; exact mul_le_mul c1' c1' (abs_nonneg _) (by norm_num)) (by norm_num)
    refine ⟨s, ?_, s1.trans (by norm_num)⟩
    have f1 : float32.sub (F.fin b) (F.fin a) = F.fin d := by rw [FloatOps.sub, F.fin_sub]; exact e1
    have f2 : float32.add (F.fin d) (F.fin E.eps) = F.fin c := e2
    rw [f1, f2]; exact e3
  obtain ⟨hp1, hp2⟩ := h p (by simp)
  obtain ⟨hq1, hq2⟩ := h q (by simp)
  obtain ⟨sx, ex, hx⟩ := coord p.x q.x hp1 hq1
  obtain ⟨sy, ey, hy⟩ := coord p.y q.y hp2 hq2
  obtain ⟨s, es, hs⟩ := f32_rnd (x := sx + sy) (B := 2 ^ 89) (by have := abs_add_le sx sy; linarith) (by norm_num)
  have s90 : s ≤ 2 ^ 92 := (le_abs_self s).trans (hs.trans (by norm_num))
  obtain ⟨m, em, hm⟩ := f32_rnd (x := Real.sqrt s) (B := 2 ^ 46) (by
    rw [abs_of_nonneg (Real.sqrt_nonneg _)]
    refine (Real.sqrt_le_sqrt s90).trans ?_
    rw [show (2 : ℝ) ^ 92 = (2 ^ 46) ^ 2 by norm_num, Real.sqrt_sq (by norm_num)]) (by norm_num)
  have hz := step_error f32_contract f32_accurate hε p q
  have hs0 : 0 ≤ s := by
    have x0 : Le (F.fin 0) (F.fin sx) := by
      rw [← ex]
      cases hh : float32.add (float32.sub (F.fin q.x) (F.fin p.x)) (F.fin E.eps) with
      | fin t => exact Props.rnd_nonneg f32_contract (mul_self_nonneg t)
      | nan => rw [hh] at ex; cases ex
      | pinf => rw [hh] at ex; cases ex
      | ninf => rw [hh] at ex; cases ex
    have y0 : Le (F.fin 0) (F.fin sy) := by
      rw [← ey]
      cases hh : float32.add (float32.sub (F.fin q.y) (F.fin p.y)) (F.fin E.eps) with
      | fin t => exact Props.rnd_nonneg f32_contract (mul_self_nonneg t)
      | nan => rw [hh] at ey; cases ey
      | pinf => rw [hh] at ey; cases ey
      | ninf => rw [hh] at ey; cases ey
    have := Props.rnd_nonneg f32_contract (add_nonneg (Le.fin.mp x0) (Le.fin.mp y0))
    rw [es, Le.fin] at this; exact this
  have e : float32.vnorm (float32.vadd (float32.vsub (V2.fin q) (V2.fin p)) ⟨F.fin E.eps, F.fin E.eps⟩) = F.fin m := by
    have f : float32.vnorm (float32.vadd (float32.vsub (V2.fin q) (V2.fin p)) ⟨F.fin E.eps, F.fin E.eps⟩) = float32.sqrt (float32.add (F.fin sx) (F.fin sy)) := by
      rw [← ex, ← ey]; rfl
    have f2 : float32.add (F.fin sx) (F.fin sy) = F.fin s := es
    rw [f, f2, FloatOps.sqrt, F.sqrt_fin hs0]; exact em
  rcases hz with hz | ⟨m', em', m0, -⟩
  · rw [e] at hz; cases hz
  · rw [e] at em'
    obtain rfl := F.fin.inj em'
    refine ⟨m, e, m0, ?_⟩
    have : m ≤ 2 * 2 ^ 46 + 1 := (le_abs_self m).trans hm
    exact this.trans (by norm_num)

theorem f32_sum {E : Env} (hε : 0 ≤ E.eps) (hε' : E.eps ≤ 1) (ps : List Pt) (p : Pt) (hw : Within (2 ^ 40) (p :: ps)) (a : ℝ) (a0 : 0 ≤ a) (h : a + ps.length * 2 ^ 49 ≤ 2 ^ 59) :
    ∃ S : ℝ, (List.zipWith (fun q p => float32.vnorm (float32.vadd (float32.vsub q p) ⟨F.fin E.eps, F.fin E.eps⟩)) (ps.map V2.fin) ((p :: ps).map V2.fin)).foldl float32.add (F.fin a) = F.fin S ∧
      0 ≤ S ∧ S ≤ 2 ^ 59 := by
  induction ps generalizing p a with
  | nil => exact ⟨a, rfl, a0, by simpa using h⟩
  | cons q ps ih =>
    obtain ⟨m, em, m0, m1⟩ := f32_step hε hε' (p := p) (q := q) (fun x hx => hw x (by simp at hx ⊢; tauto))
    simp only [List.map_cons, List.zipWith_cons_cons, List.foldl_cons]
    simp only [List.length_cons, Nat.cast_succ] at h
    have k0 : (0 : ℝ) ≤ ps.length := Nat.cast_nonneg _
    have am : a + m ≤ 2 ^ 59 := by linarith
    obtain ⟨b, eb, -⟩ := f32_rnd (x := a + m) (B := 2 ^ 59) (by rw [abs_of_nonneg (add_nonneg a0 m0)]; exact am) (by norm_num)
    obtain ⟨b1, b2⟩ := f32_accurate.nonneg (add_nonneg a0 m0) eb
    have b0 : 0 ≤ b := by have := Props.rnd_nonneg f32_contract (add_nonneg a0 m0); rw [eb, Le.fin] at this; exact this
    have hb : b ≤ a + 2 ^ 49 := by
      have h1 : (2 : ℝ) ^ (-24 : ℤ) * (a + m) ≤ 2 ^ 36 := by
        have := mul_le_mul_of_nonneg_left am (two_zpow_pos (-24)).le
        refine this.trans (by norm_num [zpow_neg])
      have h2 : (2 : ℝ) ^ (-150 : ℤ) ≤ 1 := by norm_num [zpow_neg]
      linarith
    obtain ⟨S, e, S0, S1⟩ := ih q (fun x hx => hw x (by simp at hx ⊢; tauto)) b b0 (by linarith)
    refine ⟨S, ?_, S0, S1⟩
    rw [em, show float32.add (F.fin a) (F.fin m) = F.fin b from eb]
    exact e

/-- A path of bounded coordinates, and at most 1000 segments, has a finite length. -/
theorem f32_length {E : Env} (hε : 0 ≤ E.eps) (hε' : E.eps ≤ 1) (pts : List Pt) (hw : Within (2 ^ 40) pts) (hn : pts.length ≤ 1001) :
    ∃ S : ℝ, float32.pathLength E (pts.map V2.fin) = F.fin S ∧ 0 ≤ S ∧ S ≤ 2 ^ 59 := by
  cases pts with
  | nil => exact ⟨0, by simp [FloatOps.pathLength], le_rfl, by positivity⟩
  | cons p ps =>
    have hl : (ps.length : ℝ) ≤ 1000 := by simp at hn; exact_mod_cast Nat.lt_succ_iff.mp hn
    obtain ⟨S, e, h⟩ := f32_sum hε hε' ps p hw 0 le_rfl (by nlinarith)
    exact ⟨S, by rw [F.zero_eq.symm] at e; exact e, h⟩

end DiffeRT2d
