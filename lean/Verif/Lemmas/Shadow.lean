import Verif.Lemmas.Room
import Verif.Lemmas.Specular

/-! # Reflections on horizontal and vertical walls -/

namespace DiffeRT2d
open Classical Spec

theorem rn_horizontal {a b y : ℝ} (h : a ≠ b) : (rn ⟨a, y⟩ ⟨b, y⟩).x = 0 ∧ (rn ⟨a, y⟩ ⟨b, y⟩).y ^ 2 = 1 := by
  obtain ⟨l, hl, h1, -⟩ := rn_scaled ⟨a, y⟩ ⟨b, y⟩
  have hs := rn_sq (o := ⟨a, y⟩) (d := ⟨b, y⟩) (by simp [h])
  simp only [sub_self] at h1
  have hx : (rn ⟨a, y⟩ ⟨b, y⟩).x = 0 := by
    rcases mul_eq_zero.mp h1.symm with h | h
    · linarith
    · exact h
  refine ⟨hx, ?_⟩
  simp only [dp, hx] at hs
  linarith

theorem rn_vertical {a b x : ℝ} (h : a ≠ b) : (rn ⟨x, a⟩ ⟨x, b⟩).y = 0 ∧ (rn ⟨x, a⟩ ⟨x, b⟩).x ^ 2 = 1 := by
  obtain ⟨l, hl, -, h1⟩ := rn_scaled ⟨x, a⟩ ⟨x, b⟩
  have hs := rn_sq (o := ⟨x, a⟩) (d := ⟨x, b⟩) (by simp [h])
  simp only [sub_self] at h1
  have hx : (rn ⟨x, a⟩ ⟨x, b⟩).y = 0 := by
    have h1 := h1.symm
    simp only [neg_zero, neg_eq_zero] at h1
    rcases mul_eq_zero.mp h1 with h | h
    · linarith
    · exact h
  refine ⟨hx, ?_⟩
  simp only [dp, hx] at hs
  linarith

theorem reflects_horizontal {a b y : ℝ} (h : a ≠ b) (p q r : Pt) :
    Reflects (⟨a, y⟩, ⟨b, y⟩) p q r ↔ q.y = y ∧ p.y ≠ y ∧ ∃ k, 0 < k ∧ r.x - q.x = k * (q.x - p.x) ∧ r.y - y = k * (p.y - y) := by
  obtain ⟨h1, h2⟩ := rn_horizontal (y := y) h
  have hy : (rn ⟨a, y⟩ ⟨b, y⟩).y ≠ 0 := by intro h; rw [h] at h2; norm_num at h2
  have hne : ((⟨a, y⟩, ⟨b, y⟩) : RWall).1 ≠ ((⟨a, y⟩, ⟨b, y⟩) : RWall).2 := by simp [h]
  constructor
  · intro hr
    obtain ⟨e1, e2, k, hk, e3⟩ := reflects_aligned hne hr
    simp only [dp, h1, mul_zero, zero_add, mul_eq_zero, hy, or_false, V2.sub_y] at e1 e2
    have e4 := congrArg V2.x e3
    have e5 := congrArg V2.y e3
    simp only [V2.sub_x, V2.sub_y, V2.smul_x, V2.smul_y, refl, dp, h1, mul_zero, zero_add, sub_zero] at e4 e5
    refine ⟨by linarith, fun h => e2 (by rw [h, sub_eq_zero.mp e1, sub_self, zero_mul]), k, hk, e4, ?_⟩
    linear_combination e5 - 2 * k * (q.y - p.y) * h2 + (1 - k) * e1
  · rintro ⟨rfl, e2, k, hk, e3, e4⟩
    refine reflects_of_aligned (k := k) hne ?_ ?_ hk ?_
    · simp [dp, h1]
    · simp only [dp, h1, mul_zero, zero_add, V2.sub_y]
      exact mul_ne_zero (fun h => e2 (by linarith)) hy
    · ext
      · simp only [V2.sub_x, V2.smul_x, refl, dp, h1, mul_zero, sub_zero]; linarith
      · simp only [V2.sub_y, V2.sub_x, V2.smul_y, refl, dp, h1, mul_zero, zero_add]
        linear_combination e4 + 2 * k * (q.y - p.y) * h2

theorem reflects_vertical {a b x : ℝ} (h : a ≠ b) (p q r : Pt) :
    Reflects (⟨x, a⟩, ⟨x, b⟩) p q r ↔ q.x = x ∧ p.x ≠ x ∧ ∃ k, 0 < k ∧ r.y - q.y = k * (q.y - p.y) ∧ r.x - x = k * (p.x - x) := by
  obtain ⟨h1, h2⟩ := rn_vertical (x := x) h
  have hy : (rn ⟨x, a⟩ ⟨x, b⟩).x ≠ 0 := by intro h; rw [h] at h2; norm_num at h2
  have hne : ((⟨x, a⟩, ⟨x, b⟩) : RWall).1 ≠ ((⟨x, a⟩, ⟨x, b⟩) : RWall).2 := by simp [h]
  constructor
  · intro hr
    obtain ⟨e1, e2, k, hk, e3⟩ := reflects_aligned hne hr
    simp only [dp, h1, mul_zero, add_zero, mul_eq_zero, hy, or_false, V2.sub_x] at e1 e2
    have e4 := congrArg V2.x e3
    have e5 := congrArg V2.y e3
    simp only [V2.sub_x, V2.sub_y, V2.smul_x, V2.smul_y, refl, dp, h1, mul_zero, add_zero, sub_zero] at e4 e5
    refine ⟨by linarith, fun h => e2 (by rw [h, sub_eq_zero.mp e1, sub_self, zero_mul]), k, hk, e5, ?_⟩
    linear_combination e4 - 2 * k * (q.x - p.x) * h2 + (1 - k) * e1
  · rintro ⟨rfl, e2, k, hk, e3, e4⟩
    refine reflects_of_aligned (k := k) hne ?_ ?_ hk ?_
    · simp [dp, h1]
    · simp only [dp, h1, mul_zero, add_zero, V2.sub_x]
      exact mul_ne_zero (fun h => e2 (by linarith)) hy
    · ext
      · simp only [V2.sub_y, V2.sub_x, V2.smul_x, refl, dp, h1, mul_zero, add_zero]
        linear_combination e4 + 2 * k * (q.x - p.x) * h2
      · simp only [V2.sub_y, V2.smul_y, refl, dp, h1, mul_zero, sub_zero]; linarith

/-- A step that stays away from a vertical line is not stopped by a wall on it. -/
theorem not_blocks_vertical {a b x : ℝ} {p q : Pt} (h : ∀ t : ℝ, -(5 / 1000) ≤ t → t ≤ 1 + 5 / 1000 → p.x + t * (q.x - p.x) ≠ x) : ¬Blocks (⟨x, a⟩, ⟨x, b⟩) 0 p q := by
  rintro ⟨-, s, t, e, -, t0, t1⟩
  have := congrArg V2.x e
  simp only [pointAt, sub_self, mul_zero, add_zero] at this
  exact h t t0 t1 this.symm

theorem not_blocks_horizontal {a b y : ℝ} {p q : Pt} (h : ∀ t : ℝ, -(5 / 1000) ≤ t → t ≤ 1 + 5 / 1000 → p.y + t * (q.y - p.y) ≠ y) : ¬Blocks (⟨a, y⟩, ⟨b, y⟩) 0 p q := by
  rintro ⟨-, s, t, e, -, t0, t1⟩
  have := congrArg V2.y e
  simp only [pointAt, sub_self, mul_zero, add_zero] at this
  exact h t t0 t1 this.symm

/-- A step that crosses a vertical line off the wall is not stopped by it. -/
theorem not_blocks_off {a b x : ℝ} (hab : a < b) {p q : Pt}
    (h : ∀ t : ℝ, p.x + t * (q.x - p.x) = x → p.y + t * (q.y - p.y) < a - 5 / 1000 * (b - a) ∨ b + 5 / 1000 * (b - a) < p.y + t * (q.y - p.y)) :
    ¬Blocks (⟨x, a⟩, ⟨x, b⟩) 0 p q := by
  rintro ⟨-, s, t, e, ⟨s0, s1⟩, -⟩
  have e1 := congrArg V2.x e
  have e2 := congrArg V2.y e
  simp only [pointAt, sub_self, mul_zero, add_zero] at e1 e2
  rcases h t e1.symm with h | h <;> nlinarith

/-- A step that crosses a vertical wall is stopped by it. -/
theorem blocks_vertical {a b x : ℝ} (hab : a < b) {p q : Pt} (hp : p.x < x) (hq : x ≤ q.x) (t : ℝ) (ht : p.x + t * (q.x - p.x) = x)
    (h0 : a ≤ p.y + t * (q.y - p.y)) (h1 : p.y + t * (q.y - p.y) ≤ b) : Blocks (⟨x, a⟩, ⟨x, b⟩) 0 p q := by
  have hd : 0 < q.x - p.x := by linarith
  have hb : 0 < b - a := by linarith
  have t0 : 0 ≤ t := by by_contra h; push Not at h; nlinarith
  have t1 : t ≤ 1 := by by_contra h; push Not at h; nlinarith
  refine ⟨?_, (p.y + t * (q.y - p.y) - a) / (b - a), t, ?_, ⟨?_, ?_⟩, by linarith, by linarith⟩
  · simp only [Parallel, sub_self, zero_mul]
    intro h
    have : (b - a) * (q.x - p.x) ≠ 0 := by positivity
    exact this h.symm
  · ext
    · simp only [pointAt]; linarith
    · simp only [pointAt]; field_simp; ring
  · have : 0 ≤ (p.y + t * (q.y - p.y) - a) / (b - a) := div_nonneg (by linarith) hb.le
    linarith
  · have : (p.y + t * (q.y - p.y) - a) / (b - a) ≤ 1 := by rw [div_le_one hb]; linarith
    linarith

end DiffeRT2d
