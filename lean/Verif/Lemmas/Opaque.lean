import Verif.Spec.Opaque
import Mathlib.Topology.MetricSpace.Thickening
import Mathlib.Topology.Order.Compact
import Mathlib.Topology.Instances.Real.Lemmas
import Mathlib.Tactic.LinearCombination
import Mathlib.Tactic.FieldSimp
import Mathlib.Tactic.Positivity

/-! # Moving along a ray path without meeting a wall -/

namespace DiffeRT2d.Opaque
open Spec

/-- The points of a wall. -/
def wallSet (w : Pt × Pt) : Set (ℝ × ℝ) := {z | OnSegment w.1 w.2 ⟨z.1, z.2⟩}

/-- The points of the part `[τ, τ']` of the segment from `a` to `b`. -/
def part (a b : Pt) (τ τ' : ℝ) : Set (ℝ × ℝ) := (fun s : ℝ => (a.x + s * (b.x - a.x), a.y + s * (b.y - a.y))) '' Set.Icc τ τ'

theorem part_compact (a b : Pt) (τ τ' : ℝ) : IsCompact (part a b τ τ') := by
  apply isCompact_Icc.image
  fun_prop

theorem wallSet_eq (w : Pt × Pt) : wallSet w = part w.1 w.2 0 1 := by
  ext z
  constructor
  · rintro ⟨s, h0, h1, h⟩
    exact ⟨s, ⟨h0, h1⟩, Prod.ext (congrArg V2.x h).symm (congrArg V2.y h).symm⟩
  · rintro ⟨s, ⟨h0, h1⟩, h⟩
    exact ⟨s, h0, h1, V2.ext (congrArg Prod.fst h).symm (congrArg Prod.snd h).symm⟩

theorem wallSet_closed (w : Pt × Pt) : IsClosed (wallSet w) := by
  rw [wallSet_eq]; exact (part_compact _ _ _ _).isClosed

/-- Near a compact set there are only walls that meet it. -/
theorem near (walls : List (Pt × Pt)) {K : Set (ℝ × ℝ)} (hK : IsCompact K) :
    ∃ r > 0, ∀ w ∈ walls, ∀ z ∈ Metric.thickening r K, z ∈ wallSet w → (K ∩ wallSet w).Nonempty := by
  induction walls with
  | nil => exact ⟨1, one_pos, by simp⟩
  | cons w ws ih =>
    obtain ⟨r, hr, h⟩ := ih
    by_cases hm : (K ∩ wallSet w).Nonempty
    · refine ⟨r, hr, fun v hv z hz hzw => ?_⟩
      rcases List.mem_cons.mp hv with rfl | hv
      · exact hm
      · exact h v hv z hz hzw
    · have hsub : K ⊆ (wallSet w)ᶜ := fun z hz hzw => hm ⟨z, hz, hzw⟩
      obtain ⟨δ, hδ, hd⟩ := hK.exists_thickening_subset_open (wallSet_closed w).isOpen_compl hsub
      refine ⟨min r δ, lt_min hr hδ, fun v hv z hz hzw => ?_⟩
      rcases List.mem_cons.mp hv with rfl | hv
      · exact absurd hzw (hd (Metric.thickening_mono (min_le_right _ _) _ hz))
      · exact h v hv z (Metric.thickening_mono (min_le_left _ _) _ hz) hzw

/-- Near a point there are only walls through it. -/
theorem near_point (walls : List (Pt × Pt)) (p : Pt) :
    ∃ r > 0, ∀ w ∈ walls, ∀ z : Pt, |z.x - p.x| < r → |z.y - p.y| < r → OnSegment w.1 w.2 z → OnSegment w.1 w.2 p := by
  obtain ⟨r, hr, h⟩ := near walls (isCompact_singleton (x := ((p.x, p.y) : ℝ × ℝ)))
  refine ⟨r, hr, fun w hw z h1 h2 hz => ?_⟩
  obtain ⟨q, rfl, hq⟩ := h w hw (z.x, z.y) (by
    rw [Metric.thickening_singleton, Metric.mem_ball, Prod.dist_eq]
    exact max_lt (by rwa [Real.dist_eq]) (by rwa [Real.dist_eq])) hz
  exact hq

/-- The point at `τ` along the segment from `a` to `b`, shifted sideways by `s`. -/
def beside (a b : Pt) (τ s : ℝ) : Pt := ⟨a.x + τ * (b.x - a.x) - s * (b.y - a.y), a.y + τ * (b.y - a.y) + s * (b.x - a.x)⟩

theorem sq_pos {a b : Pt} (h : a ≠ b) : 0 < (b.x - a.x) ^ 2 + (b.y - a.y) ^ 2 := by
  by_contra hc
  have h1 : (b.x - a.x) ^ 2 = 0 := by nlinarith [sq_nonneg (b.x - a.x), sq_nonneg (b.y - a.y)]
  have h2 : (b.y - a.y) ^ 2 = 0 := by nlinarith [sq_nonneg (b.x - a.x), sq_nonneg (b.y - a.y)]
  rw [sq_eq_zero_iff] at h1 h2
  exact h (V2.ext (by linarith) (by linarith))

theorem side_beside (a b : Pt) (τ s : ℝ) : side a b (beside a b τ s) = s * ((b.x - a.x) ^ 2 + (b.y - a.y) ^ 2) := by
  simp only [side, beside]; ring

/-- A wall that is parallel to the line through `a` and `b`, and meets it, is on it. -/
theorem on_line {w : Pt × Pt} {a b : Pt} (hp : Parallel w.1 w.2 a b) {p : Pt} (h0 : side a b p = 0) (hp' : OnSegment w.1 w.2 p)
    {z : Pt} (hz : OnSegment w.1 w.2 z) : side a b z = 0 := by
  obtain ⟨s, -, -, rfl⟩ := hp'
  obtain ⟨t, -, -, rfl⟩ := hz
  simp only [Parallel] at hp
  simp only [side, pointAt] at h0 ⊢
  linear_combination h0 + (s - t) * hp

/-- Beside a part of a segment that only meets walls parallel to it, there is no wall. -/
theorem strip (walls : List (Pt × Pt)) {a b : Pt} (hab : a ≠ b) {τ τ' : ℝ} (hτ : τ ≤ τ')
    (h : ∀ w ∈ walls, ∀ s, τ ≤ s → s ≤ τ' → OnSegment w.1 w.2 (pointAt a b s) → Parallel w.1 w.2 a b) :
    ∃ δ > 0, ∀ s, s ≠ 0 → |s| < δ → Free walls (beside a b τ s) (beside a b τ' s) ∧ Free walls (beside a b τ' s) (beside a b τ s) := by
  obtain ⟨r, hr, hn⟩ := near walls (part_compact a b τ τ')
  have hpos := sq_pos hab
  set M := |b.x - a.x| + |b.y - a.y| with hM
  have hM0 : 0 ≤ M := by positivity
  refine ⟨r / (M + 1), by positivity, fun s hs hsd => ?_⟩
  have hsM : |s| * M < r := by
    have := (lt_div_iff₀ (by positivity)).mp hsd
    nlinarith [abs_nonneg s]
  have key : ∀ u, τ ≤ u → u ≤ τ' → OffAll walls (beside a b u s) := by
    intro u h0 h1 w hw hz
    obtain ⟨q, ⟨v, ⟨hv0, hv1⟩, rfl⟩, hq⟩ := hn w hw ((beside a b u s).x, (beside a b u s).y) (by
      rw [Metric.mem_thickening_iff]
      refine ⟨(a.x + u * (b.x - a.x), a.y + u * (b.y - a.y)), ⟨u, ⟨h0, h1⟩, rfl⟩, ?_⟩
      rw [Prod.dist_eq]
      simp only [Real.dist_eq, beside]
      refine max_lt ?_ ?_
      · rw [show a.x + u * (b.x - a.x) - s * (b.y - a.y) - (a.x + u * (b.x - a.x)) = -(s * (b.y - a.y)) by ring, abs_neg, abs_mul]
        nlinarith [abs_nonneg s, abs_nonneg (b.x - a.x), abs_nonneg (b.y - a.y)]
      · rw [show a.y + u * (b.y - a.y) + s * (b.x - a.x) - (a.y + u * (b.y - a.y)) = s * (b.x - a.x) by ring, abs_mul]
        nlinarith [abs_nonneg s, abs_nonneg (b.x - a.x), abs_nonneg (b.y - a.y)]) hz
    have hpar := h w hw v hv0 hv1 hq
    have := on_line hpar (p := pointAt a b v) (by simp only [side, pointAt]; ring) hq hz
    rw [side_beside] at this
    rcases mul_eq_zero.mp this with h | h
    · exact hs h
    · linarith
  have e : ∀ u v x, pointAt (beside a b u s) (beside a b v s) x = beside a b (u + x * (v - u)) s := by
    intro u v x
    ext
    · simp only [pointAt, beside]; ring
    · simp only [pointAt, beside]; ring
  constructor
  · rintro z ⟨x, h0, h1, rfl⟩
    rw [e]
    exact key _ (by nlinarith) (by nlinarith)
  · rintro z ⟨x, h0, h1, rfl⟩
    rw [e]
    exact key _ (by nlinarith) (by nlinarith)

theorem conv_pos {x y s : ℝ} (hx : 0 < x) (hy : 0 < y) (h0 : 0 ≤ s) (h1 : s ≤ 1) : 0 < x + s * (y - x) := by
  rcases h0.eq_or_lt with rfl | h
  · simpa using hx
  · nlinarith [mul_pos h hy, mul_nonneg (sub_nonneg.mpr h1) hx.le]

theorem conv_abs {x y s u : ℝ} (hx : |x| < u) (hy : |y| < u) (h0 : 0 ≤ s) (h1 : s ≤ 1) : |x + s * (y - x)| < u := by
  rw [abs_lt] at *
  have a := conv_pos (x := u - x) (y := u - y) (by linarith) (by linarith) h0 h1
  have b := conv_pos (x := u + x) (y := u + y) (by linarith) (by linarith) h0 h1
  constructor <;> linarith

theorem conv_zero {k x y s : ℝ} (hx : 0 < k * x) (hy : 0 < k * y) (h0 : 0 ≤ s) (h1 : s ≤ 1) : x + s * (y - x) ≠ 0 := by
  intro h
  have a := conv_pos hx hy h0 h1
  have : k * x + s * (k * y - k * x) = k * (x + s * (y - x)) := by ring
  rw [this, h, mul_zero] at a
  exact lt_irrefl _ a

theorem side_lin (o d p q : Pt) (s : ℝ) : side o d (pointAt p q s) = side o d p + s * (side o d q - side o d p) := by
  simp only [side, pointAt]; ring

theorem side_beside' (o d a b : Pt) (τ s : ℝ) :
    side o d (beside a b τ s) = (1 - τ) * side o d a + τ * side o d b + s * along (o, d) a b := by
  simp only [side, beside, along]; ring

/-- The size of the steps from `a` to `b` and from `b` to `c`. -/
noncomputable def size (a b c : Pt) : ℝ := |b.x - a.x| + |b.y - a.y| + |c.x - b.x| + |c.y - b.y|

theorem near_end {a b : Pt} {M r τ s : ℝ} (hM : |b.x - a.x| + |b.y - a.y| ≤ M) (hr : 0 < r) (h1 : |1 - τ| < r / (2 * (M + 1))) (h2 : |s| < r / (2 * (M + 1))) :
    |(beside a b τ s).x - b.x| < r ∧ |(beside a b τ s).y - b.y| < r := by
  have hM0 : 0 ≤ M := le_trans (by positivity) hM
  rw [lt_div_iff₀ (by positivity)] at h1 h2
  have ha := abs_nonneg (b.x - a.x)
  have hb := abs_nonneg (b.y - a.y)
  have hc := abs_nonneg (1 - τ)
  have hd := abs_nonneg s
  constructor
  · have e : (beside a b τ s).x - b.x = -((1 - τ) * (b.x - a.x)) + -(s * (b.y - a.y)) := by simp only [beside]; ring
    rw [e]
    refine lt_of_le_of_lt (abs_add_le _ _) ?_
    rw [abs_neg, abs_neg, abs_mul, abs_mul]
    nlinarith
  · have e : (beside a b τ s).y - b.y = -((1 - τ) * (b.y - a.y)) + (s * (b.x - a.x)) := by simp only [beside]; ring
    rw [e]
    refine lt_of_le_of_lt (abs_add_le _ _) ?_
    rw [abs_neg, abs_mul, abs_mul]
    nlinarith

theorem near_start {b c : Pt} {M r τ s : ℝ} (hM : |c.x - b.x| + |c.y - b.y| ≤ M) (hr : 0 < r) (h1 : |τ| < r / (2 * (M + 1))) (h2 : |s| < r / (2 * (M + 1))) :
    |(beside b c τ s).x - b.x| < r ∧ |(beside b c τ s).y - b.y| < r := by
  have hM0 : 0 ≤ M := le_trans (by positivity) hM
  rw [lt_div_iff₀ (by positivity)] at h1 h2
  have ha := abs_nonneg (c.x - b.x)
  have hb := abs_nonneg (c.y - b.y)
  have hc := abs_nonneg τ
  have hd := abs_nonneg s
  constructor
  · have e : (beside b c τ s).x - b.x = τ * (c.x - b.x) + -(s * (c.y - b.y)) := by simp only [beside]; ring
    rw [e]
    refine lt_of_le_of_lt (abs_add_le _ _) ?_
    rw [abs_neg, abs_mul, abs_mul]
    nlinarith
  · have e : (beside b c τ s).y - b.y = τ * (c.y - b.y) + (s * (c.x - b.x)) := by simp only [beside]; ring
    rw [e]
    refine lt_of_le_of_lt (abs_add_le _ _) ?_
    rw [abs_mul, abs_mul]
    nlinarith

/-- At a reflection one can go from one flank of the incoming step to one of the flanks of the outgoing step. -/
theorem corner (walls : List (Pt × Pt)) {w : Pt × Pt} {a b c : Pt} (hab : a ≠ b)
    (hb : side w.1 w.2 b = 0) (hs : 0 < side w.1 w.2 a * side w.1 w.2 c)
    (hoth : ∀ v ∈ walls, OnSegment v.1 v.2 b → (∀ z, OnSegment v.1 v.2 z → side w.1 w.2 z = 0) ∨ (v.1 ≠ v.2 ∧ Parallel v.1 v.2 a b ∧ Parallel v.1 v.2 b c))
    (σ : ℝ) (hσ : σ = 1 ∨ σ = -1) :
    ∃ σ', (σ' = 1 ∨ σ' = -1) ∧ ∃ η > 0, ∀ τ τ', 1 - η < τ → τ < 1 → 0 < τ' → τ' < η → ∃ δ > 0, ∀ s s', 0 < s → s < δ → 0 < s' → s' < δ →
      Free walls (beside a b τ (σ * s)) (beside b c τ' (σ' * s')) := by
  obtain ⟨r, hr, hn⟩ := near_point walls b
  have hpos := sq_pos hab
  have hA : side w.1 w.2 a ≠ 0 := fun h => by rw [h] at hs; simp at hs
  set A := side w.1 w.2 a with hAd
  set C := side w.1 w.2 c with hCd
  set M := |b.x - a.x| + |b.y - a.y| + (|c.x - b.x| + |c.y - b.y|) with hM
  have hM0 : 0 ≤ M := by positivity
  have hM1 : |b.x - a.x| + |b.y - a.y| ≤ M := by rw [hM]; linarith [abs_nonneg (c.x - b.x), abs_nonneg (c.y - b.y)]
  have hM2 : |c.x - b.x| + |c.y - b.y| ≤ M := by rw [hM]; linarith [abs_nonneg (b.x - a.x), abs_nonneg (b.y - a.y)]
  have hσa : |σ| = 1 := by rcases hσ with rfl | rfl <;> simp
  -- both points are near `b`, on the side of `a`
  have common : ∀ σ' : ℝ, |σ'| = 1 → ∀ τ τ', 1 - r / (2 * (M + 1)) < τ → τ < 1 → 0 < τ' → τ' < r / (2 * (M + 1)) → ∃ δ > 0, ∀ s s', 0 < s → s < δ → 0 < s' → s' < δ →
      (|(beside a b τ (σ * s)).x - b.x| < r ∧ |(beside a b τ (σ * s)).y - b.y| < r ∧ 0 < A * side w.1 w.2 (beside a b τ (σ * s))) ∧
      (|(beside b c τ' (σ' * s')).x - b.x| < r ∧ |(beside b c τ' (σ' * s')).y - b.y| < r ∧ 0 < A * side w.1 w.2 (beside b c τ' (σ' * s'))) := by
    intro σ' hσ' τ τ' h1 h2 h3 h4
    have p1 : 0 < (1 - τ) * A ^ 2 := by have := sq_pos_of_ne_zero hA; nlinarith
    have p2 : 0 < τ' * (A * C) := mul_pos h3 hs
    refine ⟨min (r / (2 * (M + 1))) (min ((1 - τ) * A ^ 2 / (|A * along w a b| + 1)) (τ' * (A * C) / (|A * along w b c| + 1))), by positivity, ?_⟩
    intro s s' hs0 hs1 hs0' hs1'
    have q1 := (hs1.trans_le ((min_le_right _ _).trans (min_le_left _ _)))
    have q2 := (hs1'.trans_le ((min_le_right _ _).trans (min_le_right _ _)))
    rw [lt_div_iff₀ (by positivity)] at q1 q2
    have n1 := near_end hM1 hr (τ := τ) (s := σ * s) (by rw [abs_of_pos (by linarith)]; linarith) (by rw [abs_mul, hσa, one_mul, abs_of_pos hs0]; exact hs1.trans_le (min_le_left _ _))
    have n2 := near_start hM2 hr (τ := τ') (s := σ' * s') (by rw [abs_of_pos h3]; linarith) (by rw [abs_mul, hσ', one_mul, abs_of_pos hs0']; exact hs1'.trans_le (min_le_left _ _))
    refine ⟨⟨n1.1, n1.2, ?_⟩, ⟨n2.1, n2.2, ?_⟩⟩
    · rw [side_beside', hb]
      have : |σ * s * (A * along w a b)| = s * |A * along w a b| := by rw [abs_mul, abs_mul, hσa, one_mul, abs_of_pos hs0]
      have h5 := neg_abs_le (σ * s * (A * along w a b))
      rw [this] at h5
      have : A * ((1 - τ) * side w.1 w.2 a + τ * 0 + σ * s * along (w.1, w.2) a b) = (1 - τ) * A ^ 2 + σ * s * (A * along w a b) := by rw [← hAd]; ring
      rw [this]
      nlinarith
    · rw [side_beside', hb]
      have : |σ' * s' * (A * along w b c)| = s' * |A * along w b c| := by rw [abs_mul, abs_mul, hσ', one_mul, abs_of_pos hs0']
      have h5 := neg_abs_le (σ' * s' * (A * along w b c))
      rw [this] at h5
      have : A * ((1 - τ') * 0 + τ' * side w.1 w.2 c + σ' * s' * along (w.1, w.2) b c) = τ' * (A * C) + σ' * s' * (A * along w b c) := by rw [← hCd]; ring
      rw [this]
      nlinarith
  by_cases hx : (b.x - a.x) * (c.y - b.y) = (b.y - a.y) * (c.x - b.x)
  · -- the ray comes back on itself: stay on the same side of its line
    obtain ⟨l, hl, hcx, hcy⟩ : ∃ l > 0, c.x - b.x = -(l * (b.x - a.x)) ∧ c.y - b.y = -(l * (b.y - a.y)) := by
      obtain ⟨l, hl1, hl2⟩ : ∃ l, c.x - b.x = -(l * (b.x - a.x)) ∧ c.y - b.y = -(l * (b.y - a.y)) := by
        refine ⟨-((c.x - b.x) * (b.x - a.x) + (c.y - b.y) * (b.y - a.y)) / ((b.x - a.x) ^ 2 + (b.y - a.y) ^ 2), ?_, ?_⟩
        · field_simp; linear_combination (-(b.y - a.y)) * hx
        · field_simp; linear_combination ((b.x - a.x)) * hx
      refine ⟨l, ?_, hl1, hl2⟩
      have hC : C = l * A := by
        rw [hAd, hCd]
        simp only [side] at hb ⊢
        linear_combination (w.2.x - w.1.x) * hl2 - (w.2.y - w.1.y) * hl1 + (1 - l) * hb
      rw [hC] at hs
      have := sq_pos_of_ne_zero hA
      by_contra hc
      nlinarith
    refine ⟨-σ, by rcases hσ with rfl | rfl <;> simp, r / (2 * (M + 1)), by positivity, fun τ τ' h1 h2 h3 h4 => ?_⟩
    obtain ⟨δ, hδ, hcom⟩ := common (-σ) (by rw [abs_neg, hσa]) τ τ' h1 h2 h3 h4
    refine ⟨δ, hδ, fun s s' hs0 hs1 hs0' hs1' => ?_⟩
    obtain ⟨⟨a1, a2, a3⟩, ⟨b1, b2, b3⟩⟩ := hcom s s' hs0 hs1 hs0' hs1'
    have hσ2 : σ * σ = 1 := by rcases hσ with rfl | rfl <;> norm_num
    have a4 : 0 < σ * side a b (beside a b τ (σ * s)) := by
      rw [side_beside]
      have : σ * (σ * s * ((b.x - a.x) ^ 2 + (b.y - a.y) ^ 2)) = s * ((b.x - a.x) ^ 2 + (b.y - a.y) ^ 2) := by linear_combination s * ((b.x - a.x) ^ 2 + (b.y - a.y) ^ 2) * hσ2
      rw [this]; positivity
    have b4 : 0 < σ * side a b (beside b c τ' (-σ * s')) := by
      have : σ * side a b (beside b c τ' (-σ * s')) = s' * l * ((b.x - a.x) ^ 2 + (b.y - a.y) ^ 2) := by
        simp only [side, beside, hcx, hcy]
        linear_combination s' * l * ((b.x - a.x) ^ 2 + (b.y - a.y) ^ 2) * hσ2
      rw [this]; positivity
    rintro z ⟨x, hx0, hx1, rfl⟩ v hv hz
    have hvb := hn v hv _ (by
      have := conv_abs a1 b1 hx0 hx1
      simp only [pointAt]; convert this using 2; ring) (by
      have := conv_abs a2 b2 hx0 hx1
      simp only [pointAt]; convert this using 2; ring) hz
    rcases hoth v hv hvb with h | ⟨-, h, -⟩
    · have h5 := h _ hz
      rw [side_lin] at h5
      exact conv_zero a3 b3 hx0 hx1 h5
    · have h5 := on_line h (p := b) (by simp only [side]; ring) hvb hz
      rw [side_lin] at h5
      exact conv_zero a4 b4 hx0 hx1 h5
  · -- no other wall goes through the point
    refine ⟨1, .inl rfl, r / (2 * (M + 1)), by positivity, fun τ τ' h1 h2 h3 h4 => ?_⟩
    obtain ⟨δ, hδ, hcom⟩ := common 1 (by simp) τ τ' h1 h2 h3 h4
    refine ⟨δ, hδ, fun s s' hs0 hs1 hs0' hs1' => ?_⟩
    obtain ⟨⟨a1, a2, a3⟩, ⟨b1, b2, b3⟩⟩ := hcom s s' hs0 hs1 hs0' hs1'
    rintro z ⟨x, hx0, hx1, rfl⟩ v hv hz
    have hvb := hn v hv _ (by
      have := conv_abs a1 b1 hx0 hx1
      simp only [pointAt]; convert this using 2; ring) (by
      have := conv_abs a2 b2 hx0 hx1
      simp only [pointAt]; convert this using 2; ring) hz
    rcases hoth v hv hvb with h | ⟨h0, h1, h2⟩
    · have h5 := h _ hz
      rw [side_lin] at h5
      exact conv_zero a3 b3 hx0 hx1 h5
    · have hv2 := sq_pos h0
      simp only [Parallel] at h1 h2
      apply hx
      have e1 : ((v.2.x - v.1.x) ^ 2 + (v.2.y - v.1.y) ^ 2) * ((b.x - a.x) * (c.y - b.y) - (b.y - a.y) * (c.x - b.x)) = 0 := by
        linear_combination ((v.2.x - v.1.x) * (b.x - a.x) + (v.2.y - v.1.y) * (b.y - a.y)) * h2 - ((v.2.x - v.1.x) * (c.x - b.x) + (v.2.y - v.1.y) * (c.y - b.y)) * h1
      rcases mul_eq_zero.mp e1 with h | h <;> linarith

end DiffeRT2d.Opaque
