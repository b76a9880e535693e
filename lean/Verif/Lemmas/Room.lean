import Verif.Lemmas.Specular
import Verif.Lemmas.ImagePath
import Verif.Spec.Room
import Mathlib.Algebra.Ring.Parity
import Mathlib.Algebra.Ring.Int.Parity
import Mathlib.Tactic.IntervalCases

/-! # Unfolding paths: the images of the receiver -/

namespace DiffeRT2d
open Classical Spec

/-- The image of the receiver in the walls, the last one first. -/
noncomputable def unfoldImg (r : Pt) : List RWall → Pt
  | [] => r
  | w :: ws => rimg w.1 w.2 (unfoldImg r ws)

theorem eucl_smul {p q u : Pt} {k : ℝ} (hk : 0 ≤ k) (h : u - p = V2.smul k (q - p)) : eucl p u = k * eucl p q := by
  have hx := congrArg V2.x h
  have hy := congrArg V2.y h
  simp only [V2.sub_x, V2.sub_y, V2.smul_x, V2.smul_y] at hx hy
  simp only [eucl]
  rw [hx, hy, show (k * (q.x - p.x)) ^ 2 + (k * (q.y - p.y)) ^ 2 = k ^ 2 * ((q.x - p.x) ^ 2 + (q.y - p.y) ^ 2) by ring,
    Real.sqrt_mul (by positivity), Real.sqrt_sq hk]

/-- A path of reflections leaves towards the image of the receiver, which is as far as the path is long. -/
theorem unfold_dir (ws : List RWall) (hnd : ∀ w ∈ ws, w.1 ≠ w.2) (p r : Pt) (qs : List Pt) (hlen : qs.length = ws.length) (hc : ReflChain ws (p :: qs ++ [r])) :
    (∃ k, 0 < k ∧ unfoldImg r ws - p = V2.smul k (qs.headD r - p)) ∧ eucl p (unfoldImg r ws) = polyLength (p :: qs ++ [r]) := by
  induction ws generalizing p qs with
  | nil =>
    obtain rfl : qs = [] := List.length_eq_zero_iff.mp (by simpa using hlen)
    exact ⟨⟨1, one_pos, by ext <;> simp [unfoldImg]⟩, by simp [unfoldImg, polyLength]⟩
  | cons w ws ih =>
    match qs, hlen with
    | q :: rest, hlen =>
      rw [reflChain_cons] at hc
      obtain ⟨hR, hc⟩ := hc
      obtain ⟨⟨k', hk', e'⟩, l'⟩ := ih (fun v hv => hnd v (by simp [hv])) q rest (by simpa using hlen) hc
      obtain ⟨hon, -, k, hk, e⟩ := reflects_aligned (hnd w (by simp)) hR
      have hsub := refl_sub hon (unfoldImg r ws)
      have key : unfoldImg r (w :: ws) - q = V2.smul (k' * k) (q - p) := by
        have h1 : unfoldImg r ws - q = V2.smul (k' * k) (refl (rn w.1 w.2) (q - p)) := by
          rw [e', e]; ext <;> simp only [V2.smul_x, V2.smul_y] <;> ring
        have h2 : unfoldImg r (w :: ws) - q = refl (rn w.1 w.2) (unfoldImg r ws - q) := by
          have hx := congrArg V2.x hsub
          have hy := congrArg V2.y hsub
          simp only [refl, dp, V2.sub_x, V2.sub_y] at hx hy
          ext
          · simp only [unfoldImg, refl, dp, V2.sub_x, V2.sub_y]; linarith
          · simp only [unfoldImg, refl, dp, V2.sub_x, V2.sub_y]; linarith
        rw [h2, h1]
        have h3 := refl_refl (rn_sq_cases w.1 w.2) (q - p)
        have h4 : refl (rn w.1 w.2) (V2.smul (k' * k) (refl (rn w.1 w.2) (q - p))) =
            V2.smul (k' * k) (refl (rn w.1 w.2) (refl (rn w.1 w.2) (q - p))) := by
          ext <;> simp only [refl, dp, V2.smul_x, V2.smul_y] <;> ring
        rw [h4, h3]
      have hdir : unfoldImg r (w :: ws) - p = V2.smul (k' * k + 1) (q - p) := by
        have hx := congrArg V2.x key
        have hy := congrArg V2.y key
        simp only [V2.sub_x, V2.sub_y, V2.smul_x, V2.smul_y] at hx hy
        ext
        · simp only [V2.sub_x, V2.smul_x]; linarith
        · simp only [V2.sub_y, V2.smul_y]; linarith
      have hkk : 0 < k' * k := mul_pos hk' hk
      refine ⟨⟨k' * k + 1, by linarith, by simpa using hdir⟩, ?_⟩
      have l1 := eucl_smul (by linarith) hdir
      have l2 : eucl q (unfoldImg r (w :: ws)) = k' * k * eucl p q := by
        have hx := congrArg V2.x key
        have hy := congrArg V2.y key
        simp only [V2.sub_x, V2.sub_y, V2.smul_x, V2.smul_y] at hx hy
        simp only [eucl]
        rw [hx, hy, show (k' * k * (q.x - p.x)) ^ 2 + (k' * k * (q.y - p.y)) ^ 2 = (k' * k) ^ 2 * ((q.x - p.x) ^ 2 + (q.y - p.y) ^ 2) by ring,
          Real.sqrt_mul (by positivity), Real.sqrt_sq hkk.le]
      have l3 : eucl q (unfoldImg r (w :: ws)) = eucl q (unfoldImg r ws) := by
        have := rimg_isometry w.1 w.2 q (unfoldImg r ws)
        rw [rimg_fix hon] at this
        exact this
      have l4 : polyLength (p :: (q :: rest) ++ [r]) = eucl p q + polyLength (q :: rest ++ [r]) := by simp [polyLength]
      rw [l1, l4, ← l', ← l3, l2]; ring

/-! ### Rooms -/

/-- Mirror in a horizontal line. -/
theorem rimg_horizontal {a b y : ℝ} (h : a ≠ b) (p : Pt) : rimg ⟨a, y⟩ ⟨b, y⟩ p = ⟨p.x, 2 * y - p.y⟩ := by
  obtain ⟨l, hl, h1, -⟩ := rn_scaled ⟨a, y⟩ ⟨b, y⟩
  have hs := rn_sq (o := ⟨a, y⟩) (d := ⟨b, y⟩) (by simp [h])
  simp only [sub_self] at h1
  have hx : (rn ⟨a, y⟩ ⟨b, y⟩).x = 0 := by
    rcases mul_eq_zero.mp h1.symm with h | h
    · linarith
    · exact h
  simp only [dp, hx] at hs
  ext
  · simp [rimg, hx]
  · simp only [rimg, dp, hx, V2.sub_x, V2.sub_y]; linear_combination (-2 * (p.y - y)) * hs

/-- Mirror in a vertical line. -/
theorem rimg_vertical {a b x : ℝ} (h : a ≠ b) (p : Pt) : rimg ⟨x, a⟩ ⟨x, b⟩ p = ⟨2 * x - p.x, p.y⟩ := by
  obtain ⟨l, hl, -, h1⟩ := rn_scaled ⟨x, a⟩ ⟨x, b⟩
  have hs := rn_sq (o := ⟨x, a⟩) (d := ⟨x, b⟩) (by simp [h])
  simp only [sub_self, neg_zero] at h1
  have hy : (rn ⟨x, a⟩ ⟨x, b⟩).y = 0 := by
    rcases mul_eq_zero.mp h1.symm with h | h
    · linarith
    · exact h
  simp only [dp, hy] at hs
  ext
  · simp only [rimg, dp, hy, V2.sub_x, V2.sub_y]; linear_combination (-2 * (p.x - x)) * hs
  · simp [rimg, hy]

theorem cell_zero (z0 z1 z : ℝ) : cell z0 z1 z 0 = z := by simp [cell]

theorem cell_hi (z0 z1 z : ℝ) (m : ℤ) : 2 * z1 - cell z0 z1 z m = cell z0 z1 z (1 - m) := by
  unfold cell
  have : Even (1 - m) ↔ ¬ Even m := by rw [Int.even_sub]; simp
  by_cases h : Even m
  · rw [if_pos h, if_neg (by rw [this]; simpa using h)]; push_cast; ring
  · rw [if_neg h, if_pos (this.mpr h)]; push_cast; ring

theorem cell_lo (z0 z1 z : ℝ) (m : ℤ) : 2 * z0 - cell z0 z1 z m = cell z0 z1 z (-1 - m) := by
  unfold cell
  have : Even (-1 - m) ↔ ¬ Even m := by rw [Int.even_sub]; simp
  by_cases h : Even m
  · rw [if_pos h, if_neg (by rw [this]; simpa using h)]; push_cast; ring
  · rw [if_neg h, if_pos (this.mpr h)]; push_cast; ring

theorem cell_bounds {z0 z1 z : ℝ} (h0 : z0 ≤ z) (h1 : z ≤ z1) (m : ℤ) : z0 + m * (z1 - z0) ≤ cell z0 z1 z m ∧ cell z0 z1 z m ≤ z1 + m * (z1 - z0) := by
  unfold cell
  split_ifs <;> constructor <;> linarith

theorem cell_lt_hi {z0 z1 z : ℝ} (hz : z0 < z1) (h0 : z0 ≤ z) (h1 : z ≤ z1) {m : ℤ} (h : cell z0 z1 z m < z1) : m ≤ 0 := by
  by_contra hm
  have : (1 : ℝ) ≤ m := by exact_mod_cast (by omega : (1 : ℤ) ≤ m)
  have := (cell_bounds h0 h1 m).1
  nlinarith

theorem cell_gt_lo {z0 z1 z : ℝ} (hz : z0 < z1) (h0 : z0 ≤ z) (h1 : z ≤ z1) {m : ℤ} (h : z0 < cell z0 z1 z m) : 0 ≤ m := by
  by_contra hm
  have : (m : ℝ) ≤ -1 := by exact_mod_cast (by omega : m ≤ -1)
  have := (cell_bounds h0 h1 m).2
  nlinarith

theorem wall_withinRoom {x0 x1 y0 y1 : ℝ} (hx : x0 ≤ x1) (hy : y0 ≤ y1) {w : Pt × Pt} (hw : w ∈ roomWalls x0 x1 y0 y1) {p : Pt} (h : OnSegment w.1 w.2 p) : WithinRoom x0 x1 y0 y1 p := by
  obtain ⟨s, s0, s1, rfl⟩ := h
  simp only [roomWalls, List.mem_cons, List.not_mem_nil, or_false] at hw
  rcases hw with rfl | rfl | rfl | rfl <;> simp only [WithinRoom, pointAt] <;> refine ⟨?_, ?_, ?_, ?_⟩ <;> nlinarith

/-- In a room, the image of the receiver for a path of `n` reflections is in a cell `(m, m')` with `|m| + |m'| = n`. -/
theorem room_unfold {x0 x1 y0 y1 : ℝ} (hx : x0 < x1) (hy : y0 < y1) {r : Pt} (hr : WithinRoom x0 x1 y0 y1 r) (ws : List RWall) (hw : ∀ w ∈ ws, w ∈ roomWalls x0 x1 y0 y1)
    (p : Pt) (qs : List Pt) (hc : ReflChain ws (p :: qs ++ [r])) (hon : List.Forall₂ (fun w q => OnSegment w.1 w.2 q) ws qs) :
    ∃ m m' : ℤ, unfoldImg r ws = ⟨cell x0 x1 r.x m, cell y0 y1 r.y m'⟩ ∧ |m| + |m'| = ws.length := by
  have hwne : ∀ w ∈ roomWalls x0 x1 y0 y1, w.1 ≠ w.2 := by
    intro w hw
    simp only [roomWalls, List.mem_cons, List.not_mem_nil, or_false] at hw
    rcases hw with rfl | rfl | rfl | rfl <;> simp [hx.ne, hx.ne', hy.ne, hy.ne']
  induction ws generalizing p qs with
  | nil => exact ⟨0, 0, by simp [unfoldImg, cell_zero], by simp⟩
  | cons w ws ih =>
    cases hon with
    | @cons _ q _ rest hq hon =>
    rw [reflChain_cons] at hc
    obtain ⟨hR, hc⟩ := hc
    obtain ⟨m, m', e, hm⟩ := ih (fun v hv => hw v (by simp [hv])) q rest hc hon
    obtain ⟨⟨k, hk, ek⟩, -⟩ := unfold_dir ws (fun v hv => hwne v (hw v (by simp [hv]))) q r rest hon.length_eq.symm hc
    have hnext : WithinRoom x0 x1 y0 y1 (rest.headD r) := by
      cases hon with
      | nil => exact hr
      | cons hb _ => exact wall_withinRoom hx.le hy.le (hw _ (by simp)) hb
    have hne : side w.1 w.2 (rest.headD r) ≠ 0 := fun h => by have := hR.same; rw [h] at this; simp at this
    generalize rest.headD r = z at *
    obtain ⟨z1, z2, z3, z4⟩ := hnext
    obtain ⟨r1, r2, r3, r4⟩ := hr
    have ekx := congrArg V2.x ek
    have eky := congrArg V2.y ek
    rw [e] at ekx eky
    simp only [V2.sub_x, V2.sub_y, V2.smul_x, V2.smul_y] at ekx eky
    have hwm := hw w (by simp)
    simp only [roomWalls, List.mem_cons, List.not_mem_nil, or_false] at hwm
    rw [List.length_cons]
    push_cast
    obtain ⟨s, -, -, hs⟩ := hq
    rcases hwm with rfl | rfl | rfl | rfl
    · -- bottom
      refine ⟨m, -1 - m', ?_, ?_⟩
      · simp only [unfoldImg]; rw [rimg_horizontal hx.ne, e, cell_lo]
      · have hy0 : q.y = y0 := by rw [hs]; simp [pointAt]
        have hlt : y0 < z.y := by
          refine lt_of_le_of_ne z3 fun h => hne ?_
          simp only [side]; rw [← h]; ring
        have := cell_gt_lo hy r3 r4 (m := m') (by nlinarith [mul_pos hk (sub_pos.mpr hlt)])
        rw [abs_of_nonpos (by omega : -1 - m' ≤ 0)]
        rw [abs_of_nonneg this] at hm; omega
    · -- right
      refine ⟨1 - m, m', ?_, ?_⟩
      · simp only [unfoldImg]; rw [rimg_vertical hy.ne, e, cell_hi]
      · have hx1 : q.x = x1 := by rw [hs]; simp [pointAt]
        have hlt : z.x < x1 := by
          refine lt_of_le_of_ne z2 fun h => hne ?_
          simp only [side]; rw [h]; ring
        have := cell_lt_hi hx r1 r2 (m := m) (by nlinarith [mul_pos hk (sub_pos.mpr hlt)])
        rw [abs_of_nonneg (by omega : 0 ≤ 1 - m)]
        rw [abs_of_nonpos this] at hm; omega
    · -- top
      refine ⟨m, 1 - m', ?_, ?_⟩
      · simp only [unfoldImg]; rw [rimg_horizontal hx.ne', e, cell_hi]
      · have hy1 : q.y = y1 := by rw [hs]; simp [pointAt]
        have hlt : z.y < y1 := by
          refine lt_of_le_of_ne z4 fun h => hne ?_
          simp only [side]; rw [h]; ring
        have := cell_lt_hi hy r3 r4 (m := m') (by nlinarith [mul_pos hk (sub_pos.mpr hlt)])
        rw [abs_of_nonneg (by omega : 0 ≤ 1 - m')]
        rw [abs_of_nonpos this] at hm; omega
    · -- left
      refine ⟨-1 - m, m', ?_, ?_⟩
      · simp only [unfoldImg]; rw [rimg_vertical hy.ne', e, cell_lo]
      · have hx0 : q.x = x0 := by rw [hs]; simp [pointAt]
        have hlt : x0 < z.x := by
          refine lt_of_le_of_ne z1 fun h => hne ?_
          simp only [side]; rw [← h]; ring
        have := cell_gt_lo hx r1 r2 (m := m) (by nlinarith [mul_pos hk (sub_pos.mpr hlt)])
        rw [abs_of_nonpos (by omega : -1 - m ≤ 0)]
        rw [abs_of_nonneg this] at hm; omega

/-- The cells at distance `n`. -/
def diamond (n : ℕ) : Finset (ℤ × ℤ) :=
  (Finset.range n).image (fun k : ℕ => ((n : ℤ) - k, (k : ℤ))) ∪ (Finset.range n).image (fun k : ℕ => (-(k : ℤ), (n : ℤ) - k)) ∪
    (Finset.range n).image (fun k : ℕ => (-((n : ℤ) - k), -(k : ℤ))) ∪ (Finset.range n).image (fun k : ℕ => ((k : ℤ), -((n : ℤ) - k)))

theorem diamond_card (n : ℕ) : (diamond n).card ≤ 4 * n := by
  unfold diamond
  have h := fun f : ℕ → ℤ × ℤ => (Finset.card_image_le (s := Finset.range n) (f := f)).trans_eq (Finset.card_range n)
  refine (Finset.card_union_le _ _).trans ?_
  refine (add_le_add (Finset.card_union_le _ _) (h _)).trans ?_
  refine (add_le_add (add_le_add (Finset.card_union_le _ _) (h _)) le_rfl).trans ?_
  refine (add_le_add (add_le_add (add_le_add (h _) (h _)) le_rfl) le_rfl).trans ?_
  omega

theorem mem_diamond {n : ℕ} (hn : 0 < n) {m m' : ℤ} (h : |m| + |m'| = n) : (m, m') ∈ diamond n := by
  simp only [diamond, Finset.mem_union, Finset.mem_image, Finset.mem_range, Prod.mk.injEq]
  by_cases h1 : 0 < m ∧ 0 ≤ m'
  · rw [abs_of_pos h1.1, abs_of_nonneg h1.2] at h
    exact .inl (.inl (.inl ⟨m'.toNat, by omega, by omega, by omega⟩))
  by_cases h2 : m ≤ 0 ∧ 0 < m'
  · rw [abs_of_nonpos h2.1, abs_of_pos h2.2] at h
    exact .inl (.inl (.inr ⟨(-m).toNat, by omega, by omega, by omega⟩))
  by_cases h3 : m < 0 ∧ m' ≤ 0
  · rw [abs_of_neg h3.1, abs_of_nonpos h3.2] at h
    exact .inl (.inr ⟨(-m').toNat, by omega, by omega, by omega⟩)
  · by_cases h4 : m = 0 ∧ m' = 0
    · rw [h4.1, h4.2] at h; simp at h; omega
    · have a : 0 ≤ m := by omega
      have b : m' < 0 := by omega
      rw [abs_of_nonneg a, abs_of_neg b] at h
      exact .inr ⟨m.toNat, by omega, by omega, by omega⟩

end DiffeRT2d
