import Verif.Lemmas.Shadow
import Verif.Spec.Shadow
import Verif.Props.Fields
import Verif.Props.Opaque
import Verif.Props.Grid
import Verif.Props.Presets

/-! # C148: the shadow of the quickstart -/

namespace DiffeRT2d.Props
open Classical Spec

theorem quickstart_floor : quickstartWalls[0]? = some (⟨0, 0⟩, ⟨1, 0⟩) := rfl
theorem quickstart_right : quickstartWalls[1]? = some (⟨1, 0⟩, ⟨1, 1⟩) := rfl
theorem quickstart_ceiling : quickstartWalls[2]? = some (⟨1, 1⟩, ⟨0, 1⟩) := rfl
theorem quickstart_left : quickstartWalls[3]? = some (⟨0, 1⟩, ⟨0, 0⟩) := rfl
theorem quickstart_added : quickstartWalls[4]? = some (⟨4 / 5, 1 / 5⟩, ⟨4 / 5, 4 / 5⟩) := rfl

/-- The step number `k` of a ray that is not reflected by the added wall does not cross it. -/
theorem added_clear {r : Pt} {c : List ℤ} {pts : List Pt} (h : RayPath quickstartWalls 0 quickstartTx r c pts) {k : ℕ} {p q : Pt} (hp : pts[k]? = some p)
    (hq : pts[k + 1]? = some q) (hc : (4 : ℤ) ∉ c) (hx : p.x < 4 / 5) (hx' : 4 / 5 ≤ q.x) {t : ℝ} (ht : p.x + t * (q.x - p.x) = 4 / 5)
    (h0 : 1 / 5 ≤ p.y + t * (q.y - p.y)) (h1 : p.y + t * (q.y - p.y) ≤ 4 / 5) : False := by
  refine h.clear k 4 _ _ _ hp hq quickstart_added ?_ (blocks_vertical (by norm_num) hx hx' t ht h0 h1)
  rintro (h | ⟨j, -, h⟩) <;> exact hc (List.mem_of_getElem? h)

/-- **C148.** No ray of order 0 or 1 enters the shadow. -/
theorem C148_shadow {r : Pt} (hr : InShadow r) (c : List ℤ) (hc : IsCandidate 5 c) (hl : c.length ≤ 1) (pts : List Pt) :
    ¬RayPath quickstartWalls 0 quickstartTx r c pts := by
  intro h
  obtain ⟨r1, r2, r3, r4⟩ := hr
  match c, pts, hl, h.count with
  | [], [t, q], _, _ =>
    obtain rfl : t = quickstartTx := by simpa using h.start
    obtain rfl : q = r := by simpa using h.finish
    have hd : 0 < q.x - 1 / 5 := by linarith
    refine added_clear h (k := 0) rfl rfl (by simp) (by norm_num [quickstartTx]) r1.le (t := (3 / 5) / (q.x - 1 / 5)) ?_ ?_ ?_
    · simp only [quickstartTx]; rw [div_mul_cancel₀ _ hd.ne']; norm_num
    · simp only [quickstartTx]
      have : 0 ≤ 3 / 5 / (q.x - 1 / 5) * (q.y - 1 / 5) := mul_nonneg (by positivity) (by linarith)
      linarith
    · simp only [quickstartTx]
      have : 3 / 5 / (q.x - 1 / 5) * (q.y - 1 / 5) ≤ 3 / 5 := by
        rw [div_mul_eq_mul_div, div_le_iff₀ hd]; linarith
      linarith
  | [a], [t, p, q], _, _ =>
    obtain ⟨ha0, ha4⟩ := hc.1 a (by simp)
    obtain ⟨a, rfl⟩ := Int.eq_ofNat_of_zero_le ha0
    obtain rfl : t = quickstartTx := by simpa using h.start
    obtain rfl : q = r := by simpa using h.finish
    match a, ha4 with
    | 0, _ =>
      obtain ⟨hr, -⟩ := h.reflected 0 0 _ _ p _ rfl quickstart_floor rfl rfl rfl
      obtain ⟨e1, -, k, hk, e2, e3⟩ := (reflects_horizontal (by norm_num) _ _ _).mp hr
      simp only [quickstartTx, sub_zero] at e2 e3
      have hkp : 0 < k + 1 := by linarith
      have hpx : p.x * (k + 1) = q.x + k / 5 := by linarith
      have hk3 : k = 5 * q.y := by linarith
      have hp8 : p.x < 4 / 5 := by
        by_contra hcon
        push Not at hcon
        nlinarith
      refine added_clear h (k := 1) rfl rfl (by simp) hp8 r1.le (t := (4 / 5 - p.x) / (q.x - p.x)) ?_ ?_ ?_
      · have : q.x - p.x ≠ 0 := by linarith
        field_simp; ring
      · have hd : 0 < q.x - p.x := by linarith
        rw [e1, sub_zero, zero_add, div_mul_eq_mul_div, le_div_iff₀ hd]
        nlinarith
      · have hd : 0 < q.x - p.x := by linarith
        rw [e1, sub_zero, zero_add, div_mul_eq_mul_div, div_le_iff₀ hd]
        nlinarith
    | 1, _ =>
      obtain ⟨hr, -⟩ := h.reflected 0 1 _ _ p _ rfl quickstart_right rfl rfl rfl
      obtain ⟨e1, -, k, hk, e2, e3⟩ := (reflects_vertical (by norm_num) _ _ _).mp hr
      simp only [quickstartTx] at e2 e3
      have hkp : 0 < k + 1 := by linarith
      have hpy : p.y * (k + 1) = q.y + k / 5 := by linarith
      have hk1 : k < 1 / 4 := by linarith
      refine added_clear h (k := 0) rfl rfl (by simp) (by norm_num [quickstartTx]) (by rw [e1]; norm_num) (t := 3 / 4) ?_ ?_ ?_
      · rw [e1]; norm_num [quickstartTx]
      · simp only [quickstartTx]; nlinarith
      · simp only [quickstartTx]; nlinarith
    | 2, _ =>
      obtain ⟨hr, -⟩ := h.reflected 0 2 _ _ p _ rfl quickstart_ceiling rfl rfl rfl
      obtain ⟨e1, -, k, hk, e2, e3⟩ := (reflects_horizontal (by norm_num) _ _ _).mp hr
      simp only [quickstartTx] at e2 e3
      have hkp : 0 < k + 1 := by linarith
      have hpx : p.x * (k + 1) = q.x + k / 5 := by linarith
      have hk3 : k = 5 / 4 * (1 - q.y) := by linarith
      have hp8 : p.x < 4 / 5 := by
        by_contra hcon
        push Not at hcon
        nlinarith
      refine added_clear h (k := 1) rfl rfl (by simp) hp8 r1.le (t := (4 / 5 - p.x) / (q.x - p.x)) ?_ ?_ ?_
      · have : q.x - p.x ≠ 0 := by linarith
        field_simp; ring
      · have hd : 0 < q.x - p.x := by linarith
        rw [e1, div_mul_eq_mul_div, ← sub_nonneg]
        have : 0 ≤ (4 / 5 * (q.x - p.x) + (4 / 5 - p.x) * (q.y - 1)) / (q.x - p.x) := div_nonneg (by nlinarith) hd.le
        convert this using 1
        field_simp; ring
      · have hd : 0 < q.x - p.x := by linarith
        rw [e1, div_mul_eq_mul_div, ← sub_nonneg]
        have : 0 ≤ (-(1 / 5) * (q.x - p.x) - (4 / 5 - p.x) * (q.y - 1)) / (q.x - p.x) := div_nonneg (by nlinarith) hd.le
        convert this using 1
        field_simp; ring
    | 3, _ =>
      obtain ⟨hr, -⟩ := h.reflected 0 3 _ _ p _ rfl quickstart_left rfl rfl rfl
      obtain ⟨e1, -, k, hk, e2, e3⟩ := (reflects_vertical (by norm_num) _ _ _).mp hr
      simp only [quickstartTx, sub_zero] at e2 e3
      have hkp : 0 < k + 1 := by linarith
      have hpy : p.y * (k + 1) = q.y + k / 5 := by linarith
      have hk3 : k = 5 * q.x := by linarith
      have hd : 0 < q.x := by linarith
      refine added_clear h (k := 1) rfl rfl (by simp) (by rw [e1]; norm_num) r1.le (t := (4 / 5) / q.x) ?_ ?_ ?_
      · rw [e1]; field_simp; ring
      · rw [div_mul_eq_mul_div, ← sub_nonneg]
        have : 0 ≤ ((p.y - 1 / 5) * q.x + 4 / 5 * (q.y - p.y)) / q.x := div_nonneg (by nlinarith) hd.le
        convert this using 1
        field_simp; ring
      · rw [div_mul_eq_mul_div, ← sub_nonneg]
        have : 0 ≤ ((4 / 5 - p.y) * q.x - 4 / 5 * (q.y - p.y)) / q.x := div_nonneg (by nlinarith) hd.le
        convert this using 1
        field_simp; ring
    | 4, _ =>
      obtain ⟨hr, -⟩ := h.reflected 0 4 _ _ p _ rfl quickstart_added rfl rfl rfl
      obtain ⟨-, -, k, hk, -, e3⟩ := (reflects_vertical (by norm_num) _ _ _).mp hr
      simp only [quickstartTx] at e3
      linarith
    | a + 5, h4 => exact absurd h4 (by push_cast; omega)

/-- The step from `p` to `q` is not stopped by the walls whose indices are not in `skip`. -/
def LegClear (skip : List ℕ) (p q : Pt) : Prop := ∀ j w, quickstartWalls[j]? = some w → j ∉ skip → ¬Blocks w 0 p q

theorem affine_pos {u v t : ℝ} (h0 : 0 < 1.005 * u - 0.005 * v) (h1 : 0 < 1.005 * v - 0.005 * u) (t0 : -(5 / 1000) ≤ t) (t1 : t ≤ 1 + 5 / 1000) :
    0 < u + t * (v - u) := by
  have e : (u + t * (v - u)) * 1.01 = (1.005 - t) * (1.005 * u - 0.005 * v) + (t + 0.005) * (1.005 * v - 0.005 * u) := by ring
  have a0 : 0 ≤ 1.005 - t := by norm_num at t1 ⊢; linarith
  have a1 : 0 ≤ t + 0.005 := by norm_num at t0 ⊢; linarith
  have b0 := mul_nonneg a0 h0.le
  have b1 := mul_nonneg a1 h1.le
  rcases le_total t (1 / 2) with h | h
  · have : 0 < (1.005 - t) * (1.005 * u - 0.005 * v) := mul_pos (by norm_num; linarith) h0
    linarith
  · have : 0 < (t + 0.005) * (1.005 * v - 0.005 * u) := mul_pos (by norm_num; linarith) h1
    linarith

theorem leg_clear (skip : List ℕ) (p q : Pt) (hf : 0 ∈ skip ∨ (0 < 1.005 * p.y - 0.005 * q.y ∧ 0 < 1.005 * q.y - 0.005 * p.y))
    (hr : 1 ∈ skip ∨ (1.005 * p.x - 0.005 * q.x < 1 ∧ 1.005 * q.x - 0.005 * p.x < 1))
    (hc : 2 ∈ skip ∨ (1.005 * p.y - 0.005 * q.y < 1 ∧ 1.005 * q.y - 0.005 * p.y < 1))
    (hl : 3 ∈ skip ∨ (0 < 1.005 * p.x - 0.005 * q.x ∧ 0 < 1.005 * q.x - 0.005 * p.x))
    (ha : (∀ t : ℝ, -(5 / 1000) ≤ t → t ≤ 1 + 5 / 1000 → p.x + t * (q.x - p.x) ≠ 4 / 5) ∨
      ∀ t : ℝ, p.x + t * (q.x - p.x) = 4 / 5 → p.y + t * (q.y - p.y) < 0.197 ∨ 0.803 < p.y + t * (q.y - p.y)) : LegClear skip p q := by
  intro j w hj hs
  match j with
  | 0 =>
    obtain rfl := Option.some.inj (quickstart_floor.symm.trans hj)
    rcases hf with h | ⟨h0, h1⟩
    · exact absurd h hs
    · refine not_blocks_horizontal fun t t0 t1 e => ?_
      exact (affine_pos h0 h1 t0 t1).ne' e
  | 1 =>
    obtain rfl := Option.some.inj (quickstart_right.symm.trans hj)
    rcases hr with h | ⟨h0, h1⟩
    · exact absurd h hs
    · refine not_blocks_vertical fun t t0 t1 e => ?_
      have := affine_pos (u := 1 - p.x) (v := 1 - q.x) (by norm_num at h0 ⊢; linarith) (by norm_num at h1 ⊢; linarith) t0 t1
      linarith
  | 2 =>
    obtain rfl := Option.some.inj (quickstart_ceiling.symm.trans hj)
    rcases hc with h | ⟨h0, h1⟩
    · exact absurd h hs
    · refine not_blocks_horizontal fun t t0 t1 e => ?_
      have := affine_pos (u := 1 - p.y) (v := 1 - q.y) (by norm_num at h0 ⊢; linarith) (by norm_num at h1 ⊢; linarith) t0 t1
      linarith
  | 3 =>
    obtain rfl := Option.some.inj (quickstart_left.symm.trans hj)
    rcases hl with h | ⟨h0, h1⟩
    · exact absurd h hs
    · refine not_blocks_vertical fun t t0 t1 e => ?_
      exact (affine_pos h0 h1 t0 t1).ne' e
  | 4 =>
    obtain rfl := Option.some.inj (quickstart_added.symm.trans hj)
    rcases ha with ha | ha
    · exact not_blocks_vertical ha
    · refine not_blocks_off (by norm_num) fun t e => ?_
      rcases ha t e with h | h
      · left; norm_num at h ⊢; linarith
      · right; norm_num at h ⊢; linarith
  | j + 5 => simp [quickstartWalls, roomWalls] at hj

/-- Rays of order 0. -/
theorem ray_zero {r : Pt} (h : LegClear [] quickstartTx r) : RayPath quickstartWalls 0 quickstartTx r [] [quickstartTx, r] := by
  refine ⟨rfl, rfl, rfl, fun i j w p q q' hi => by simp at hi, fun i j w p q hp hq hw hadj => ?_⟩
  match i with
  | 0 =>
    obtain rfl := Option.some.inj hp
    obtain rfl := Option.some.inj hq
    exact h j w hw (by simp)
  | i + 1 => simp at hq

/-- Rays of order 1. -/
theorem ray_one {r p : Pt} {a : ℕ} {w : Pt × Pt} (hw : quickstartWalls[a]? = some w) (hr : Reflects w quickstartTx p r) (hs : OnSegment w.1 w.2 p)
    (h0 : LegClear [a] quickstartTx p) (h1 : LegClear [a] p r) : RayPath quickstartWalls 0 quickstartTx r [(a : ℤ)] [quickstartTx, p, r] := by
  refine ⟨rfl, rfl, rfl, fun i j w' u v z hi hw' hu hv hz => ?_, fun i j w' u v hu hv hw' hadj => ?_⟩
  · match i with
    | 0 =>
      obtain rfl : a = j := by simpa using hi
      obtain rfl := Option.some.inj (hw.symm.trans hw')
      obtain rfl := Option.some.inj hu
      obtain rfl := Option.some.inj hv
      obtain rfl := Option.some.inj hz
      exact ⟨hr, hs⟩
    | i + 1 => simp at hi
  · have hj : ∀ i ≤ 1, ¬Adjacent [(a : ℤ)] i j → j ∉ [a] := by
      intro i hi h hm
      obtain rfl : j = a := by simpa using hm
      apply h
      match i with
      | 0 => left; rfl
      | 1 => right; exact ⟨0, rfl, rfl⟩
    match i with
    | 0 =>
      obtain rfl := Option.some.inj hu
      obtain rfl := Option.some.inj hv
      exact h0 j w' hw' (hj 0 (by omega) hadj)
    | 1 =>
      obtain rfl := Option.some.inj hu
      obtain rfl := Option.some.inj hv
      exact h1 j w' hw' (hj 1 (by omega) hadj)
    | i + 2 => simp at hv

/-- Rays of order 2. -/
theorem ray_two {r p p' : Pt} {a b : ℕ} {w w' : Pt × Pt} (hw : quickstartWalls[a]? = some w) (hw' : quickstartWalls[b]? = some w')
    (hr : Reflects w quickstartTx p p') (hs : OnSegment w.1 w.2 p) (hr' : Reflects w' p p' r) (hs' : OnSegment w'.1 w'.2 p')
    (h0 : LegClear [a] quickstartTx p) (h1 : LegClear [a, b] p p') (h2 : LegClear [b] p' r) :
    RayPath quickstartWalls 0 quickstartTx r [(a : ℤ), (b : ℤ)] [quickstartTx, p, p', r] := by
  refine ⟨rfl, rfl, rfl, fun i j v u1 u2 u3 hi hv e1 e2 e3 => ?_, fun i j v u1 u2 e1 e2 hv hadj => ?_⟩
  · match i with
    | 0 =>
      obtain rfl : a = j := by simpa using hi
      obtain rfl := Option.some.inj (hw.symm.trans hv)
      obtain rfl := Option.some.inj e1
      obtain rfl := Option.some.inj e2
      obtain rfl := Option.some.inj e3
      exact ⟨hr, hs⟩
    | 1 =>
      obtain rfl : b = j := by simpa using hi
      obtain rfl := Option.some.inj (hw'.symm.trans hv)
      obtain rfl := Option.some.inj e1
      obtain rfl := Option.some.inj e2
      obtain rfl := Option.some.inj e3
      exact ⟨hr', hs'⟩
    | i + 2 => simp at hi
  · match i with
    | 0 =>
      obtain rfl := Option.some.inj e1
      obtain rfl := Option.some.inj e2
      refine h0 j v hv fun hm => hadj ?_
      obtain rfl : j = a := by simpa using hm
      exact .inl rfl
    | 1 =>
      obtain rfl := Option.some.inj e1
      obtain rfl := Option.some.inj e2
      refine h1 j v hv fun hm => hadj ?_
      have hm : j = a ∨ j = b := by simpa using hm
      rcases hm with rfl | rfl
      · exact .inr ⟨0, rfl, rfl⟩
      · exact .inl rfl
    | 2 =>
      obtain rfl := Option.some.inj e1
      obtain rfl := Option.some.inj e2
      refine h2 j v hv fun hm => hadj ?_
      obtain rfl : j = b := by simpa using hm
      exact .inr ⟨1, rfl, rfl⟩
    | i + 3 => simp at e2

theorem on_floor {p : Pt} (h : p.y = 0) (h0 : 0 ≤ p.x) (h1 : p.x ≤ 1) : OnSegment ⟨0, 0⟩ ⟨1, 0⟩ p :=
  ⟨p.x, h0, h1, by ext <;> simp [pointAt, h]⟩

theorem on_right {p : Pt} (h : p.x = 1) (h0 : 0 ≤ p.y) (h1 : p.y ≤ 1) : OnSegment ⟨1, 0⟩ ⟨1, 1⟩ p :=
  ⟨p.y, h0, h1, by ext <;> simp [pointAt, h]⟩

theorem on_ceiling {p : Pt} (h : p.y = 1) (h0 : 0 ≤ p.x) (h1 : p.x ≤ 1) : OnSegment ⟨1, 1⟩ ⟨0, 1⟩ p :=
  ⟨1 - p.x, by linarith, by linarith, by ext <;> simp [pointAt, h]⟩

/-- The line of sight on the left of the added wall. -/
theorem sight_ray {r : Pt} (x0 : 0.005 ≤ r.x) (x1 : r.x ≤ 0.79) (y0 : 0.005 ≤ r.y) (y1 : r.y ≤ 0.995) : RayPath quickstartWalls 0 quickstartTx r [] [quickstartTx, r] := by
  norm_num at x0 x1 y0 y1
  refine ray_zero (leg_clear _ _ _ (.inr ⟨?_, ?_⟩) (.inr ⟨?_, ?_⟩) (.inr ⟨?_, ?_⟩) (.inr ⟨?_, ?_⟩) (.inl fun t t0 t1 e => ?_)) <;>
    simp only [quickstartTx] at * <;> norm_num at * <;> first | linarith | nlinarith

/-- Below the shadow, a reflection on the floor. -/
theorem floor_ray {r : Pt} (x0 : 0.81 ≤ r.x) (x1 : r.x ≤ 0.99) (y0 : 0.005 ≤ r.y) (y1 : r.y ≤ (2 * r.x - 1) / 3 - 0.01) :
    ∃ p, RayPath quickstartWalls 0 quickstartTx r [(0 : ℕ)] [quickstartTx, p, r] := by
  norm_num at x0 x1 y0 y1
  obtain ⟨x, y⟩ := r
  simp only at x0 x1 y0 y1
  have hk : 0 < 1 + 5 * y := by linarith
  obtain ⟨q, hq⟩ : ∃ q, q * (1 + 5 * y) = x + y := ⟨(x + y) / (1 + 5 * y), div_mul_cancel₀ _ hk.ne'⟩
  have q0 : 1 / 5 < q := by by_contra h; push Not at h; nlinarith
  have q1 : q < x := by by_contra h; push Not at h; nlinarith
  refine ⟨⟨q, 0⟩, ray_one quickstart_floor ((reflects_horizontal (by norm_num) _ _ _).mpr ⟨rfl, by norm_num [quickstartTx], 5 * y, by linarith, ?_, ?_⟩)
    (on_floor rfl (by simp only; linarith) (by simp only; linarith))
    (leg_clear _ _ _ (.inl (by simp)) (.inr ⟨?_, ?_⟩) (.inr ⟨?_, ?_⟩) (.inr ⟨?_, ?_⟩) (.inr fun t e => .inl ?_))
    (leg_clear _ _ _ (.inl (by simp)) (.inr ⟨?_, ?_⟩) (.inr ⟨?_, ?_⟩) (.inr ⟨?_, ?_⟩) (.inr fun t e => .inl ?_))⟩ <;>
    simp only [quickstartTx] at * <;> norm_num at *
  any_goals linarith
  · have : 3 / 4 ≤ t := by by_contra h; push Not at h; nlinarith
    linarith
  · have h1 : (x - q) * (1 + 5 * y) = y * (5 * x - 1) := by linear_combination -hq
    have h2 : (4 / 5 - q) * (1 + 5 * y) = 4 / 5 - x + 3 * y := by linear_combination -hq
    have h3 : y * (t * (5 * x - 1)) = 4 / 5 - x + 3 * y + 0 := by linear_combination h2 - t * h1 + (1 + 5 * y) * e
    by_contra hcon
    push Not at hcon
    nlinarith

/-- Above the shadow, a reflection on the ceiling. -/
theorem ceiling_ray {r : Pt} (x0 : 0.81 ≤ r.x) (x1 : r.x ≤ 0.99) (y0 : (32 - 25 * r.x) / 15 + 0.01 ≤ r.y) (y1 : r.y ≤ 0.995) :
    ∃ p, RayPath quickstartWalls 0 quickstartTx r [(2 : ℕ)] [quickstartTx, p, r] := by
  norm_num at x0 x1 y0 y1
  obtain ⟨x, y⟩ := r
  simp only at x0 x1 y0 y1
  obtain ⟨k, hk⟩ : ∃ k, k = 5 / 4 * (1 - y) := ⟨_, rfl⟩
  have hkp : 0 < k := by rw [hk]; linarith
  obtain ⟨q, hq⟩ : ∃ q, q * (1 + k) = x + k / 5 := ⟨(x + k / 5) / (1 + k), div_mul_cancel₀ _ (by linarith)⟩
  have q0 : 1 / 5 < q := by by_contra h; push Not at h; nlinarith
  have q1 : q < x := by by_contra h; push Not at h; nlinarith
  refine ⟨⟨q, 1⟩, ray_one quickstart_ceiling ((reflects_horizontal (by norm_num) _ _ _).mpr ⟨rfl, by norm_num [quickstartTx], k, hkp, ?_, ?_⟩)
    (on_ceiling rfl (by simp only; linarith) (by simp only; linarith))
    (leg_clear _ _ _ (.inr ⟨?_, ?_⟩) (.inr ⟨?_, ?_⟩) (.inl (by simp)) (.inr ⟨?_, ?_⟩) (.inr fun t e => .inr ?_))
    (leg_clear _ _ _ (.inr ⟨?_, ?_⟩) (.inr ⟨?_, ?_⟩) (.inl (by simp)) (.inr ⟨?_, ?_⟩) (.inr fun t e => .inr ?_))⟩ <;>
    simp only [quickstartTx] at * <;> norm_num at *
  any_goals linarith
  · have : 759 / 1000 ≤ t := by by_contra h; push Not at h; nlinarith
    linarith
  · have hz : 1 - y = 4 / 5 * k := by linarith
    have h1 : (x - q) * (1 + k) = k * (x - 1 / 5) := by linear_combination -hq
    have h2 : (4 / 5 - q) * (1 + k) = 4 / 5 - x + 3 / 5 * k := by linear_combination -hq
    have h3 : k * (t * (x - 1 / 5)) = 4 / 5 - x + 3 / 5 * k := by linear_combination h2 - t * h1 + (1 + k) * e
    by_contra hcon
    push Not at hcon
    have h4 : 197 / 1000 ≤ t * (4 / 5 * k) := by rw [← hz]; linarith
    nlinarith

theorem last_leg {p : Pt} {x y : ℝ} (hx : p.x = 1) (p0 : 0.1 ≤ p.y) (p1 : p.y ≤ 0.995) (x0 : 0.81 ≤ x) (x1 : x ≤ 0.99) (y0 : 0.1 ≤ y) (y1 : y ≤ 0.9) : LegClear [1] p ⟨x, y⟩ := by
  obtain ⟨px, py⟩ := p
  simp only at hx p0 p1
  subst hx
  norm_num at x0 x1 y0 y1 p0 p1
  refine leg_clear _ _ _ (.inr ⟨?_, ?_⟩) (.inl (by simp)) (.inr ⟨?_, ?_⟩) (.inr ⟨?_, ?_⟩) (.inl fun t t0 t1 e => ?_) <;> norm_num at * <;> first | linarith | nlinarith

/-- A reflection on the ceiling, then one on the right wall. -/
theorem ceiling_right_ray {x y m : ℝ} (x0 : 0.81 ≤ x) (x1 : x ≤ 0.99) (y0 : 0.1 ≤ y) (y1 : y ≤ 0.9) (hm : 1.8 - y = m * (1.8 - x)) (m0 : 1.007 ≤ m) (m1 : m ≤ 1.66) :
    ∃ p q, RayPath quickstartWalls 0 quickstartTx ⟨x, y⟩ [(2 : ℕ), (1 : ℕ)] [quickstartTx, p, q, ⟨x, y⟩] := by
  norm_num at m0 m1 hm
  have hmp : 0 < m := by linarith
  obtain ⟨a, ha⟩ : ∃ a, a * m = 1 := ⟨1 / m, div_mul_cancel₀ _ hmp.ne'⟩
  have a0 : 1 / 2 < a := by by_contra h; push Not at h; nlinarith
  have a1 : a < 994 / 1000 := by by_contra h; push Not at h; nlinarith
  refine ⟨⟨1 / 5 + 4 / 5 * a, 1⟩, ⟨1, 9 / 5 - 4 / 5 * m⟩, ray_two quickstart_ceiling quickstart_right
    ((reflects_horizontal (by norm_num) _ _ _).mpr ⟨rfl, by norm_num [quickstartTx], m - 1, by linarith, ?_, ?_⟩) (on_ceiling rfl (by simp only; linarith) (by simp only; linarith))
    ((reflects_vertical (by norm_num) _ _ _).mpr ⟨rfl, ?_, (1 - x) / (4 / 5 - 4 / 5 * a), div_pos (by norm_num at x1; linarith) (by linarith), ?_, ?_⟩)
    (on_right rfl (by simp only; linarith) (by simp only; linarith))
    (leg_clear _ _ _ (.inr ⟨?_, ?_⟩) (.inr ⟨?_, ?_⟩) (.inl (by simp)) (.inr ⟨?_, ?_⟩) (.inr fun t e => .inr ?_))
    (leg_clear _ _ _ (.inr ⟨?_, ?_⟩) (.inl (by simp)) (.inl (by simp)) (.inr ⟨?_, ?_⟩) (.inr fun t e => .inr ?_))
    (last_leg rfl (by norm_num; linarith) (by norm_num; linarith) x0 x1 y0 y1)⟩
  · simp only [quickstartTx]; linear_combination -(4 / 5) * ha
  · simp only [quickstartTx]; ring
  · simp only; intro h; linarith
  · have : (4 / 5 - 4 / 5 * a) ≠ 0 := by linarith
    simp only
    rw [eq_comm, div_mul_eq_mul_div (1 - x), div_eq_iff this]
    linear_combination (4 / 5 - 4 / 5 * a) * hm - (4 / 5) * (1 - x) * ha
  · have : (4 / 5 - 4 / 5 * a) ≠ 0 := by linarith
    simp only
    rw [eq_comm, div_mul_eq_mul_div (1 - x), div_eq_iff this]
    ring
  all_goals simp only [quickstartTx] at *
  all_goals norm_num
  any_goals linarith
  · have : 75 / 100 < t * (994 / 1000) := by nlinarith
    linarith
  · have h1 : t * (4 / 5 * m - 4 / 5) = 3 / 5 * m - 4 / 5 := by linear_combination m * e - (4 / 5) * (1 - t) * ha
    linarith

/-- A reflection on the floor, then one on the right wall. -/
theorem floor_right_ray {x y m : ℝ} (x0 : 0.81 ≤ x) (x1 : x ≤ 0.99) (y0 : 0.1 ≤ y) (y1 : y ≤ 0.9) (hm : y + 0.2 = m * (1.8 - x)) (m0 : 0.41 ≤ m) (m1 : m ≤ 0.66) :
    ∃ p q, RayPath quickstartWalls 0 quickstartTx ⟨x, y⟩ [(0 : ℕ), (1 : ℕ)] [quickstartTx, p, q, ⟨x, y⟩] := by
  norm_num at m0 m1 hm
  have hmp : 0 < m := by linarith
  obtain ⟨a, ha⟩ : ∃ a, a * m = 1 := ⟨1 / m, div_mul_cancel₀ _ hmp.ne'⟩
  have a0 : 3 / 2 < a := by by_contra h; push Not at h; nlinarith
  have a1 : a < 5 / 2 := by by_contra h; push Not at h; nlinarith
  refine ⟨⟨1 / 5 + 1 / 5 * a, 0⟩, ⟨1, 4 / 5 * m - 1 / 5⟩, ray_two quickstart_floor quickstart_right
    ((reflects_horizontal (by norm_num) _ _ _).mpr ⟨rfl, by norm_num [quickstartTx], 4 * m - 1, by linarith, ?_, ?_⟩) (on_floor rfl (by simp only; linarith) (by simp only; linarith))
    ((reflects_vertical (by norm_num) _ _ _).mpr ⟨rfl, ?_, (1 - x) / (4 / 5 - 1 / 5 * a), div_pos (by norm_num at x1; linarith) (by linarith), ?_, ?_⟩)
    (on_right rfl (by simp only; linarith) (by simp only; linarith))
    (leg_clear _ _ _ (.inl (by simp)) (.inr ⟨?_, ?_⟩) (.inr ⟨?_, ?_⟩) (.inr ⟨?_, ?_⟩) (.inr fun t e => .inl ?_))
    (leg_clear _ _ _ (.inl (by simp)) (.inl (by simp)) (.inr ⟨?_, ?_⟩) (.inr ⟨?_, ?_⟩) (.inr fun t e => .inl ?_))
    (last_leg rfl (by norm_num; linarith) (by norm_num; linarith) x0 x1 y0 y1)⟩
  · simp only [quickstartTx]; linear_combination -(4 / 5) * ha
  · simp only [quickstartTx]; ring
  · simp only; intro h; linarith
  · have : (4 / 5 - 1 / 5 * a) ≠ 0 := by linarith
    simp only
    rw [eq_comm, div_mul_eq_mul_div (1 - x), div_eq_iff this]
    linear_combination (-(4 / 5 - 1 / 5 * a)) * hm + (1 / 5) * (1 - x) * ha
  · have : (4 / 5 - 1 / 5 * a) ≠ 0 := by linarith
    simp only
    rw [eq_comm, div_mul_eq_mul_div (1 - x), div_eq_iff this]
    ring
  all_goals simp only [quickstartTx] at *
  all_goals norm_num
  any_goals linarith
  · have : 75 / 100 < t * (5 / 2) := by nlinarith
    linarith
  · have h1 : t * (4 / 5 * m - 1 / 5) = 3 / 5 * m - 1 / 5 := by linear_combination m * e - (1 / 5) * (1 - t) * ha
    linarith

/-- A reflection on the ceiling, then one on the floor. -/
theorem ceiling_floor_ray {x y m : ℝ} (x0 : 0.81 ≤ x) (x1 : x ≤ 0.99) (y0 : 0.1 ≤ y) (y1 : y ≤ 0.9) (hm : 1.8 + y = m * (x - 0.2)) (m0 : 2.68 ≤ m) (m1 : m ≤ 3.3) :
    ∃ p q, RayPath quickstartWalls 0 quickstartTx ⟨x, y⟩ [(2 : ℕ), (0 : ℕ)] [quickstartTx, p, q, ⟨x, y⟩] := by
  norm_num at m0 m1 hm
  have hmp : 0 < m := by linarith
  obtain ⟨a, ha⟩ : ∃ a, a * m = 1 := ⟨1 / m, div_mul_cancel₀ _ hmp.ne'⟩
  have a0 : 3 / 10 < a := by by_contra h; push Not at h; nlinarith
  have a1 : a < 3 / 8 := by by_contra h; push Not at h; nlinarith
  have hay : x - 1 / 5 - 9 / 5 * a = a * y := by linear_combination -a * hm - (x - 1 / 5) * ha
  refine ⟨⟨1 / 5 + 4 / 5 * a, 1⟩, ⟨1 / 5 + 9 / 5 * a, 0⟩, ray_two quickstart_ceiling quickstart_floor
    ((reflects_horizontal (by norm_num) _ _ _).mpr ⟨rfl, by norm_num [quickstartTx], 5 / 4, by norm_num, ?_, ?_⟩) (on_ceiling rfl (by simp only; linarith) (by simp only; linarith))
    ((reflects_horizontal (by norm_num) _ _ _).mpr ⟨rfl, by norm_num, y, by norm_num at y0; linarith, ?_, ?_⟩)
    (on_floor rfl (by simp only; linarith) (by simp only; linarith))
    (leg_clear _ _ _ (.inr ⟨?_, ?_⟩) (.inr ⟨?_, ?_⟩) (.inl (by simp)) (.inr ⟨?_, ?_⟩) (.inr fun t e => .inr ?_))
    (leg_clear _ _ _ (.inl (by simp)) (.inr ⟨?_, ?_⟩) (.inl (by simp)) (.inr ⟨?_, ?_⟩) (.inr fun t e => .inl ?_))
    (leg_clear _ _ _ (.inl (by simp)) (.inr ⟨?_, ?_⟩) (.inr ⟨?_, ?_⟩) (.inr ⟨?_, ?_⟩) (.inr fun t e => .inl ?_))⟩
  all_goals simp only [quickstartTx] at *
  all_goals norm_num at *
  any_goals linarith
  · have : 75 / 100 < t * (4 / 5) := by nlinarith
    linarith
  · have h1 : t = 3 / 5 * m - 4 / 5 := by linear_combination m * e - (4 / 5 + t) * ha
    linarith
  · have h1 : t * y = 3 / 5 * m - 9 / 5 := by linear_combination m * e - (9 / 5 + t * y) * ha - t * m * hay
    nlinarith

/-- **C148.** In the shadow there is always a path with two reflections. -/
theorem C148_second {r : Pt} (h : InShadow r) (x0 : 0.81 ≤ r.x) (x1 : r.x ≤ 0.99) :
    ∃ (a b : ℕ) (p q : Pt), a < 5 ∧ b < 5 ∧ a ≠ b ∧ RayPath quickstartWalls 0 quickstartTx r [(a : ℤ), (b : ℤ)] [quickstartTx, p, q, r] := by
  obtain ⟨x, y⟩ := r
  obtain ⟨-, -, h2, h3⟩ := h
  simp only at x0 x1 h2 h3
  have x0' := x0
  have x1' := x1
  norm_num at x0 x1
  have y0 : (0.1 : ℝ) ≤ y := by norm_num; linarith
  have y1 : y ≤ (0.9 : ℝ) := by norm_num; linarith
  have hd : 0 < 9 / 5 - x := by linarith
  by_cases hA : (5 * x - 3.6) / 3 + 0.01 ≤ y
  · norm_num at hA
    obtain ⟨m, hm⟩ : ∃ m, m * (9 / 5 - x) = 9 / 5 - y := ⟨(9 / 5 - y) / (9 / 5 - x), div_mul_cancel₀ _ hd.ne'⟩
    obtain ⟨p, q, hr⟩ := ceiling_right_ray x0' x1' y0 y1 (m := m) (by norm_num; linarith) (by norm_num; by_contra hc; push Not at hc; nlinarith)
      (by norm_num; by_contra hc; push Not at hc; nlinarith)
    exact ⟨2, 1, p, q, by norm_num, by norm_num, by norm_num, hr⟩
  by_cases hB : y ≤ 1 - 2 * x / 3 - 0.01
  · norm_num at hB
    obtain ⟨m, hm⟩ : ∃ m, m * (9 / 5 - x) = y + 1 / 5 := ⟨(y + 1 / 5) / (9 / 5 - x), div_mul_cancel₀ _ hd.ne'⟩
    obtain ⟨p, q, hr⟩ := floor_right_ray x0' x1' y0 y1 (m := m) (by norm_num; linarith) (by norm_num; by_contra hc; push Not at hc; nlinarith)
      (by norm_num; by_contra hc; push Not at hc; nlinarith)
    exact ⟨0, 1, p, q, by norm_num, by norm_num, by norm_num, hr⟩
  · norm_num at hA hB
    have hd : 0 < x - 1 / 5 := by linarith
    obtain ⟨m, hm⟩ : ∃ m, m * (x - 1 / 5) = 9 / 5 + y := ⟨(9 / 5 + y) / (x - 1 / 5), div_mul_cancel₀ _ hd.ne'⟩
    obtain ⟨p, q, hr⟩ := ceiling_floor_ray x0' x1' y0 y1 (m := m) (by norm_num; linarith) (by norm_num; by_contra hc; push Not at hc; nlinarith)
      (by norm_num; by_contra hc; push Not at hc; nlinarith)
    exact ⟨2, 0, p, q, by norm_num, by norm_num, by norm_num, hr⟩

theorem quickstartScene_walls : quickstartScene = wallScene [("tx", quickstartTx)] [("rx", ⟨1 / 2, 3 / 5⟩)] quickstartWalls := by
  have e2 : (⟨0.2, 0.2⟩ : V2 F) = V2.fin quickstartTx := by
    simp only [V2.fin, quickstartTx, F.ofScientific_eq]; norm_num
  have e3 : (⟨0.5, 0.6⟩ : V2 F) = V2.fin ⟨1 / 2, 3 / 5⟩ := by
    simp only [V2.fin, F.ofScientific_eq]; norm_num
  have e4 : Scene.segment 0.8 0.2 0.8 0.8 = (Shape.wall ⟨4 / 5, 1 / 5⟩ ⟨4 / 5, 4 / 5⟩).obj := by
    rw [← segment_fin]; simp only [F.ofScientific_eq]; norm_num
  unfold quickstartScene
  rw [e2, e3, squareScene_walls, e4]
  simp [Scene.addObjects, Scene.withObjects, wallScene, sceneOf, Scene.make, quickstartWalls]

theorem quickstart_off {w : Pt × Pt} (hw : w ∈ quickstartWalls) : w.1 ≠ w.2 ∧ ¬OnLine w.1 w.2 quickstartTx := by
  simp only [quickstartWalls, roomWalls, List.cons_append, List.nil_append, List.mem_cons, List.not_mem_nil, or_false] at hw
  rcases hw with rfl | rfl | rfl | rfl | rfl <;>
    refine ⟨fun h => ?_, fun ⟨s, h⟩ => ?_⟩ <;> simp [quickstartTx, pointAt] at h <;> norm_num at h

/-- The power at a receiver: the sum over the rays. -/
theorem quickstart_power {Key : Type} (G : GraphLib) (hG : GraphContract G) (r : Pt) (n : ℤ) (hn : 0 ≤ n) (split : Key → ℕ → List Key) (key : Option Key)
    (E : Env) (ap : Option Bool) (hh : Hard E ap) (kw : ActKw) (coef height : ℝ) (hc : 0 < coef) (hht : 0 < height) :
    ∃ P : ℝ, (wallScene [("tx", quickstartTx)] [("rx", r)] quickstartWalls).accumulateOverPaths G split (imageMethod Key) { minOrder := 0, maxOrder := n }
        ⟨E, F.fin (1 / 100), F.fin 0, ap, kw⟩ key (powerFun E coef height) = .ok [("tx", "rx", F.fin P)] ∧ 0 ≤ P ∧
      (0 < P ↔ ∃ c pts, IsCandidate 5 c ∧ (c.length : ℤ) ≤ n ∧ RayPath quickstartWalls 0 quickstartTx r c pts) := by
  obtain ⟨rays, len, hm, -, h⟩ := C81_power G hG [("tx", quickstartTx)] [("rx", r)] (by simp [Distinct]) (by simp [Distinct]) quickstartWalls
    (fun w hw => (quickstart_off hw).1) 0 n le_rfl ⟨[], by simp [IsCandidate], le_rfl, by simpa using hn⟩ split key E ap hh kw (1 / 100) 0 (by norm_num) (by norm_num)
    (by norm_num) coef height hht (fun t ht r _ w hw ho => by
      simp only [List.mem_singleton] at ht
      subst ht
      exact absurd ho (quickstart_off hw).2)
  have hm' := hm _ (List.mem_singleton_self _) _ (List.mem_singleton_self _)
  have hpos : ∀ ray ∈ rays quickstartTx r, 0 < coef ^ ray.1.length / (height ^ 2 + len ray.2 ^ 2) := fun ray _ => by positivity
  refine ⟨_, h, Finset.sum_nonneg fun ray hr => (hpos ray hr).le, fun hP => ?_, ?_⟩
  · obtain ⟨⟨c, pts⟩, hr, -⟩ := Finset.exists_ne_zero_of_sum_ne_zero hP.ne'
    obtain ⟨⟨h1, -, h2⟩, h3⟩ := (hm' c pts).mp hr
    exact ⟨c, pts, h1, h2, h3⟩
  · rintro ⟨c, pts, h1, h2, h3⟩
    exact Finset.sum_pos hpos ⟨(c, pts), (hm' c pts).mpr ⟨⟨h1, by positivity, h2⟩, h3⟩⟩

/-- **C148.** The power maps of the quickstart, on any grid: the cells in the shadow are exactly zero with at most one reflection and positive with two;
the cells on the left of the added wall and those below and above the shadow are positive with one reflection. -/
theorem C148_map {Key : Type} (G : GraphLib) (hG : GraphContract G) (n : ℤ) (hn : 0 ≤ n) (split : Key → ℕ → List Key) (hsp : SplitCount split)
    (key : Option Key) (E : Env) (ap : Option Bool) (hh : Hard E ap) (kw : ActKw) (coef height : ℝ) (hc : 0 < coef) (hht : 0 < height)
    (gradOp : (V2 F → F) → V2 F → V2 F) (X Y : Scene.Grid F) (hsh : gridShape X = gridShape Y)
    (hX : ∀ a b v, gridAt X a b = some v → ∃ x, v = F.fin x) (hY : ∀ a b v, gridAt Y a b = some v → ∃ y, v = F.fin y) :
    ∃ Z : Scene.Grid F, quickstartScene.accumulateOnReceiversGridAll G split (imageMethod Key) { minOrder := 0, maxOrder := n }
        ⟨E, F.fin (1 / 100), F.fin 0, ap, kw⟩ key gradOp false false (powerFun E coef height) X Y = .ok (some Z, none) ∧ gridShape Z = gridShape X ∧
      ∀ (a b : ℕ) (r : Pt), gridAt X a b = some (F.fin r.x) → gridAt Y a b = some (F.fin r.y) → ∃ P : ℝ, gridAt Z a b = some (F.fin P) ∧
        (InShadow r → n ≤ 1 → P = 0) ∧
        (InShadow r → 0.81 ≤ r.x → r.x ≤ 0.99 → 2 ≤ n → 0 < P) ∧
        (Lit r → 1 ≤ n → 0 < P) := by
  obtain ⟨cs, hcs, -, hcm, -⟩ := C53_sound_complete G hG quickstartScene 0 n le_rfl
  have hne : cs ≠ [] := List.ne_nil_of_mem ((hcm []).mpr ⟨by simp [IsCandidate], le_rfl, by simpa using hn⟩)
  have htx : quickstartScene.transmitters = .fromMapping (finPoints [("tx", quickstartTx)]) := by rw [quickstartScene_walls]; rfl
  have hw : ∀ r : Pt, quickstartScene.withReceivers [("rx", ⟨F.fin r.x, F.fin r.y⟩)] = .ok (wallScene [("tx", quickstartTx)] [("rx", r)] quickstartWalls) := by
    intro r
    rw [quickstartScene_walls]
    unfold Scene.withReceivers Scene.bindKwargs
    rw [if_neg (by simp)]; rfl
  have hk : KeyIndependent (imageMethod Key) := fun _ _ _ _ _ => rfl
  have hd : Distinct (finPoints [("tx", quickstartTx)]) := by simp [Distinct, finPoints]
  have ho : NonNegative { minOrder := 0, maxOrder := n } := by simp [NonNegative]
  obtain ⟨outs, hg⟩ := C60_receivers_total G hG quickstartScene _ hd htx { minOrder := 0, maxOrder := n } ho cs hcs hne split hsp key (imageMethod Key) hk
    ⟨E, F.fin (1 / 100), F.fin 0, ap, kw⟩ (powerFun E coef height) gradOp false false X Y hsh (fun a b u v hu hv => by
      obtain ⟨x, rfl⟩ := hX a b u hu
      obtain ⟨y, rfl⟩ := hY a b v hv
      obtain ⟨P, hP, -⟩ := quickstart_power G hG ⟨x, y⟩ n hn split key E ap hh kw coef height hc hht
      exact ⟨_, key, _, hw ⟨x, y⟩, hP⟩)
  obtain ⟨zs, rfl, e2, e3, -, e5⟩ := C60_receivers G hG quickstartScene _ hd htx { minOrder := 0, maxOrder := n } ho cs hcs hne split hsp key (imageMethod Key) hk
    ⟨E, F.fin (1 / 100), F.fin 0, ap, kw⟩ (powerFun E coef height) gradOp X Y outs hg
  obtain ⟨z, rfl⟩ := List.length_eq_one_iff.mp (show zs.length = 1 by rw [e2]; rfl)
  obtain ⟨Z, k1, -, k2⟩ := C60_receivers_reduce G quickstartScene _ hd htx { minOrder := 0, maxOrder := n } cs hcs split key (imageMethod Key)
    ⟨E, F.fin (1 / 100), F.fin 0, ap, kw⟩ (powerFun E coef height) gradOp X Y [z] e2 hg
  obtain ⟨z', rfl, k3, k4⟩ := k2 (by simp [finPoints])
  refine ⟨z', k1, k3, fun a b r hx hy => ?_⟩
  obtain ⟨s', hs', hes⟩ := e5 a b _ _ hx hy
  rw [hw r] at hs'
  cases hs'
  obtain ⟨es, he1, he2⟩ := hes key
  obtain ⟨P, hP, P0, hPr⟩ := quickstart_power G hG r n hn split key E ap hh kw coef height hc hht
  rw [hP] at he1
  cases he1
  have hz : gridAt z a b = some (F.fin P) := by simpa [finPoints] using he2.symm
  refine ⟨P, ?_, fun hi hn1 => ?_, fun hi x0 x1 hn2 => hPr.mpr ?_, fun hl hn1 => hPr.mpr ?_⟩
  · rw [k4 a b [F.fin P] (by simp [hz])]
    have := F.sum_fin [P]
    simp only [List.map_cons, List.map_nil, List.sum_cons, List.sum_nil, add_zero] at this
    rw [this]
  · refine le_antisymm (not_lt.mp fun hp => ?_) P0
    obtain ⟨c, pts, h1, h2, h3⟩ := hPr.mp hp
    exact C148_shadow hi c h1 (by exact_mod_cast h2.trans hn1) pts h3
  · obtain ⟨i, j, p, q, hi5, hj5, hij, hray⟩ := C148_second hi x0 x1
    refine ⟨[(i : ℤ), (j : ℤ)], _, ⟨by simp; omega, fun k u v hu hv => ?_⟩, by simpa using hn2, hray⟩
    match k with
    | 0 => simp at hu hv; omega
    | k + 1 => simp at hv
  · have one : ∀ i : ℕ, i < 5 → IsCandidate 5 [(i : ℤ)] := fun i hi => ⟨by simp; omega, fun k u v hu hv => by simp at hv⟩
    rcases hl with ⟨x0, x1, y0, y1⟩ | ⟨x0, x1, y0, y1⟩ | ⟨x0, x1, y0, y1⟩
    · exact ⟨[], _, by simp [IsCandidate], by simpa using hn, sight_ray x0 x1 y0 y1⟩
    · obtain ⟨p, hp⟩ := floor_ray x0 x1 y0 y1
      exact ⟨_, _, one 0 (by norm_num), by simpa using hn1, hp⟩
    · obtain ⟨p, hp⟩ := ceiling_ray x0 x1 y0 y1
      exact ⟨_, _, one 2 (by norm_num), by simpa using hn1, hp⟩

/-- C148 speaks of the middle of the dark region, of the room on its left and of the lit parts below and above. -/
example : InShadow ⟨9 / 10, 1 / 2⟩ ∧ Lit ⟨1 / 2, 1 / 2⟩ ∧ Lit ⟨9 / 10, 1 / 10⟩ ∧ Lit ⟨9 / 10, 9 / 10⟩ := by
  refine ⟨?_, .inl ?_, .inr (.inl ?_), .inr (.inr ?_)⟩ <;> simp only [InShadow] <;> norm_num

end DiffeRT2d.Props
