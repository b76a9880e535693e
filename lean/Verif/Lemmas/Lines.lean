import Verif.Spec.Lines
import Verif.Props.GradSoft

/-! # The image method away from finitely many lines -/

namespace DiffeRT2d.Props
open Spec

theorem side_rot (a b c : Pt) : side a b c = side b c a := by unfold side; ring

theorem side_swap (a b c : Pt) : side b a c = -side a b c := by unfold side; ring

/-- The wall at the head of the list, if any, has no point at `l.1`'s position. -/
def Admissible (ws : List RWall) (L : List (Pt × Pt)) : Prop := ∀ w ∈ ws.head?, ∀ l ∈ L, side w.1 w.2 l.1 ≠ 0

/-- No image of the start is on the line of the next wall. -/
def OffChain (img : Pt) : List RWall → Prop
  | [] => True
  | w :: ws => w.1 ≠ w.2 ∧ side w.1 w.2 img ≠ 0 ∧ OffChain (rimg w.1 w.2 img) ws

/-- Line of a direction, through a point. -/
def through (p : Pt) (d : Pt × Pt) : Pt × Pt := (p, ⟨p.x + (d.2.x - d.1.x), p.y + (d.2.y - d.1.y)⟩)

theorem through_ne (p : Pt) {d : Pt × Pt} (h : d.1 ≠ d.2) : (through p d).1 ≠ (through p d).2 := by
  intro e
  apply h
  have hx := congrArg V2.x e
  have hy := congrArg V2.y e
  simp only [through] at hx hy
  ext <;> linarith

theorem through_side (p q : Pt) (d : Pt × Pt) : side (through p d).1 (through p d).2 q = 0 ↔ Parallel d.1 d.2 p q := by
  unfold side through Parallel
  simp only
  constructor <;> intro e <;> linarith

theorem side_image {w : Pt × Pt} {im p : Pt} (hu : un w.1 w.2 im p ≠ 0) : side im (rback w.1 w.2 im p) p = 0 := by
  have e := rback_image hu
  have hx := congrArg V2.x e
  have hy := congrArg V2.y e
  simp only [V2.sub_x, V2.sub_y, V2.smul_x, V2.smul_y] at hx hy
  unfold side
  rw [hx, hy]
  ring

/-- The points seen from `im` on the wall's line, at the crossing with another line, are on one line. -/
theorem back_line {w l : Pt × Pt} {im : Pt} (hw : w.1 ≠ w.2) (him : side w.1 w.2 im ≠ 0) (hl0 : l.1 ≠ l.2) (hl : side w.1 w.2 l.1 ≠ 0) :
    ∃ s, im ≠ s ∧ ∀ p, un w.1 w.2 im p ≠ 0 → side im s p ≠ 0 → side l.1 l.2 (rback w.1 w.2 im p) ≠ 0 := by
  by_cases hpar : side w.1 w.2 l.1 = side w.1 w.2 l.2
  · refine ⟨(through im w).2, through_ne im hw, fun p hu _ h => ?_⟩
    have hon := rback_side hw hu
    generalize rback w.1 w.2 im p = q at h hon
    apply hl
    have hne : (l.2.x - l.1.x) ^ 2 + (l.2.y - l.1.y) ^ 2 ≠ 0 := by
      intro e
      apply hl0
      have e1 : l.2.x - l.1.x = 0 := by nlinarith [sq_nonneg (l.2.x - l.1.x), sq_nonneg (l.2.y - l.1.y)]
      have e2 : l.2.y - l.1.y = 0 := by nlinarith [sq_nonneg (l.2.x - l.1.x), sq_nonneg (l.2.y - l.1.y)]
      ext <;> linarith
    refine (mul_eq_zero.mp (?_ : ((l.2.x - l.1.x) ^ 2 + (l.2.y - l.1.y) ^ 2) * side w.1 w.2 l.1 = 0)).resolve_left hne
    unfold side at *
    linear_combination ((l.2.x - l.1.x) ^ 2 + (l.2.y - l.1.y) ^ 2) * hon + ((l.2.x - l.1.x) * (q.x - l.1.x) + (l.2.y - l.1.y) * (q.y - l.1.y)) * hpar -
      ((w.2.x - w.1.x) * (l.2.x - l.1.x) + (w.2.y - w.1.y) * (l.2.y - l.1.y)) * h
  · have hd : side w.1 w.2 l.1 - side w.1 w.2 l.2 ≠ 0 := sub_ne_zero.mpr hpar
    set k := side w.1 w.2 l.1 / (side w.1 w.2 l.1 - side w.1 w.2 l.2) with hk
    have hk' : k * (side w.1 w.2 l.1 - side w.1 w.2 l.2) = side w.1 w.2 l.1 := by rw [hk]; field_simp
    refine ⟨⟨l.1.x + k * (l.2.x - l.1.x), l.1.y + k * (l.2.y - l.1.y)⟩, ?_, fun p hu hs h => hs ?_⟩
    · rintro rfl
      apply him
      unfold side at *
      linear_combination -hk'
    · have hon := rback_side hw hu
      have hq : rback w.1 w.2 im p = ⟨l.1.x + k * (l.2.x - l.1.x), l.1.y + k * (l.2.y - l.1.y)⟩ := by
        generalize rback w.1 w.2 im p = q at h hon
        ext
        · refine mul_left_cancel₀ hd ?_
          show _ = _ * (l.1.x + k * (l.2.x - l.1.x))
          unfold side at *
          linear_combination (-(l.2.x - l.1.x)) * hk' - (l.2.x - l.1.x) * hon + (w.2.x - w.1.x) * h
        · refine mul_left_cancel₀ hd ?_
          show _ = _ * (l.1.y + k * (l.2.y - l.1.y))
          unfold side at *
          linear_combination (-(l.2.y - l.1.y)) * hk' - (l.2.y - l.1.y) * hon + (w.2.y - w.1.y) * h
      rw [← hq]
      exact side_image hu

/-- The first point avoids given lines, if the receiver avoids some lines. -/
theorem head_avoid (ws : List RWall) (img : Pt) (hch : OffChain img ws) (L : List (Pt × Pt)) (hL : Lines L) (ha : Admissible ws L) :
    ∃ M, Lines M ∧ ∀ r, OffLines M r → OffLines L ((rpts img r ws).headD r) := by
  induction ws generalizing img L with
  | nil => exact ⟨L, hL, fun r h => h⟩
  | cons w ws ih =>
    obtain ⟨hw, hs, hch⟩ := hch
    set im := rimg w.1 w.2 img with him
    have hs' : side w.1 w.2 im ≠ 0 := by rw [him, side_rimg hw]; exact neg_ne_zero.mpr hs
    have hl : ∀ l : Pt × Pt, ∃ s, l ∈ L → im ≠ s ∧ ∀ p, un w.1 w.2 im p ≠ 0 → side im s p ≠ 0 → side l.1 l.2 (rback w.1 w.2 im p) ≠ 0 := by
      intro l
      by_cases h : l ∈ L
      · obtain ⟨s, h1, h2⟩ := back_line hw hs' (hL l h) (ha w rfl l h)
        exact ⟨s, fun _ => ⟨h1, h2⟩⟩
      · exact ⟨im, fun h' => absurd h' h⟩
    choose s hs1 using hl
    have hadm : Admissible ws (through im w :: L.map fun l => (im, s l)) := by
      intro w' hw' l hl
      have e : l.1 = im := by
        rcases List.mem_cons.mp hl with rfl | hl
        · rfl
        · obtain ⟨l', -, rfl⟩ := List.mem_map.mp hl
          rfl
      rw [e]
      cases ws with
      | nil => simp at hw'
      | cons v ws =>
        simp only [List.head?_cons, Option.mem_def, Option.some.injEq] at hw'
        subst hw'
        exact hch.2.1
    obtain ⟨M, hM, h⟩ := ih im hch (through im w :: L.map fun l => (im, s l)) (by
      intro l hl
      rcases List.mem_cons.mp hl with rfl | hl
      · exact through_ne im hw
      · obtain ⟨l', hl', rfl⟩ := List.mem_map.mp hl
        exact (hs1 l' hl').1) hadm
    refine ⟨M, hM, fun r hr l hl => ?_⟩
    have h1 := h r hr
    simp only [rpts, List.headD_cons, ← him]
    refine (hs1 l hl).2 _ ?_ (h1 (im, s l) (List.mem_cons_of_mem _ (List.mem_map.mpr ⟨l, hl, rfl⟩)))
    rw [ne_eq, un_parallel, ← through_side]
    exact h1 _ List.mem_cons_self

/-- No step from an image to the following point is parallel to the directions `D`. -/
def GoodSteps (D : List (Pt × Pt)) (img r : Pt) : List RWall → Prop
  | [] => ∀ d ∈ D, ¬ Parallel d.1 d.2 img r
  | w :: ws => (∀ d ∈ D, ¬ Parallel d.1 d.2 img ((rpts img r (w :: ws)).headD r)) ∧ GoodSteps D (rimg w.1 w.2 img) r ws

theorem lines_append {L M : List (Pt × Pt)} (h : Lines L) (h' : Lines M) : Lines (L ++ M) := fun l hl =>
  (List.mem_append.mp hl).elim (h l) (h' l)

theorem offLines_append {L M : List (Pt × Pt)} {p : Pt} : OffLines (L ++ M) p ↔ OffLines L p ∧ OffLines M p := by
  simp only [OffLines, List.mem_append]
  exact ⟨fun h => ⟨fun l hl => h l (.inl hl), fun l hl => h l (.inr hl)⟩, fun h l hl => hl.elim (h.1 l) (h.2 l)⟩

theorem goodSteps_exist (D : List (Pt × Pt)) (hD : Lines D) (ws : List RWall) (img : Pt) (hch : OffChain img ws) :
    ∃ M, Lines M ∧ ∀ r, OffLines M r → GoodSteps D img r ws := by
  have hL : Lines (D.map (through img)) := by
    intro l hl
    obtain ⟨d, hd, rfl⟩ := List.mem_map.mp hl
    exact through_ne img (hD d hd)
  have hd : ∀ p, OffLines (D.map (through img)) p → ∀ d ∈ D, ¬ Parallel d.1 d.2 img p := by
    intro p h d hd
    rw [← through_side]
    exact h _ (List.mem_map.mpr ⟨d, hd, rfl⟩)
  induction ws generalizing img with
  | nil => exact ⟨_, hL, fun r hr => hd r hr⟩
  | cons w ws ih =>
    obtain ⟨M1, h1, h2⟩ := head_avoid (w :: ws) img hch (D.map (through img)) hL (by
      intro w' hw' l hl
      obtain ⟨d, -, rfl⟩ := List.mem_map.mp hl
      simp only [List.head?_cons, Option.mem_def, Option.some.injEq] at hw'
      subst hw'
      exact hch.2.1)
    obtain ⟨M2, h3, h4⟩ := ih (rimg w.1 w.2 img) hch.2.2 (by
      intro l hl
      obtain ⟨d, hd, rfl⟩ := List.mem_map.mp hl
      exact through_ne _ (hD d hd)) (by
      intro p h d hd
      rw [← through_side]
      exact h _ (List.mem_map.mpr ⟨d, hd, rfl⟩))
    refine ⟨M1 ++ M2, lines_append h1 h3, fun r hr => ?_⟩
    obtain ⟨ha, hb⟩ := offLines_append.mp hr
    exact ⟨hd _ (h2 r ha), h4 r hb⟩

/-- No point is on the line of the wall of the previous point. -/
def NoLinger (img r : Pt) : List RWall → Prop
  | [] => True
  | w :: ws => side w.1 w.2 ((rpts (rimg w.1 w.2 img) r ws).headD r) ≠ 0 ∧ NoLinger (rimg w.1 w.2 img) r ws

theorem noLinger_exist (ws : List RWall) (img : Pt) (hch : OffChain img ws)
    (hc : ∀ (i : ℕ) w w', ws[i]? = some w → ws[i + 1]? = some w' → ¬ Collinear w' w) :
    ∃ M, Lines M ∧ ∀ r, OffLines M r → NoLinger img r ws := by
  induction ws generalizing img with
  | nil => exact ⟨[], by simp [Lines], fun r _ => trivial⟩
  | cons w ws ih =>
    obtain ⟨M2, h3, h4⟩ := ih (rimg w.1 w.2 img) hch.2.2 fun i w w' h h' => hc (i + 1) w w' h h'
    have key : ∃ l : Pt × Pt, l.1 ≠ l.2 ∧ Admissible ws [l] ∧ ∀ p, side l.1 l.2 p ≠ 0 → side w.1 w.2 p ≠ 0 := by
      cases ws with
      | nil => exact ⟨w, hch.1, by simp [Admissible], fun p h => h⟩
      | cons v ws =>
        have hv := hc 0 w v rfl rfl
        by_cases h1 : side v.1 v.2 w.1 = 0
        · refine ⟨(w.2, w.1), hch.1.symm, ?_, fun p h => ?_⟩
          · simp only [Admissible, List.head?_cons, Option.mem_def, Option.some.injEq, List.mem_singleton, forall_eq', forall_eq]
            exact fun h2 => hv ⟨h1, h2⟩
          · intro h2
            rw [side_swap, h2] at h
            simp at h
        · refine ⟨w, hch.1, ?_, fun p h => h⟩
          simp only [Admissible, List.head?_cons, Option.mem_def, Option.some.injEq, List.mem_singleton, forall_eq', forall_eq]
          exact h1
    obtain ⟨l, hl1, hl2, hl3⟩ := key
    obtain ⟨M1, h1, h2⟩ := head_avoid ws (rimg w.1 w.2 img) hch.2.2 [l] (by simpa [Lines] using hl1) hl2
    refine ⟨M1 ++ M2, lines_append h1 h3, fun r hr => ?_⟩
    obtain ⟨ha, hb⟩ := offLines_append.mp hr
    exact ⟨hl3 _ (h2 r ha l (by simp)), h4 r hb⟩

/-! ### The start -/

theorem rimg_rimg (o d p : Pt) : rimg o d (rimg o d p) = p := by
  rcases rn_sq_cases o d with hs | h0
  · ext <;> simp only [rimg, dp, V2.sub_x, V2.sub_y] at *
    · linear_combination (4 * ((p.x - o.x) * (rn o d).x + (p.y - o.y) * (rn o d).y) * (rn o d).x) * hs
    · linear_combination (4 * ((p.x - o.x) * (rn o d).x + (p.y - o.y) * (rn o d).y) * (rn o d).y) * hs
  · ext <;> simp [rimg, h0]

theorem side_rimgs (o d a b c : Pt) (h : o ≠ d) : side (rimg o d a) (rimg o d b) (rimg o d c) = -side a b c := by
  have hs := rn_sq h
  simp only [side, rimg, dp, V2.sub_x, V2.sub_y] at *
  linear_combination (-2 * ((b.x - a.x) * (c.y - a.y) - (b.y - a.y) * (c.x - a.x))) * hs

theorem offChain_exist (ws : List RWall) (hw : ∀ w ∈ ws, w.1 ≠ w.2) : ∃ L, Lines L ∧ ∀ t, OffLines L t → OffChain t ws := by
  induction ws with
  | nil => exact ⟨[], by simp [Lines], fun t _ => trivial⟩
  | cons w ws ih =>
    obtain ⟨L, hL, h⟩ := ih fun v hv => hw v (List.mem_cons_of_mem _ hv)
    have hne := hw w List.mem_cons_self
    refine ⟨w :: L.map fun l => (rimg w.1 w.2 l.1, rimg w.1 w.2 l.2), ?_, fun t ht => ⟨hne, ht _ List.mem_cons_self, h _ fun l hl => ?_⟩⟩
    · intro l hl
      rcases List.mem_cons.mp hl with rfl | hl
      · exact hne
      · obtain ⟨l', hl', rfl⟩ := List.mem_map.mp hl
        intro e
        apply hL l' hl'
        have := congrArg (rimg w.1 w.2) e
        rwa [rimg_rimg, rimg_rimg] at this
    · have := ht _ (List.mem_cons_of_mem _ (List.mem_map.mpr ⟨l, hl, rfl⟩))
      intro e
      apply this
      have h2 := side_rimgs w.1 w.2 (rimg w.1 w.2 l.1) (rimg w.1 w.2 l.2) t hne
      simp only [rimg_rimg] at h2
      rw [e] at h2
      simpa using h2

/-! ### Consequences -/

theorem goodSteps_head {D : List (Pt × Pt)} {img r : Pt} {ws : List RWall} (h : GoodSteps D img r ws) :
    ∀ d ∈ D, ¬ Parallel d.1 d.2 img ((rpts img r ws).headD r) := by
  cases ws with
  | nil => exact h
  | cons w ws => exact h.1

theorem goodSteps_unguarded {D : List (Pt × Pt)} {img r : Pt} {ws : List RWall} (hD : ∀ w ∈ ws, w ∈ D) (h : GoodSteps D img r ws) :
    Unguarded img r ws := by
  induction ws generalizing img with
  | nil => trivial
  | cons w ws ih =>
    refine ⟨?_, ih (fun v hv => hD v (List.mem_cons_of_mem _ hv)) h.2⟩
    rw [ne_eq, un_parallel]
    exact goodSteps_head h.2 w (hD w List.mem_cons_self)

theorem step_cases {p q : Pt} {l : List Pt} {r : Pt} {i : ℕ} {a b : Pt} (h : (p :: q :: l ++ [r])[i]? = some a) (h' : (p :: q :: l ++ [r])[i + 1]? = some b) :
    (a = p ∧ b = q) ∨ ∃ j, (q :: l ++ [r])[j]? = some a ∧ (q :: l ++ [r])[j + 1]? = some b := by
  cases i with
  | zero =>
    left
    simp at h h'
    exact ⟨h.symm, h'.symm⟩
  | succ i => exact .inr ⟨i, by simpa using h, by simpa using h'⟩

theorem steps_of_good {D : List (Pt × Pt)} (ws : List RWall) (img r prev : Pt) (m : ℝ)
    (hprev : (rpts img r ws).headD r - prev = V2.smul m ((rpts img r ws).headD r - img)) (hg : GoodSteps D img r ws)
    (i : ℕ) (a b : Pt) (ha : (prev :: rpts img r ws ++ [r])[i]? = some a) (hb : (prev :: rpts img r ws ++ [r])[i + 1]? = some b) :
    ∃ c k, b - a = V2.smul k (b - c) ∧ ∀ d ∈ D, ¬ Parallel d.1 d.2 c b := by
  induction ws generalizing img prev m i with
  | nil =>
    simp only [rpts, List.headD_nil] at *
    cases i with
    | zero =>
      simp at ha hb
      subst ha hb
      exact ⟨img, m, hprev, hg⟩
    | succ i => simp at hb
  | cons w ws ih =>
    simp only [rpts, List.headD_cons] at hprev ha hb
    rcases step_cases ha hb with ⟨rfl, rfl⟩ | ⟨j, ha, hb⟩
    · exact ⟨img, m, hprev, goodSteps_head hg⟩
    · obtain ⟨k, hk⟩ := rback_param w.1 w.2 (rimg w.1 w.2 img) ((rpts (rimg w.1 w.2 img) r ws).headD r)
      exact ih _ _ k hk hg.2 j ha hb

theorem steps_offGuard {eps : ℝ} (he : eps ≠ 0) {pts : List Pt} {D : List (Pt × Pt)} (hD : (⟨0, 0⟩, ⟨1, 1⟩) ∈ D)
    (h : ∀ (i : ℕ) (a b : Pt), pts[i]? = some a → pts[i + 1]? = some b → ∃ c k, b - a = V2.smul k (b - c) ∧ ∀ d ∈ D, ¬ Parallel d.1 d.2 c b) : OffGuard eps pts := by
  intro i a b ha hb e
  obtain ⟨c, k, h1, h2⟩ := h i a b ha hb
  apply h2 _ hD
  have hx := congrArg V2.x h1
  have hy := congrArg V2.y h1
  have ex := congrArg V2.x e
  have ey := congrArg V2.y e
  simp only [V2.sub_x, V2.sub_y, V2.smul_x, V2.smul_y] at hx hy ex ey
  have hk : k ≠ 0 := by
    rintro rfl
    apply he
    linarith
  have : k * ((b.y - c.y) - (b.x - c.x)) = 0 := by linarith
  have := (mul_eq_zero.mp this).resolve_left hk
  simp only [Parallel]
  linarith

theorem steps_across {pts : List Pt} {D : List (Pt × Pt)} (hp : NoPause pts)
    (h : ∀ (i : ℕ) (a b : Pt), pts[i]? = some a → pts[i + 1]? = some b → ∃ c k, b - a = V2.smul k (b - c) ∧ ∀ d ∈ D, ¬ Parallel d.1 d.2 c b)
    {d : Pt × Pt} (hd : d ∈ D) {i : ℕ} {a b : Pt} (ha : pts[i]? = some a) (hb : pts[i + 1]? = some b) : ¬ Parallel d.1 d.2 a b := by
  intro e
  obtain ⟨c, k, h1, h2⟩ := h i a b ha hb
  apply h2 d hd
  have hx := congrArg V2.x h1
  have hy := congrArg V2.y h1
  simp only [V2.sub_x, V2.sub_y, V2.smul_x, V2.smul_y] at hx hy
  have hk : k ≠ 0 := by
    rintro rfl
    apply hp i a b ha hb
    ext <;> linarith
  unfold Parallel at *
  refine mul_left_cancel₀ hk ?_
  rw [hx, hy] at e
  linarith

theorem noPause_of (ws : List RWall) (img r prev : Pt) (hw : ∀ w ∈ ws, w.1 ≠ w.2) (hprev : prev ≠ (rpts img r ws).headD r) (hu : Unguarded img r ws) (hl : NoLinger img r ws) :
    NoPause (prev :: rpts img r ws ++ [r]) := by
  induction ws generalizing img prev with
  | nil =>
    intro i a b ha hb
    cases i with
    | zero =>
      simp [rpts] at ha hb hprev
      subst ha hb
      exact hprev
    | succ i => simp [rpts] at hb
  | cons w ws ih =>
    intro i a b ha hb
    simp only [rpts, List.headD_cons] at hprev ha hb
    rcases step_cases ha hb with ⟨rfl, rfl⟩ | ⟨j, ha, hb⟩
    · exact hprev
    · refine ih (rimg w.1 w.2 img) _ (fun v hv => hw v (List.mem_cons_of_mem _ hv)) ?_ hu.2 hl.2 j a b ha hb
      intro e
      have h1 := rback_side (hw w List.mem_cons_self) hu.1
      rw [e] at h1
      exact hl.1 h1

/-- Outside of finitely many lines, every path of a list of candidates is in good position. -/
theorem good_positions {eps : ℝ} (he : eps ≠ 0) (walls : List (Pt × Pt)) (hw : ∀ w ∈ walls, w.1 ≠ w.2) (t : Pt) (cs : List (List (Pt × Pt)))
    (hcs : ∀ ws ∈ cs, (∀ w ∈ ws, w ∈ walls) ∧ OffChain t ws) :
    ∃ M, Lines M ∧ ∀ r, OffLines M r → ∀ ws ∈ cs, Unguarded t r ws ∧ OffGuard eps (rpath t r ws) ∧
      (NoPause (rpath t r ws) → ∀ w ∈ walls, ∀ (i : ℕ) (a b : Pt), (rpath t r ws)[i]? = some a → (rpath t r ws)[i + 1]? = some b → ¬ Parallel w.1 w.2 a b) := by
  induction cs with
  | nil => exact ⟨[], by simp [Lines], by simp⟩
  | cons ws cs ih =>
    obtain ⟨M, hM, h⟩ := ih fun v hv => hcs v (List.mem_cons_of_mem _ hv)
    obtain ⟨hc1, hc2⟩ := hcs ws List.mem_cons_self
    obtain ⟨M', hM', h'⟩ := goodSteps_exist ((⟨0, 0⟩, ⟨1, 1⟩) :: walls) (by
      intro l hl
      rcases List.mem_cons.mp hl with rfl | hl
      · simp
      · exact hw l hl) ws t hc2
    refine ⟨M ++ M', lines_append hM hM', fun r hr v hv => ?_⟩
    obtain ⟨h1, h2⟩ := offLines_append.mp hr
    rcases List.mem_cons.mp hv with rfl | hv
    · have hg := h' r h2
      have hs := steps_of_good v t r t 1 (rpath_first t r v) hg
      exact ⟨goodSteps_unguarded (fun w hw => List.mem_cons_of_mem _ (hc1 w hw)) hg, steps_offGuard he List.mem_cons_self hs,
        fun hp w hw i a b ha hb => steps_across hp hs (List.mem_cons_of_mem _ hw) ha hb⟩
    · exact h r h1 v hv

/-- The same for pauses. -/
theorem moving_positions (t : Pt) (cs : List (List (Pt × Pt))) (hcs : ∀ ws ∈ cs, OffChain t ws)
    (hc : ∀ ws ∈ cs, ∀ (i : ℕ) w w', ws[i]? = some w → ws[i + 1]? = some w' → ¬ Collinear w' w) :
    ∃ M, Lines M ∧ ∀ r, OffLines M r → ∀ ws ∈ cs, Unguarded t r ws → NoPause (rpath t r ws) := by
  induction cs with
  | nil => exact ⟨[], by simp [Lines], by simp⟩
  | cons ws cs ih =>
    obtain ⟨M, hM, h⟩ := ih (fun v hv => hcs v (List.mem_cons_of_mem _ hv)) fun v hv => hc v (List.mem_cons_of_mem _ hv)
    have hch := hcs ws List.mem_cons_self
    obtain ⟨M', hM', h'⟩ := noLinger_exist ws t hch (hc ws List.mem_cons_self)
    refine ⟨through t (⟨0, 0⟩, ⟨1, 1⟩) :: M ++ M', lines_append (fun l hl => ?_) hM', fun r hr v hv hu => ?_⟩
    · rcases List.mem_cons.mp hl with rfl | hl
      · exact through_ne t (by simp)
      · exact hM l hl
    obtain ⟨h0, h2⟩ := offLines_append.mp hr
    have h1 : OffLines M r := fun l hl => h0 l (List.mem_cons_of_mem _ hl)
    rcases List.mem_cons.mp hv with rfl | hv
    · refine noPause_of v t r t (unguarded_ne hu) ?_ hu (h' r h2)
      cases v with
      | nil =>
        rintro rfl
        apply h0 _ List.mem_cons_self
        rw [through_side]
        simp [rpts, Parallel]
      | cons w v =>
        intro e
        have h1 := rback_side hch.1 hu.1
        simp only [rpts, List.headD_cons] at e
        rw [← e] at h1
        exact hch.2.1 h1
    · exact h r h1 v hv hu

theorem offChains_exist (cs : List (List (Pt × Pt))) (hw : ∀ ws ∈ cs, ∀ w ∈ ws, w.1 ≠ w.2) : ∃ L, Lines L ∧ ∀ t, OffLines L t → ∀ ws ∈ cs, OffChain t ws := by
  induction cs with
  | nil => exact ⟨[], by simp [Lines], by simp⟩
  | cons ws cs ih =>
    obtain ⟨M, hM, h⟩ := ih fun v hv => hw v (List.mem_cons_of_mem _ hv)
    obtain ⟨M', hM', h'⟩ := offChain_exist ws (hw ws List.mem_cons_self)
    refine ⟨M ++ M', lines_append hM hM', fun r hr v hv => ?_⟩
    obtain ⟨h1, h2⟩ := offLines_append.mp hr
    rcases List.mem_cons.mp hv with rfl | hv
    · exact h' r h2
    · exact h r h1 v hv

/-! ### The other way round -/

theorem offChain_prefix {img : Pt} {ws : List RWall} {vs : List RWall} (h : OffChain img (ws ++ vs)) : OffChain img ws := by
  induction ws generalizing img with
  | nil => trivial
  | cons w ws ih => exact ⟨h.1, h.2.1, ih h.2.2⟩

theorem rimg_sub (o d p q : Pt) (k : ℝ) {x : Pt} (h : x - rimg o d q = V2.smul k (p - rimg o d q)) : rimg o d x - q = V2.smul k (rimg o d p - q) := by
  have h2 := rimg_rimg o d q
  generalize rimg o d q = z at h h2
  subst h2
  have hx := congrArg V2.x h
  have hy := congrArg V2.y h
  simp only [V2.sub_x, V2.sub_y, V2.smul_x, V2.smul_y] at hx hy
  ext <;> simp only [rimg, dp, V2.sub_x, V2.sub_y, V2.smul_x, V2.smul_y]
  · linear_combination hx - 2 * (rn o d).x * ((rn o d).x * hx + (rn o d).y * hy)
  · linear_combination hy - 2 * (rn o d).y * ((rn o d).x * hx + (rn o d).y * hy)

theorem unguarded_ray (ws : List RWall) (a p q : Pt) (s : ℝ) (hs : p - rimgs a ws = V2.smul s (q - rimgs a ws)) (h : Unguarded a p ws) : Unguarded a q ws := by
  rcases List.eq_nil_or_concat ws with rfl | ⟨xs, v, rfl⟩
  · trivial
  · rw [List.concat_eq_append] at *
    rw [unguarded_snoc] at h ⊢
    obtain ⟨h1, h2⟩ := rback_ray v.1 v.2 _ _ _ s hs h.1
    exact ⟨h1, by rw [← h2]; exact h.2⟩

theorem unguarded_reverse (ws : List RWall) (t r : Pt) (hw : ∀ w ∈ ws, w.1 ≠ w.2) (h1 : OffChain t ws) (h : Unguarded r t ws.reverse) : Unguarded t r ws := by
  induction ws generalizing t with
  | nil => trivial
  | cons w ws ih =>
    rw [List.reverse_cons, unguarded_snoc] at h
    obtain ⟨hg, hu⟩ := h
    have hon := rback_on hg
    rw [rimgs_append] at hg hu hon
    obtain ⟨hsw, -⟩ := rback_swap w.1 w.2 _ _ hg
    have hq := rimg_sub w.1 w.2 _ _ _ (rback_image hg)
    rw [rimg_fix hon] at hq
    have hu2 : Unguarded (rimg w.1 w.2 t) r ws := ih _ (fun v hv => hw v (List.mem_cons_of_mem _ hv)) h1.2.2 (unguarded_ray _ _ _ _ _ hq hu)
    refine ⟨?_, hu2⟩
    obtain ⟨⟨s, hs⟩, -⟩ := first_on_ray ws _ _ hu2
    cases ws with
    | nil => simpa [rpts, rimgs] using hsw
    | cons v ws =>
      have hs0 : s ≠ 0 := by
        rintro rfl
        have h2 := rback_side (hw v (by simp)) hu2.1
        have h3 : (rpts (rimg w.1 w.2 t) r (v :: ws)).headD r = rimg w.1 w.2 t := by
          have hx := congrArg V2.x hs
          have hy := congrArg V2.y hs
          simp only [V2.sub_x, V2.sub_y, V2.smul_x, V2.smul_y] at hx hy
          ext <;> linarith
        simp only [rpts, List.headD_cons] at h3
        rw [h3] at h2
        exact h1.2.2.2.1 h2
      have e : un w.1 w.2 (rimg w.1 w.2 t) ((rpts (rimg w.1 w.2 t) r (v :: ws)).headD r) = s * un w.1 w.2 (rimg w.1 w.2 t) (rimgs r (v :: ws).reverse) := by
        simp only [un, hs]
        simp [dp]
        ring
      rw [e]
      exact mul_ne_zero hs0 hsw

theorem reverse_step {l : List Pt} {i : ℕ} {a b : Pt} (ha : l.reverse[i]? = some a) (hb : l.reverse[i + 1]? = some b) : ∃ j, l[j]? = some b ∧ l[j + 1]? = some a := by
  have hi : i + 1 < l.length := by
    have := (List.getElem?_eq_some_iff.mp hb).1
    simpa using this
  rw [List.getElem?_reverse (by omega)] at ha hb
  exact ⟨l.length - 1 - (i + 1), hb, by rw [← ha]; congr 1; omega⟩

theorem offGuard_reverse {eps : ℝ} {l : List Pt} (h : OffGuard (-eps) l) : OffGuard eps l.reverse := by
  intro i a b ha hb e
  obtain ⟨j, h1, h2⟩ := reverse_step ha hb
  refine h j b a h1 h2 ?_
  rw [e]
  ext <;> simp

theorem rpath_reverse {ws : List RWall} {t r : Pt} (h1 : OffChain t ws) (h : Unguarded r t ws.reverse) :
    Unguarded t r ws ∧ rpath t r ws = (rpath r t ws.reverse).reverse := by
  have hw : ∀ w ∈ ws, w.1 ≠ w.2 := fun w hw => unguarded_ne h w (List.mem_reverse.mpr hw)
  have hu := unguarded_reverse ws t r hw h1 h
  refine ⟨hu, ?_⟩
  simp only [rpath, rpts_reverse ws t r hu h]
  simp

end DiffeRT2d.Props
