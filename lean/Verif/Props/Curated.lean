import Verif.Props.Training

/-! # Property C137: the curated training data of the notebook -/

namespace DiffeRT2d.Props
open Classical Spec

/-- **C137.** A sample is kept iff its scene has a ray path with `order` reflections, where `order` is the global variable. -/
theorem C137_filter {Key : Type} (G : GraphLib) (hG : GraphContract G) (split : Key → ℕ → List Key) (E : Env) (hE : E.enableApprox = false) (order : ℕ)
    (t r : Pt) (htr : t ≠ r) (walls : List (Pt × Pt)) (hnd : ∀ w ∈ walls, w.1 ≠ w.2) :
    ∃ keep, filterXys G split E order (sampleRows t r walls) = .ok keep ∧
      (keep = true ↔ ∃ c pts, IsCandidate walls.length c ∧ c.length = order ∧ RayPath walls 0 t r c pts) := by
  obtain ⟨out, e, -, h1, h2⟩ := C74_valid_paths G hG [("tx", t)] [("rx", r)] (by simp [Distinct]) (by simp [Distinct]) walls hnd order order (by omega) split none E none
    (.inr ⟨rfl, hE⟩) {} (1 / 100) 0 (by norm_num) (by norm_num) (by norm_num)
  rw [← valid_tol, ← default_patch] at e
  have e' : (wallScene [("tx", t)] [("rx", r)] walls).allValidPaths G split (imageMethod Key) { order := some (order : ℤ) } { E := E, kw := {} } none = .ok out := e
  unfold filterXys
  simp only [C131_scene, e', bind, Except.bind, pure, Except.pure]
  match out, h1, h2 with
  | [], _, h2 =>
    refine ⟨false, rfl, by simp, ?_⟩
    rintro ⟨c, pts, hc, hl, hp⟩
    have := h2 "tx" t "rx" r c pts (by simp) (by simp) hc (by omega) (by omega) hp
    simp at this
  | (tn, rn, path, c) :: rest, h1, _ =>
    refine ⟨true, rfl, fun _ => ?_, fun _ => rfl⟩
    obtain ⟨t', r', pts, ht, hr, hc, hlo, hhi, -, hp⟩ := h1 tn rn path c (by simp)
    obtain rfl : t' = t := by simpa using congrArg Prod.snd (List.mem_singleton.mp ht)
    obtain rfl : r' = r := by simpa using congrArg Prod.snd (List.mem_singleton.mp hr)
    exact ⟨c, pts, hc, by omega, hp fun _ h => absurd h htr⟩

/-! ## A sample with a first-order path and no second-order path -/

/-- The walls of the obstacle. -/
noncomputable def droppedWalls : List (Pt × Pt) :=
  [(⟨2 / 5, 2 / 5⟩, ⟨3 / 5, 2 / 5⟩), (⟨3 / 5, 2 / 5⟩, ⟨3 / 5, 3 / 5⟩), (⟨3 / 5, 3 / 5⟩, ⟨2 / 5, 3 / 5⟩), (⟨2 / 5, 3 / 5⟩, ⟨2 / 5, 2 / 5⟩)]

theorem turned_zero (w : Pt × Pt) : turned 0 w = w := by
  unfold turned rotated
  ext <;> simp

theorem pi_tenth : 0 ≤ Real.pi / 10 := by positivity

theorem dropped_sample : SampleOf (1 / 5) (2 / 5) 4 (-(Real.pi / 10)) (Real.pi / 10) ⟨1 / 5, 9 / 20⟩ ⟨1 / 5, 11 / 20⟩ droppedWalls where
  tx := by norm_num [InRoom]
  rx := by norm_num [InRoom]
  walls := by
    have := pi_tenth
    refine ⟨1 / 5, [(4, 0), (5, 0), (6, 0), (7, 0)], le_rfl, by norm_num, by simp, by simp, by decide, ?_, ?_⟩
    · simp [this]
    · simp only [droppedWalls, List.map_cons, List.map_nil]
      simp [roomWithObstacle, squareCorners, List.rotate, turned_zero, roomCentre]
      norm_num

theorem dropped_first : RayPath droppedWalls 0 ⟨1 / 5, 9 / 20⟩ ⟨1 / 5, 11 / 20⟩ [3] [⟨1 / 5, 9 / 20⟩, ⟨2 / 5, 1 / 2⟩, ⟨1 / 5, 11 / 20⟩] := by
  refine ⟨rfl, rfl, rfl, ?_, ?_⟩
  · intro i j w p q q' hi hj hp hq hq'
    match i with
    | 0 =>
      simp at hi hp hq hq'
      have : j = 3 := by omega
      subst this hp hq hq'
      simp [droppedWalls] at hj
      subst hj
      refine ⟨⟨⟨1 / 2, by ext <;> norm_num [pointAt]⟩, by norm_num [side], ?_⟩, ⟨1 / 2, by norm_num, by norm_num, by ext <;> norm_num [pointAt]⟩⟩
      simp only [along, eucl]
      norm_num
    | i + 1 => simp at hi
  · intro i j w p q hp hq hj hadj
    have hj3 : j ≠ 3 := by
      rintro rfl
      match i with
      | 0 => exact hadj (.inl rfl)
      | 1 => exact hadj (.inr ⟨0, rfl, rfl⟩)
      | i + 2 => simp at hq
    rintro ⟨-, s, u, he, -, h1, h2⟩
    have hx := congrArg V2.x he
    have hy := congrArg V2.y he
    match j, hj, hj3 with
    | 0, hj, _ =>
      simp [droppedWalls] at hj
      subst hj
      match i with
      | 0 => simp at hp hq; subst hp hq; simp only [pointAt] at hy; linarith
      | 1 => simp at hp hq; subst hp hq; simp only [pointAt] at hy; linarith
      | i + 2 => simp at hq
    | 1, hj, _ =>
      simp [droppedWalls] at hj
      subst hj
      match i with
      | 0 => simp at hp hq; subst hp hq; simp only [pointAt] at hx; linarith
      | 1 => simp at hp hq; subst hp hq; simp only [pointAt] at hx; linarith
      | i + 2 => simp at hq
    | 2, hj, _ =>
      simp [droppedWalls] at hj
      subst hj
      match i with
      | 0 => simp at hp hq; subst hp hq; simp only [pointAt] at hy; linarith
      | 1 => simp at hp hq; subst hp hq; simp only [pointAt] at hy; linarith
      | i + 2 => simp at hq
    | j + 4, hj, _ => simp [droppedWalls] at hj

/-- The points of the walls are in the square. -/
theorem dropped_square {j : ℕ} {w : Pt × Pt} (hj : droppedWalls[j]? = some w) {q : Pt} (hq : OnSegment w.1 w.2 q) : 2 / 5 ≤ q.x ∧ 2 / 5 ≤ q.y ∧ q.y ≤ 3 / 5 := by
  obtain ⟨s, h0, h1, rfl⟩ := hq
  match j, hj with
  | 0, hj => simp [droppedWalls] at hj; subst hj; simp only [pointAt]; refine ⟨?_, ?_, ?_⟩ <;> linarith
  | 1, hj => simp [droppedWalls] at hj; subst hj; simp only [pointAt]; refine ⟨?_, ?_, ?_⟩ <;> linarith
  | 2, hj => simp [droppedWalls] at hj; subst hj; simp only [pointAt]; refine ⟨?_, ?_, ?_⟩ <;> linarith
  | 3, hj => simp [droppedWalls] at hj; subst hj; simp only [pointAt]; refine ⟨?_, ?_, ?_⟩ <;> linarith
  | j + 4, hj => simp [droppedWalls] at hj

theorem dropped_second (c : List ℤ) (hc : IsCandidate 4 c) (hl : 2 ≤ c.length) (pts : List Pt) : ¬ RayPath droppedWalls 0 ⟨1 / 5, 9 / 20⟩ ⟨1 / 5, 11 / 20⟩ c pts := by
  intro h
  match c, pts, hl, h.count with
  | a :: b :: c, t :: p :: q :: q' :: pts, _, _ =>
    obtain ⟨ha0, ha4⟩ := hc.1 a (by simp)
    obtain ⟨hb0, hb4⟩ := hc.1 b (by simp)
    obtain ⟨a, rfl⟩ := Int.eq_ofNat_of_zero_le ha0
    obtain ⟨b, rfl⟩ := Int.eq_ofNat_of_zero_le hb0
    have hlen : droppedWalls.length = 4 := rfl
    obtain ⟨wa, hwa⟩ : ∃ w, droppedWalls[a]? = some w := ⟨_, List.getElem?_eq_getElem (by omega)⟩
    obtain ⟨wb, hwb⟩ : ∃ w, droppedWalls[b]? = some w := ⟨_, List.getElem?_eq_getElem (by omega)⟩
    obtain rfl : t = ⟨1 / 5, 9 / 20⟩ := by simpa using h.start
    obtain ⟨⟨-, hsame, -⟩, hon⟩ := h.reflected 0 a wa _ p q (by simp) hwa rfl rfl rfl
    obtain ⟨-, hon'⟩ := h.reflected 1 b wb p q q' (by simp) hwb rfl rfl rfl
    obtain ⟨p1, p2, p3⟩ := dropped_square hwa hon
    obtain ⟨q1, q2, q3⟩ := dropped_square hwb hon'
    by_cases h3 : a = 3
    · subst h3
      simp [droppedWalls] at hwa
      subst hwa
      simp only [side] at hsame
      nlinarith
    · refine h.clear 0 3 _ _ p rfl rfl rfl ?_ ?_
      · rintro (h' | ⟨k, h', -⟩)
        · simp at h'; omega
        · omega
      · have hpos : 0 < p.x - 1 / 5 := by linarith
        set u := (1 / 5) / (p.x - 1 / 5) with hu
        have hu0 : 0 < u := by positivity
        have hu1 : u ≤ 1 := by rw [hu, div_le_one hpos]; linarith
        have hux : u * (p.x - 1 / 5) = 1 / 5 := div_mul_cancel₀ _ hpos.ne'
        refine ⟨?_, 3 - 5 * (9 / 20 + u * (p.y - 9 / 20)), u, ?_, ⟨?_, ?_⟩, by linarith, by linarith⟩
        · simp only [Parallel]
          intro h'
          nlinarith
        · ext
          · simp only [pointAt]; linarith
          · simp only [pointAt]; ring
        · nlinarith
        · nlinarith

/-! ## A sample with a second-order path and no first-order path -/

/-- Two walls of the room and two walls of the obstacle. -/
noncomputable def keptWalls : List (Pt × Pt) :=
  [(⟨0, 0⟩, ⟨1, 0⟩), (⟨0, 1⟩, ⟨0, 0⟩), (⟨3 / 10, 3 / 10⟩, ⟨7 / 10, 3 / 10⟩), (⟨3 / 10, 7 / 10⟩, ⟨3 / 10, 3 / 10⟩)]

theorem kept_sample : SampleOf (1 / 5) (2 / 5) 4 (-(Real.pi / 10)) (Real.pi / 10) ⟨1 / 5, 3 / 5⟩ ⟨3 / 5, 1 / 5⟩ keptWalls where
  tx := by norm_num [InRoom]
  rx := by norm_num [InRoom]
  walls := by
    have := pi_tenth
    refine ⟨2 / 5, [(0, 0), (3, 0), (4, 0), (7, 0)], by norm_num, by norm_num, by simp, by simp, by decide, ?_, ?_⟩
    · simp [this]
    · simp only [keptWalls, List.map_cons, List.map_nil]
      simp [roomWithObstacle, squareCorners, List.rotate, turned_zero, roomCentre]
      norm_num

theorem diagonal_sqrt (x y k : ℝ) (hk : 0 ≤ k) (hx : x ^ 2 = k ^ 2) (hy : y ^ 2 = k ^ 2) : Real.sqrt (x ^ 2 + y ^ 2) = k * Real.sqrt 2 := by
  rw [hx, hy, ← two_mul, mul_comm, Real.sqrt_mul (sq_nonneg k), Real.sqrt_sq hk]

theorem kept_second : RayPath keptWalls 0 ⟨1 / 5, 3 / 5⟩ ⟨3 / 5, 1 / 5⟩ [1, 0] [⟨1 / 5, 3 / 5⟩, ⟨0, 2 / 5⟩, ⟨2 / 5, 0⟩, ⟨3 / 5, 1 / 5⟩] := by
  refine ⟨rfl, rfl, rfl, ?_, ?_⟩
  · intro i j w p q q' hi hj hp hq hq'
    match i with
    | 0 =>
      simp at hi hp hq hq'
      have : j = 1 := by omega
      subst this hp hq hq'
      simp [keptWalls] at hj
      subst hj
      refine ⟨⟨⟨3 / 5, by ext <;> norm_num [pointAt]⟩, by norm_num [side], ?_⟩, ⟨3 / 5, by norm_num, by norm_num, by ext <;> norm_num [pointAt]⟩⟩
      simp only [along, eucl]
      rw [diagonal_sqrt _ _ (2 / 5) (by norm_num) (by norm_num) (by norm_num), diagonal_sqrt _ _ (1 / 5) (by norm_num) (by norm_num) (by norm_num)]
      ring
    | 1 =>
      simp at hi hp hq hq'
      have : j = 0 := by omega
      subst this hp hq hq'
      simp [keptWalls] at hj
      subst hj
      refine ⟨⟨⟨2 / 5, by ext <;> norm_num [pointAt]⟩, by norm_num [side], ?_⟩, ⟨2 / 5, by norm_num, by norm_num, by ext <;> norm_num [pointAt]⟩⟩
      simp only [along, eucl]
      rw [diagonal_sqrt _ _ (1 / 5) (by norm_num) (by norm_num) (by norm_num), diagonal_sqrt _ _ (2 / 5) (by norm_num) (by norm_num) (by norm_num)]
      ring
    | i + 2 => simp at hi
  · intro i j w p q hp hq hj hadj
    rintro ⟨-, s, u, he, ⟨g1, g2⟩, h1, h2⟩
    have hx := congrArg V2.x he
    have hy := congrArg V2.y he
    match j, hj, hadj with
    | 0, hj, hadj =>
      simp [keptWalls] at hj
      subst hj
      match i with
      | 0 => simp at hp hq; subst hp hq; simp only [pointAt] at hy; linarith
      | 1 => exact absurd (.inl rfl) hadj
      | 2 => exact absurd (.inr ⟨1, rfl, rfl⟩) hadj
      | i + 3 => simp at hq
    | 1, hj, hadj =>
      simp [keptWalls] at hj
      subst hj
      match i with
      | 0 => exact absurd (.inl rfl) hadj
      | 1 => exact absurd (.inr ⟨0, rfl, rfl⟩) hadj
      | 2 => simp at hp hq; subst hp hq; simp only [pointAt] at hx; linarith
      | i + 3 => simp at hq
    | 2, hj, hadj =>
      simp [keptWalls] at hj
      subst hj
      match i with
      | 0 => simp at hp hq; subst hp hq; simp only [pointAt] at hx hy; linarith
      | 1 => simp at hp hq; subst hp hq; simp only [pointAt] at hx hy; linarith
      | 2 => simp at hp hq; subst hp hq; simp only [pointAt] at hx hy; linarith
      | i + 3 => simp at hq
    | 3, hj, hadj =>
      simp [keptWalls] at hj
      subst hj
      match i with
      | 0 => simp at hp hq; subst hp hq; simp only [pointAt] at hx hy; linarith
      | 1 => simp at hp hq; subst hp hq; simp only [pointAt] at hx hy; linarith
      | 2 => simp at hp hq; subst hp hq; simp only [pointAt] at hx hy; linarith
      | i + 3 => simp at hq
    | j + 4, hj, _ => simp [keptWalls] at hj

/-- The reflection point of a first-order path, given another path with the law of reflection. -/
theorem first_order_point (w : Pt × Pt) (hw : w.1 ≠ w.2) (t r p p' : Pt) (h : Reflects w t p r) (h' : Reflects w t p' r) : p = p' := by
  have hspec : ∀ q, Reflects w t q r → Specular [w] (t :: [q] ++ [r]) := by
    intro q hq
    refine ⟨rfl, fun i w' a b c hi ha hb hc => ?_⟩
    match i with
    | 0 =>
      simp at hi ha hb hc
      subst hi ha hb hc
      exact hq
    | i + 1 => simp at hi
  simpa using C73_unique [w] (by simpa using hw) t r [p] [p'] (hspec p h) (hspec p' h')

theorem kept_first (c : List ℤ) (hc : IsCandidate 4 c) (hl : c.length = 1) (pts : List Pt) : ¬ RayPath keptWalls 0 ⟨1 / 5, 3 / 5⟩ ⟨3 / 5, 1 / 5⟩ c pts := by
  intro h
  match c, pts, hl, h.count with
  | [a], [t, p, r], _, _ =>
    obtain ⟨ha0, ha4⟩ := hc.1 a (by simp)
    obtain ⟨a, rfl⟩ := Int.eq_ofNat_of_zero_le ha0
    have hlen : keptWalls.length = 4 := rfl
    obtain rfl : t = ⟨1 / 5, 3 / 5⟩ := by simpa using h.start
    obtain rfl : r = ⟨3 / 5, 1 / 5⟩ := by simpa using h.finish
    have s5 : ∀ x y k : ℝ, 0 ≤ k → x ^ 2 + y ^ 2 = k ^ 2 * 5 → Real.sqrt (x ^ 2 + y ^ 2) = k * Real.sqrt 5 := by
      intro x y k hk e
      rw [e, Real.sqrt_mul (sq_nonneg k), Real.sqrt_sq hk]
    match a, ha4 with
    | 0, _ =>
      obtain ⟨hr, -⟩ := h.reflected 0 0 _ _ p _ rfl rfl rfl rfl rfl
      have hp : p = ⟨1 / 2, 0⟩ := by
        refine first_order_point _ ?_ _ _ _ _ hr ⟨⟨1 / 2, by ext <;> norm_num [pointAt]⟩, by norm_num [side], ?_⟩
        · intro e; have := congrArg V2.x e; norm_num at this
        · simp only [along, eucl]
          rw [s5 _ _ (1 / 10) (by norm_num) (by norm_num), s5 _ _ (3 / 10) (by norm_num) (by norm_num)]
          ring
      subst hp
      refine h.clear 0 2 _ _ _ rfl rfl rfl ?_ ⟨by norm_num [Parallel], 1 / 8, 1 / 2, by ext <;> norm_num [pointAt], by norm_num, by norm_num⟩
      rintro (h' | ⟨k, h', -⟩)
      · simp at h'
      · omega
    | 1, _ =>
      obtain ⟨hr, -⟩ := h.reflected 0 1 _ _ p _ rfl rfl rfl rfl rfl
      have hp : p = ⟨0, 1 / 2⟩ := by
        refine first_order_point _ ?_ _ _ _ _ hr ⟨⟨1 / 2, by ext <;> norm_num [pointAt]⟩, by norm_num [side], ?_⟩
        · intro e; have := congrArg V2.y e; norm_num at this
        · simp only [along, eucl]
          rw [s5 _ _ (3 / 10) (by norm_num) (by norm_num), s5 _ _ (1 / 10) (by norm_num) (by norm_num)]
          ring
      subst hp
      refine h.clear 1 3 _ _ _ rfl rfl rfl ?_ ⟨by norm_num [Parallel], 7 / 8, 1 / 2, by ext <;> norm_num [pointAt], by norm_num, by norm_num⟩
      rintro (h' | ⟨k, h', h''⟩)
      · simp at h'
      · obtain rfl : k = 0 := by omega
        simp at h''
    | 2, _ =>
      obtain ⟨hr, -⟩ := h.reflected 0 2 _ _ p _ rfl rfl rfl rfl rfl
      have := hr.same
      norm_num [side] at this
    | 3, _ =>
      obtain ⟨hr, -⟩ := h.reflected 0 3 _ _ p _ rfl rfl rfl rfl rfl
      have := hr.same
      norm_num [side] at this
    | a + 4, h4 => exact absurd h4 (by push_cast; omega)

/-- **C137, refuted**: `filter_xys` "returns True if the scene will at least contain one valid ray path", and the curated samples are used for training with `order=1`; but the filter
looks for paths with two reflections. There are two samples of the generator: one with a valid first-order path, that is dropped; and one that is kept, though every first-order
candidate has the reward 0. -/
theorem C137_order_refuted {Key : Type} (G : GraphLib) (hG : GraphContract G) (split : Key → ℕ → List Key) (E : Env) (hE : E.enableApprox = false) :
    (∃ t r walls, SampleOf (1 / 5) (2 / 5) 4 (-(Real.pi / 10)) (Real.pi / 10) t r walls ∧ filterXys G split E 2 (sampleRows t r walls) = .ok false ∧
      filterXys G split E 1 (sampleRows t r walls) = .ok true ∧ ∃ i, reward E [i] (oneLink t r walls) = .ok 1) ∧
    ∃ t r walls, SampleOf (1 / 5) (2 / 5) 4 (-(Real.pi / 10)) (Real.pi / 10) t r walls ∧ filterXys G split E 2 (sampleRows t r walls) = .ok true ∧
      filterXys G split E 1 (sampleRows t r walls) = .ok false ∧ ∀ i : ℤ, 0 ≤ i → i < walls.length → reward E [i] (oneLink t r walls) = .ok 0 := by
  have single : ∀ i : ℤ, 0 ≤ i → i < 4 → IsCandidate 4 [i] := fun i h0 h4 => ⟨by simpa using ⟨h0, h4⟩, fun k a b _ h => by simp at h⟩
  constructor
  · have htr : (⟨1 / 5, 9 / 20⟩ : Pt) ≠ ⟨1 / 5, 11 / 20⟩ := fun h => by have := congrArg V2.y h; norm_num at this
    have hnd : ∀ w ∈ droppedWalls, w.1 ≠ w.2 := by
      simp only [droppedWalls, List.mem_cons, List.not_mem_nil, or_false]
      rintro w (rfl | rfl | rfl | rfl) h <;> first | (have := congrArg V2.x h; norm_num at this; done) | (have := congrArg V2.y h; norm_num at this; done)
    refine ⟨_, _, _, dropped_sample, ?_, ?_, 3, ?_⟩
    · obtain ⟨k, hk, hi⟩ := C137_filter G hG split E hE 2 _ _ htr _ hnd
      have : k = false := by
        by_contra h
        obtain ⟨c, pts, hc, hl, hp⟩ := hi.mp (by simpa using h)
        exact dropped_second c hc (by omega) pts hp
      rw [← this]
      exact hk
    · obtain ⟨k, hk, hi⟩ := C137_filter G hG split E hE 1 _ _ htr _ hnd
      rw [← hi.mpr ⟨_, _, single 3 (by norm_num) (by norm_num), rfl, dropped_first⟩]
      exact hk
    · rw [C132_hard E hE _ _ htr _ (by simp [droppedWalls]) hnd _ (by simp [InBounds, droppedWalls])]
      exact congrArg _ (if_pos ⟨_, dropped_first⟩)
  · have htr : (⟨1 / 5, 3 / 5⟩ : Pt) ≠ ⟨3 / 5, 1 / 5⟩ := fun h => by have := congrArg V2.y h; norm_num at this
    have hnd : ∀ w ∈ keptWalls, w.1 ≠ w.2 := by
      simp only [keptWalls, List.mem_cons, List.not_mem_nil, or_false]
      rintro w (rfl | rfl | rfl | rfl) h <;> first | (have := congrArg V2.x h; norm_num at this; done) | (have := congrArg V2.y h; norm_num at this; done)
    refine ⟨_, _, _, kept_sample, ?_, ?_, ?_⟩
    · obtain ⟨k, hk, hi⟩ := C137_filter G hG split E hE 2 _ _ htr _ hnd
      rw [← hi.mpr ⟨[1, 0], _, ⟨by simp [keptWalls], ?_⟩, rfl, kept_second⟩]
      · exact hk
      · intro k a b h1 h2
        match k with
        | 0 => simp at h1 h2; omega
        | k + 1 => simp at h2
    · obtain ⟨k, hk, hi⟩ := C137_filter G hG split E hE 1 _ _ htr _ hnd
      have : k = false := by
        by_contra h
        obtain ⟨c, pts, hc, hl, hp⟩ := hi.mp (by simpa using h)
        exact kept_first c hc hl pts hp
      rw [← this]
      exact hk
    · intro i h0 h4
      have h4' : i < 4 := h4
      rw [C132_hard E hE _ _ htr _ (by simp [keptWalls]) hnd _ (by simp [InBounds]; exact ⟨h0, h4⟩)]
      exact congrArg _ (if_neg fun ⟨pts, hp⟩ => kept_first [i] (single i h0 h4') rfl pts hp)

/-- Non-vacuity of C136 and C137: the two samples above, training on one of them, validating on the other. -/
theorem kept_isSample : IsSample (sampleRows ⟨1 / 5, 3 / 5⟩ ⟨3 / 5, 1 / 5⟩ keptWalls) :=
  ⟨_, _, _, fun h => by have := congrArg V2.y h; norm_num at this, kept_sample, rfl⟩

theorem dropped_isSample : IsSample (sampleRows ⟨1 / 5, 9 / 20⟩ ⟨1 / 5, 11 / 20⟩ droppedWalls) :=
  ⟨_, _, _, fun h => by have := congrArg V2.y h; norm_num at this, dropped_sample, rfl⟩

example (key) := C136_losses ⟨false, 0⟩ rfl inversionJax inversionJax_support 2 (fun _ => ()) (fun m o _ _ => (m, o)) (fun _ _ _ _ h => h) plainNet plainNet_finite
  [sampleRows ⟨1 / 5, 3 / 5⟩ ⟨3 / 5, 1 / 5⟩ keptWalls, sampleRows ⟨1 / 5, 9 / 20⟩ ⟨1 / 5, 11 / 20⟩ droppedWalls] [sampleRows ⟨1 / 5, 9 / 20⟩ ⟨1 / 5, 11 / 20⟩ droppedWalls] (by simp)
  (by
    rintro x (h | h) <;> simp only [List.mem_cons, List.not_mem_nil, or_false] at h
    · rcases h with rfl | rfl
      exacts [kept_isSample, dropped_isSample]
    · subst h
      exact dropped_isSample) 100000 100 (by norm_num) key

/-- A trainer that counts: the update adds the sample, the loss is the distance to the sample. -/
noncomputable def countTrainer : Trainer ℝ Unit ℝ (List ℕ) := ⟨fun _ => (), fun m x _ => .ok (F.fin |m - x|), fun m _ x _ => (m + x, ())⟩

example := C136_train countTrainer addressSplit [] (by simp [addressSplit]) (fun m x _ => F.fin |m - x|) 0 [1, 2, 3, 4] [5] (by simp) 3 2 (by norm_num) (fun _ => True)
  (fun _ _ _ _ _ => rfl) trivial (fun _ _ _ _ _ _ => trivial)
example := C136_zero_division countTrainer addressSplit [] (by simp [addressSplit]) 0 1 [] [] 3 2 (by norm_num) (fun _ => ⟨_, rfl⟩) (.inr rfl)
example := C137_order_refuted (Key := Unit) refLib refLib_contract (fun _ _ => []) ⟨false, 0⟩ rfl

end DiffeRT2d.Props
