import Verif.Lemmas.Lines
import Mathlib.MeasureTheory.Measure.Lebesgue.EqHaar

/-! # Property C102: where gradients are real -/

namespace DiffeRT2d.Props
open Classical Spec

theorem wallsAt_mem {walls : List (Pt × Pt)} {c : List ℤ} {w : Pt × Pt} (h : w ∈ wallsAt walls c) : w ∈ walls := by
  unfold wallsAt at h
  obtain ⟨i, -, hi⟩ := List.mem_filterMap.mp h
  exact List.mem_of_getElem? hi

theorem wallsAt_pair {walls : List (Pt × Pt)} {c : List ℤ} (hc : IsCandidate walls.length c) {i : ℕ} {w w' : Pt × Pt} (h : (wallsAt walls c)[i]? = some w)
    (h' : (wallsAt walls c)[i + 1]? = some w') : ∃ j j' : ℕ, j ≠ j' ∧ walls[j]? = some w ∧ walls[j']? = some w' := by
  obtain ⟨j, h1, h2⟩ := (wallsAt_get walls c hc.1 i w).mp h
  obtain ⟨j', h3, h4⟩ := (wallsAt_get walls c hc.1 (i + 1) w').mp h'
  exact ⟨j, j', fun e => hc.2 i _ _ h1 h3 (by rw [e]), h2, h4⟩

theorem wallsAt_reverse (walls : List (Pt × Pt)) (c : List ℤ) : (wallsAt walls c).reverse = wallsAt walls c.reverse := by
  unfold wallsAt
  rw [List.filterMap_reverse]

theorem parallel_swap {p q a b : Pt} : Parallel p q a b ↔ Parallel p q b a := by
  unfold Parallel
  constructor <;> intro e <;> linarith

/-- What is wanted of a path. -/
def GoodPath (eps : ℝ) (walls ws : List (Pt × Pt)) (t r : Pt) : Prop :=
  Unguarded t r ws ∧ OffGuard eps (rpath t r ws) ∧
    (NoPause (rpath t r ws) → ∀ w ∈ walls, ∀ (i : ℕ) (a b : Pt), (rpath t r ws)[i]? = some a → (rpath t r ws)[i + 1]? = some b → ¬ Parallel w.1 w.2 a b)

theorem goodPath_reverse {eps : ℝ} {walls ws : List (Pt × Pt)} {t r : Pt} (h1 : OffChain t ws) (h : GoodPath (-eps) walls ws.reverse r t) : GoodPath eps walls ws t r := by
  obtain ⟨h2, h3, h4⟩ := h
  obtain ⟨hu, e⟩ := rpath_reverse h1 h2
  refine ⟨hu, by rw [e]; exact offGuard_reverse h3, fun hp w hw i a b ha hb => ?_⟩
  rw [e] at hp ha hb
  obtain ⟨j, h5, h6⟩ := reverse_step ha hb
  have := noPause_reverse hp
  rw [List.reverse_reverse] at this
  rw [parallel_swap]
  exact h4 this w hw j b a h5 h6

theorem goodPaths_exist {eps : ℝ} (he : eps ≠ 0) (walls : List (Pt × Pt)) (hw : ∀ w ∈ walls, w.1 ≠ w.2) (cs : List (List (Pt × Pt))) (hcs : ∀ ws ∈ cs, ∀ w ∈ ws, w ∈ walls)
    (hc : Prop) (hcc : hc → ∀ ws ∈ cs, ∀ (i : ℕ) w w', ws[i]? = some w → ws[i + 1]? = some w' → ¬ Collinear w' w) (t : Pt) (ht : ∀ ws ∈ cs, OffChain t ws) :
    ∃ M, Lines M ∧ ∀ r, OffLines M r → ∀ ws ∈ cs, GoodPath eps walls ws t r ∧ (hc → NoPause (rpath t r ws)) := by
  obtain ⟨M, hM, h⟩ := good_positions he walls hw t cs fun ws hws => ⟨hcs ws hws, ht ws hws⟩
  by_cases hp : hc
  · obtain ⟨M', hM', h'⟩ := moving_positions t cs ht (hcc hp)
    refine ⟨M ++ M', lines_append hM hM', fun r hr ws hws => ?_⟩
    obtain ⟨h1, h2⟩ := offLines_append.mp hr
    exact ⟨h r h1 ws hws, fun _ => h' r h2 ws hws (h r h1 ws hws).1⟩
  · exact ⟨M, hM, fun r hr ws hws => ⟨h r hr ws hws, fun h => absurd h hp⟩⟩

/-- The good positions exist. -/
theorem goodPositions_exist (eps : ℝ) (he : 0 < eps) (walls : List (Pt × Pt)) (hw : ∀ w ∈ walls, w.1 ≠ w.2) (lo hi : ℤ) (hlo : 0 ≤ lo) :
    ∃ L, Lines L ∧
      (∀ t, OffLines L t → ∃ M, Lines M ∧ ∀ r, OffLines M r → ∀ c, InRange walls.length lo hi c → GoodPath eps walls (wallsAt walls c) t r ∧
        ((2 ≤ hi → Untangled walls) → NoPause (rpath t r (wallsAt walls c)))) ∧
      (∀ r, OffLines L r → ∃ M, Lines M ∧ ∀ t, OffLines M t → ∀ c, InRange walls.length lo hi c → GoodPath eps walls (wallsAt walls c) t r ∧
        ((2 ≤ hi → Untangled walls) → NoPause (rpath t r (wallsAt walls c)))) := by
  by_cases hex : ∃ c, InRange walls.length lo hi c
  swap
  · exact ⟨[], by simp [Lines], fun t _ => ⟨[], by simp [Lines], fun r _ c hc => absurd ⟨c, hc⟩ hex⟩, fun t _ => ⟨[], by simp [Lines], fun r _ c hc => absurd ⟨c, hc⟩ hex⟩⟩
  obtain ⟨cs, -, -, hcm, -⟩ := cands_walls refLib refLib_contract [] [] walls lo hi hlo hex
  obtain ⟨L, hL, hoff⟩ := offChains_exist (cs.map (wallsAt walls)) (by
    intro ws hws w hww
    obtain ⟨c, -, rfl⟩ := List.mem_map.mp hws
    exact hw w (wallsAt_mem hww))
  have hrev : ∀ c, InRange walls.length lo hi c → InRange walls.length lo hi c.reverse := by
    rintro c ⟨⟨h1, h2⟩, h3, h4⟩
    refine ⟨⟨fun i hi => h1 i (List.mem_reverse.mp hi), fun k a b ha hb e => ?_⟩, by simpa using h3, by simpa using h4⟩
    have hk : k + 1 < c.length := by simpa using (List.getElem?_eq_some_iff.mp hb).1
    rw [List.getElem?_reverse (by omega)] at ha hb
    exact h2 (c.length - 1 - (k + 1)) b a hb (by rw [← ha]; congr 1; omega) e.symm
  have hcoll : (2 ≤ hi → Untangled walls) → ∀ ws ∈ cs.map (wallsAt walls), ∀ (i : ℕ) w w', ws[i]? = some w → ws[i + 1]? = some w' → ¬ Collinear w' w := by
    intro hu ws hws i w w' h h'
    obtain ⟨c, hc, rfl⟩ := List.mem_map.mp hws
    have hc := (hcm c).mp hc
    obtain ⟨j, j', hj, h1, h2⟩ := wallsAt_pair hc.1 h h'
    refine hu ?_ j' j w' w hj.symm h2 h1
    have h3 := (List.getElem?_eq_some_iff.mp h').1
    rw [wallsAt_length hc.1] at h3
    have := hc.2.2
    omega
  refine ⟨L, hL, fun t ht => ?_, fun r hr => ?_⟩
  · obtain ⟨M, hM, h⟩ := goodPaths_exist he.ne' walls hw (cs.map (wallsAt walls)) (by
      intro ws hws w hww
      obtain ⟨c, -, rfl⟩ := List.mem_map.mp hws
      exact wallsAt_mem hww) _ hcoll t (hoff t ht)
    refine ⟨M, hM, fun r hr c hc => ?_⟩
    exact h r hr _ (List.mem_map.mpr ⟨c, (hcm c).mpr hc, rfl⟩)
  · obtain ⟨M, hM, h⟩ := goodPaths_exist (neg_ne_zero.mpr he.ne') walls hw (cs.map (wallsAt walls)) (by
      intro ws hws w hww
      obtain ⟨c, -, rfl⟩ := List.mem_map.mp hws
      exact wallsAt_mem hww) _ hcoll r (hoff r hr)
    refine ⟨M ++ L, lines_append hM hL, fun t ht c hc => ?_⟩
    obtain ⟨ht1, ht2⟩ := offLines_append.mp ht
    obtain ⟨h1, h2⟩ := h t ht1 _ (List.mem_map.mpr ⟨c.reverse, (hcm _).mpr (hrev c hc), rfl⟩)
    have hch := hoff t ht2 _ (List.mem_map.mpr ⟨c, (hcm c).mpr hc, rfl⟩)
    rw [← wallsAt_reverse] at h1 h2
    refine ⟨goodPath_reverse hch h1, fun hu => ?_⟩
    obtain ⟨-, e⟩ := rpath_reverse hch h1.1
    rw [e]
    exact noPause_reverse (h2 hu)

/-- **C102.** The geometry: for transmitters outside of finitely many lines, and receivers outside of finitely many lines (that depend on the
transmitter), or the other way round, all reflection points of all candidates are determined and no step meets the guard of `path_length`; if no two walls are
on one line, no path stands still or is parallel to a wall. -/
theorem C102_positions (eps : ℝ) (he : 0 < eps) (walls : List (Pt × Pt)) (hw : ∀ w ∈ walls, w.1 ≠ w.2) (lo hi : ℤ) (hlo : 0 ≤ lo) :
    ∃ L, Lines L ∧
      (∀ t, OffLines L t → ∃ M, Lines M ∧ ∀ r, OffLines M r → ∀ c, InRange walls.length lo hi c → ∀ pts loss,
        traceImage t (wallsAt walls c) r = .ok (finitePath pts loss) →
          Determined t (wallsAt walls c) pts ∧ OffGuard eps pts ∧ ((2 ≤ hi → Untangled walls) → TransversePath walls c pts)) ∧
      (∀ r, OffLines L r → ∃ M, Lines M ∧ ∀ t, OffLines M t → ∀ c, InRange walls.length lo hi c → ∀ pts loss,
        traceImage t (wallsAt walls c) r = .ok (finitePath pts loss) →
          Determined t (wallsAt walls c) pts ∧ OffGuard eps pts ∧ ((2 ≤ hi → Untangled walls) → TransversePath walls c pts)) := by
  have hfin : ∀ t r c, InRange walls.length lo hi c → GoodPath eps walls (wallsAt walls c) t r →
      ((2 ≤ hi → Untangled walls) → NoPause (rpath t r (wallsAt walls c))) → ∀ pts loss,
        traceImage t (wallsAt walls c) r = .ok (finitePath pts loss) →
          Determined t (wallsAt walls c) pts ∧ OffGuard eps pts ∧ ((2 ≤ hi → Untangled walls) → TransversePath walls c pts) := by
    intro t r c hc hg hp pts loss h
    obtain ⟨rfl, -⟩ := traceImage_iff h
    refine ⟨(determined_iff _ _ _).mpr hg.1, hg.2.1, fun hu => ⟨fun _ => hp hu, fun i j w a b ha hb hwj _ => ?_⟩⟩
    exact hg.2.2 (hp hu) w (List.mem_of_getElem? hwj) i a b ha hb
  obtain ⟨L, hL, h1, h2⟩ := goodPositions_exist eps he walls hw lo hi hlo
  refine ⟨L, hL, fun t ht => ?_, fun r hr => ?_⟩
  · obtain ⟨M, hM, h⟩ := h1 t ht
    exact ⟨M, hM, fun r hr c hc => hfin t r c hc (h r hr c hc).1 (h r hr c hc).2⟩
  · obtain ⟨M, hM, h⟩ := h2 r hr
    exact ⟨M, hM, fun t ht c hc => hfin t r c hc (h t ht c hc).1 (h t ht c hc).2⟩

/-- **C102.** In hard mode: for transmitters outside of finitely many lines, the gradients with respect to the receiver are real outside of finitely many lines. -/
theorem C102_hard_receivers (G : GraphLib) (hG : GraphContract G) (walls : List (Pt × Pt)) (hw : ∀ w ∈ walls, w.1 ≠ w.2) (lo hi : ℤ) (hlo : 0 ≤ lo) (hex : ∃ c, InRange walls.length lo hi c)
    (E : Env) (he : 0 < E.eps) (ap : Option Bool) (hh : Hard E ap) (tol patch : ℝ) (kw : Rev.ActKw Rev.Coord) (kw' : ActKw) (hk : SameKw kw kw') (coef height : ℝ) (hht : 0 < height) :
    ∃ L, Lines L ∧ ∀ tx rx : PyDict Pt, Distinct tx → (∀ t ∈ tx, OffLines L t.2) →
      ∃ (M : List (Pt × Pt)) (g : String × Pt → ℝ × ℝ → Pt), Lines M ∧ ∀ P : Scene.Grid (ℝ × ℝ), (∀ row ∈ P, ∀ p ∈ row, OffLines M ⟨p.1, p.2⟩) →
        Rev.accumulateOnReceiversGrid (wallScene tx rx walls) G { minOrder := lo, maxOrder := hi } ⟨E, F.fin tol, F.fin patch, ap, kw⟩ true false
          (Rev.receivedPower E (F.fin coef) (F.fin height)) (gridX P) (gridY P) =
          .ok (tx.map fun t => (t.1, .gradient (P.map fun row => row.map fun p => V2.fin (g t p)))) := by
  obtain ⟨L, hL, hpos, -⟩ := C102_positions E.eps he walls hw lo hi hlo
  refine ⟨L, hL, fun tx rx ht hoff => ?_⟩
  obtain ⟨value, gradient, points, accepted, -, q2, q3, -, q5⟩ := C100_receivers (Key := Unit) G hG tx rx ht walls lo hi hlo hex (fun k _ => [k]) none E ap hh tol patch kw kw' hk coef height hht
  have hM : ∀ t : String × Pt, ∃ M, t ∈ tx → Lines M ∧ ∀ p : ℝ × ℝ, OffLines M ⟨p.1, p.2⟩ → ∃ g : Pt, gradient t p = V2.fin g := by
    intro t
    by_cases htm : t ∈ tx
    · obtain ⟨M, hM, h⟩ := hpos t.2 (hoff t htm)
      refine ⟨M, fun _ => ⟨hM, fun p hp => ?_⟩⟩
      obtain ⟨v', -, e⟩ := (q5 t htm p).2.1 fun c hc => by
        obtain ⟨loss, hl⟩ := q3 t.2 p c
        obtain ⟨h1, h2, -⟩ := h _ hp c hc _ _ hl
        exact ⟨h1, h2⟩
      exact ⟨_, e⟩
    · exact ⟨[], fun h => absurd h htm⟩
  choose M hM using hM
  have hg : ∀ (t : String × Pt) (p : ℝ × ℝ), ∃ g : Pt, t ∈ tx → OffLines (M t) ⟨p.1, p.2⟩ → gradient t p = V2.fin g := by
    intro t p
    by_cases h : t ∈ tx ∧ OffLines (M t) ⟨p.1, p.2⟩
    · obtain ⟨g, hg⟩ := (hM t h.1).2 p h.2
      exact ⟨g, fun _ _ => hg⟩
    · exact ⟨⟨0, 0⟩, fun h1 h2 => absurd ⟨h1, h2⟩ h⟩
  choose g hg using hg
  refine ⟨tx.flatMap M, g, fun l hl => ?_, fun P hP => ?_⟩
  · obtain ⟨t, ht, hl⟩ := List.mem_flatMap.mp hl
    exact (hM t ht).1 l hl
  · rw [(q2 true P).2]
    congr 1
    refine List.map_congr_left fun t htm => ?_
    congr 2
    refine List.map_congr_left fun row hrow => List.map_congr_left fun p hp => hg t p htm fun l hl => ?_
    exact hP row hrow p hp l (List.mem_flatMap.mpr ⟨t, htm, hl⟩)

/-- **C102.** The same with respect to the transmitter. -/
theorem C102_hard_transmitters (G : GraphLib) (hG : GraphContract G) (walls : List (Pt × Pt)) (hw : ∀ w ∈ walls, w.1 ≠ w.2) (lo hi : ℤ) (hlo : 0 ≤ lo) (hex : ∃ c, InRange walls.length lo hi c)
    (E : Env) (he : 0 < E.eps) (ap : Option Bool) (hh : Hard E ap) (tol patch : ℝ) (kw : Rev.ActKw Rev.Coord) (kw' : ActKw) (hk : SameKw kw kw') (coef height : ℝ) (hht : 0 < height) :
    ∃ L, Lines L ∧ ∀ tx rx : PyDict Pt, Distinct rx → (∀ t ∈ rx, OffLines L t.2) →
      ∃ (M : List (Pt × Pt)) (g : String × Pt → ℝ × ℝ → Pt), Lines M ∧ ∀ P : Scene.Grid (ℝ × ℝ), (∀ row ∈ P, ∀ p ∈ row, OffLines M ⟨p.1, p.2⟩) →
        Rev.accumulateOnTransmittersGrid (wallScene tx rx walls) G { minOrder := lo, maxOrder := hi } ⟨E, F.fin tol, F.fin patch, ap, kw⟩ true false
          (Rev.receivedPower E (F.fin coef) (F.fin height)) (gridX P) (gridY P) =
          .ok (rx.map fun t => (t.1, .gradient (P.map fun row => row.map fun p => V2.fin (g t p)))) := by
  obtain ⟨L, hL, -, hpos⟩ := C102_positions E.eps he walls hw lo hi hlo
  refine ⟨L, hL, fun tx rx ht hoff => ?_⟩
  obtain ⟨value, gradient, points, accepted, -, q2, q3, -, q5⟩ := C100_transmitters (Key := Unit) G hG tx rx ht walls lo hi hlo hex (fun k _ => [k]) none E ap hh tol patch kw kw' hk coef height hht
  have hM : ∀ t : String × Pt, ∃ M, t ∈ rx → Lines M ∧ ∀ p : ℝ × ℝ, OffLines M ⟨p.1, p.2⟩ → ∃ g : Pt, gradient t p = V2.fin g := by
    intro t
    by_cases htm : t ∈ rx
    · obtain ⟨M, hM, h⟩ := hpos t.2 (hoff t htm)
      refine ⟨M, fun _ => ⟨hM, fun p hp => ?_⟩⟩
      obtain ⟨v', -, e⟩ := (q5 t htm p).2.1 fun c hc => by
        obtain ⟨loss, hl⟩ := q3 t.2 p c
        obtain ⟨h1, h2, -⟩ := h _ hp c hc _ _ hl
        exact ⟨h1, h2⟩
      exact ⟨_, e⟩
    · exact ⟨[], fun h => absurd h htm⟩
  choose M hM using hM
  have hg : ∀ (t : String × Pt) (p : ℝ × ℝ), ∃ g : Pt, t ∈ rx → OffLines (M t) ⟨p.1, p.2⟩ → gradient t p = V2.fin g := by
    intro t p
    by_cases h : t ∈ rx ∧ OffLines (M t) ⟨p.1, p.2⟩
    · obtain ⟨g, hg⟩ := (hM t h.1).2 p h.2
      exact ⟨g, fun _ _ => hg⟩
    · exact ⟨⟨0, 0⟩, fun h1 h2 => absurd ⟨h1, h2⟩ h⟩
  choose g hg using hg
  refine ⟨rx.flatMap M, g, fun l hl => ?_, fun P hP => ?_⟩
  · obtain ⟨t, ht, hl⟩ := List.mem_flatMap.mp hl
    exact (hM t ht).1 l hl
  · rw [(q2 true P).2]
    congr 1
    refine List.map_congr_left fun t htm => ?_
    congr 2
    refine List.map_congr_left fun row hrow => List.map_congr_left fun p hp => hg t p htm fun l hl => ?_
    exact hP row hrow p hp l (List.mem_flatMap.mpr ⟨t, htm, hl⟩)

/-- **C102.** In approximate mode this holds if no two walls are on one line, or if paths have at most one bounce. -/
theorem C102_soft_receivers (G : GraphLib) (hG : GraphContract G) (walls : List (Pt × Pt)) (hw : ∀ w ∈ walls, w.1 ≠ w.2) (lo hi : ℤ) (hlo : 0 ≤ lo) (hex : ∃ c, InRange walls.length lo hi c)
    (E : Env) (he : 0 < E.eps) (hun : 2 ≤ hi → Untangled walls) (ap : Option Bool) (hs : Soft E ap) (tol patch a : ℝ) (ha : 0 < a) (kw : Rev.ActKw Rev.Coord) (kw' : ActKw) (hk : LibraryActivation a kw kw') (coef height : ℝ) (hht : 0 < height) :
    ∃ L, Lines L ∧ ∀ tx rx : PyDict Pt, Distinct tx → (∀ t ∈ tx, OffLines L t.2) →
      ∃ (M : List (Pt × Pt)) (g : String × Pt → ℝ × ℝ → Pt), Lines M ∧ ∀ P : Scene.Grid (ℝ × ℝ), (∀ row ∈ P, ∀ p ∈ row, OffLines M ⟨p.1, p.2⟩) →
        Rev.accumulateOnReceiversGrid (wallScene tx rx walls) G { minOrder := lo, maxOrder := hi } ⟨E, F.fin tol, F.fin patch, ap, kw⟩ true false
          (Rev.receivedPower E (F.fin coef) (F.fin height)) (gridX P) (gridY P) =
          .ok (tx.map fun t => (t.1, .gradient (P.map fun row => row.map fun p => V2.fin (g t p)))) := by
  obtain ⟨L, hL, hpos, -⟩ := C102_positions E.eps he walls hw lo hi hlo
  refine ⟨L, hL, fun tx rx ht hoff => ?_⟩
  obtain ⟨value, gradient, points, -, q2, q3, q5⟩ := C101_receivers (Key := Unit) G hG tx rx ht walls lo hi hlo hex (fun k _ => [k]) none E ap hs tol patch a ha kw kw' hk coef height hht
  have hM : ∀ t : String × Pt, ∃ M, t ∈ tx → Lines M ∧ ∀ p : ℝ × ℝ, OffLines M ⟨p.1, p.2⟩ → ∃ g : Pt, gradient t p = V2.fin g := by
    intro t
    by_cases htm : t ∈ tx
    · obtain ⟨M, hM, h⟩ := hpos t.2 (hoff t htm)
      refine ⟨M, fun _ => ⟨hM, fun p hp => ?_⟩⟩
      refine (q5 t htm p).1 fun c hc => ?_
      obtain ⟨loss, hl⟩ := q3 t.2 p c
      obtain ⟨-, h2, h3⟩ := h _ hp c hc _ _ hl
      exact ⟨(h3 hun).moves, h2⟩
    · exact ⟨[], fun h => absurd h htm⟩
  choose M hM using hM
  have hg : ∀ (t : String × Pt) (p : ℝ × ℝ), ∃ g : Pt, t ∈ tx → OffLines (M t) ⟨p.1, p.2⟩ → gradient t p = V2.fin g := by
    intro t p
    by_cases h : t ∈ tx ∧ OffLines (M t) ⟨p.1, p.2⟩
    · obtain ⟨g, hg⟩ := (hM t h.1).2 p h.2
      exact ⟨g, fun _ _ => hg⟩
    · exact ⟨⟨0, 0⟩, fun h1 h2 => absurd ⟨h1, h2⟩ h⟩
  choose g hg using hg
  refine ⟨tx.flatMap M, g, fun l hl => ?_, fun P hP => ?_⟩
  · obtain ⟨t, ht, hl⟩ := List.mem_flatMap.mp hl
    exact (hM t ht).1 l hl
  · rw [(q2 true P).2]
    congr 1
    refine List.map_congr_left fun t htm => ?_
    congr 2
    refine List.map_congr_left fun row hrow => List.map_congr_left fun p hp => hg t p htm fun l hl => ?_
    exact hP row hrow p hp l (List.mem_flatMap.mpr ⟨t, htm, hl⟩)

/-- **C102.** The same with respect to the transmitter. -/
theorem C102_soft_transmitters (G : GraphLib) (hG : GraphContract G) (walls : List (Pt × Pt)) (hw : ∀ w ∈ walls, w.1 ≠ w.2) (lo hi : ℤ) (hlo : 0 ≤ lo) (hex : ∃ c, InRange walls.length lo hi c)
    (E : Env) (he : 0 < E.eps) (hun : 2 ≤ hi → Untangled walls) (ap : Option Bool) (hs : Soft E ap) (tol patch a : ℝ) (ha : 0 < a) (kw : Rev.ActKw Rev.Coord) (kw' : ActKw) (hk : LibraryActivation a kw kw') (coef height : ℝ) (hht : 0 < height) :
    ∃ L, Lines L ∧ ∀ tx rx : PyDict Pt, Distinct rx → (∀ t ∈ rx, OffLines L t.2) →
      ∃ (M : List (Pt × Pt)) (g : String × Pt → ℝ × ℝ → Pt), Lines M ∧ ∀ P : Scene.Grid (ℝ × ℝ), (∀ row ∈ P, ∀ p ∈ row, OffLines M ⟨p.1, p.2⟩) →
        Rev.accumulateOnTransmittersGrid (wallScene tx rx walls) G { minOrder := lo, maxOrder := hi } ⟨E, F.fin tol, F.fin patch, ap, kw⟩ true false
          (Rev.receivedPower E (F.fin coef) (F.fin height)) (gridX P) (gridY P) =
          .ok (rx.map fun t => (t.1, .gradient (P.map fun row => row.map fun p => V2.fin (g t p)))) := by
  obtain ⟨L, hL, -, hpos⟩ := C102_positions E.eps he walls hw lo hi hlo
  refine ⟨L, hL, fun tx rx ht hoff => ?_⟩
  obtain ⟨value, gradient, points, -, q2, q3, q5⟩ := C101_transmitters (Key := Unit) G hG tx rx ht walls lo hi hlo hex (fun k _ => [k]) none E ap hs tol patch a ha kw kw' hk coef height hht
  have hM : ∀ t : String × Pt, ∃ M, t ∈ rx → Lines M ∧ ∀ p : ℝ × ℝ, OffLines M ⟨p.1, p.2⟩ → ∃ g : Pt, gradient t p = V2.fin g := by
    intro t
    by_cases htm : t ∈ rx
    · obtain ⟨M, hM, h⟩ := hpos t.2 (hoff t htm)
      refine ⟨M, fun _ => ⟨hM, fun p hp => ?_⟩⟩
      refine (q5 t htm p).1 fun c hc => ?_
      obtain ⟨loss, hl⟩ := q3 t.2 p c
      obtain ⟨-, h2, h3⟩ := h _ hp c hc _ _ hl
      exact ⟨(h3 hun).moves, h2⟩
    · exact ⟨[], fun h => absurd h htm⟩
  choose M hM using hM
  have hg : ∀ (t : String × Pt) (p : ℝ × ℝ), ∃ g : Pt, t ∈ rx → OffLines (M t) ⟨p.1, p.2⟩ → gradient t p = V2.fin g := by
    intro t p
    by_cases h : t ∈ rx ∧ OffLines (M t) ⟨p.1, p.2⟩
    · obtain ⟨g, hg⟩ := (hM t h.1).2 p h.2
      exact ⟨g, fun _ _ => hg⟩
    · exact ⟨⟨0, 0⟩, fun h1 h2 => absurd ⟨h1, h2⟩ h⟩
  choose g hg using hg
  refine ⟨rx.flatMap M, g, fun l hl => ?_, fun P hP => ?_⟩
  · obtain ⟨t, ht, hl⟩ := List.mem_flatMap.mp hl
    exact (hM t ht).1 l hl
  · rw [(q2 true P).2]
    congr 1
    refine List.map_congr_left fun t htm => ?_
    congr 2
    refine List.map_congr_left fun row hrow => List.map_congr_left fun p hp => hg t p htm fun l hl => ?_
    exact hP row hrow p hp l (List.mem_flatMap.mpr ⟨t, htm, hl⟩)

/-! ### The other scenes -/

/-- Alternating candidates. -/
def alternate (i j : ℤ) : ℕ → List ℤ
  | 0 => []
  | n + 1 => i :: alternate j i n

theorem alternate_length (i j : ℤ) (n : ℕ) : (alternate i j n).length = n := by
  induction n generalizing i j with
  | zero => rfl
  | succ n ih => simp [alternate, ih]

theorem alternate_get (i j : ℤ) (n k : ℕ) (a : ℤ) (h : (alternate i j n)[k]? = some a) : a = if k % 2 = 0 then i else j := by
  induction n generalizing i j k with
  | zero => simp [alternate] at h
  | succ n ih =>
    cases k with
    | zero => simp [alternate] at h; simp [h]
    | succ k =>
      rw [ih j i k (by simpa [alternate] using h)]
      rcases Nat.mod_two_eq_zero_or_one k with e | e
      · simp [e, show (k + 1) % 2 = 1 by omega]
      · simp [e, show (k + 1) % 2 = 0 by omega]

theorem alternate_candidate {N : ℕ} {i j : ℕ} (hi : i < N) (hj : j < N) (hij : i ≠ j) (n : ℕ) : IsCandidate N (alternate i j n) := by
  refine ⟨fun k hk => ?_, fun k a b ha hb => ?_⟩
  · obtain ⟨m, hm⟩ := List.mem_iff_getElem?.mp hk
    rw [alternate_get _ _ _ _ _ hm]
    split <;> constructor <;> omega
  · rw [alternate_get _ _ _ _ _ ha, alternate_get _ _ _ _ _ hb]
    rcases Nat.mod_two_eq_zero_or_one k with e | e
    · simp [e, show (k + 1) % 2 = 1 by omega]; omega
    · simp [e, show (k + 1) % 2 = 0 by omega]; omega

/-- If paths of order 1 or more are considered, there is a candidate that starts with any wall. -/
theorem candidate_from {N : ℕ} {lo hi : ℤ} (hlo : 0 ≤ lo) (hex : ∃ c, InRange N lo hi c) (h1 : 1 ≤ hi) {i : ℕ} (hiN : i < N) : ∃ c, InRange N lo hi ((i : ℤ) :: c) := by
  obtain ⟨c0, hc0, hl0, hh0⟩ := hex
  by_cases hl : lo ≤ 1
  · exact ⟨[], ⟨⟨by simp; omega, by simp⟩, by simpa using hl, by simpa using h1⟩⟩
  · have hN : 2 ≤ N := by
      by_contra hN
      have h2 : 1 < c0.length := by omega
      have e0 := List.getElem?_eq_getElem (show 0 < c0.length by omega)
      have e1 := List.getElem?_eq_getElem h2
      have b0 := hc0.1 _ (List.getElem_mem (show 0 < c0.length by omega))
      have b1 := hc0.1 _ (List.getElem_mem h2)
      exact hc0.2 0 _ _ e0 e1 (by omega)
    obtain ⟨j, hj, hij⟩ : ∃ j, j < N ∧ i ≠ j := by
      by_cases h : i = 0
      · exact ⟨1, by omega, by omega⟩
      · exact ⟨0, by omega, h⟩
    refine ⟨alternate j i (lo.toNat - 1), ?_⟩
    have := alternate_candidate hiN hj hij (lo.toNat - 1 + 1)
    refine ⟨this, ?_, ?_⟩
    · rw [List.length_cons, alternate_length]; omega
    · rw [List.length_cons, alternate_length]; omega

theorem pause_collinear' (t r : Pt) {w w' : Pt × Pt} (ws : List (Pt × Pt)) (hw : w.1 ≠ w.2) (hw' : w'.1 ≠ w'.2) (h : Collinear w w') :
    ¬ NoPause (rpath t r (w :: w' :: ws)) := by
  intro hp
  by_cases hu : un w'.1 w'.2 (rimg w'.1 w'.2 (rimg w.1 w.2 t)) ((rpts (rimg w'.1 w'.2 (rimg w.1 w.2 t)) r ws).headD r) = 0
  · refine hp 2 (rback w'.1 w'.2 (rimg w'.1 w'.2 (rimg w.1 w.2 t)) ((rpts (rimg w'.1 w'.2 (rimg w.1 w.2 t)) r ws).headD r)) ((rpts (rimg w'.1 w'.2 (rimg w.1 w.2 t)) r ws).headD r) rfl ?_ (rback_guard hu)
    simp only [rpath, rpts]
    cases rpts (rimg w'.1 w'.2 (rimg w.1 w.2 t)) r ws <;> simp
  · refine hp 1 _ _ rfl rfl ?_
    simp only [rpts, List.headD_cons]
    exact rback_fix hw (side_collinear hw' h.1 h.2 (rback_side hw' hu))

theorem wallsAt_cons {walls : List (Pt × Pt)} {i : ℕ} {w : Pt × Pt} (h : walls[i]? = some w) (c : List ℤ) : wallsAt walls ((i : ℤ) :: c) = w :: wallsAt walls c := by
  simp [wallsAt, h]

theorem point_spoils {walls : List (Pt × Pt)} {lo hi : ℤ} (hlo : 0 ≤ lo) (hex : ∃ c, InRange walls.length lo hi c) (h1 : 1 ≤ hi) (hd : ∃ w ∈ walls, w.1 = w.2) :
    ∃ c, InRange walls.length lo hi c ∧ c ≠ [] ∧ ∀ t r, ¬ Unguarded t r (wallsAt walls c) := by
  obtain ⟨w, hw, hd⟩ := hd
  obtain ⟨i, hi'⟩ := List.mem_iff_getElem?.mp hw
  obtain ⟨c, hc⟩ := candidate_from hlo hex h1 (List.getElem?_eq_some_iff.mp hi').1
  refine ⟨_, hc, by simp, fun t r h => ?_⟩
  rw [wallsAt_cons hi'] at h
  exact unguarded_ne h w List.mem_cons_self hd

theorem noPause_unguarded {t r : Pt} {ws : List (Pt × Pt)} (h : NoPause (rpath t r ws)) : Unguarded t r ws :=
  unguarded_of_noPause fun i a b ha hb => h (i + 1) a b (by simpa [rpath] using ha) (by simpa [rpath] using hb)

theorem tangle_spoils {walls : List (Pt × Pt)} {lo hi : ℤ} (hlo : 0 ≤ lo) (hex : ∃ c, InRange walls.length lo hi c)
    (h : (1 ≤ hi ∧ ∃ w ∈ walls, w.1 = w.2) ∨ (2 ≤ hi ∧ ¬ Untangled walls)) :
    ∃ c, InRange walls.length lo hi c ∧ c ≠ [] ∧ ∀ t r, ¬ NoPause (rpath t r (wallsAt walls c)) := by
  by_cases hd : ∃ w ∈ walls, w.1 = w.2
  · obtain ⟨c, h1, h2, h3⟩ := point_spoils hlo hex (by omega) hd
    exact ⟨c, h1, h2, fun t r hp => h3 t r (noPause_unguarded hp)⟩
  · obtain ⟨h2, hu⟩ := h.resolve_left fun h => hd h.2
    unfold Untangled at hu
    push Not at hu
    obtain ⟨i, j, w, w', hij, hi', hj', hc⟩ := hu
    have hli := (List.getElem?_eq_some_iff.mp hi').1
    have hlj := (List.getElem?_eq_some_iff.mp hj').1
    have hcan := alternate_candidate hli hlj hij (Nat.max lo.toNat 2)
    obtain ⟨n, hn⟩ : ∃ n, Nat.max lo.toNat 2 = n + 2 := ⟨Nat.max lo.toNat 2 - 2, by have := Nat.le_max_right lo.toNat 2; change 2 ≤ Nat.max _ _ at this; omega⟩
    have hle : (Nat.max lo.toNat 2 : ℤ) ≤ hi := by
      obtain ⟨c0, -, hl0, hh0⟩ := hex
      rcases Nat.le_total lo.toNat 2 with e | e
      · rw [show Nat.max lo.toNat 2 = 2 from Nat.max_eq_right e]; exact_mod_cast h2
      · rw [show Nat.max lo.toNat 2 = lo.toNat from Nat.max_eq_left e]; omega
    have hge : lo ≤ (Nat.max lo.toNat 2 : ℤ) := by
      have := Nat.le_max_left lo.toNat 2
      change lo.toNat ≤ Nat.max _ _ at this
      omega
    refine ⟨alternate i j (Nat.max lo.toNat 2), ⟨hcan, by rw [alternate_length]; exact hge, by rw [alternate_length]; exact hle⟩, ?_, fun t r => ?_⟩
    · rw [hn]; simp [alternate]
    · rw [hn]
      simp only [alternate]
      rw [wallsAt_cons hi', wallsAt_cons hj']
      exact pause_collinear' t r _ (fun e => hd ⟨w, List.mem_of_getElem? hi', e⟩) (fun e => hd ⟨w', List.mem_of_getElem? hj', e⟩) hc

/-- **C102.** In hard mode, if a wall is reduced to a point and paths may have a bounce, every gradient with respect to the receiver is NaN. -/
theorem C102_hard_receivers_nan (G : GraphLib) (hG : GraphContract G) (walls : List (Pt × Pt)) (lo hi : ℤ) (hlo : 0 ≤ lo) (hex : ∃ c, InRange walls.length lo hi c)
    (E : Env) (ap : Option Bool) (hh : Hard E ap) (tol patch : ℝ) (kw : Rev.ActKw Rev.Coord) (kw' : ActKw) (hk : SameKw kw kw') (coef height : ℝ) (hht : 0 < height)
    (hbad : 1 ≤ hi ∧ ∃ w ∈ walls, w.1 = w.2) (tx rx : PyDict Pt) (ht : Distinct tx) (P : Scene.Grid (ℝ × ℝ)) :
    Rev.accumulateOnReceiversGrid (wallScene tx rx walls) G { minOrder := lo, maxOrder := hi } ⟨E, F.fin tol, F.fin patch, ap, kw⟩ true false
      (Rev.receivedPower E (F.fin coef) (F.fin height)) (gridX P) (gridY P) =
      .ok (tx.map fun t => (t.1, .gradient (P.map fun row => row.map fun _ => ⟨F.nan, F.nan⟩))) := by
  obtain ⟨c, hc, -, hb⟩ := point_spoils hlo hex hbad.1 hbad.2
  obtain ⟨value, gradient, points, accepted, -, q2, q3, -, q5⟩ := C100_receivers (Key := Unit) G hG tx rx ht walls lo hi hlo hex (fun k _ => [k]) none E ap hh tol patch kw kw' hk coef height hht
  have hg : ∀ t ∈ tx, ∀ p, gradient t p = ⟨F.nan, F.nan⟩ := by
    intro t htm p
    refine (q5 t htm p).2.2 ⟨c, hc, fun h => ?_⟩
    obtain ⟨loss, hl⟩ := q3 t.2 p c
    obtain ⟨e1, -⟩ := traceImage_iff hl
    rw [e1, determined_iff] at h
    exact hb _ _ h.1
  rw [(q2 true P).2]
  congr 1
  refine List.map_congr_left fun t htm => ?_
  rw [show gradient t = fun _ => ⟨F.nan, F.nan⟩ from funext fun p => hg t htm p]

/-- **C102.** The same with respect to the transmitter. -/
theorem C102_hard_transmitters_nan (G : GraphLib) (hG : GraphContract G) (walls : List (Pt × Pt)) (lo hi : ℤ) (hlo : 0 ≤ lo) (hex : ∃ c, InRange walls.length lo hi c)
    (E : Env) (ap : Option Bool) (hh : Hard E ap) (tol patch : ℝ) (kw : Rev.ActKw Rev.Coord) (kw' : ActKw) (hk : SameKw kw kw') (coef height : ℝ) (hht : 0 < height)
    (hbad : 1 ≤ hi ∧ ∃ w ∈ walls, w.1 = w.2) (tx rx : PyDict Pt) (ht : Distinct rx) (P : Scene.Grid (ℝ × ℝ)) :
    Rev.accumulateOnTransmittersGrid (wallScene tx rx walls) G { minOrder := lo, maxOrder := hi } ⟨E, F.fin tol, F.fin patch, ap, kw⟩ true false
      (Rev.receivedPower E (F.fin coef) (F.fin height)) (gridX P) (gridY P) =
      .ok (rx.map fun t => (t.1, .gradient (P.map fun row => row.map fun _ => ⟨F.nan, F.nan⟩))) := by
  obtain ⟨c, hc, -, hb⟩ := point_spoils hlo hex hbad.1 hbad.2
  obtain ⟨value, gradient, points, accepted, -, q2, q3, -, q5⟩ := C100_transmitters (Key := Unit) G hG tx rx ht walls lo hi hlo hex (fun k _ => [k]) none E ap hh tol patch kw kw' hk coef height hht
  have hg : ∀ t ∈ rx, ∀ p, gradient t p = ⟨F.nan, F.nan⟩ := by
    intro t htm p
    refine (q5 t htm p).2.2 ⟨c, hc, fun h => ?_⟩
    obtain ⟨loss, hl⟩ := q3 t.2 p c
    obtain ⟨e1, -⟩ := traceImage_iff hl
    rw [e1, determined_iff] at h
    exact hb _ _ h.1
  rw [(q2 true P).2]
  congr 1
  refine List.map_congr_left fun t htm => ?_
  rw [show gradient t = fun _ => ⟨F.nan, F.nan⟩ from funext fun p => hg t htm p]

/-- **C102.** In approximate mode, so it is also if two walls are on one line and paths may have two bounces: these are all the exceptions to
`C102_soft_receivers`. -/
theorem C102_soft_receivers_nan (G : GraphLib) (hG : GraphContract G) (walls : List (Pt × Pt)) (lo hi : ℤ) (hlo : 0 ≤ lo) (hex : ∃ c, InRange walls.length lo hi c)
    (E : Env) (ap : Option Bool) (hs : Soft E ap) (tol patch a : ℝ) (ha : 0 < a) (kw : Rev.ActKw Rev.Coord) (kw' : ActKw) (hk : LibraryActivation a kw kw') (coef height : ℝ) (hht : 0 < height)
    (hbad : (1 ≤ hi ∧ ∃ w ∈ walls, w.1 = w.2) ∨ (2 ≤ hi ∧ ¬ Untangled walls)) (tx rx : PyDict Pt) (ht : Distinct tx) (P : Scene.Grid (ℝ × ℝ)) :
    Rev.accumulateOnReceiversGrid (wallScene tx rx walls) G { minOrder := lo, maxOrder := hi } ⟨E, F.fin tol, F.fin patch, ap, kw⟩ true false
      (Rev.receivedPower E (F.fin coef) (F.fin height)) (gridX P) (gridY P) =
      .ok (tx.map fun t => (t.1, .gradient (P.map fun row => row.map fun _ => ⟨F.nan, F.nan⟩))) := by
  obtain ⟨c, hc, hne, hb⟩ := tangle_spoils hlo hex hbad
  obtain ⟨value, gradient, points, -, q2, q3, q5⟩ := C101_receivers (Key := Unit) G hG tx rx ht walls lo hi hlo hex (fun k _ => [k]) none E ap hs tol patch a ha kw kw' hk coef height hht
  have hg : ∀ t ∈ tx, ∀ p, gradient t p = ⟨F.nan, F.nan⟩ := by
    intro t htm p
    refine (q5 t htm p).2 ⟨c, hc, fun h => ?_⟩
    obtain ⟨loss, hl⟩ := q3 t.2 p c
    obtain ⟨e1, -⟩ := traceImage_iff hl
    rw [e1] at h
    exact hb _ _ (h.1 hne)
  rw [(q2 true P).2]
  congr 1
  refine List.map_congr_left fun t htm => ?_
  rw [show gradient t = fun _ => ⟨F.nan, F.nan⟩ from funext fun p => hg t htm p]

/-- **C102.** The same with respect to the transmitter. -/
theorem C102_soft_transmitters_nan (G : GraphLib) (hG : GraphContract G) (walls : List (Pt × Pt)) (lo hi : ℤ) (hlo : 0 ≤ lo) (hex : ∃ c, InRange walls.length lo hi c)
    (E : Env) (ap : Option Bool) (hs : Soft E ap) (tol patch a : ℝ) (ha : 0 < a) (kw : Rev.ActKw Rev.Coord) (kw' : ActKw) (hk : LibraryActivation a kw kw') (coef height : ℝ) (hht : 0 < height)
    (hbad : (1 ≤ hi ∧ ∃ w ∈ walls, w.1 = w.2) ∨ (2 ≤ hi ∧ ¬ Untangled walls)) (tx rx : PyDict Pt) (ht : Distinct rx) (P : Scene.Grid (ℝ × ℝ)) :
    Rev.accumulateOnTransmittersGrid (wallScene tx rx walls) G { minOrder := lo, maxOrder := hi } ⟨E, F.fin tol, F.fin patch, ap, kw⟩ true false
      (Rev.receivedPower E (F.fin coef) (F.fin height)) (gridX P) (gridY P) =
      .ok (rx.map fun t => (t.1, .gradient (P.map fun row => row.map fun _ => ⟨F.nan, F.nan⟩))) := by
  obtain ⟨c, hc, hne, hb⟩ := tangle_spoils hlo hex hbad
  obtain ⟨value, gradient, points, -, q2, q3, q5⟩ := C101_transmitters (Key := Unit) G hG tx rx ht walls lo hi hlo hex (fun k _ => [k]) none E ap hs tol patch a ha kw kw' hk coef height hht
  have hg : ∀ t ∈ rx, ∀ p, gradient t p = ⟨F.nan, F.nan⟩ := by
    intro t htm p
    refine (q5 t htm p).2 ⟨c, hc, fun h => ?_⟩
    obtain ⟨loss, hl⟩ := q3 t.2 p c
    obtain ⟨e1, -⟩ := traceImage_iff hl
    rw [e1] at h
    exact hb _ _ (h.1 hne)
  rw [(q2 true P).2]
  congr 1
  refine List.map_congr_left fun t htm => ?_
  rw [show gradient t = fun _ => ⟨F.nan, F.nan⟩ from funext fun p => hg t htm p]

/-! ### Finitely many lines are negligible -/

open MeasureTheory in
/-- **C102.** Almost every point is outside of finitely many lines. -/
theorem C102_negligible (L : List (Pt × Pt)) (hL : Lines L) : ∀ᵐ p : ℝ × ℝ, OffLines L ⟨p.1, p.2⟩ := by
  have key : ∀ l : Pt × Pt, l.1 ≠ l.2 → ∀ᵐ p : ℝ × ℝ, side l.1 l.2 ⟨p.1, p.2⟩ ≠ 0 := by
    intro l hl
    let A : AffineSubspace ℝ (ℝ × ℝ) :=
      { carrier := {p | side l.1 l.2 ⟨p.1, p.2⟩ = 0}
        smul_vsub_vadd_mem' := by
          intro c p q r hp hq hr
          simp only [Set.mem_setOf_eq, side, vsub_eq_sub, vadd_eq_add, Prod.fst_add, Prod.snd_add, Prod.smul_fst, Prod.smul_snd, Prod.fst_sub, Prod.snd_sub, smul_eq_mul] at *
          linear_combination c * hp - c * hq + hr }
    have hA : A ≠ ⊤ := by
      intro e
      apply hl
      have hmem : ∀ p : ℝ × ℝ, side l.1 l.2 ⟨p.1, p.2⟩ = 0 := fun p => by
        have : p ∈ A := by rw [e]; trivial
        exact this
      have h1 := hmem (l.1.x, l.1.y + 1)
      have h2 := hmem (l.1.x + 1, l.1.y)
      simp only [side] at h1 h2
      ext <;> linarith
    haveI : (volume : Measure (ℝ × ℝ)).IsAddHaarMeasure := by rw [Measure.volume_eq_prod]; infer_instance
    have := Measure.addHaar_affineSubspace (volume : Measure (ℝ × ℝ)) A hA
    rw [ae_iff]
    simp only [ne_eq, not_not]
    exact this
  have : ∀ l ∈ L, ∀ᵐ p : ℝ × ℝ, side l.1 l.2 ⟨p.1, p.2⟩ ≠ 0 := fun l hl => key l (hL l hl)
  clear hL key
  induction L with
  | nil => exact Filter.Eventually.of_forall fun p => by simp [OffLines]
  | cons l L ih =>
    filter_upwards [this l List.mem_cons_self, ih fun m hm => this m (List.mem_cons_of_mem _ hm)] with p h1 h2 m hm
    rcases List.mem_cons.mp hm with rfl | hm
    · exact h1
    · exact h2 m hm

/-! ### Non-vacuity -/

/-- Two walls that meet, in approximate mode with paths of order up to 4: almost every transmitter has real gradients at almost every receiver. -/
example (E : Env) (he : 0 < E.eps) : ∃ L, Lines L ∧ ∀ t : Pt, OffLines L t → ∃ (M : List (Pt × Pt)) (g : String × Pt → ℝ × ℝ → Pt), Lines M ∧ ∀ r : ℝ × ℝ, OffLines M ⟨r.1, r.2⟩ →
    Rev.accumulateOnReceiversGrid (wallScene [("tx", t)] [] [(⟨0, 0⟩, ⟨1, 0⟩), (⟨0, 0⟩, ⟨0, 1⟩)]) refLib { minOrder := 0, maxOrder := 4 }
      ⟨E, F.fin (1 / 100), F.fin 0, some true, ⟨F.fin 100, Rev.sigmoid⟩⟩ true false (Rev.receivedPower E (F.fin (1 / 2)) (F.fin 1)) [[F.fin r.1]] [[F.fin r.2]] =
      .ok [("tx", .gradient [[V2.fin (g ("tx", t) r)]])] := by
  obtain ⟨L, hL, h⟩ := C102_soft_receivers refLib refLib_contract [(⟨0, 0⟩, ⟨1, 0⟩), (⟨0, 0⟩, ⟨0, 1⟩)] (by simp) 0 4 le_rfl ⟨[], by simp [InRange, IsCandidate]⟩ E he
    (fun _ i j w w' hij hi hj => by
      match i, j with
      | 0, 0 => exact absurd rfl hij
      | 0, 1 => simp at hi hj; subst hi hj; norm_num [Collinear, side]
      | 1, 0 => simp at hi hj; subst hi hj; norm_num [Collinear, side]
      | 1, 1 => exact absurd rfl hij
      | i + 2, _ => simp at hi
      | 0, j + 2 => simp at hj
      | 1, j + 2 => simp at hj) (some true) (.inl rfl) (1 / 100) 0 100 (by norm_num) ⟨F.fin 100, Rev.sigmoid⟩ ⟨F.fin 100, sigmoid⟩ (.inl ⟨rfl, rfl⟩) (1 / 2) 1 one_pos
  refine ⟨L, hL, fun t ht => ?_⟩
  obtain ⟨M, g, hM, hP⟩ := h [("tx", t)] [] (by simp [Distinct]) (by simpa using ht)
  refine ⟨M, g, hM, fun r hr => ?_⟩
  have := hP [[r]] (fun row hrow p hp => by
    rw [List.mem_singleton] at hrow
    rw [hrow, List.mem_singleton] at hp
    rw [hp]
    exact hr)
  simpa [gridX, gridY] using this

open MeasureTheory in
/-- The exceptions of C102 leave room: there is a point outside of any finitely many lines. -/
example (L : List (Pt × Pt)) (hL : Lines L) : ∃ p : Pt, OffLines L p := by
  obtain ⟨p, hp⟩ := (C102_negligible L hL).exists
  exact ⟨_, hp⟩

/-- The hypothesis of the exceptions is met by `basic_scene`. -/
example : ¬ Untangled [(⟨0, 0⟩, ⟨1, 0⟩), (⟨1, 0⟩, ⟨1, 1⟩), (⟨1, 1⟩, ⟨0, 1⟩), (⟨0, 1⟩, ⟨0, 0⟩), (⟨2 / 5, 0⟩, ⟨2 / 5, 2 / 5⟩), (⟨2 / 5, 2 / 5⟩, ⟨3 / 10, 2 / 5⟩), (⟨1 / 10, 2 / 5⟩, ⟨0, 2 / 5⟩)] := by
  intro h
  refine h 5 6 (⟨2 / 5, 2 / 5⟩, ⟨3 / 10, 2 / 5⟩) (⟨1 / 10, 2 / 5⟩, ⟨0, 2 / 5⟩) (by norm_num) rfl rfl ?_
  norm_num [Collinear, side]

end DiffeRT2d.Props
