import Verif.Props.Reorder
import Verif.Props.Redraw
import Verif.Props.Patch
import Verif.Props.Lines
import Verif.Props.Symmetry
import Verif.Spec.Reciprocal

/-! # C139: reciprocity of the paths and of the values, in both modes -/

namespace DiffeRT2d.Props
open Classical Spec

/-- Objects have no front: a segment crosses them in both directions. -/
theorem crosses_back (x : Shape) (E : Env) (ap : Option Bool) (kw : ActKw) (patch : ℝ) (a b : Pt) :
    x.obj.interact.intersects E ap kw (F.fin patch) (V2.fin b) (V2.fin a) = x.obj.interact.intersects E ap kw (F.fin patch) (V2.fin a) (V2.fin b) := by
  have key : ∀ o d : Pt, (Wall.ofPts o d).intersects E ap kw (F.fin patch) (V2.fin b) (V2.fin a) =
      (Wall.ofPts o d).intersects E ap kw (F.fin patch) (V2.fin a) (V2.fin b) := by
    intro o d
    rw [patched, patched, segTol_eq]
    exact (C11_reverse E ap kw _ _ a b _).2
  cases x with
  | wall o d => exact key o d
  | ris o d φ => exact key o d
  | vertex q => rfl

theorem mem_hits_back (pts : List Pt) (loss loss' : F) (E : Env) (shapes : List Shape) (c : List ℤ) (hl : pts.length = c.length + 2) (patch : ℝ)
    (ap : Option Bool) (kw : ActKw) (v : Truthy)
    (h : v ∈ hitVals ⟨pts.map V2.fin, loss⟩ E ((shapes.map Shape.obj).map Obj.interact) c (F.fin patch) ap kw) :
    v ∈ hitVals ⟨pts.reverse.map V2.fin, loss'⟩ E ((shapes.map Shape.obj).map Obj.interact) c.reverse (F.fin patch) ap kw := by
  rw [mem_hitVals (by simp [hl])] at h ⊢
  obtain ⟨i, j, o, a, b, ha, hb, ho, h1, h2, rfl⟩ := h
  simp only [List.getElem?_map, Option.map_eq_some_iff] at ha hb ho
  obtain ⟨a, ha, rfl⟩ := ha
  obtain ⟨b, hb, rfl⟩ := hb
  obtain ⟨_, ⟨x, hx, rfl⟩, rfl⟩ := ho
  have hi : i + 1 < pts.length := (List.getElem?_eq_some_iff.mp hb).1
  refine ⟨c.length - i, j, x.obj.interact, V2.fin b, V2.fin a, ?_, ?_, by simp [hx], ?_, ?_, (crosses_back x E ap kw patch b a)⟩
  · rw [List.getElem?_map, List.getElem?_reverse (by omega), show pts.length - 1 - (c.length - i) = i + 1 by omega, hb]; rfl
  · rw [List.getElem?_map, List.getElem?_reverse (by omega), show pts.length - 1 - (c.length - i + 1) = i by omega, ha]; rfl
  · rintro ⟨k, e, hk⟩
    have hkl := (List.getElem?_eq_some_iff.mp hk).1
    rw [List.length_reverse] at hkl
    rw [List.getElem?_reverse hkl, show c.length - 1 - k = i by omega] at hk
    exact h2 hk
  · intro hk
    have hkl := (List.getElem?_eq_some_iff.mp hk).1
    rw [List.length_reverse] at hkl
    rw [List.getElem?_reverse hkl] at hk
    exact h1 ⟨c.length - 1 - (c.length - i), by omega, hk⟩

theorem minOf_reverse (z : F) (xs : List F) : F.minOf z xs.reverse = F.minOf z xs := by
  unfold F.minOf
  haveI : RightCommutative F.min := ⟨fun a b c => by rw [F.min_assoc', F.min_comm' b c, ← F.min_assoc']⟩
  exact (List.reverse_perm xs).foldl_eq z

theorem onVals_back (pts : List Pt) (loss loss' : F) (E : Env) (inter : List Interactable) (hl : pts.length = inter.length + 2) (ap : Option Bool) (kw : ActKw) :
    onVals ⟨pts.reverse.map V2.fin, loss'⟩ E inter.reverse ap kw = (onVals ⟨pts.map V2.fin, loss⟩ E inter ap kw).reverse := by
  apply List.ext_getElem?
  intro i
  by_cases hi : i < inter.length
  · rw [List.getElem?_reverse (by simpa [onVals] using hi)]
    have h1 : inter.length - 1 - i < inter.length := by omega
    have e1 : nth (pts.reverse.map V2.fin) (i + 1) = nth (pts.map V2.fin) (inter.length - 1 - i + 1) := by
      have h2 : (pts.map V2.fin)[inter.length - 1 - i + 1]? = some ((pts.map V2.fin)[inter.length - 1 - i + 1]'(by simp; omega)) :=
        List.getElem?_eq_getElem _
      have h3 : (pts.reverse.map V2.fin)[i + 1]? = some ((pts.map V2.fin)[inter.length - 1 - i + 1]'(by simp; omega)) := by
        rw [← h2, List.map_reverse, List.getElem?_reverse (by simp; omega), List.length_map]
        congr 1
        omega
      rw [nth_eq h2, nth_eq h3]
    simp only [onVals, List.getElem?_map, List.getElem?_zipIdx, List.length_map, List.length_zipIdx, List.getElem?_reverse hi,
      List.getElem?_eq_getElem h1, Option.map_some, zero_add, e1]
  · rw [List.getElem?_eq_none (by simp [onVals]; omega), List.getElem?_eq_none (by simp [onVals]; omega)]

/-- **C139.** The validity of a path traversed backwards, in both modes and whatever the activation, the tolerance and the patch: finite
points, one per object interacted with; scenes of walls, RIS and vertices. -/
theorem C139_validity (pts : List Pt) (loss : F) (E : Env) (shapes : List Shape) (inter : List Interactable) (c : List ℤ) (hl : pts.length = c.length + 2)
    (hi : inter.length = c.length) (tol : F) (patch : ℝ) (ap : Option Bool) (kw : ActKw) :
    Path.isValid ⟨pts.reverse.map V2.fin, loss⟩ E ((shapes.map Shape.obj).map Obj.interact) c.reverse inter.reverse tol (F.fin patch) ap kw =
      Path.isValid ⟨pts.map V2.fin, loss⟩ E ((shapes.map Shape.obj).map Obj.interact) c inter tol (F.fin patch) ap kw := by
  have hh : ∀ v, v ∈ hitVals ⟨pts.reverse.map V2.fin, loss⟩ E ((shapes.map Shape.obj).map Obj.interact) c.reverse (F.fin patch) ap kw ↔
      v ∈ hitVals ⟨pts.map V2.fin, loss⟩ E ((shapes.map Shape.obj).map Obj.interact) c (F.fin patch) ap kw := by
    intro v
    refine ⟨fun h => ?_, mem_hits_back pts loss loss E shapes c hl patch ap kw v⟩
    have := mem_hits_back pts.reverse loss loss E shapes c.reverse (by simp [hl]) patch ap kw v h
    rwa [List.reverse_reverse, List.reverse_reverse] at this
  have l1 : (⟨pts.map V2.fin, loss⟩ : Path).xys.length ≤ c.length + 2 := by simp [hl]
  have l2 : (⟨pts.reverse.map V2.fin, loss⟩ : Path).xys.length ≤ c.reverse.length + 2 := by simp [hl]
  have ho := onVals_back pts loss loss E inter (by omega) ap kw
  rcases hard_or_soft E ap with h | h
  · rw [isValid_hard _ h _ _ _ _ _ _ l1, isValid_hard _ h _ _ _ _ _ _ l2, ho]
    congr 3
    · simp
    · congr 2
      rw [Bool.eq_iff_iff]; simp only [List.any_eq_true]
      exact ⟨fun ⟨x, hx, e⟩ => ⟨x, (hh x).mp hx, e⟩, fun ⟨x, hx, e⟩ => ⟨x, (hh x).mpr hx, e⟩⟩
  · rw [isValid_soft _ h _ _ _ _ _ _ l1, isValid_soft _ h _ _ _ _ _ _ l2, ho, List.map_reverse, minOf_reverse]
    rw [maxOf_ext (xs := (hitVals ⟨pts.reverse.map V2.fin, loss⟩ E ((shapes.map Shape.obj).map Obj.interact) c.reverse (F.fin patch) ap kw).map Truthy.toF)]
    intro x
    simp only [List.mem_map]
    exact ⟨fun ⟨x, hx, e⟩ => ⟨x, (hh x).mp hx, e⟩, fun ⟨x, hx, e⟩ => ⟨x, (hh x).mpr hx, e⟩⟩

/-! ## Positions -/

theorem inRange_reverse {n : ℕ} {lo hi : ℤ} {c : List ℤ} (h : InRange n lo hi c) : InRange n lo hi c.reverse :=
  ⟨isCandidate_reverse h.1, by simpa using h.2.1, by simpa using h.2.2⟩

/-- **C139.** In a scene of walls of non-zero length, all points outside of finitely many lines are in a position where every image path
is reversible: the lines for the transmitter depend on the scene, those for the receiver on the transmitter as well. -/
theorem C139_positions (G : GraphLib) (hG : GraphContract G) (walls : List (Pt × Pt)) (hw : ∀ w ∈ walls, w.1 ≠ w.2) (lo hi : ℤ) (hlo : 0 ≤ lo) :
    ∃ L, Lines L ∧ ∀ t, OffLines L t → ∃ M, Lines M ∧ ∀ r, OffLines M r → Reversible walls lo hi t r := by
  obtain ⟨cs, -, -, hcm, -⟩ := C53_sound_complete G hG (wallScene [] [] walls) lo hi hlo
  rw [wallScene_objects, wallsOf_length] at hcm
  obtain ⟨L, hL, h⟩ := offChains_exist (cs.map (wallsAt walls)) (by
    intro ws hws w hww
    obtain ⟨c, -, rfl⟩ := List.mem_map.mp hws
    exact hw w (wallsAt_mem hww))
  refine ⟨L, hL, fun t ht => ?_⟩
  obtain ⟨M, hM, h'⟩ := good_positions (eps := 1) one_ne_zero walls hw t (cs.map (wallsAt walls)) (by
    intro ws hws
    refine ⟨?_, h t ht ws hws⟩
    obtain ⟨c, -, rfl⟩ := List.mem_map.mp hws
    exact fun w hww => wallsAt_mem hww)
  refine ⟨L ++ M, lines_append hL hM, fun r hr c pts loss hc e => ?_⟩
  obtain ⟨h1, h2⟩ := offLines_append.mp hr
  rw [traceImage_eq] at e
  obtain ⟨rfl, rfl⟩ := finitePath_inj (Except.ok.inj e)
  have hu := (h' r h2 _ (List.mem_map_of_mem ((hcm c).mpr hc))).1
  have ho := h r h1 _ (List.mem_map_of_mem ((hcm _).mpr (inRange_reverse hc)))
  rw [← wallsAt_reverse] at ho ⊢
  obtain ⟨-, e'⟩ := rpath_reverse (t := r) (r := t) ho (by rw [List.reverse_reverse]; exact hu)
  rw [List.reverse_reverse] at e'
  rw [traceImage_eq, e', scores_reverse _ _ (rpath_length _ _ _), List.sum_reverse]

/-! ## The loops -/

theorem objectsAt_reverse (s : Scene) (c : List ℤ) : objectsAt s c.reverse = (objectsAt s c).reverse := by
  unfold objectsAt; rw [List.filterMap_reverse]

theorem turnOf_reverse {Key : Type} (tx rx : PyDict Pt) (walls : List (Pt × Pt)) (lo hi : ℤ) (t r : Pt) (h : Reversible walls lo hi t r)
    (E : Env) (tol : F) (patch : ℝ) (ap : Option Bool) (kw : ActKw) (c : List ℤ) (hc : InRange walls.length lo hi c) :
    ∃ pts loss valid, turnOf (wallScene tx rx walls) (imageMethod Key) ⟨E, tol, F.fin patch, ap, kw⟩ (V2.fin t) (V2.fin r) c = .ok (finitePath pts loss, valid) ∧
      turnOf (wallScene rx tx walls) (imageMethod Key) ⟨E, tol, F.fin patch, ap, kw⟩ (V2.fin r) (V2.fin t) c.reverse = .ok (finitePath pts.reverse loss, valid) := by
  have h1 := traceImage_eq t r (wallsAt walls c)
  have h2 := h c _ _ hc h1
  have hsh : wallsOf walls = (walls.map fun w => Shape.wall w.1 w.2).map Shape.obj := by simp [wallsOf, Shape.obj]
  have hl : (rpath t r (wallsAt walls c)).length = c.length + 2 := by rw [rpath_length, wallsAt_length hc.1]
  have hv := C139_validity (rpath t r (wallsAt walls c)) (F.fin (scores (wallsAt walls c) (rpath t r (wallsAt walls c))).sum) E
    (walls.map fun w => Shape.wall w.1 w.2) ((wallsOf (wallsAt walls c)).map Obj.interact) c hl
    (by rw [List.length_map, wallsOf_length, wallsAt_length hc.1]) tol patch ap kw
  have hok : ∃ x, Path.isValid ⟨(rpath t r (wallsAt walls c)).map V2.fin, F.fin (scores (wallsAt walls c) (rpath t r (wallsAt walls c))).sum⟩ E
      ((wallsOf walls).map Obj.interact) c ((wallsOf (wallsAt walls c)).map Obj.interact) tol (F.fin patch) ap kw = .ok x := by
    rcases hard_or_soft E ap with hh | hh
    · rw [isValid_hard _ hh _ _ _ _ _ _ (by simp [hl])]; exact ⟨_, rfl⟩
    · rw [isValid_soft _ hh _ _ _ _ _ _ (by simp [hl])]; exact ⟨_, rfl⟩
  obtain ⟨x, hx⟩ := hok
  refine ⟨rpath t r (wallsAt walls c), (scores (wallsAt walls c) (rpath t r (wallsAt walls c))).sum, x, ?_, ?_⟩
  · unfold turnOf
    unfold traceImage at h1
    rw [objectsAt_walls]
    simp only [imageMethod, h1, bind, Except.bind, Scene.validity, wallScene_objects, finitePath, hx]
    rfl
  · unfold turnOf
    unfold traceImage at h2
    have e : (wallsOf (wallsAt walls c.reverse)).map Obj.interact = ((wallsOf (wallsAt walls c)).map Obj.interact).reverse := by
      rw [← wallsAt_reverse]; simp [wallsOf]
    rw [objectsAt_walls]
    simp only [imageMethod, h2, bind, Except.bind, Scene.validity, wallScene_objects, finitePath, e]
    rw [hsh] at hx ⊢
    rw [hv, hx]
    rfl

section
variable {Key : Type} (G : GraphLib) (hG : GraphContract G) (tx rx : PyDict Pt) (ht : Distinct tx) (hr : Distinct rx) (walls : List (Pt × Pt))
  (lo hi : ℤ) (hlo : 0 ≤ lo) (hrev : ∀ t ∈ tx, ∀ r ∈ rx, Reversible walls lo hi t.2 r.2) (split : Key → ℕ → List Key) (key key' : Option Key)
  (E : Env) (tol : F) (patch : ℝ) (ap : Option Bool) (kw : ActKw)

theorem finPoints_nodup {d : PyDict Pt} (hd : Distinct d) : (finPoints d).Nodup := List.Nodup.of_map Prod.fst (finPoints_distinct hd)

include hG ht hr hlo hrev in
/-- The next theorem, with finite points. -/
theorem reciprocal_paths : ∃ ts ts', (wallScene tx rx walls).allPaths G split (imageMethod Key) { minOrder := lo, maxOrder := hi } ⟨E, tol, F.fin patch, ap, kw⟩ key = .ok ts ∧
    (wallScene rx tx walls).allPaths G split (imageMethod Key) { minOrder := lo, maxOrder := hi } ⟨E, tol, F.fin patch, ap, kw⟩ key' = .ok ts' ∧
    ts'.Perm (ts.map reverseTuple) ∧ ∀ x ∈ ts, ∃ pts loss, x.path = finitePath pts loss := by
  have hk : KeyIndependent (imageMethod Key) := fun _ _ _ _ _ => rfl
  obtain ⟨cs, hcs, hcd, hcm, -⟩ := C53_sound_complete G hG (wallScene tx rx walls) lo hi hlo
  have hcs' : (wallScene rx tx walls).allPathCandidates G { minOrder := lo, maxOrder := hi } = .ok cs := by
    rw [← hcs]; simp only [Scene.allPathCandidates, wallScene_objects]
  rw [wallScene_objects, wallsOf_length] at hcm
  have hmem : ∀ a b : PyDict Pt, ∀ e ∈ (finPoints a ×ˢ finPoints b) ×ˢ cs, InRange walls.length lo hi e.2 ∧ (∃ t ∈ a, e.1.1 = (t.1, V2.fin t.2)) ∧ ∃ r ∈ b, e.1.2 = (r.1, V2.fin r.2) := by
    rintro a b ⟨⟨t, r⟩, c⟩ he
    obtain ⟨h1, h2⟩ := List.mem_product.mp he
    obtain ⟨h3, h4⟩ := List.mem_product.mp h1
    obtain ⟨t, h5, rfl⟩ := List.mem_map.mp h3
    obtain ⟨r, h6, rfl⟩ := List.mem_map.mp h4
    exact ⟨(hcm c).mp h2, ⟨t, h5, rfl⟩, r, h6, rfl⟩
  have hcan : ∀ a b : PyDict Pt, ∀ s : Scene, s.objects = wallsOf walls → ∀ e ∈ (finPoints a ×ˢ finPoints b) ×ˢ cs, IsCandidate s.objects.length e.2 := by
    intro a b s hs e he
    rw [hs, wallsOf_length]
    exact (hmem a b e he).1.1
  rw [allPaths_eq G _ _ _ (finPoints_distinct ht) (finPoints_distinct hr) rfl rfl _ cs hcs,
    allPaths_eq G _ _ _ (finPoints_distinct hr) (finPoints_distinct ht) rfl rfl _ cs hcs',
    tracePaths_turns _ _ hk _ split _ (hcan tx rx _ (wallScene_objects _ _ _)), tracePaths_turns _ _ hk _ split _ (hcan rx tx _ (wallScene_objects _ _ _))]
  have hrun : ∀ l : List (NamedPair × List ℤ), (∀ e ∈ l, InRange walls.length lo hi e.2 ∧ (∃ t ∈ tx, e.1.1 = (t.1, V2.fin t.2)) ∧ ∃ r ∈ rx, e.1.2 = (r.1, V2.fin r.2)) →
      ∃ ts, (l.mapM fun e => (turnOf (wallScene tx rx walls) (imageMethod Key) ⟨E, tol, F.fin patch, ap, kw⟩ e.1.1.2 e.1.2.2 e.2).map
          fun pv => (⟨e.1.1.1, e.1.2.1, pv.2, pv.1, e.2⟩ : Scene.Traced)) = .ok ts ∧
        ((l.map fun e => ((e.1.2, e.1.1), e.2.reverse)).mapM fun e => (turnOf (wallScene rx tx walls) (imageMethod Key) ⟨E, tol, F.fin patch, ap, kw⟩ e.1.1.2 e.1.2.2 e.2).map
          fun pv => (⟨e.1.1.1, e.1.2.1, pv.2, pv.1, e.2⟩ : Scene.Traced)) = .ok (ts.map reverseTuple) ∧
        ∀ x ∈ ts, ∃ pts loss, x.path = finitePath pts loss := by
    intro l hl
    induction l with
    | nil => exact ⟨[], rfl, rfl, by simp⟩
    | cons e l ih =>
      obtain ⟨ts, h1, h2, h0⟩ := ih fun e he => hl e (List.mem_cons_of_mem _ he)
      obtain ⟨⟨t, r⟩, c⟩ := e
      obtain ⟨hc, ⟨t, h3, rfl⟩, r, h4, rfl⟩ := hl _ List.mem_cons_self
      obtain ⟨pts, loss, valid, h5, h6⟩ := turnOf_reverse (Key := Key) tx rx walls lo hi t.2 r.2 (hrev t h3 r h4) E tol patch ap kw c hc
      refine ⟨⟨t.1, r.1, valid, finitePath pts loss, c⟩ :: ts, ?_, ?_, ?_⟩
      · rw [mapM_iff] at h1 ⊢
        exact .cons (by simp only [h5]; rfl) h1
      · rw [mapM_iff] at h2 ⊢
        rw [List.map_cons, List.map_cons]
        refine .cons ?_ h2
        simp only [h6]
        simp [Except.map, reverseTuple, finitePath]
      · intro x hx
        rcases List.mem_cons.mp hx with rfl | hx
        · exact ⟨pts, loss, rfl⟩
        · exact h0 x hx
  obtain ⟨ts, h1, h2, h0⟩ := hrun _ (hmem tx rx)
  obtain ⟨ts', h3, h4⟩ := mapM_perm (xs' := (finPoints rx ×ˢ finPoints tx) ×ˢ cs) (by
    refine (List.perm_ext_iff_of_nodup ?_ (((finPoints_nodup hr).product (finPoints_nodup ht)).product hcd)).mpr ?_
    · refine List.Nodup.map ?_ (((finPoints_nodup ht).product (finPoints_nodup hr)).product hcd)
      rintro ⟨⟨a, b⟩, c⟩ ⟨⟨a', b'⟩, c'⟩ e
      simp only [Prod.mk.injEq, List.reverse_inj] at e
      obtain ⟨⟨rfl, rfl⟩, rfl⟩ := e
      rfl
    · rintro ⟨⟨a, b⟩, c⟩
      rw [List.mem_map]
      constructor
      · rintro ⟨⟨⟨a', b'⟩, c'⟩, h, e⟩
        simp only [Prod.mk.injEq] at e
        obtain ⟨⟨rfl, rfl⟩, rfl⟩ := e
        obtain ⟨h1, h2⟩ := List.mem_product.mp h
        obtain ⟨h3, h4⟩ := List.mem_product.mp h1
        exact List.mem_product.mpr ⟨List.mem_product.mpr ⟨h4, h3⟩, (hcm _).mpr (inRange_reverse ((hcm _).mp h2))⟩
      · intro h
        obtain ⟨h1, h2⟩ := List.mem_product.mp h
        obtain ⟨h3, h4⟩ := List.mem_product.mp h1
        exact ⟨((b, a), c.reverse), List.mem_product.mpr ⟨List.mem_product.mpr ⟨h4, h3⟩, (hcm _).mpr (inRange_reverse ((hcm _).mp h2))⟩, by simp⟩) h2
  exact ⟨ts, ts', h1, h3, h4, h0⟩

include hG ht hr hlo hrev in
/-- **C139.** Exchanging the transmitters and the receivers reverses all tuples of `all_paths`, valid or not, and changes nothing else: the
same losses and the same validities (booleans or truth degrees), in both modes, whatever the activation, the tolerance and the patch. -/
theorem C139_paths : ∃ ts ts', (wallScene tx rx walls).allPaths G split (imageMethod Key) { minOrder := lo, maxOrder := hi } ⟨E, tol, F.fin patch, ap, kw⟩ key = .ok ts ∧
    (wallScene rx tx walls).allPaths G split (imageMethod Key) { minOrder := lo, maxOrder := hi } ⟨E, tol, F.fin patch, ap, kw⟩ key' = .ok ts' ∧
    ts'.Perm (ts.map reverseTuple) := by
  obtain ⟨ts, ts', h1, h2, h3, -⟩ := reciprocal_paths G hG tx rx ht hr walls lo hi hlo hrev split key key' E tol patch ap kw
  exact ⟨ts, ts', h1, h2, h3⟩

theorem product_swap {α β : Type} {l : List α} {l' : List β} (h : l.Nodup) (h' : l'.Nodup) : ((l ×ˢ l').map Prod.swap).Perm (l' ×ˢ l) := by
  refine (List.perm_ext_iff_of_nodup ((h.product h').map Prod.swap_injective) (h'.product h)).mpr ?_
  rintro ⟨b, a⟩
  rw [List.mem_map, List.mem_product]
  constructor
  · rintro ⟨⟨a', b'⟩, h, e⟩
    obtain ⟨rfl, rfl⟩ := Prod.mk.inj e
    exact (List.mem_product.mp h).symm
  · intro h
    exact ⟨(a, b), List.mem_product.mpr h.symm, rfl⟩

include hG ht hr hlo hrev in
/-- **C139.** `accumulate_over_paths` gives the same values with the transmitters and the receivers exchanged, for every function that has
the same value on a path and on its reverse. -/
theorem C139_accumulate (f : Scene.PathFun) (hf : DirectionBlind f) :
    ∃ es es', (wallScene tx rx walls).accumulateOverPaths G split (imageMethod Key) { minOrder := lo, maxOrder := hi } ⟨E, tol, F.fin patch, ap, kw⟩ key f = .ok es ∧
    (wallScene rx tx walls).accumulateOverPaths G split (imageMethod Key) { minOrder := lo, maxOrder := hi } ⟨E, tol, F.fin patch, ap, kw⟩ key' f = .ok es' ∧
    es'.Perm (es.map fun x => (x.2.1, x.1, x.2.2)) := by
  obtain ⟨cs, hcs, hcd, hcm, -⟩ := C53_sound_complete G hG (wallScene tx rx walls) lo hi hlo
  have hcs' : (wallScene rx tx walls).allPathCandidates G { minOrder := lo, maxOrder := hi } = .ok cs := by
    rw [← hcs]; simp only [Scene.allPathCandidates, wallScene_objects]
  obtain ⟨ts, ts', e, e', hp, hfin⟩ := reciprocal_paths G hG tx rx ht hr walls lo hi hlo hrev split key key' E tol patch ap kw
  by_cases hne : cs = []
  · subst hne
    have hnil : ∀ l : List NamedPair, l ×ˢ ([] : List (List ℤ)) = [] := fun l => List.product_nil _
    rw [allPaths_eq G _ _ _ (finPoints_distinct ht) (finPoints_distinct hr) rfl rfl _ [] hcs, hnil] at e
    rw [allPaths_eq G _ _ _ (finPoints_distinct hr) (finPoints_distinct ht) rfl rfl _ [] hcs', hnil] at e'
    refine ⟨[], [], ?_, ?_, .nil⟩
    · unfold Scene.accumulateOverPaths
      rw [allPaths_eq G _ _ _ (finPoints_distinct ht) (finPoints_distinct hr) rfl rfl _ [] hcs, hnil]; rfl
    · unfold Scene.accumulateOverPaths
      rw [allPaths_eq G _ _ _ (finPoints_distinct hr) (finPoints_distinct ht) rfl rfl _ [] hcs', hnil]; rfl
  · rw [C58_entries G hG _ _ _ (finPoints_distinct ht) (finPoints_distinct hr) rfl rfl { minOrder := lo, maxOrder := hi } hlo cs hcs hne, e,
      C58_entries G hG _ _ _ (finPoints_distinct hr) (finPoints_distinct ht) rfl rfl { minOrder := lo, maxOrder := hi } hlo cs hcs' hne, e']
    refine ⟨_, _, rfl, rfl, ?_⟩
    rw [List.map_map]
    refine ((product_swap (finPoints_nodup ht) (finPoints_nodup hr)).map _).symm.trans ?_
    rw [List.map_map]
    apply List.Perm.of_eq
    apply List.map_congr_left
    rintro ⟨t, r⟩ hmem
    obtain ⟨h1, h2⟩ := List.mem_product.mp hmem
    obtain ⟨t, -, rfl⟩ := List.mem_map.mp h1
    obtain ⟨r, -, rfl⟩ := List.mem_map.mp h2
    simp only [Function.comp, Prod.swap]
    congr 2
    have h2 := (hp.filter fun x => decide ((x.tx, x.rx) = (r.1, t.1))).map (weighted (wallScene rx tx walls) f (V2.fin r.2) (V2.fin t.2))
    unfold F.sum
    rw [sum_perm h2, List.filter_map, List.map_map]
    congr 1
    have hfil : (ts.filter ((fun x : Scene.Traced => decide ((x.tx, x.rx) = (r.1, t.1))) ∘ reverseTuple)) = ts.filter fun x => decide ((x.tx, x.rx) = (t.1, r.1)) := by
      congr 1
      funext x
      simp only [Function.comp, reverseTuple, Prod.mk.injEq]
      rw [Bool.eq_iff_iff]
      simp [and_comm]
    rw [hfil]
    apply List.map_congr_left
    intro x hx
    obtain ⟨pts, loss, hpath⟩ := hfin x (List.mem_filter.mp hx).1
    simp only [Function.comp, weighted, reverseTuple, hpath]
    congr 1
    have := hf t.2 r.2 pts loss (objectsAt (wallScene tx rx walls) x.candidate) (objectsAt (wallScene rx tx walls) x.candidate.reverse) (by
      rw [objectsAt_reverse, List.length_reverse]; simp only [objectsAt, wallScene_objects])
    rw [← this]
    simp [finitePath]

/-- One term of the maps, exchanged. -/
theorem reciprocal_facc (rx' : PyDict Pt) (t r : Pt) (hrev : Reversible walls lo hi t r) (f : Scene.PathFun) (hf : DirectionBlind f) (cs : List (List ℤ)) (hcd : cs.Nodup)
    (hcm : ∀ c, c ∈ cs ↔ InRange walls.length lo hi c) (ks ks' : List (Option Key)) (hks : ks.length = cs.length) (hks' : ks'.length = cs.length) :
    (wallScene tx rx walls).facc (imageMethod Key) ⟨E, tol, F.fin patch, ap, kw⟩ f (V2.fin t) (V2.fin r) 0 (cs.zip ks) =
      (wallScene rx' tx walls).facc (imageMethod Key) ⟨E, tol, F.fin patch, ap, kw⟩ f (V2.fin r) (V2.fin t) 0 (cs.zip ks') := by
  have hk : KeyIndependent (imageMethod Key) := fun _ _ _ _ _ => rfl
  have hcan : ∀ s : Scene, s.objects = wallsOf walls → ∀ ks : List (Option Key), ∀ e ∈ cs.zip ks, IsCandidate s.objects.length e.1 := by
    intro s hs ks e he
    rw [hs, wallsOf_length]
    exact ((hcm _).mp (List.of_mem_zip he).1).1
  rw [facc_turns _ _ hk _ f _ _ _ (hcan _ (wallScene_objects _ _ _) ks), facc_turns _ _ hk _ f _ _ _ (hcan _ (wallScene_objects _ _ _) ks'),
    List.map_fst_zip (by omega), List.map_fst_zip (by omega)]
  have hrun : ∀ l : List (List ℤ), (∀ c ∈ l, InRange walls.length lo hi c) → ∃ zs,
      (l.mapM fun c => (turnOf (wallScene tx rx walls) (imageMethod Key) ⟨E, tol, F.fin patch, ap, kw⟩ (V2.fin t) (V2.fin r) c).map
        fun pv => pv.2.toF * f (V2.fin t) (V2.fin r) pv.1 (objectsAt (wallScene tx rx walls) c)) = .ok zs ∧
      ((l.map List.reverse).mapM fun c => (turnOf (wallScene rx' tx walls) (imageMethod Key) ⟨E, tol, F.fin patch, ap, kw⟩ (V2.fin r) (V2.fin t) c).map
        fun pv => pv.2.toF * f (V2.fin r) (V2.fin t) pv.1 (objectsAt (wallScene rx' tx walls) c)) = .ok zs := by
    intro l hl
    induction l with
    | nil => exact ⟨[], rfl, rfl⟩
    | cons c l ih =>
      obtain ⟨zs, h1, h2⟩ := ih fun c hc => hl c (List.mem_cons_of_mem _ hc)
      obtain ⟨pts, loss, valid, h5, -⟩ := turnOf_reverse (Key := Key) tx rx walls lo hi t r hrev E tol patch ap kw c (hl _ List.mem_cons_self)
      obtain ⟨pts', loss', valid', h5', h6⟩ := turnOf_reverse (Key := Key) tx rx' walls lo hi t r hrev E tol patch ap kw c (hl _ List.mem_cons_self)
      have e : turnOf (wallScene tx rx' walls) (imageMethod Key) ⟨E, tol, F.fin patch, ap, kw⟩ (V2.fin t) (V2.fin r) c =
        turnOf (wallScene tx rx walls) (imageMethod Key) ⟨E, tol, F.fin patch, ap, kw⟩ (V2.fin t) (V2.fin r) c := rfl
      rw [e, h5] at h5'
      obtain ⟨e1, rfl⟩ := Prod.mk.inj (Except.ok.inj h5')
      obtain ⟨rfl, rfl⟩ := finitePath_inj e1
      refine ⟨valid.toF * f (V2.fin t) (V2.fin r) (finitePath pts loss) (objectsAt (wallScene tx rx walls) c) :: zs, ?_, ?_⟩
      · rw [mapM_iff] at h1 ⊢
        exact .cons (by simp only [h5]; rfl) h1
      · rw [mapM_iff] at h2 ⊢
        rw [List.map_cons]
        refine .cons ?_ h2
        simp only [h6]
        have := hf t r pts loss (objectsAt (wallScene tx rx walls) c) (objectsAt (wallScene rx' tx walls) c.reverse) (by
          rw [objectsAt_reverse, List.length_reverse]; simp only [objectsAt, wallScene_objects])
        rw [← this]; rfl
  obtain ⟨zs, h1, h2⟩ := hrun cs fun c => (hcm c).mp
  obtain ⟨zs', h3, h4⟩ := mapM_perm (xs' := cs) (by
    refine (List.perm_ext_iff_of_nodup (hcd.map List.reverse_injective) hcd).mpr fun c => ?_
    rw [List.mem_map]
    constructor
    · rintro ⟨d, hd, rfl⟩; exact (hcm _).mpr (inRange_reverse ((hcm _).mp hd))
    · intro hd; exact ⟨c.reverse, (hcm _).mpr (inRange_reverse ((hcm _).mp hd)), by simp⟩) h2
  rw [h1, h3]
  exact congrArg Except.ok (sum_perm h4 0).symm

/-- `gridCore_real`, at the points of the grid only. -/
theorem gridCore_points (gradOp : (V2 F → F) → V2 F → V2 F) (ps : PyDict Pt) (φ ψ : V2 F → V2 F → Except PyErr F) (X Y : List (List ℝ))
    (hφ : ∀ p ∈ ps, ∀ row ∈ List.zipWith (List.zipWith fun x y => (⟨x, y⟩ : Pt)) X Y, ∀ q ∈ row, φ (V2.fin p.2) (V2.fin q) = ψ (V2.fin p.2) (V2.fin q)) :
    (gridCore gradOp (finPoints ps) φ (finGrid X) (finGrid Y)).map (List.map fun r => (r.1, gridSel false false r.2.1 r.2.2)) =
      (gridCore gradOp (finPoints ps) ψ (finGrid X) (finGrid Y)).map (List.map fun r => (r.1, gridSel false false r.2.1 r.2.2)) := by
  rw [← gridRun_eq, ← gridRun_eq]
  unfold Scene.dstack
  split
  · simp only [bind, Except.bind, finGrid_points]
    apply mapM_congr'
    intro p hp
    obtain ⟨p, hp', rfl⟩ := List.mem_map.mp hp
    have e : List.mapM (fun row : List (V2 F) => row.mapM (φ (V2.fin p.2))) ((List.zipWith (List.zipWith fun x y => (⟨x, y⟩ : Pt)) X Y).map (List.map V2.fin)) =
        List.mapM (fun row : List (V2 F) => row.mapM (ψ (V2.fin p.2))) ((List.zipWith (List.zipWith fun x y => (⟨x, y⟩ : Pt)) X Y).map (List.map V2.fin)) := by
      apply mapM_congr'
      intro row hrow
      obtain ⟨row, hr, rfl⟩ := List.mem_map.mp hrow
      apply mapM_congr'
      intro q hq
      obtain ⟨q, hq', rfl⟩ := List.mem_map.mp hq
      exact hφ p hp' row hr q hq'
    simp only [Scene.mapGrid, e, Bool.false_eq_true, if_false]
  · rfl

include hG ht hlo in
/-- **C139.** The map over receivers of a scene is the map over transmitters of the scene whose receivers are the former transmitters, for
every function that has the same value on a path and on its reverse: the same names and the same values, in both modes. -/
theorem C139_grids (hsp : SplitCount split) (rx' : PyDict Pt) (f : Scene.PathFun) (hf : DirectionBlind f) (gradOp gradOp' : (V2 F → F) → V2 F → V2 F) (X Y : List (List ℝ))
    (hXY : ∀ t ∈ tx, ∀ row ∈ List.zipWith (List.zipWith fun x y => (⟨x, y⟩ : Pt)) X Y, ∀ q ∈ row, Reversible walls lo hi t.2 q) :
    (wallScene tx rx walls).accumulateOnReceiversGrid G split (imageMethod Key) { minOrder := lo, maxOrder := hi } ⟨E, tol, F.fin patch, ap, kw⟩ key gradOp false false f
        (finGrid X) (finGrid Y) =
      (wallScene rx' tx walls).accumulateOnTransmittersGrid G split (imageMethod Key) { minOrder := lo, maxOrder := hi } ⟨E, tol, F.fin patch, ap, kw⟩ key' gradOp' false false f
        (finGrid X) (finGrid Y) := by
  obtain ⟨cs, hcs, hcd, hcm, -⟩ := C53_sound_complete G hG (wallScene tx rx walls) lo hi hlo
  have hcs' : (wallScene rx' tx walls).allPathCandidates G { minOrder := lo, maxOrder := hi } = .ok cs := by
    rw [← hcs]; simp only [Scene.allPathCandidates, wallScene_objects]
  rw [wallScene_objects, wallsOf_length] at hcm
  rw [receivers_eq G _ _ (finPoints_distinct ht) rfl _ cs hcs, transmitters_eq G _ _ (finPoints_distinct ht) rfl _ cs hcs']
  have hg : ∀ (g g' : (V2 F → F) → V2 F → V2 F) φ, (gridCore g (finPoints tx) φ (finGrid X) (finGrid Y)).map (List.map fun r => (r.1, gridSel false false r.2.1 r.2.2)) =
      (gridCore g' (finPoints tx) φ (finGrid X) (finGrid Y)).map (List.map fun r => (r.1, gridSel false false r.2.1 r.2.2)) := by
    intro g g' φ
    rw [← gridRun_eq, ← gridRun_eq]
    simp [Scene.mapGrid]
  rw [hg gradOp gradOp']
  apply gridCore_points
  intro p hp row hrow q hq
  exact reciprocal_facc (Key := Key) tx rx walls lo hi E tol patch ap kw rx' p.2 q (hXY p hp row hrow q hq) f hf cs hcd hcm _ _ (gridKeys_length split hsp _ _) (gridKeys_length split hsp _ _)

end

/-! ## Received power -/

/-- **C139.** Without the machine precision that `path_length` adds, the received power does not depend on the direction: the theorems
above apply to it. -/
theorem C139_power_exact (E : Env) (h : E.eps = 0) (coef height : ℝ) : DirectionBlind (powerFun E coef height) := by
  intro t r pts loss os os' _
  unfold powerFun receivedPower finitePath Path.length
  simp only [C13_exact E h, polyLength_reverse, List.map_reverse, List.length_reverse]
  rw [← List.map_reverse, C13_exact E h, polyLength_reverse]

theorem ratio_close {h L L' d : ℝ} (hh : 0 < h) (hL : 0 ≤ L) (hL' : 0 ≤ L') (hd : 0 ≤ d) (hc : |L - L'| ≤ d) :
    1 / (h ^ 2 + L ^ 2) ≤ (1 + d / h) ^ 2 * (1 / (h ^ 2 + L' ^ 2)) := by
  rw [mul_one_div, div_le_div_iff₀ (by positivity) (by positivity), one_mul]
  obtain ⟨e, rfl⟩ : ∃ e, d = e * h := ⟨d / h, by field_simp⟩
  have he : 0 ≤ e := by by_contra hn; push Not at hn; nlinarith
  rw [mul_div_cancel_right₀ _ hh.ne']
  have h1 : L' ≤ L + e * h := by linarith [(abs_le.mp hc).1]
  have h2 : L' ^ 2 ≤ (L + e * h) ^ 2 := by gcongr
  have h3 : 0 ≤ e * (h - L) ^ 2 := by positivity
  nlinarith [mul_nonneg he (sq_nonneg h), mul_nonneg he (sq_nonneg L), mul_nonneg (mul_nonneg he he) (sq_nonneg L)]

/-- **C139.** With it, the powers of a pair and of the exchanged pair agree up to a factor `(1 + 2 √2 (max_order + 1) eps / height)²`, in hard mode
and in approximate mode with a good activation. -/
theorem C139_power {Key : Type} (G : GraphLib) (hG : GraphContract G) (tx rx : PyDict Pt) (ht : Distinct tx) (hr : Distinct rx) (walls : List (Pt × Pt))
    (lo hi : ℤ) (hlo : 0 ≤ lo) (hex : ∃ c, InRange walls.length lo hi c) (hrev : ∀ t ∈ tx, ∀ r ∈ rx, Reversible walls lo hi t.2 r.2)
    (split : Key → ℕ → List Key) (key key' : Option Key)
    (E : Env) (ap : Option Bool) (kw : ActKw) (hmode : Hard E ap ∨ (Soft E ap ∧ GoodKw kw)) (tol : F) (patch coef height : ℝ) (hc : 0 ≤ coef) (hh : 0 < height) :
    ∃ value value' : String × Pt → String × Pt → ℝ,
      (wallScene tx rx walls).accumulateOverPaths G split (imageMethod Key) { minOrder := lo, maxOrder := hi }
        ⟨E, tol, F.fin patch, ap, kw⟩ key (powerFun E coef height) = .ok ((tx ×ˢ rx).map fun p => (p.1.1, p.2.1, F.fin (value p.1 p.2))) ∧
      (wallScene rx tx walls).accumulateOverPaths G split (imageMethod Key) { minOrder := lo, maxOrder := hi }
        ⟨E, tol, F.fin patch, ap, kw⟩ key' (powerFun E coef height) = .ok ((rx ×ˢ tx).map fun p => (p.1.1, p.2.1, F.fin (value' p.1 p.2))) ∧
      ∀ t ∈ tx, ∀ r ∈ rx, 0 ≤ value t r ∧
        value' r t ≤ (1 + 2 * Real.sqrt 2 * (hi + 1) * |E.eps| / height) ^ 2 * value t r ∧
        value t r ≤ (1 + 2 * Real.sqrt 2 * (hi + 1) * |E.eps| / height) ^ 2 * value' r t := by
  obtain ⟨cs, hcs, hcd, hcm, hne⟩ := cands_walls G hG tx rx walls lo hi hlo hex
  have hcs' : (wallScene rx tx walls).allPathCandidates G { minOrder := lo, maxOrder := hi } = .ok cs := by
    rw [← hcs]; simp only [Scene.allPathCandidates, wallScene_objects]
  let P : Pt → Pt → List ℤ → Truthy → Prop := fun t r c valid =>
    (finitePath (rpath t r (wallsAt walls c)) (scores (wallsAt walls c) (rpath t r (wallsAt walls c))).sum).isValid E
        ((wallsOf walls).map Obj.interact) c ((wallsOf (wallsAt walls c)).map Obj.interact) tol (F.fin patch) ap kw = .ok valid
  have hchoice : ∀ (t r : Pt) (c : List ℤ), ∃ v : ℝ, IsCandidate walls.length c → 0 ≤ v ∧ v ≤ 1 ∧ ∃ valid, P t r c valid ∧ valid.toF = F.fin v := by
    intro t r c
    by_cases hc : IsCandidate walls.length c
    · obtain ⟨valid, h1, v, h2, h3, h4⟩ := validity_unit t r walls c hc E ap kw hmode tol (F.fin patch)
      exact ⟨v, fun _ => ⟨h3, h4, valid, h1, h2⟩⟩
    · exact ⟨0, fun h => (hc h).elim⟩
  choose rv hrv using hchoice
  have g1 := realFun_power E coef height hh
  have e1 := accumulate_walls G hG tx rx ht hr walls lo hi hlo cs hcs hcd hcm hne split key ⟨E, tol, F.fin patch, ap, kw⟩ _ _ g1 rv
    fun t _ r _ c hc => (hrv t.2 r.2 c ((hcm c).mp hc).1).2.2
  have e2 := accumulate_walls G hG rx tx hr ht walls lo hi hlo cs hcs' hcd hcm hne split key' ⟨E, tol, F.fin patch, ap, kw⟩ _ _ g1 rv
    fun t _ r _ c hc => (hrv t.2 r.2 c ((hcm c).mp hc).1).2.2
  refine ⟨fun t r => (cs.map fun c => rv t.2 r.2 c * (coef ^ ((rpath t.2 r.2 (wallsAt walls c)).length - 2) /
      (height ^ 2 + plen E.eps (rpath t.2 r.2 (wallsAt walls c)) ^ 2))).sum,
    fun t r => (cs.map fun c => rv t.2 r.2 c * (coef ^ ((rpath t.2 r.2 (wallsAt walls c)).length - 2) /
      (height ^ 2 + plen E.eps (rpath t.2 r.2 (wallsAt walls c)) ^ 2))).sum, e1, e2, ?_⟩
  intro t htm r hrm
  have hperm : (cs.map List.reverse).Perm cs := by
    refine (List.perm_ext_iff_of_nodup (hcd.map List.reverse_injective) hcd).mpr fun c => ?_
    rw [List.mem_map]
    constructor
    · rintro ⟨d, hd, rfl⟩; exact (hcm _).mpr (inRange_reverse ((hcm _).mp hd))
    · intro hd; exact ⟨c.reverse, (hcm _).mpr (inRange_reverse ((hcm _).mp hd)), by simp⟩
  -- one term
  have hpath : ∀ c, InRange walls.length lo hi c → rpath r.2 t.2 (wallsAt walls c.reverse) = (rpath t.2 r.2 (wallsAt walls c)).reverse ∧
      (scores (wallsAt walls c.reverse) (rpath r.2 t.2 (wallsAt walls c.reverse))).sum = (scores (wallsAt walls c) (rpath t.2 r.2 (wallsAt walls c))).sum := by
    intro c hc
    have := hrev t htm r hrm c _ _ hc (traceImage_eq t.2 r.2 (wallsAt walls c))
    rw [traceImage_eq] at this
    exact finitePath_inj (Except.ok.inj this)
  have hval : ∀ c, InRange walls.length lo hi c → rv r.2 t.2 c.reverse = rv t.2 r.2 c := by
    intro c hc
    obtain ⟨-, -, v, hv, ev⟩ := hrv t.2 r.2 c hc.1
    obtain ⟨-, -, v', hv', ev'⟩ := hrv r.2 t.2 c.reverse (inRange_reverse hc).1
    have hl : (rpath t.2 r.2 (wallsAt walls c)).length = c.length + 2 := by rw [rpath_length, wallsAt_length hc.1]
    have hb := C139_validity (rpath t.2 r.2 (wallsAt walls c)) (F.fin (scores (wallsAt walls c) (rpath t.2 r.2 (wallsAt walls c))).sum) E
      (walls.map fun w => Shape.wall w.1 w.2) ((wallsOf (wallsAt walls c)).map Obj.interact) c hl
      (by rw [List.length_map, wallsOf_length, wallsAt_length hc.1]) tol patch ap kw
    have hsh : wallsOf walls = (walls.map fun w => Shape.wall w.1 w.2).map Shape.obj := by simp [wallsOf, Shape.obj]
    have e : (wallsOf (wallsAt walls c.reverse)).map Obj.interact = ((wallsOf (wallsAt walls c)).map Obj.interact).reverse := by
      rw [← wallsAt_reverse]; simp [wallsOf]
    simp only [P, finitePath, e] at hv'
    rw [(hpath c hc).2, (hpath c hc).1] at hv'
    simp only [P, finitePath] at hv
    rw [hsh] at hv hv'
    rw [hb, hv] at hv'
    obtain rfl := Except.ok.inj hv'
    rw [ev] at ev'
    exact (F.fin.inj ev').symm
  have hd0 : 0 ≤ 2 * Real.sqrt 2 * (hi + 1) * |E.eps| := by
    obtain ⟨c, hc⟩ := hex
    have : (0 : ℝ) ≤ hi := by exact_mod_cast (by have := hc.2.2; omega : (0 : ℤ) ≤ hi)
    positivity
  have hlen : ∀ c, InRange walls.length lo hi c → |plen E.eps (rpath t.2 r.2 (wallsAt walls c)) - plen E.eps (rpath t.2 r.2 (wallsAt walls c)).reverse| ≤
      2 * Real.sqrt 2 * (hi + 1) * |E.eps| := by
    intro c hc
    have h1 := plen_approx E.eps (rpath t.2 r.2 (wallsAt walls c))
    have h2 := plen_approx E.eps (rpath t.2 r.2 (wallsAt walls c)).reverse
    rw [polyLength_reverse, List.length_reverse] at h2
    have hl : (rpath t.2 r.2 (wallsAt walls c)).length - 1 = c.length + 1 := by rw [rpath_length, wallsAt_length hc.1]; omega
    rw [hl] at h1 h2
    have h3 : ((c.length + 1 : ℕ) : ℝ) ≤ hi + 1 := by
      push_cast
      have : ((c.length : ℤ) : ℝ) ≤ hi := by exact_mod_cast hc.2.2
      simpa using this
    have h4 : ((c.length + 1 : ℕ) : ℝ) * (Real.sqrt 2 * |E.eps|) ≤ (hi + 1) * (Real.sqrt 2 * |E.eps|) := by gcongr
    rw [abs_le] at *
    constructor <;> nlinarith
  have hsum : ∀ F' : List ℤ → ℝ, (cs.map F').sum = (cs.map fun c => F' c.reverse).sum := by
    intro F'
    rw [← (hperm.map F').sum_eq, List.map_map]; rfl
  simp only
  rw [hsum fun c => rv r.2 t.2 c * _]
  refine ⟨?_, ?_, ?_⟩
  · apply List.sum_nonneg
    intro x hx
    obtain ⟨c, hm, rfl⟩ := List.mem_map.mp hx
    have := (hrv t.2 r.2 c ((hcm c).mp hm).1).1
    positivity
  · rw [← List.sum_map_mul_left]
    apply List.sum_le_sum
    intro c hm
    have hc' := (hcm c).mp hm
    rw [hval c hc', (hpath c hc').1, List.length_reverse, div_eq_mul_one_div, div_eq_mul_one_div (coef ^ _) (height ^ 2 + plen E.eps (rpath t.2 r.2 _) ^ 2)]
    have h1 := ratio_close hh (plen_nonneg E.eps (rpath t.2 r.2 (wallsAt walls c)).reverse) (plen_nonneg E.eps (rpath t.2 r.2 (wallsAt walls c))) hd0 (by rw [abs_sub_comm]; exact hlen c hc')
    have h2 := (hrv t.2 r.2 c hc'.1).1
    have h3 : 0 ≤ rv t.2 r.2 c * coef ^ ((rpath t.2 r.2 (wallsAt walls c)).length - 2) := by positivity
    have := mul_le_mul_of_nonneg_left h1 h3
    linarith
  · rw [← List.sum_map_mul_left]
    apply List.sum_le_sum
    intro c hm
    have hc' := (hcm c).mp hm
    rw [hval c hc', (hpath c hc').1, List.length_reverse, div_eq_mul_one_div, div_eq_mul_one_div (coef ^ _) (height ^ 2 + plen E.eps (rpath t.2 r.2 _).reverse ^ 2)]
    have h1 := ratio_close hh (plen_nonneg E.eps (rpath t.2 r.2 (wallsAt walls c))) (plen_nonneg E.eps (rpath t.2 r.2 (wallsAt walls c)).reverse) hd0 (hlen c hc')
    have h2 := (hrv t.2 r.2 c hc'.1).1
    have h3 : 0 ≤ rv t.2 r.2 c * coef ^ ((rpath t.2 r.2 (wallsAt walls c)).length - 2) := by positivity
    have := mul_le_mul_of_nonneg_left h1 h3
    linarith

/-- **C139.** It is not exactly blind: with any small positive precision, the direct path from left to right is longer than the one from right
to left. -/
theorem C139_power_inexact (E : Env) (h0 : 0 < E.eps) (h1 : E.eps < 1) : ¬ DirectionBlind (powerFun E 1 1) := by
  intro h
  have e := h ⟨0, 0⟩ ⟨1, 0⟩ [⟨0, 0⟩, ⟨1, 0⟩] 0 [] [] rfl
  rw [realFun_power E 1 1 one_pos _ _ _ _ _ (by simp), realFun_power E 1 1 one_pos _ _ _ _ _ (by simp)] at e
  have e := F.fin.inj e
  simp only at e
  have n1 : plen E.eps ([⟨0, 0⟩, ⟨1, 0⟩] : List Pt) ^ 2 = (1 + E.eps) ^ 2 + E.eps ^ 2 := by
    simp only [plen, nrm, V2.add_x, V2.add_y, V2.sub_x, V2.sub_y, add_zero]
    rw [Real.sq_sqrt (by positivity)]; ring
  have n2 : plen E.eps ([⟨0, 0⟩, ⟨1, 0⟩] : List Pt).reverse ^ 2 = (1 - E.eps) ^ 2 + E.eps ^ 2 := by
    simp only [List.reverse_cons, List.reverse_nil, List.nil_append, List.cons_append, plen, nrm, V2.add_x, V2.add_y, V2.sub_x, V2.sub_y, add_zero]
    rw [Real.sq_sqrt (add_nonneg (mul_self_nonneg _) (mul_self_nonneg _))]; ring
  rw [n1, n2] at e
  simp only [List.length_reverse, List.length_cons, List.length_nil, one_pow] at e
  rw [div_eq_div_iff (by positivity) (by positivity)] at e
  nlinarith

/-- **C139.** The condition is needed: when the image of the transmitter is exactly at the height of the receiver, the step that goes back
to the wall is guarded, and puts the point of reflection at the receiver in one direction and at the transmitter in the other. -/
theorem C139_exception : ∃ loss loss', traceImage ⟨-6, 1⟩ [(⟨0, 0⟩, ⟨3, 0⟩)] ⟨2, -1⟩ = .ok (finitePath [⟨-6, 1⟩, ⟨2, -1⟩, ⟨2, -1⟩] loss) ∧
    traceImage ⟨2, -1⟩ [(⟨0, 0⟩, ⟨3, 0⟩)] ⟨-6, 1⟩ = .ok (finitePath [⟨2, -1⟩, ⟨-6, 1⟩, ⟨-6, 1⟩] loss') ∧
    ¬ Reversible [(⟨0, 0⟩, ⟨3, 0⟩)] 1 1 ⟨-6, 1⟩ ⟨2, -1⟩ := by
  have hn : rn (⟨0, 0⟩ : Pt) ⟨3, 0⟩ = ⟨0, -1⟩ := by
    have : nrm (⟨0, -3⟩ : Pt) = 3 := by
      unfold nrm
      rw [show (0 : ℝ) * 0 + -3 * -3 = 3 ^ 2 by norm_num, Real.sqrt_sq (by norm_num)]
    unfold rn unit len1
    simp only [sub_self, sub_zero, this]
    norm_num
  have hp : ∀ t r : Pt, t.y = -r.y → rpath t r [(⟨0, 0⟩, ⟨3, 0⟩)] = [t, r, r] := by
    intro t r h
    have hu : un ⟨0, 0⟩ ⟨3, 0⟩ (rimg ⟨0, 0⟩ ⟨3, 0⟩ t) r = 0 := by
      simp only [un, rimg, dp, hn, V2.sub_x, V2.sub_y, h]
      ring
    have hb : rback ⟨0, 0⟩ ⟨3, 0⟩ (rimg ⟨0, 0⟩ ⟨3, 0⟩ t) r = r := by unfold rback; exact if_pos hu
    show t :: [rback ⟨0, 0⟩ ⟨3, 0⟩ (rimg ⟨0, 0⟩ ⟨3, 0⟩ t) r] ++ [r] = _
    rw [hb]; rfl
  have h1 := traceImage_eq ⟨-6, 1⟩ ⟨2, -1⟩ [(⟨0, 0⟩, ⟨3, 0⟩)]
  have h2 := traceImage_eq ⟨2, -1⟩ ⟨-6, 1⟩ [(⟨0, 0⟩, ⟨3, 0⟩)]
  rw [hp _ _ (by norm_num)] at h1 h2
  refine ⟨_, _, h1, h2, fun h => ?_⟩
  have h3 := h [0] _ _ (by simp [InRange, IsCandidate]) h1
  rw [show wallsAt [((⟨0, 0⟩ : Pt), (⟨3, 0⟩ : Pt))] [0].reverse = [(⟨0, 0⟩, ⟨3, 0⟩)] from rfl, h2] at h3
  have h4 := (finitePath_inj (Except.ok.inj h3)).1
  simp at h4
  norm_num at h4

/-- Non-vacuity: the power and the paths of order up to 3 of the walls of `basic_scene`, exchanged, for some (indeed, almost all) positions. -/
example : ∃ t r : Pt, t ≠ r ∧ Reversible [(⟨0, 0⟩, ⟨1, 0⟩), (⟨1, 0⟩, ⟨1, 1⟩), (⟨1, 1⟩, ⟨0, 1⟩), (⟨0, 1⟩, ⟨0, 0⟩), (⟨2 / 5, 0⟩, ⟨2 / 5, 2 / 5⟩)] 0 3 t r := by
  obtain ⟨L, hL, h⟩ := C139_positions refLib refLib_contract [(⟨0, 0⟩, ⟨1, 0⟩), (⟨1, 0⟩, ⟨1, 1⟩), (⟨1, 1⟩, ⟨0, 1⟩), (⟨0, 1⟩, ⟨0, 0⟩), (⟨2 / 5, 0⟩, ⟨2 / 5, 2 / 5⟩)]
    (by
      intro w hw
      simp only [List.mem_cons, List.not_mem_nil, or_false] at hw
      rcases hw with rfl | rfl | rfl | rfl | rfl <;> norm_num) 0 3 le_rfl
  obtain ⟨t, ht⟩ := (C102_negligible L hL).exists
  obtain ⟨M, hM, h'⟩ := h _ ht
  obtain ⟨r, hr⟩ := (C102_negligible ((⟨t.1, t.2⟩, ⟨t.1, t.2 + 1⟩) :: M) (by
    intro l hl
    rcases List.mem_cons.mp hl with rfl | hl
    · intro e; have := congrArg V2.y e; simp at this
    · exact hM l hl)).exists
  refine ⟨_, _, ?_, h' _ fun l hl => hr l (List.mem_cons_of_mem _ hl)⟩
  rintro e
  refine hr _ List.mem_cons_self ?_
  rw [← e]
  simp [side]

end DiffeRT2d.Props
