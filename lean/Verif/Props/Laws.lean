import Verif.Spec.Laws
import Verif.Props.Specular
import Verif.Props.Generic

/-! # Properties C75–C79: laws relating the paths of several scenes -/

namespace DiffeRT2d.Props
open Classical Spec

/-! ## C75 — reciprocity of scenes -/

theorem reflects_reverse {w : Pt × Pt} {a b c : Pt} (h : Reflects w a b c) : Reflects w c b a := by
  refine ⟨h.on, by rw [mul_comm]; exact h.same, ?_⟩
  have e : ∀ p q, along w p q = -along w q p := by intro p q; simp only [along]; ring
  rw [e c b, e b a, eucl_comm b a, eucl_comm c b]
  linarith [h.law]

theorem blocks_reverse {w : Pt × Pt} {patch : ℝ} {a b : Pt} (h : Blocks w patch b a) : Blocks w patch a b := by
  obtain ⟨hp, s, t, e, hs, ht1, ht2⟩ := h
  refine ⟨fun h => hp (by simp only [Parallel] at h ⊢; linarith), s, 1 - t, ?_, hs, by linarith, by linarith⟩
  rw [e]; ext <;> simp only [pointAt] <;> ring

theorem rayPath_reverse {walls : List (Pt × Pt)} {patch : ℝ} {t r : Pt} {c : List ℤ} {pts : List Pt}
    (h : RayPath walls patch t r c pts) : RayPath walls patch r t c.reverse pts.reverse := by
  have hl := h.count
  have getr : ∀ {α : Type} (l : List α) (i : ℕ) (x : α), l.reverse[i]? = some x → i < l.length ∧ l[l.length - 1 - i]? = some x := by
    intro α l i x hx
    have hlt : i < l.reverse.length := (List.getElem?_eq_some_iff.mp hx).1
    rw [List.length_reverse] at hlt
    rw [List.getElem?_reverse hlt] at hx
    exact ⟨hlt, hx⟩
  refine ⟨?_, ?_, by simp [hl], ?_, ?_⟩
  · rw [List.head?_reverse]; exact h.finish
  · rw [List.getLast?_reverse]; exact h.start
  · intro i j w p q q' hi hj hp hq hq'
    obtain ⟨g1, hi⟩ := getr _ _ _ hi
    obtain ⟨g2, hp⟩ := getr _ _ _ hp
    obtain ⟨g3, hq⟩ := getr _ _ _ hq
    obtain ⟨g4, hq'⟩ := getr _ _ _ hq'
    rw [hl] at hp hq hq'
    have h1 : c.length + 2 - 1 - i = (c.length - 1 - i) + 2 := by omega
    have h2 : c.length + 2 - 1 - (i + 1) = (c.length - 1 - i) + 1 := by omega
    have h3 : c.length + 2 - 1 - (i + 2) = (c.length - 1 - i) := by omega
    rw [h1] at hp; rw [h2] at hq; rw [h3] at hq'
    obtain ⟨r1, r2⟩ := h.reflected _ j w q' q p hi hj hq' hq hp
    exact ⟨reflects_reverse r1, r2⟩
  · intro i j w p q hp hq hj hadj hb
    obtain ⟨g2, hp⟩ := getr _ _ _ hp
    obtain ⟨g3, hq⟩ := getr _ _ _ hq
    rw [hl] at hp hq
    have h1 : c.length + 2 - 1 - i = (c.length - i) + 1 := by omega
    have h2 : c.length + 2 - 1 - (i + 1) = c.length - i := by omega
    rw [h1] at hp; rw [h2] at hq
    refine h.clear (c.length - i) j w q p hq hp hj ?_ (blocks_reverse hb)
    rintro (ha | ⟨k, hk, ha⟩)
    · -- c[n - i]
      apply hadj
      have hlt := (List.getElem?_eq_some_iff.mp ha).1
      refine .inr ⟨i - 1, by omega, ?_⟩
      rw [List.getElem?_reverse (by omega), ← ha]; congr 1; omega
    · apply hadj
      have hlt := (List.getElem?_eq_some_iff.mp ha).1
      refine .inl ?_
      rw [List.getElem?_reverse (by omega), ← ha]; congr 1; omega

theorem noPause_reverse {pts : List Pt} (h : NoPause pts) : NoPause pts.reverse := by
  intro i a b ha hb
  have hlt : i + 1 < pts.length := by have := (List.getElem?_eq_some_iff.mp hb).1; simpa using this
  rw [List.getElem?_reverse (by omega)] at ha hb
  have e : pts.length - 1 - i = (pts.length - 1 - (i + 1)) + 1 := by omega
  rw [e] at ha
  exact (h _ b a hb ha).symm

theorem moves_reverse {pts : List Pt} (h : Moves pts) : Moves pts.reverse := by
  obtain ⟨p, hp, q, hq, h⟩ := h
  exact ⟨p, by simpa using hp, q, by simpa using hq, h⟩

theorem isCandidate_reverse {n : ℕ} {c : List ℤ} (h : IsCandidate n c) : IsCandidate n c.reverse := by
  refine ⟨fun i hi => h.1 i (by simpa using hi), fun k a b ha hb => ?_⟩
  have hlt : k + 1 < c.length := by have := (List.getElem?_eq_some_iff.mp hb).1; simpa using this
  rw [List.getElem?_reverse (by omega)] at ha hb
  have e : c.length - 1 - k = (c.length - 1 - (k + 1)) + 1 := by omega
  rw [e] at ha
  exact (h.2 _ b a hb ha).symm

/-- **C75.** Exchanging the transmitters and the receivers of a scene of walls reverses its valid paths: the path is
yielded (hard mode, tolerance in `(0, 1]`) from `tn` to `rn` iff its reverse is yielded from `rn` to `tn` (unless it has reflections and all its
points are equal). -/
theorem C75_reciprocity {Key : Type} (G : GraphLib) (hG : GraphContract G) (tx rx : PyDict Pt)
    (ht : Distinct tx) (hr : Distinct rx) (walls : List (Pt × Pt)) (hnd : ∀ w ∈ walls, w.1 ≠ w.2)
    (lo hi : ℤ) (hlo : 0 ≤ lo) (split : Key → ℕ → List Key) (key : Option Key)
    (E : Env) (approx : Option Bool) (hh : Hard E approx) (kw : ActKw) (tol patch : ℝ) (h0 : 0 < tol) (h1 : tol ≤ 1)
    (hp : -(1 / 2) < patch) :
    ∃ out out', (wallScene tx rx walls).allValidPaths G split (imageMethod Key) { minOrder := lo, maxOrder := hi }
        ⟨E, F.fin tol, F.fin patch, approx, kw⟩ key = .ok out ∧
      (wallScene rx tx walls).allValidPaths G split (imageMethod Key) { minOrder := lo, maxOrder := hi }
        ⟨E, F.fin tol, F.fin patch, approx, kw⟩ key = .ok out' ∧
      ∀ tn rn pts c, (c ≠ [] → Moves pts) →
        ((tn, rn, finitePath pts 0, c) ∈ out ↔ (rn, tn, finitePath pts.reverse 0, c.reverse) ∈ out') := by
  obtain ⟨out, e, -, s1, c1⟩ := C74_valid_paths G hG tx rx ht hr walls hnd lo hi hlo split key E approx hh kw tol patch h0 h1 hp
  obtain ⟨out', e', -, s2, c2⟩ := C74_valid_paths G hG rx tx hr ht walls hnd lo hi hlo split key E approx hh kw tol patch h0 h1 hp
  refine ⟨out, out', e, e', fun tn rn pts c hnp => ⟨fun h => ?_, fun h => ?_⟩⟩
  · obtain ⟨t, r, pts', a1, a2, a3, a4, a5, a6, a7⟩ := s1 _ _ _ _ h
    obtain ⟨rfl, -⟩ := finitePath_inj a6
    exact c2 _ _ _ _ _ _ a2 a1 (isCandidate_reverse a3) (by simpa using a4) (by simpa using a5) (rayPath_reverse (a7 fun h _ => hnp h))
  · obtain ⟨r, t, pts', a1, a2, a3, a4, a5, a6, a7⟩ := s2 _ _ _ _ h
    obtain ⟨rfl, -⟩ := finitePath_inj a6
    have := rayPath_reverse (a7 fun h _ => moves_reverse (hnp (by simpa using h)))
    rw [List.reverse_reverse, List.reverse_reverse] at this
    have hc := isCandidate_reverse a3
    rw [List.reverse_reverse] at hc
    exact c1 _ _ _ _ _ _ a2 a1 hc (by simpa using a4) (by simpa using a5) this

/-! ## C76 — moving a scene -/

theorem mapPoints_distinct (f : Affine) {d : PyDict Pt} (h : Distinct d) : Distinct (mapPoints f d) := by
  simpa [Distinct, mapPoints, Function.comp_def] using h

theorem product_map {α β γ δ : Type*} (g : α → γ) (h : β → δ) (xs : List α) (ys : List β) :
    (xs.map g) ×ˢ (ys.map h) = (xs ×ˢ ys).map fun e => (g e.1, h e.2) := by
  induction xs with
  | nil => rfl
  | cons x xs ih =>
    rw [List.map_cons, List.product_cons, List.product_cons, List.map_append, ih]
    simp [List.map_map, Function.comp_def]

theorem product_map_left {α β γ : Type*} (g : α → γ) (xs : List α) (ys : List β) :
    (xs.map g) ×ˢ ys = (xs ×ˢ ys).map fun e => (g e.1, e.2) := by
  have := product_map g id xs ys
  rwa [List.map_id] at this

/-- **C76.** Rotating, mirroring, scaling and translating a scene of walls moves all its paths and changes nothing
else: same number and order of paths, same names and candidates, same validities (booleans or truth degrees) and
losses. In both modes, whatever the activation, the tolerance and the patch; walls may be degenerate. -/
theorem C76_moved {Key : Type} (G : GraphLib) (hG : GraphContract G) (f : Affine) (k : ℝ) (hf : f.Similarity k)
    (tx rx : PyDict Pt) (ht : Distinct tx) (hr : Distinct rx) (walls : List (Pt × Pt))
    (lo hi : ℤ) (hlo : 0 ≤ lo) (split : Key → ℕ → List Key) (key : Option Key)
    (E : Env) (approx : Option Bool) (kw : ActKw) (tol : F) (patch : ℝ) :
    ∃ ts ts', (wallScene tx rx walls).allPaths G split (imageMethod Key) { minOrder := lo, maxOrder := hi }
        ⟨E, tol, F.fin patch, approx, kw⟩ key = .ok ts ∧
      (wallScene (mapPoints f tx) (mapPoints f rx) (walls.map (mapWall f))).allPaths G split (imageMethod Key)
        { minOrder := lo, maxOrder := hi } ⟨E, tol, F.fin patch, approx, kw⟩ key = .ok ts' ∧
      List.Forall₂ (MovedBy f) ts ts' := by
  set s := wallScene tx rx walls with hs
  set s' := wallScene (mapPoints f tx) (mapPoints f rx) (walls.map (mapWall f)) with hs'
  have hfin : ∀ d : PyDict Pt, Distinct d → Distinct (finPoints d) := by
    intro d hd; simpa [Distinct, finPoints, Function.comp_def] using hd
  have hS : IsScene s := ⟨⟨_, hfin tx ht, rfl⟩, ⟨_, hfin rx hr, rfl⟩⟩
  have hS' : IsScene s' := ⟨⟨_, hfin _ (mapPoints_distinct f ht), rfl⟩, ⟨_, hfin _ (mapPoints_distinct f hr), rfl⟩⟩
  have hobj : s.objects = wallsOf walls := wallScene_objects tx rx walls
  have hobj' : s'.objects = wallsOf (walls.map (mapWall f)) := wallScene_objects _ _ _
  have hw : ∀ ws : List (Pt × Pt), ∀ o ∈ wallsOf ws, ∃ w, o = .wall w := by
    intro ws o ho
    obtain ⟨w, -, rfl⟩ := List.mem_map.mp ho; exact ⟨_, rfl⟩
  set o : Scene.Orders := { minOrder := lo, maxOrder := hi } with ho
  set v : Scene.ValidOpts := ⟨E, tol, F.fin patch, approx, kw⟩ with hv
  obtain ⟨ts, hts⟩ := C56_image_total G hG Key s hS (by rw [hobj]; exact hw _) o hlo split key v
  obtain ⟨ts', hts'⟩ := C56_image_total G hG Key s' hS' (by rw [hobj']; exact hw _) o hlo split key v
  refine ⟨ts, ts', hts, hts', ?_⟩
  obtain ⟨cs, hcs, hc⟩ := orders_candidates G hG s o hlo
  have hcs' : s'.allPathCandidates G o = .ok cs := by
    obtain ⟨d, hd, -, -, -⟩ := C53_sound_complete G hG s lo hi hlo
    have hl : s'.objects.length = s.objects.length := by rw [hobj, hobj']; simp [wallsOf]
    have : s'.allPathCandidates G o = s.allPathCandidates G o := by
      simp only [ho, Scene.allPathCandidates, hl]
    rw [this, hcs]
  rw [allPaths_eq G s _ _ (hfin tx ht) (hfin rx hr) rfl rfl o cs hcs, tracePaths_ok] at hts
  rw [allPaths_eq G s' _ _ (hfin _ (mapPoints_distinct f ht)) (hfin _ (mapPoints_distinct f hr)) rfl rfl o cs hcs',
    tracePaths_ok] at hts'
  obtain ⟨hl, hturn⟩ := hts
  obtain ⟨hl', hturn'⟩ := hts'
  have E1 : (finPoints tx ×ˢ finPoints rx) ×ˢ cs = ((tx ×ˢ rx) ×ˢ cs).map fun e =>
      (((e.1.1.1, V2.fin e.1.1.2), (e.1.2.1, V2.fin e.1.2.2)), e.2) := by
    unfold finPoints
    rw [product_map, product_map_left]
  have E2 : (finPoints (mapPoints f tx) ×ˢ finPoints (mapPoints f rx)) ×ˢ cs = ((tx ×ˢ rx) ×ˢ cs).map fun e =>
      (((e.1.1.1, V2.fin (f.app e.1.1.2)), (e.1.2.1, V2.fin (f.app e.1.2.2))), e.2) := by
    unfold finPoints mapPoints
    rw [List.map_map, List.map_map, product_map, product_map_left]; rfl
  rw [E1] at hl hturn
  rw [E2] at hl' hturn'
  simp only [List.length_map] at hl hl'
  rw [List.forall₂_iff_get]
  refine ⟨by rw [hl, hl'], fun n hn hn' => ?_⟩
  have hnL : n < ((tx ×ˢ rx) ×ˢ cs).length := by rw [← hl]; exact hn
  rcases he : ((tx ×ˢ rx) ×ˢ cs)[n] with ⟨⟨⟨tn, t⟩, ⟨rn, r⟩⟩, c⟩
  have hg : ((tx ×ˢ rx) ×ˢ cs)[n]? = some (((tn, t), (rn, r)), c) := by rw [List.getElem?_eq_getElem hnL, he]
  obtain ⟨a1, a2, a3, os, a4, a5, a6⟩ := hturn n (((tn, V2.fin t), (rn, V2.fin r)), c) _ (by rw [List.getElem?_map, hg]; rfl)
    (List.getElem?_eq_getElem hn)
  obtain ⟨b1, b2, b3, os', b4, b5, b6⟩ := hturn' n (((tn, V2.fin (f.app t)), (rn, V2.fin (f.app r))), c) _
    (by rw [List.getElem?_map, hg]; rfl) (List.getElem?_eq_getElem hn')
  have hcand : IsCandidate s.objects.length c := hc c (List.mem_product.mp (List.mem_of_getElem? hg)).2
  have hcand' : IsCandidate s'.objects.length c := by
    rw [hobj]  at hcand; rw [hobj']; simpa [wallsOf] using hcand
  simp only at a4 b4
  rw [interacting_eq s c hcand, hs, objectsAt_walls] at a4
  rw [interacting_eq s' c hcand', hs', objectsAt_walls] at b4
  obtain rfl := Except.ok.inj a4
  obtain rfl := Except.ok.inj b4
  have hmap : wallsAt (walls.map (mapWall f)) c = (wallsAt walls c).map (mapWall f) := by
    unfold wallsAt; rw [List.map_filterMap]; congr 1; funext i; simp
  rw [hmap] at b5 b6
  have hwl : (wallsAt walls c).length = c.length := by
    have e := objectsAt_length s c hcand
    rw [hs, objectsAt_walls] at e; simpa [wallsOf] using e
  obtain ⟨inner, loss, hil, e⟩ := C33_finite t r (wallsAt walls c)
  have a5' : traceImage t (wallsAt walls c) r = .ok ts[n].path := a5
  have b5' : traceImage (f.app t) ((wallsAt walls c).map (mapWall f)) (f.app r) = .ok ts'[n].path := b5
  have hv := C35_traced_validity f k hf E approx kw t r (wallsAt walls c) walls c patch tol hwl.symm _ _ a5' b5'
  rw [a5'] at e
  have e' := C35_trace f k hf t r _ _ _ (by rw [a5', Except.ok.inj e])
  rw [b5'] at e'
  simp only [Scene.validity, hobj] at a6
  simp only [Scene.validity, hobj'] at b6
  simp only [List.get_eq_getElem]
  refine ⟨by rw [a1, b1], by rw [a2, b2], by rw [a3, b3], ?_, _, loss, Except.ok.inj e, Except.ok.inj e'⟩
  have := b6.symm.trans (hv.trans a6)
  exact Except.ok.inj this

/-- **C76.** The same for the valid paths. -/
theorem C76_valid {Key : Type} (G : GraphLib) (hG : GraphContract G) (f : Affine) (k : ℝ) (hf : f.Similarity k)
    (tx rx : PyDict Pt) (ht : Distinct tx) (hr : Distinct rx) (walls : List (Pt × Pt))
    (lo hi : ℤ) (hlo : 0 ≤ lo) (split : Key → ℕ → List Key) (key : Option Key)
    (E : Env) (approx : Option Bool) (kw : ActKw) (tol : F) (patch : ℝ) :
    ∃ out out', (wallScene tx rx walls).allValidPaths G split (imageMethod Key) { minOrder := lo, maxOrder := hi }
        ⟨E, tol, F.fin patch, approx, kw⟩ key = .ok out ∧
      (wallScene (mapPoints f tx) (mapPoints f rx) (walls.map (mapWall f))).allValidPaths G split (imageMethod Key)
        { minOrder := lo, maxOrder := hi } ⟨E, tol, F.fin patch, approx, kw⟩ key = .ok out' ∧
      List.Forall₂ (fun x x' => x'.1 = x.1 ∧ x'.2.1 = x.2.1 ∧ x'.2.2.2 = x.2.2.2 ∧
        ∃ pts loss, x.2.2.1 = finitePath pts loss ∧ x'.2.2.1 = finitePath (pts.map f.app) loss) out out' := by
  obtain ⟨ts, ts', h1, h2, h3⟩ := C76_moved G hG f k hf tx rx ht hr walls lo hi hlo split key E approx kw tol patch
  have hfin : ∀ d : PyDict Pt, Distinct d → Distinct (finPoints d) := by
    intro d hd; simpa [Distinct, finPoints, Function.comp_def] using hd
  have e1 := C57_valid G (wallScene tx rx walls) ⟨⟨_, hfin tx ht, rfl⟩, ⟨_, hfin rx hr, rfl⟩⟩ { minOrder := lo, maxOrder := hi } split key
    (imageMethod Key) ⟨E, tol, F.fin patch, approx, kw⟩
  have e2 := C57_valid G (wallScene (mapPoints f tx) (mapPoints f rx) (walls.map (mapWall f)))
    ⟨⟨_, hfin _ (mapPoints_distinct f ht), rfl⟩, ⟨_, hfin _ (mapPoints_distinct f hr), rfl⟩⟩ { minOrder := lo, maxOrder := hi } split key
    (imageMethod Key) ⟨E, tol, F.fin patch, approx, kw⟩
  rw [h1] at e1
  rw [h2] at e2
  refine ⟨_, _, e1, e2, ?_⟩
  clear e1 e2 h1 h2
  induction h3 with
  | nil => exact .nil
  | @cons x x' ts ts' hx _ ih =>
    obtain ⟨a1, a2, a3, a4, a5⟩ := hx
    simp only [List.filter_cons, a4]
    split
    · exact .cons ⟨a1, a2, a3, a5⟩ ih
    · exact ih

/-! ## C77–C79 — fewer obstacles, more tolerance -/

theorem images_length (p : V2 F) (ws : List Wall) : (images p ws).length = ws.length := by
  induction ws generalizing p with
  | nil => rfl
  | cons w ws ih => simp [images, ih]

theorem backward_length (r : V2 F) (l : List (Wall × V2 F)) : (backward r l).length = l.length := by
  induction l with
  | nil => rfl
  | cons x l ih => obtain ⟨w, im⟩ := x; simp [backward, ih]

theorem onePointEach_image (Key : Type) : OnePointEach (imageMethod Key) := by
  intro k t os r p h
  have h : ImagePath.fromTxObjectsRx t os r = .ok p := h
  cases os with
  | nil => cases h; rfl
  | cons o os =>
    unfold ImagePath.fromTxObjectsRx at h
    simp only at h
    split_ifs at h
    split at h
    · rename_i ws hws
      cases h
      have hl : ∀ (l : List Obj) (ws : List Wall), l.mapM Obj.asWall = some ws → ws.length = l.length := by
        intro l
        induction l with
        | nil => intro ws h; cases h; rfl
        | cons x l ih =>
          intro ws h
          rw [List.mapM_cons] at h
          cases hx : x.asWall with
          | none => rw [hx] at h; cases h
          | some w =>
            cases hm : l.mapM Obj.asWall with
            | none => rw [hx, hm] at h; cases h
            | some ws' => rw [hx, hm] at h; cases h; simp [ih ws' hm]
      simp [imagePathCore, backward_length, images_length, hl _ _ hws]
    · cases h

theorem onePointEach_plain (Key : Type) : OnePointEach (plainMethod Key) := by
  intro k t os r p h
  cases h
  simp [Path.fromTxObjectsRx]

/-- The general comparison of two validity checks of one path. -/
theorem traced_mono {Key : Type} (s s' : Scene) (m : Scene.PathMethod Key) (hk : KeyIndependent m) (h1 : OnePointEach m)
    (E : Env) (ap : Option Bool) (hh : Hard E ap) (kw : ActKw) (tol tol' patch patch' : F) (c c' : List ℤ)
    (hc : IsCandidate s.objects.length c) (hc' : IsCandidate s'.objects.length c')
    (hobj : objectsAt s c = objectsAt s' c')
    (htol : ∀ x, Lt x tol' → Lt x tol) (k k' : Option Key) (t r : V2 F) (path path' : Path) (valid valid' : Truthy)
    (hobs : ∀ (i j : ℕ) (o : Obj) (a b : V2 F), path'.xys[i]? = some a → path'.xys[i + 1]? = some b →
      s.objects[j]? = some o → ¬ Adjacent c i j → Holds (o.interact.intersects E ap kw patch a b) →
      ∃ (j' : ℕ) (o' : Obj), s'.objects[j']? = some o' ∧ ¬ Adjacent c' i j' ∧ Holds (o'.interact.intersects E ap kw patch' a b))
    (h : TracedAs s m ⟨E, tol, patch, ap, kw⟩ k t r c path valid)
    (h' : TracedAs s' m ⟨E, tol', patch', ap, kw⟩ k' t r c' path' valid') (hv : Holds valid') :
    path = path' ∧ Holds valid := by
  obtain ⟨g1, g2⟩ := h
  obtain ⟨g1', g2'⟩ := h'
  have hp : path = path' := by
    rw [hobj, hk k k'] at g1
    exact Except.ok.inj (g1.symm.trans g1')
  subst hp
  have hl := h1 _ _ _ _ _ g1
  rw [objectsAt_length s c hc] at hl
  have hl' := h1 _ _ _ _ _ g1'
  rw [objectsAt_length s' c' hc'] at hl'
  obtain ⟨v, e, hiff⟩ := C38_hard path E ap hh kw (s.objects.map Obj.interact) ((objectsAt s c).map Obj.interact) c tol patch hl
    (by rw [List.length_map, objectsAt_length s c hc])
  obtain ⟨v', e', hiff'⟩ := C38_hard path E ap hh kw (s'.objects.map Obj.interact) ((objectsAt s' c').map Obj.interact) c' tol' patch' hl'
    (by rw [List.length_map, objectsAt_length s' c' hc'])
  simp only at g2 g2'
  rw [e] at g2
  rw [e'] at g2'
  obtain rfl := Except.ok.inj g2
  obtain rfl := Except.ok.inj g2'
  simp only [Holds, Truthy.b.injEq] at hv ⊢
  refine ⟨trivial, ?_⟩
  have hv2 : v' = true := by simpa using hv
  obtain ⟨p1, p2, p3⟩ := hiff'.mp hv2
  have : v = true := by
    rw [hiff]
    refine ⟨by rw [hobj]; exact p1, ?_, htol _ p3⟩
    rintro ⟨i, j, o, a, b, ha, hb, ho, hadj, hit⟩
    rw [List.getElem?_map, Option.map_eq_some_iff] at ho
    obtain ⟨o, ho, rfl⟩ := ho
    obtain ⟨j', o', ho', hadj', hit'⟩ := hobs i j o a b ha hb ho hadj hit
    exact p2 ⟨i, j', o'.interact, a, b, ha, hb, by rw [List.getElem?_map, ho']; rfl, hadj', hit'⟩
  simpa using this

/-- The candidates of valid paths are candidates. -/
theorem valid_candidate {Key : Type} (G : GraphLib) (hG : GraphContract G) (s : Scene) (hs : IsScene s) (lo hi : ℤ) (hlo : 0 ≤ lo)
    (split : Key → ℕ → List Key) (m : Scene.PathMethod Key) (v : Scene.ValidOpts) (key : Option Key)
    (out : List (String × String × Path × List ℤ))
    (e : s.allValidPaths G split m { minOrder := lo, maxOrder := hi } v key = .ok out)
    (x : String × String × Path × List ℤ) (h : x ∈ out) : IsCandidate s.objects.length x.2.2.2 := by
  rw [C57_valid G s hs] at e
  obtain ⟨⟨tx, ht, htx⟩, ⟨rx, hr, hrx⟩⟩ := hs
  cases hts : s.allPaths G split m { minOrder := lo, maxOrder := hi } v key with
  | error x => rw [hts] at e; cases e
  | ok ts =>
  rw [hts] at e
  obtain rfl := Except.ok.inj e
  obtain ⟨cs, hcs, hcd, hcm, -⟩ := C53_sound_complete G hG s lo hi hlo
  obtain ⟨m1, -, -⟩ := traversal_mem G hG s tx rx ht hr htx hrx { minOrder := lo, maxOrder := hi } hlo split key cs hcs hcd m v ts hts
  obtain ⟨y, hy, rfl⟩ := List.mem_map.mp h
  obtain ⟨-, -, -, -, -, hc, -⟩ := m1 y (List.mem_filter.mp hy).1
  exact ((hcm _).mp hc).1

/-- The paths of a scene of walls are finite. -/
theorem valid_finite {Key : Type} (G : GraphLib) (hG : GraphContract G) (tx rx : PyDict Pt) (ht : Distinct tx) (hr : Distinct rx)
    (walls : List (Pt × Pt)) (lo hi : ℤ) (hlo : 0 ≤ lo) (split : Key → ℕ → List Key) (key : Option Key) (v : Scene.ValidOpts)
    (out : List (String × String × Path × List ℤ))
    (e : (wallScene tx rx walls).allValidPaths G split (imageMethod Key) { minOrder := lo, maxOrder := hi } v key = .ok out)
    (x : String × String × Path × List ℤ) (h : x ∈ out) : ∃ (_t _r : Pt) (pts : List Pt) (loss : ℝ), x.2.2.1 = finitePath pts loss := by
  have hfin : ∀ d : PyDict Pt, Distinct d → Distinct (finPoints d) := by
    intro d hd; simpa [Distinct, finPoints, Function.comp_def] using hd
  have hS : IsScene (wallScene tx rx walls) := ⟨⟨_, hfin tx ht, rfl⟩, ⟨_, hfin rx hr, rfl⟩⟩
  rw [C57_valid G _ hS] at e
  cases hts : (wallScene tx rx walls).allPaths G split (imageMethod Key) { minOrder := lo, maxOrder := hi } v key with
  | error x => rw [hts] at e; cases e
  | ok ts =>
  rw [hts] at e
  obtain rfl := Except.ok.inj e
  obtain ⟨cs, hcs, hcd, hcm, -⟩ := C53_sound_complete G hG (wallScene tx rx walls) lo hi hlo
  obtain ⟨m1, -, -⟩ := traversal_mem G hG _ _ _ (hfin tx ht) (hfin rx hr) rfl rfl { minOrder := lo, maxOrder := hi } hlo split key cs hcs hcd _ v ts hts
  obtain ⟨y, hy, rfl⟩ := List.mem_map.mp h
  obtain ⟨k, t, r, htm, hrm, hc, htr, -⟩ := m1 y (List.mem_filter.mp hy).1
  obtain ⟨⟨tn, t⟩, -, hte⟩ := List.mem_map.mp htm
  obtain ⟨⟨rn, r⟩, -, hre⟩ := List.mem_map.mp hrm
  simp only [Prod.mk.injEq] at hte hre
  obtain ⟨-, rfl⟩ := hte
  obtain ⟨-, rfl⟩ := hre
  rw [objectsAt_walls] at htr
  obtain ⟨inner, loss, -, e⟩ := C33_finite t r (wallsAt walls y.candidate)
  have htr : traceImage t (wallsAt walls y.candidate) r = .ok y.path := htr
  rw [htr] at e
  exact ⟨t, r, _, _, Except.ok.inj e⟩

/-- Transfer of one valid path between two traversals. -/
theorem valid_transfer {Key : Type} (G : GraphLib) (hG : GraphContract G) (s s' : Scene) (tx rx : PyDict (V2 F))
    (ht : Distinct tx) (hr : Distinct rx) (h1 : s.transmitters = .fromMapping tx) (h2 : s.receivers = .fromMapping rx)
    (h1' : s'.transmitters = .fromMapping tx) (h2' : s'.receivers = .fromMapping rx) (lo hi : ℤ) (hlo : 0 ≤ lo)
    (split split' : Key → ℕ → List Key) (key key' : Option Key) (m : Scene.PathMethod Key) (v v' : Scene.ValidOpts)
    (hh : Hard v.E v.approx) (hh' : Hard v'.E v'.approx) (out out' : List (String × String × Path × List ℤ))
    (e : s.allValidPaths G split m { minOrder := lo, maxOrder := hi } v key = .ok out)
    (e' : s'.allValidPaths G split' m { minOrder := lo, maxOrder := hi } v' key' = .ok out')
    (tn rn : String) (path' : Path) (c c' : List ℤ) (hc : IsCandidate s.objects.length c) (hl : c.length = c'.length)
    (hmono : ∀ k k' t r path valid valid', TracedAs s m v k t r c path valid → TracedAs s' m v' k' t r c' path' valid' →
      Holds valid' → path = path' ∧ Holds valid)
    (h : (tn, rn, path', c') ∈ out') : (tn, rn, path', c) ∈ out := by
  have hS : IsScene s := ⟨⟨tx, ht, h1⟩, ⟨rx, hr, h2⟩⟩
  have hS' : IsScene s' := ⟨⟨tx, ht, h1'⟩, ⟨rx, hr, h2'⟩⟩
  obtain ⟨cs, hcs, hcd, hcm, -⟩ := C53_sound_complete G hG s lo hi hlo
  obtain ⟨cs', hcs', hcd', hcm', -⟩ := C53_sound_complete G hG s' lo hi hlo
  rw [C57_valid G s hS] at e
  rw [C57_valid G s' hS'] at e'
  cases hts : s.allPaths G split m { minOrder := lo, maxOrder := hi } v key with
  | error x => rw [hts] at e; cases e
  | ok ts =>
  cases hts' : s'.allPaths G split' m { minOrder := lo, maxOrder := hi } v' key' with
  | error x => rw [hts'] at e'; cases e'
  | ok ts' =>
  rw [hts] at e
  rw [hts'] at e'
  obtain rfl := Except.ok.inj e
  obtain rfl := Except.ok.inj e'
  obtain ⟨-, m2, -⟩ := traversal_mem G hG s tx rx ht hr h1 h2 { minOrder := lo, maxOrder := hi } hlo split key cs hcs hcd m v ts hts
  obtain ⟨m1, -, -⟩ := traversal_mem G hG s' tx rx ht hr h1' h2' { minOrder := lo, maxOrder := hi } hlo split' key' cs' hcs' hcd' m v' ts' hts'
  obtain ⟨x, hx, hxe⟩ := List.mem_map.mp h
  obtain ⟨hx, hacc⟩ := List.mem_filter.mp hx
  simp only [Prod.mk.injEq] at hxe
  obtain ⟨rfl, rfl, rfl, rfl⟩ := hxe
  have hholds : Holds x.valid := by
    rcases of_decide_eq_true hacc with ⟨-, h⟩ | ⟨h, -⟩
    · exact h
    · rcases hh' with h' | ⟨h', h''⟩ <;> rcases h with g | ⟨g, g'⟩ <;> simp_all
  obtain ⟨k, t, r, ht', hr', hc', htr⟩ := m1 x hx
  obtain ⟨-, hl1, hl2⟩ := (hcm' _).mp hc'
  obtain ⟨y, hy, k', y1, y2, y3, htr'⟩ := m2 _ ht' _ hr' c ((hcm c).mpr ⟨hc, by omega, by omega⟩)
  obtain ⟨p1, p2⟩ := hmono _ _ _ _ _ _ _ htr' htr hholds
  refine List.mem_map.mpr ⟨y, List.mem_filter.mpr ⟨hy, decide_eq_true (.inl ⟨hh, p2⟩)⟩, ?_⟩
  rw [y1, y2, y3, p1]

/-- **C77.** Adding objects to a scene never makes a path valid that uses only the old objects and was not: all valid
paths over old objects of the larger scene are valid paths of the smaller one (hard mode, any path class that
does not use its key and traces one point per object). -/
theorem C77_add_objects {Key : Type} (G : GraphLib) (hG : GraphContract G) (s : Scene) (hs : IsScene s) (more : List Obj)
    (lo hi : ℤ) (hlo : 0 ≤ lo) (split : Key → ℕ → List Key) (key : Option Key) (m : Scene.PathMethod Key)
    (hk : KeyIndependent m) (h1 : OnePointEach m) (v : Scene.ValidOpts) (hh : Hard v.E v.approx)
    (out out' : List (String × String × Path × List ℤ))
    (e : s.allValidPaths G split m { minOrder := lo, maxOrder := hi } v key = .ok out)
    (e' : (s.addObjects more).allValidPaths G split m { minOrder := lo, maxOrder := hi } v key = .ok out')
    (tn rn : String) (path : Path) (c : List ℤ) (hc : IsCandidate s.objects.length c)
    (h : (tn, rn, path, c) ∈ out') : (tn, rn, path, c) ∈ out := by
  obtain ⟨⟨tx, ht, htx⟩, ⟨rx, hr, hrx⟩⟩ := hs
  have hobjs : (s.addObjects more).objects = s.objects ++ more := rfl
  have hc' : IsCandidate (s.addObjects more).objects.length c := by
    refine ⟨fun i hi => ?_, hc.2⟩
    have := hc.1 i hi
    rw [hobjs, List.length_append]; push_cast; omega
  refine valid_transfer G hG s (s.addObjects more) tx rx ht hr htx hrx htx hrx lo hi hlo split split key key m v v hh hh out out'
    e e' tn rn path c c hc rfl ?_ h
  intro k k' t r path0 valid valid' g g' hv
  refine traced_mono s (s.addObjects more) m hk h1 v.E v.approx hh v.kw v.tol v.tol v.patch v.patch c c hc hc' ?_ (fun _ h => h)
    k k' t r path0 path valid valid' ?_ g g' hv
  · unfold objectsAt
    apply List.filterMap_congr
    intro i hi
    have := hc.1 i hi
    rw [hobjs, List.getElem?_append_left (by omega)]
  · intro i j o a b _ _ ho hadj hit
    exact ⟨j, o, by rw [hobjs, List.getElem?_append_left (List.getElem?_eq_some_iff.mp ho).1]; exact ho, hadj, hit⟩

theorem isCandidate_renumber {σ : Equiv.Perm ℕ} {os os' : List Obj} (hσ : Rearranged σ os os') {c : List ℤ}
    (hc : IsCandidate os.length c) : IsCandidate os'.length (renumber σ c) := by
  have hlt : ∀ j, j < os.length → σ j < os'.length := by
    intro j hj
    have := hσ j
    rw [List.getElem?_eq_getElem hj] at this
    exact (List.getElem?_eq_some_iff.mp this).1
  constructor
  · intro i hi
    obtain ⟨j, hj, rfl⟩ := List.mem_map.mp hi
    have := hc.1 j hj
    have := hlt j.toNat (by omega)
    constructor <;> omega
  · intro k a b ha hb
    simp only [renumber, List.getElem?_map, Option.map_eq_some_iff] at ha hb
    obtain ⟨a', ha, rfl⟩ := ha
    obtain ⟨b', hb, rfl⟩ := hb
    intro e
    have e2 : σ a'.toNat = σ b'.toNat := by exact_mod_cast e
    have e3 := σ.injective e2
    have h1 := hc.1 _ (List.mem_of_getElem? ha)
    have h2 := hc.1 _ (List.mem_of_getElem? hb)
    exact hc.2 k _ _ ha hb (by omega)

theorem renumber_symm {σ : Equiv.Perm ℕ} {n : ℕ} {c : List ℤ} (hc : IsCandidate n c) :
    renumber σ.symm (renumber σ c) = c := by
  unfold renumber
  rw [List.map_map]
  conv_rhs => rw [← List.map_id c]
  apply List.map_congr_left
  intro i hi
  have := hc.1 i hi
  simp; omega

theorem rearranged_symm {σ : Equiv.Perm ℕ} {os os' : List Obj} (hσ : Rearranged σ os os') : Rearranged σ.symm os' os := by
  intro j
  have := hσ (σ.symm j)
  rw [Equiv.apply_symm_apply] at this
  exact this.symm

/-- Half of C78. -/
theorem reorder_half {Key : Type} (G : GraphLib) (hG : GraphContract G) (s : Scene) (hs : IsScene s) (σ : Equiv.Perm ℕ)
    (os' : List Obj) (hσ : Rearranged σ s.objects os')
    (lo hi : ℤ) (hlo : 0 ≤ lo) (split : Key → ℕ → List Key) (key : Option Key) (m : Scene.PathMethod Key)
    (hk : KeyIndependent m) (h1 : OnePointEach m) (v : Scene.ValidOpts) (hh : Hard v.E v.approx)
    (out out' : List (String × String × Path × List ℤ))
    (e : s.allValidPaths G split m { minOrder := lo, maxOrder := hi } v key = .ok out)
    (e' : (s.withObjects os').allValidPaths G split m { minOrder := lo, maxOrder := hi } v key = .ok out')
    (tn rn : String) (path : Path) (c : List ℤ) (hc : IsCandidate s.objects.length c)
    (h : (tn, rn, path, c) ∈ out) : (tn, rn, path, renumber σ c) ∈ out' := by
  obtain ⟨⟨tx, ht, htx⟩, ⟨rx, hr, hrx⟩⟩ := hs
  have hobjs : (s.withObjects os').objects = os' := rfl
  have hc' : IsCandidate (s.withObjects os').objects.length (renumber σ c) := isCandidate_renumber hσ hc
  refine valid_transfer G hG (s.withObjects os') s tx rx ht hr htx hrx htx hrx lo hi hlo split split key key m v v hh hh out' out
    e' e tn rn path (renumber σ c) c hc' (by simp [renumber]) ?_ h
  intro k k' t r path0 valid valid' g g' hv
  refine traced_mono (s.withObjects os') s m hk h1 v.E v.approx hh v.kw v.tol v.tol v.patch v.patch (renumber σ c) c hc' hc ?_ (fun _ h => h)
    k k' t r path0 path valid valid' ?_ g g' hv
  · unfold objectsAt renumber
    rw [List.filterMap_map]
    apply List.filterMap_congr
    intro i hi
    simp only [Function.comp, hobjs, Int.toNat_natCast]
    exact hσ i.toNat
  · intro i j o a b _ _ ho hadj hit
    refine ⟨σ.symm j, o, ?_, ?_, hit⟩
    · rw [rearranged_symm hσ j]; exact ho
    · intro ha
      apply hadj
      rcases ha with ha | ⟨l, hl, ha⟩
      · left; unfold renumber; rw [List.getElem?_map, ha]; simp
      · right; exact ⟨l, hl, by unfold renumber; rw [List.getElem?_map, ha]; simp⟩

/-- **C78.** The order of the objects of a scene does not matter: rearranging them renumbers the candidates, and the
valid paths are the same (hard mode, any path class that does not use its key and traces one point per object). -/
theorem C78_reorder {Key : Type} (G : GraphLib) (hG : GraphContract G) (s : Scene) (hs : IsScene s) (σ : Equiv.Perm ℕ)
    (os' : List Obj) (hσ : Rearranged σ s.objects os')
    (lo hi : ℤ) (hlo : 0 ≤ lo) (split : Key → ℕ → List Key) (key : Option Key) (m : Scene.PathMethod Key)
    (hk : KeyIndependent m) (h1 : OnePointEach m) (v : Scene.ValidOpts) (hh : Hard v.E v.approx)
    (out out' : List (String × String × Path × List ℤ))
    (e : s.allValidPaths G split m { minOrder := lo, maxOrder := hi } v key = .ok out)
    (e' : (s.withObjects os').allValidPaths G split m { minOrder := lo, maxOrder := hi } v key = .ok out')
    (tn rn : String) (path : Path) (c : List ℤ) (hc : IsCandidate s.objects.length c) :
    (tn, rn, path, c) ∈ out ↔ (tn, rn, path, renumber σ c) ∈ out' := by
  constructor
  · exact reorder_half G hG s hs σ os' hσ lo hi hlo split key m hk h1 v hh out out' e e' tn rn path c hc
  · intro h
    have := reorder_half G hG (s.withObjects os') ⟨hs.tx, hs.rx⟩ σ.symm s.objects (rearranged_symm hσ) lo hi hlo split key m hk h1 v hh
      out' out e' e tn rn path (renumber σ c) (isCandidate_renumber hσ hc) h
    rwa [renumber_symm hc] at this

/-- Every reordering of a list of objects is a rearrangement in the sense of C78. -/
theorem perm_rearranged {os os' : List Obj} (h : os.Perm os') : ∃ σ, Rearranged σ os os' := by
  induction h with
  | nil => exact ⟨Equiv.refl _, fun j => rfl⟩
  | @cons x l l' _ ih =>
    obtain ⟨σ, hσ⟩ := ih
    refine ⟨⟨fun j => match j with | 0 => 0 | j + 1 => σ j + 1, fun j => match j with | 0 => 0 | j + 1 => σ.symm j + 1,
      fun j => by cases j <;> simp, fun j => by cases j <;> simp⟩, fun j => ?_⟩
    cases j with
    | zero => rfl
    | succ j => simpa using hσ j
  | swap x y l =>
    refine ⟨Equiv.swap 0 1, fun j => ?_⟩
    match j with
    | 0 => simp
    | 1 => simp
    | j + 2 => rw [Equiv.swap_apply_of_ne_of_ne (by omega) (by omega)]; simp
  | trans _ _ ih1 ih2 =>
    obtain ⟨σ, hσ⟩ := ih1
    obtain ⟨τ, hτ⟩ := ih2
    refine ⟨σ.trans τ, fun j => ?_⟩
    rw [Equiv.trans_apply, hτ, hσ]

/-- **C78.** In particular, whatever the reordering, there are as many valid paths of the same points between
the same named ends: the two lists have the same names and paths. -/
theorem C78_perm {Key : Type} (G : GraphLib) (hG : GraphContract G) (s : Scene) (hs : IsScene s)
    (os' : List Obj) (hperm : s.objects.Perm os')
    (lo hi : ℤ) (hlo : 0 ≤ lo) (split : Key → ℕ → List Key) (key : Option Key) (m : Scene.PathMethod Key)
    (hk : KeyIndependent m) (h1 : OnePointEach m) (v : Scene.ValidOpts) (hh : Hard v.E v.approx)
    (out out' : List (String × String × Path × List ℤ))
    (e : s.allValidPaths G split m { minOrder := lo, maxOrder := hi } v key = .ok out)
    (e' : (s.withObjects os').allValidPaths G split m { minOrder := lo, maxOrder := hi } v key = .ok out')
    (tn rn : String) (path : Path) :
    (∃ c, (tn, rn, path, c) ∈ out) ↔ ∃ c', (tn, rn, path, c') ∈ out' := by
  obtain ⟨σ, hσ⟩ := perm_rearranged hperm
  have hs' : IsScene (s.withObjects os') := ⟨hs.tx, hs.rx⟩
  constructor
  · rintro ⟨c, h⟩
    have hc := valid_candidate G hG s hs lo hi hlo split m v key out e _ h
    exact ⟨_, (C78_reorder G hG s hs σ os' hσ lo hi hlo split key m hk h1 v hh out out' e e' tn rn path c hc).mp h⟩
  · rintro ⟨c, h⟩
    have hc := valid_candidate G hG _ hs' lo hi hlo split m v key out' e' _ h
    exact ⟨_, (C78_reorder G hG (s.withObjects os') hs' σ.symm s.objects (rearranged_symm hσ) lo hi hlo split key m hk h1 v hh
      out' out e' e tn rn path c hc).mp h⟩

/-! ## C79 — tolerance -/

theorem min_tolerance (z a a' : F) (h : (a = F.nan ∧ a' = F.nan) ∨ ∃ u v : ℝ, a = F.fin u ∧ a' = F.fin v ∧ u ≤ v) :
    Le (F.min z a).nanToNum (F.min z a').nanToNum := by
  rcases h with ⟨rfl, rfl⟩ | ⟨u, v, rfl, rfl, huv⟩
  · have : F.min z F.nan = F.nan := by simp [F.min, F.isNan]
    rw [this]; exact ⟨_, _, rfl, rfl, le_rfl⟩
  · cases z with
    | nan => exact ⟨_, _, rfl, rfl, le_rfl⟩
    | pinf =>
      have : ∀ x : ℝ, F.min F.pinf (F.fin x) = F.fin x := by intro x; simp [F.min, F.isNan, F.lt]
      rw [this, this]; exact ⟨_, _, rfl, rfl, by exact_mod_cast huv⟩
    | ninf =>
      have : ∀ x : ℝ, F.min F.ninf (F.fin x) = F.ninf := by intro x; simp [F.min, F.isNan, F.lt]
      rw [this, this]; exact ⟨_, _, rfl, rfl, le_rfl⟩
    | fin z =>
      have : ∀ x : ℝ, F.min (F.fin z) (F.fin x) = F.fin (min z x) := by
        intro x
        by_cases hx : x < z
        · simp [F.min, F.isNan, F.lt, hx, min_eq_right hx.le]
        · simp [F.min, F.isNan, F.lt, hx, min_eq_left (not_lt.mp hx)]
      rw [this, this]; exact ⟨_, _, rfl, rfl, by exact_mod_cast min_le_min le_rfl huv⟩

theorem activation_tolerance {kw : ActKw} (hk : GoodKw kw) (loss : F) {tol tol' : ℝ} (h : tol ≤ tol') :
    (activation kw (F.fin tol - loss) = F.nan ∧ activation kw (F.fin tol' - loss) = F.nan) ∨
      ∃ u v : ℝ, activation kw (F.fin tol - loss) = F.fin u ∧ activation kw (F.fin tol' - loss) = F.fin v ∧ u ≤ v := by
  obtain ⟨s, h1, h2, h3, h4, -, hm, -⟩ := hk.real
  cases loss with
  | nan => exact .inl ⟨h4, h4⟩
  | pinf => exact .inr ⟨0, 0, h3, h3, le_rfl⟩
  | ninf => exact .inr ⟨1, 1, h2, h2, le_rfl⟩
  | fin l => exact .inr ⟨_, _, h1 (tol - l), h1 (tol' - l), hm (by linarith)⟩

theorem le_toF_bool {b b' : Bool} (h : b = true → b' = true) : Le (Truthy.b b).toF (Truthy.b b').toF := by
  cases b with
  | true => rw [h rfl]; exact ⟨_, _, rfl, rfl, le_rfl⟩
  | false =>
    cases b' with
    | false => exact ⟨_, _, rfl, rfl, le_rfl⟩
    | true =>
      refine ⟨((0 : ℝ) : EReal), ((1 : ℝ) : EReal), by simp [Truthy.toF, F.zero_eq, toEReal], by simp [Truthy.toF, F.one_eq, toEReal], ?_⟩
      exact_mod_cast zero_le_one

/-- The validity does not decrease with the tolerance. -/
theorem isValid_tolerance (p : Path) (E : Env) (objects : List Interactable) (c : List ℤ) (inter : List Interactable)
    {tol tol' : ℝ} (htol : tol ≤ tol') (patch : F) (ap : Option Bool) (kw : ActKw) (hmode : Hard E ap ∨ (Soft E ap ∧ GoodKw kw))
    (v : Truthy) (h : p.isValid E objects c inter (F.fin tol) patch ap kw = .ok v) :
    ∃ v', p.isValid E objects c inter (F.fin tol') patch ap kw = .ok v' ∧ Le v.toF v'.toF := by
  unfold Path.isValid at h ⊢
  cases hi : p.intersectsWithObjects E objects c patch ap kw with
  | error e => rw [hi] at h; cases h
  | ok i =>
  rw [hi] at h
  rcases hmode with hh | ⟨hh, hk⟩
  · simp only [bind, Except.bind, logicalAll_hard hh, pure, Except.pure, Truthy.nanToNum, Except.ok.injEq] at h ⊢
    refine ⟨_, rfl, ?_⟩
    rw [← h]
    have hless : ∀ x : ℝ, (less E ap kw p.loss (F.fin x)).toBool = F.lt p.loss (F.fin x) := by intro x; simp [less, hh.eq, Truthy.toBool]
    simp only [List.all_cons, List.all_nil, Bool.and_true, hless]
    have hlt : F.lt p.loss (F.fin tol) = true → F.lt p.loss (F.fin tol') = true := by
      rw [F.lt_iff, F.lt_iff]
      rintro ⟨a, b, ha, hb, hab⟩
      simp only [toEReal, Option.some.injEq] at hb
      exact ⟨a, ((tol' : ℝ) : EReal), ha, rfl, lt_of_lt_of_le hab (by rw [← hb]; exact_mod_cast htol)⟩
    refine le_toF_bool ?_
    simp only [Bool.and_eq_true]
    exact fun ⟨h1, h2, h3⟩ => ⟨h1, h2, hlt h3⟩
  · simp only [bind, Except.bind, logicalAll, hh.eq, if_true, pure, Except.pure, less, jnpMin, List.all_cons, Truthy.isB,
      Bool.false_and, Bool.and_false, Bool.false_eq_true, if_false, Truthy.nanToNum, List.map_cons, List.map_nil, Truthy.toF, Except.ok.injEq] at h ⊢
    refine ⟨_, rfl, ?_⟩
    rw [← h]
    exact min_tolerance _ _ _ (activation_tolerance hk p.loss htol)

theorem isValid_bool {p : Path} {E : Env} {objects : List Interactable} {c : List ℤ} {inter : List Interactable} {tol patch : F}
    {ap : Option Bool} {kw : ActKw} (hh : Hard E ap) {v : Truthy} (h : p.isValid E objects c inter tol patch ap kw = .ok v) : ∃ b, v = .b b := by
  unfold Path.isValid at h
  cases hi : p.intersectsWithObjects E objects c patch ap kw with
  | error e => rw [hi] at h; cases h
  | ok i =>
    rw [hi] at h
    simp only [bind, Except.bind, logicalAll_hard hh, pure, Except.pure, Truthy.nanToNum, Except.ok.injEq] at h
    exact ⟨_, h.symm⟩

/-- Two runs of `all_paths` that differ in the settings of the validity only. -/
theorem allPaths_settings {Key : Type} (G : GraphLib) (s : Scene) (hs : IsScene s)
    (o : Scene.Orders) (split : Key → ℕ → List Key) (key : Option Key) (m : Scene.PathMethod Key) (v v' : Scene.ValidOpts)
    (R : Truthy → Truthy → Prop)
    (ts : List Scene.Traced) (e : s.allPaths G split m o v key = .ok ts)
    (hR : ∀ t ∈ ts, ∀ os x, s.getInteractingObjects t.candidate = .ok os → s.validity v t.path t.candidate os = .ok x →
      ∃ x', s.validity v' t.path t.candidate os = .ok x' ∧ R x x') :
    ∃ ts', s.allPaths G split m o v' key = .ok ts' ∧
      List.Forall₂ (fun t t' : Scene.Traced => t'.tx = t.tx ∧ t'.rx = t.rx ∧ t'.path = t.path ∧ t'.candidate = t.candidate ∧
        R t.valid t'.valid) ts ts' := by
  obtain ⟨⟨tx, ht, htx⟩, ⟨rx, hr, hrx⟩⟩ := hs
  cases hcs : s.allPathCandidates G o with
  | error x => unfold Scene.allPaths at e; rw [hcs] at e; cases e
  | ok cs =>
  rw [allPaths_eq G s tx rx ht hr htx hrx o cs hcs] at e ⊢
  generalize (tx ×ˢ rx) ×ˢ cs = l at e
  induction l generalizing key ts with
  | nil =>
    unfold Scene.tracePaths at e ⊢
    obtain rfl := Except.ok.inj e
    exact ⟨[], rfl, .nil⟩
  | cons a l ih =>
    obtain ⟨⟨⟨tk, t⟩, ⟨rk, r⟩⟩, c⟩ := a
    unfold Scene.tracePaths at e ⊢
    cases h1 : s.getInteractingObjects c with
    | error x => rw [h1] at e; cases e
    | ok os =>
    cases h2 : m.trace (Scene.splitKey split key).2 t os r with
    | error x => rw [h1] at e; simp only [bind, Except.bind, h2] at e; cases e
    | ok path =>
    cases h3 : s.validity v path c os with
    | error x => rw [h1] at e; simp only [bind, Except.bind, h2, h3] at e; cases e
    | ok valid =>
    cases h4 : s.tracePaths split m v (Scene.splitKey split key).1 l with
    | error x => rw [h1] at e; simp only [bind, Except.bind, h2, h3, h4] at e; cases e
    | ok others =>
    rw [h1] at e
    simp only [bind, Except.bind, h2, h3, h4, pure, Except.pure, Except.ok.injEq] at e
    rw [← e] at hR
    obtain ⟨valid', h3', hrel⟩ := hR _ List.mem_cons_self os valid h1 h3
    obtain ⟨others', h4', hF⟩ := ih _ _ (fun t ht => hR t (List.mem_cons_of_mem _ ht)) h4
    simp only [bind, Except.bind, h2, h3', h4', pure, Except.pure]
    refine ⟨_, rfl, ?_⟩
    rw [← e]
    exact .cons ⟨rfl, rfl, rfl, rfl, hrel⟩ hF

/-- **C79.** With a larger tolerance, every path keeps its points, names and candidate, and its validity (false counted as 0 and
true as 1) does not decrease: any scene, path class, random key and orders; in approximate mode, with a good activation. -/
theorem C79_validity {Key : Type} (G : GraphLib) (s : Scene) (hs : IsScene s)
    (o : Scene.Orders) (split : Key → ℕ → List Key) (key : Option Key) (m : Scene.PathMethod Key)
    (E : Env) (approx : Option Bool) (kw : ActKw) (hmode : Hard E approx ∨ (Soft E approx ∧ GoodKw kw)) (tol tol' : ℝ)
    (htol : tol ≤ tol') (patch : F) (ts : List Scene.Traced)
    (e : s.allPaths G split m o ⟨E, F.fin tol, patch, approx, kw⟩ key = .ok ts) :
    ∃ ts', s.allPaths G split m o ⟨E, F.fin tol', patch, approx, kw⟩ key = .ok ts' ∧
      List.Forall₂ (fun t t' : Scene.Traced => t'.tx = t.tx ∧ t'.rx = t.rx ∧ t'.path = t.path ∧ t'.candidate = t.candidate ∧
        Le t.valid.toF t'.valid.toF) ts ts' := by
  refine allPaths_settings G s hs o split key m _ _ (fun x x' => Le x.toF x'.toF) ts e ?_
  intro t _ os x _ hx
  exact isValid_tolerance t.path E _ t.candidate _ htol patch approx kw hmode x hx

theorem filter_sublist {α β : Type} (p : α → Prop) (f : α → β) [DecidablePred p] {l l' : List α}
    (h : List.Forall₂ (fun a b => f a = f b ∧ (p a → p b)) l l') :
    ((l.filter fun a => decide (p a)).map f).Sublist ((l'.filter fun a => decide (p a)).map f) := by
  induction h with
  | nil => simp
  | @cons a b l l' hab _ ih =>
    by_cases ha : p a
    · rw [List.filter_cons_of_pos (by simpa using ha), List.filter_cons_of_pos (by simpa using hab.2 ha), List.map_cons, List.map_cons, hab.1]
      exact ih.cons_cons _
    · rw [List.filter_cons_of_neg (by simpa using ha)]
      by_cases hb : p b
      · rw [List.filter_cons_of_pos (by simpa using hb), List.map_cons]
        exact ih.cons _
      · rw [List.filter_cons_of_neg (by simpa using hb)]; exact ih

theorem toF_le_accepted {E : Env} {ap : Option Bool} {x y : Truthy} (hb : Hard E ap → (∃ b, x = .b b) ∧ ∃ b, y = .b b)
    (h : Le x.toF y.toF) (ha : Accepted E ap x) : Accepted E ap y := by
  rcases ha with ⟨hh, hx⟩ | ⟨hh, u, v, hu, hv, huv⟩
  · obtain ⟨⟨b, rfl⟩, ⟨b', rfl⟩⟩ := hb hh
    left
    refine ⟨hh, ?_⟩
    simp only [Holds] at hx ⊢
    subst hx
    cases b' with
    | true => rfl
    | false =>
      obtain ⟨u, v, hu, hv, huv⟩ := h
      simp only [Truthy.toF, if_true, Bool.false_eq_true, if_false, F.one_eq, F.zero_eq, toEReal, Option.some.injEq] at hu hv
      rw [← hu, ← hv] at huv
      norm_cast at huv
  · obtain ⟨u', v', hu', hv', huv'⟩ := h
    right
    rw [hv] at hu'
    obtain rfl := Option.some.inj hu'
    exact ⟨hh, u, v', hu, hv', lt_of_lt_of_le huv huv'⟩

/-- **C79.** A larger tolerance only adds valid paths: the former list is a sublist of the new one. Any scene, path class, random key
and orders; in hard mode, or in approximate mode with a good activation. -/
theorem C79_tolerance {Key : Type} (G : GraphLib) (s : Scene) (hs : IsScene s)
    (o : Scene.Orders) (split : Key → ℕ → List Key) (key : Option Key) (m : Scene.PathMethod Key)
    (E : Env) (approx : Option Bool) (kw : ActKw) (hmode : Hard E approx ∨ (Soft E approx ∧ GoodKw kw)) (tol tol' : ℝ)
    (htol : tol ≤ tol') (patch : F) (out : List (String × String × Path × List ℤ))
    (e : s.allValidPaths G split m o ⟨E, F.fin tol, patch, approx, kw⟩ key = .ok out) :
    ∃ out', s.allValidPaths G split m o ⟨E, F.fin tol', patch, approx, kw⟩ key = .ok out' ∧ out.Sublist out' := by
  rw [C57_valid G s hs] at e ⊢
  cases hts : s.allPaths G split m o ⟨E, F.fin tol, patch, approx, kw⟩ key with
  | error x => rw [hts] at e; cases e
  | ok ts =>
  rw [hts] at e
  obtain ⟨ts', hts', hF⟩ := allPaths_settings G s hs o split key m _ ⟨E, F.fin tol', patch, approx, kw⟩
    (fun x x' => Le x.toF x'.toF ∧ (Hard E approx → (∃ b, x = .b b) ∧ ∃ b, x' = .b b)) ts hts (by
      intro t _ os x _ hx
      obtain ⟨x', hx', hle⟩ := isValid_tolerance t.path E _ t.candidate _ htol patch approx kw hmode x hx
      exact ⟨x', hx', hle, fun hh => ⟨isValid_bool hh hx, isValid_bool hh hx'⟩⟩)
  rw [hts']
  refine ⟨_, rfl, ?_⟩
  obtain rfl := Except.ok.inj e
  refine filter_sublist (fun t : Scene.Traced => Accepted E approx t.valid) _ (hF.imp ?_)
  rintro a b ⟨h1, h2, h3, h4, h5, h6⟩
  exact ⟨by rw [h1, h2, h3, h4], toF_le_accepted h6 h5⟩

/-! ## Concrete cases -/

/-- A scene of one wall on the x axis, and its options. -/
def exScene : Scene := wallScene [("tx", ⟨0, 1⟩)] [("rx", ⟨2, 1⟩)] [(⟨0, 0⟩, ⟨3, 0⟩)]

def exOpts (E : Env) (kw : ActKw) (tol patch : ℝ) : Scene.ValidOpts := ⟨E, F.fin tol, F.fin patch, some false, kw⟩

theorem exScene_isScene : IsScene exScene :=
  ⟨⟨_, by simp [Distinct, finPoints], rfl⟩, ⟨_, by simp [Distinct, finPoints], rfl⟩⟩

theorem exWall_ne : ∀ w ∈ [((⟨0, 0⟩, ⟨3, 0⟩) : Pt × Pt)], w.1 ≠ w.2 := by
  intro w hw e
  simp at hw; subst hw
  have := congrArg V2.x e; norm_num at this

/-- C75: the reflected path exists in the direct and in the exchanged scene. -/
example (E : Env) (kw : ActKw) : ∃ out out', exScene.allValidPaths refLib (fun _ : Unit => fun _ => []) (imageMethod Unit)
      { minOrder := 0, maxOrder := 1 } (exOpts E kw (1 / 100) 0) none = .ok out ∧
    (wallScene [("rx", ⟨2, 1⟩)] [("tx", ⟨0, 1⟩)] [(⟨0, 0⟩, ⟨3, 0⟩)]).allValidPaths refLib (fun _ : Unit => fun _ => []) (imageMethod Unit)
      { minOrder := 0, maxOrder := 1 } (exOpts E kw (1 / 100) 0) none = .ok out' ∧
    ("tx", "rx", finitePath [⟨0, 1⟩, ⟨1, 0⟩, ⟨2, 1⟩] 0, [0]) ∈ out ∧
    ("rx", "tx", finitePath [⟨2, 1⟩, ⟨1, 0⟩, ⟨0, 1⟩] 0, [0]) ∈ out' := by
  obtain ⟨out, out', e, e', h⟩ := C75_reciprocity refLib refLib_contract [("tx", ⟨0, 1⟩)] [("rx", ⟨2, 1⟩)] (by simp [Distinct])
    (by simp [Distinct]) [(⟨0, 0⟩, ⟨3, 0⟩)] exWall_ne 0 1 le_rfl (fun _ : Unit => fun _ => []) none E (some false) (.inl rfl) kw (1 / 100) 0
    (by norm_num) (by norm_num) (by norm_num)
  obtain ⟨out2, e2, -, -, h2⟩ := C74_valid_paths refLib refLib_contract [("tx", ⟨0, 1⟩)] [("rx", ⟨2, 1⟩)] (by simp [Distinct])
    (by simp [Distinct]) [(⟨0, 0⟩, ⟨3, 0⟩)] exWall_ne 0 1 le_rfl (fun _ : Unit => fun _ => []) none E (some false) (.inl rfl) kw (1 / 100) 0
    (by norm_num) (by norm_num) (by norm_num)
  rw [e] at e2; cases e2
  have hm := h2 _ _ _ _ _ _ (List.mem_singleton.mpr rfl) (List.mem_singleton.mpr rfl) ⟨by simp, by simp⟩ (by simp) (by simp) example_rayPath
  exact ⟨out, out', e, e', hm, (h _ _ _ _ fun _ => moves_of_noPause (by simp) (noPause_of_specular example_specular (by simp))).mp hm⟩

/-- C77–C79: the hypotheses on the path class hold of the image method and of the plain path class. -/
example (Key : Type) : KeyIndependent (imageMethod Key) ∧ OnePointEach (imageMethod Key) ∧
    KeyIndependent (plainMethod Key) ∧ OnePointEach (plainMethod Key) :=
  ⟨fun _ _ _ _ _ => rfl, onePointEach_image Key, fun _ _ _ _ _ => rfl, onePointEach_plain Key⟩

/-- C77–C79: both traversals succeed, with another wall added, reordered, or with other settings. -/
theorem exScene_runs (E : Env) (kw : ActKw) : ∃ out1 out2 out3 out4,
    exScene.allValidPaths refLib (fun _ : Unit => fun _ => []) (imageMethod Unit)
      { minOrder := 0, maxOrder := 1 } (exOpts E kw (1 / 100) 0) none = .ok out1 ∧
    (exScene.addObjects (wallsOf [(⟨0, 5⟩, ⟨3, 5⟩)])).allValidPaths refLib (fun _ : Unit => fun _ => []) (imageMethod Unit)
      { minOrder := 0, maxOrder := 1 } (exOpts E kw (1 / 100) 0) none = .ok out2 ∧
    exScene.allValidPaths refLib (fun _ : Unit => fun _ => []) (imageMethod Unit)
      { minOrder := 0, maxOrder := 1 } (exOpts E kw (1 / 10) (1 / 3)) none = .ok out3 ∧
    ((exScene.addObjects (wallsOf [(⟨0, 5⟩, ⟨3, 5⟩)])).withObjects (wallsOf [(⟨0, 5⟩, ⟨3, 5⟩), (⟨0, 0⟩, ⟨3, 0⟩)])).allValidPaths refLib
      (fun _ : Unit => fun _ => []) (imageMethod Unit) { minOrder := 0, maxOrder := 1 } (exOpts E kw (1 / 100) 0) none = .ok out4 ∧
    Rearranged (Equiv.swap 0 1) (wallsOf [(⟨0, 0⟩, ⟨3, 0⟩), (⟨0, 5⟩, ⟨3, 5⟩)]) (wallsOf [(⟨0, 5⟩, ⟨3, 5⟩), (⟨0, 0⟩, ⟨3, 0⟩)]) := by
  have go : ∀ (s : Scene) (v : Scene.ValidOpts), IsScene s → (∀ o ∈ s.objects, ∃ w, o = Obj.wall w) →
      ∃ out, s.allValidPaths refLib (fun _ : Unit => fun _ => []) (imageMethod Unit) { minOrder := 0, maxOrder := 1 } v none = .ok out := by
    intro s v hs hw
    obtain ⟨ts, h⟩ := C56_image_total refLib refLib_contract Unit s hs hw { minOrder := 0, maxOrder := 1 } le_rfl (fun _ : Unit => fun _ => []) none v
    have := C57_valid refLib s hs { minOrder := 0, maxOrder := 1 } (fun _ : Unit => fun _ => []) none (imageMethod Unit) v
    rw [h] at this
    exact ⟨_, this⟩
  have hw1 : ∀ o ∈ exScene.objects, ∃ w, o = Obj.wall w := by
    intro o ho
    rw [exScene, wallScene_objects] at ho
    obtain ⟨w, -, rfl⟩ := List.mem_map.mp ho; exact ⟨_, rfl⟩
  have hw2 : ∀ o ∈ (exScene.addObjects (wallsOf [(⟨0, 5⟩, ⟨3, 5⟩)])).objects, ∃ w, o = Obj.wall w := by
    intro o ho
    rcases List.mem_append.mp ho with ho | ho
    · exact hw1 o ho
    · obtain ⟨w, -, rfl⟩ := List.mem_map.mp ho; exact ⟨_, rfl⟩
  obtain ⟨o1, h1⟩ := go exScene (exOpts E kw (1 / 100) 0) exScene_isScene hw1
  obtain ⟨o2, h2⟩ := go (exScene.addObjects (wallsOf [(⟨0, 5⟩, ⟨3, 5⟩)])) (exOpts E kw (1 / 100) 0) ⟨exScene_isScene.tx, exScene_isScene.rx⟩ hw2
  obtain ⟨o3, h3⟩ := go exScene (exOpts E kw (1 / 10) (1 / 3)) exScene_isScene hw1
  obtain ⟨o4, h4⟩ := go ((exScene.addObjects (wallsOf [(⟨0, 5⟩, ⟨3, 5⟩)])).withObjects (wallsOf [(⟨0, 5⟩, ⟨3, 5⟩), (⟨0, 0⟩, ⟨3, 0⟩)]))
    (exOpts E kw (1 / 100) 0) ⟨exScene_isScene.tx, exScene_isScene.rx⟩ (by
      intro o ho
      obtain ⟨w, -, rfl⟩ := List.mem_map.mp ho; exact ⟨_, rfl⟩)
  refine ⟨o1, o2, o3, o4, h1, h2, h3, h4, fun j => ?_⟩
  match j with
  | 0 => simp [wallsOf]
  | 1 => simp [wallsOf]
  | j + 2 => rw [Equiv.swap_apply_of_ne_of_ne (by omega) (by omega)]; simp [wallsOf]

/-- Non-vacuity of C76: the scene turned, scaled and moved. -/
example (E : Env) (ap : Option Bool) (kw : ActKw) (tol : F) := C76_moved (Key := Unit) refLib refLib_contract ⟨0, -2, 2, 0, 5, 7⟩ 2
  quarterTurn_similarity [("tx", ⟨0, 1⟩)] [("rx", ⟨2, 1⟩)] (by simp [Distinct]) (by simp [Distinct]) [(⟨0, 0⟩, ⟨3, 0⟩)] 0 2 le_rfl
  (fun _ _ => []) none E ap kw tol 0

example (E : Env) (ap : Option Bool) (kw : ActKw) (tol : F) := C76_valid (Key := Unit) refLib refLib_contract ⟨0, -2, 2, 0, 5, 7⟩ 2
  quarterTurn_similarity [("tx", ⟨0, 1⟩)] [("rx", ⟨2, 1⟩)] (by simp [Distinct]) (by simp [Distinct]) [(⟨0, 0⟩, ⟨3, 0⟩)] 0 2 le_rfl
  (fun _ _ => []) none E ap kw tol 0

/-- Non-vacuity of C77, C78 and C79: those runs. -/
example (E : Env) (kw : ActKw) : True := by
  obtain ⟨o1, o2, o3, o4, h1, h2, h3, h4, hr⟩ := exScene_runs E kw
  have hk : KeyIndependent (imageMethod Unit) := fun _ _ _ _ _ => rfl
  have := C77_add_objects refLib refLib_contract exScene exScene_isScene _ 0 1 le_rfl _ _ _ hk (onePointEach_image Unit) _ (.inl rfl) _ _ h1 h2
    "tx" "rx"
  have := C78_reorder refLib refLib_contract (exScene.addObjects (wallsOf [(⟨0, 5⟩, ⟨3, 5⟩)])) ⟨exScene_isScene.tx, exScene_isScene.rx⟩
    (Equiv.swap 0 1) _ hr 0 1 le_rfl _ _ _ hk (onePointEach_image Unit) _ (.inl rfl) _ _ h2 h4 "tx" "rx"
  have := C78_perm refLib refLib_contract (exScene.addObjects (wallsOf [(⟨0, 5⟩, ⟨3, 5⟩)])) ⟨exScene_isScene.tx, exScene_isScene.rx⟩
    _ (List.Perm.swap _ _ _) 0 1 le_rfl _ _ _ hk (onePointEach_image Unit) _ (.inl rfl) _ _ h2 h4 "tx" "rx"
  have := C79_tolerance refLib exScene exScene_isScene { minOrder := 0, maxOrder := 1 } _ _ _ E (some false) kw (.inl (.inl rfl)) (1 / 100) (1 / 10)
    (by norm_num) _ _ h1
  trivial

end DiffeRT2d.Props
