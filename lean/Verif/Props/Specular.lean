import Verif.Lemmas.Specular
import Verif.Props.Traversal
import Verif.Props.Validity

/-! # Properties C73 and C74: the paths are the mirror-reflection paths, all of them -/

namespace DiffeRT2d.Props
open Classical Spec

/-! ## C73 — the image method finds the specular path, and only that -/

/-- **C73.** If there is a specular path from `tx` to `rx` over the walls, in this order, then the image method
returns exactly its points, and a null loss. -/
theorem C73_complete (tx rx : Pt) (ws : List (Pt × Pt)) (hnd : ∀ w ∈ ws, w.1 ≠ w.2) (qs : List Pt)
    (h : Specular ws (tx :: qs ++ [rx])) :
    traceImage tx ws rx = .ok (finitePath (tx :: qs ++ [rx]) 0) := by
  have hlen : qs.length = ws.length := by have := h.1; simp at this; omega
  obtain ⟨h1, h2⟩ := rpts_of_specular ws hnd tx rx tx qs 1 one_pos hlen (by ext <;> simp) (reflChain_of _ _ h.2)
  rw [traceImage_eq]
  simp only [rpath, h1]
  rw [List.sum_eq_zero h2]

/-- **C73.** Conversely, if the path returned has a loss below 1 and its points are not all equal (in particular if the ends differ),
it is specular. -/
theorem C73_sound (tx rx : Pt) (ws : List (Pt × Pt)) (hnd : ∀ w ∈ ws, w.1 ≠ w.2) (pts : List Pt) (loss : ℝ)
    (h : traceImage tx ws rx = .ok (finitePath pts loss)) (hl : loss < 1) (hp : Moves pts) : Specular ws pts := by
  obtain ⟨rfl, h2⟩ := traceImage_iff h
  have hm := scores_mem ws tx rx tx 1 (rpath_first tx rx ws)
  have hz := sum_small hm (by have := h2; simp only [rpath] at this; linarith)
  have hc := specular_of_rpts ws hnd tx rx tx 1 one_pos (rpath_first tx rx ws) (noPause_of_moves (rpath_length tx rx ws) hz hp) hz
  exact ⟨rpath_length tx rx ws, fun i w a b c hw ha hb hc' => reflChain_get hc i w a b c hw ha hb hc'⟩

/-- **C73.** There is at most one specular path over given walls in a given order. -/
theorem C73_unique (ws : List (Pt × Pt)) (hnd : ∀ w ∈ ws, w.1 ≠ w.2) (tx rx : Pt) (qs qs' : List Pt)
    (h : Specular ws (tx :: qs ++ [rx])) (h' : Specular ws (tx :: qs' ++ [rx])) : qs = qs' := by
  have e := (C73_complete tx rx ws hnd qs h).symm.trans (C73_complete tx rx ws hnd qs' h')
  have := (finitePath_inj (Except.ok.inj e)).1
  simpa using this

theorem moves_of_noPause {pts : List Pt} (h2 : 2 ≤ pts.length) (h : NoPause pts) : Moves pts :=
  ⟨_, List.getElem_mem (by omega : 0 < pts.length), _, List.getElem_mem (by omega : 1 < pts.length),
    h 0 _ _ (List.getElem?_eq_getElem (by omega)) (List.getElem?_eq_getElem (by omega))⟩

/-- A specular path never pauses (once there is a wall). -/
theorem noPause_of_specular {ws : List (Pt × Pt)} {pts : List Pt} (h : Specular ws pts) (hne : ws ≠ []) :
    NoPause pts := by
  have key : ∀ {w : Pt × Pt} {a b c : Pt}, Reflects w a b c → a ≠ b ∧ b ≠ c := by
    intro w a b c hr
    have hs := hr.same
    obtain ⟨s, hb⟩ := hr.on
    have h0 : side w.1 w.2 b = 0 := by rw [hb]; simp only [side, pointAt]; ring
    constructor
    · rintro rfl; rw [h0] at hs; simp at hs
    · rintro rfl; rw [h0] at hs; simp at hs
  intro i a b ha hb
  have hl := h.1
  have hi : i + 1 < pts.length := (List.getElem?_eq_some_iff.mp hb).1
  by_cases hlt : i < ws.length
  · have hc : i + 2 < pts.length := by omega
    exact (key (h.2 i _ a b _ (List.getElem?_eq_getElem hlt) ha hb (List.getElem?_eq_getElem hc))).1
  · have hpos := List.length_pos_iff.mpr hne
    obtain ⟨j, rfl⟩ : ∃ j, i = j + 1 := ⟨i - 1, by omega⟩
    have hj : j < ws.length := by omega
    have hj' : j < pts.length := by omega
    exact (key (h.2 j _ _ a b (List.getElem?_eq_getElem hj) (List.getElem?_eq_getElem hj') ha hb)).2

/-- **C73.** Both directions together: over at least one wall, a polyline without repeated points is what the image
method returns with a loss below the default tolerance (or any tolerance up to 1) iff it is specular. -/
theorem C73_iff (tx rx : Pt) (ws : List (Pt × Pt)) (hnd : ∀ w ∈ ws, w.1 ≠ w.2) (hne : ws ≠ []) (qs : List Pt)
    (tol : ℝ) (h0 : 0 < tol) (h1 : tol ≤ 1) :
    Specular ws (tx :: qs ++ [rx]) ↔ Moves (tx :: qs ++ [rx]) ∧
      ∃ loss, loss < tol ∧ traceImage tx ws rx = .ok (finitePath (tx :: qs ++ [rx]) loss) := by
  constructor
  · intro h; exact ⟨moves_of_noPause (by simp) (noPause_of_specular h hne), 0, h0, C73_complete tx rx ws hnd qs h⟩
  · rintro ⟨hp, loss, hl, h⟩
    exact C73_sound tx rx ws hnd _ loss h (by linarith) hp

/-- Non-vacuity: the reflection of `(0,1) → (2,1)` on the x axis. -/
theorem example_specular : Specular [(⟨0, 0⟩, ⟨3, 0⟩)] [⟨0, 1⟩, ⟨1, 0⟩, ⟨2, 1⟩] := by
  refine ⟨rfl, fun i w a b c hw ha hb hc => ?_⟩
  cases i with
  | succ i => simp at hw
  | zero =>
    simp at hw ha hb hc; subst hw ha hb hc
    refine ⟨⟨1 / 3, by ext <;> norm_num [pointAt]⟩, by norm_num [side], ?_⟩
    norm_num [along, eucl]

/-! ## C74 — all valid paths of a scene of walls -/

theorem wallScene_objects (tx rx : PyDict Pt) (walls : List (Pt × Pt)) :
    (wallScene tx rx walls).objects = wallsOf walls := by
  simp [wallScene, sceneOf, Scene.make, wallsOf, Shape.obj, Function.comp_def]

theorem wallsAt_get (walls : List (Pt × Pt)) (c : List ℤ) (hc : ∀ i ∈ c, 0 ≤ i ∧ i < walls.length) (i : ℕ) (w : Pt × Pt) :
    (wallsAt walls c)[i]? = some w ↔ ∃ j : ℕ, c[i]? = some (j : ℤ) ∧ walls[j]? = some w := by
  induction c generalizing i with
  | nil => simp [wallsAt]
  | cons k c ih =>
    obtain ⟨h0, h1⟩ := hc k (by simp)
    have hlt : k.toNat < walls.length := by omega
    have e : wallsAt walls (k :: c) = walls[k.toNat] :: wallsAt walls c := by
      simp [wallsAt, List.getElem?_eq_getElem hlt]
    rw [e]
    cases i with
    | zero =>
      simp only [List.getElem?_cons_zero, Option.some.injEq]
      constructor
      · intro h; exact ⟨k.toNat, by omega, by rw [List.getElem?_eq_getElem hlt, h]⟩
      · rintro ⟨j, h2, h3⟩
        have : k.toNat = j := by omega
        subst this
        rw [List.getElem?_eq_getElem hlt] at h3; exact Option.some.inj h3
    | succ i => simpa using ih (fun i hi => hc i (by simp [hi])) i

theorem objectsAt_walls (tx rx : PyDict Pt) (walls : List (Pt × Pt)) (c : List ℤ) :
    objectsAt (wallScene tx rx walls) c = wallsOf (wallsAt walls c) := by
  unfold objectsAt wallsAt wallsOf
  rw [wallScene_objects, List.map_filterMap]
  congr 1
  funext i
  simp [wallsOf]

theorem wallsOf_get (ws : List (Pt × Pt)) (i : ℕ) (o : Interactable) :
    ((wallsOf ws).map Obj.interact)[i]? = some o ↔ ∃ w, ws[i]? = some w ∧ o = (Wall.ofPts w.1 w.2).interact := by
  simp only [wallsOf, List.map_map, List.getElem?_map, Option.map_eq_some_iff, Function.comp_def]
  constructor
  · rintro ⟨w, h, rfl⟩; exact ⟨w, h, rfl⟩
  · rintro ⟨w, h, rfl⟩; exact ⟨w, h, rfl⟩

theorem fin_get (pts : List Pt) (i : ℕ) (q : V2 F) : (pts.map V2.fin)[i]? = some q ↔ ∃ p, pts[i]? = some p ∧ q = V2.fin p := by
  simp only [List.getElem?_map, Option.map_eq_some_iff]
  constructor
  · rintro ⟨p, h, rfl⟩; exact ⟨p, h, rfl⟩
  · rintro ⟨p, h, rfl⟩; exact ⟨p, h, rfl⟩

theorem hit_blocks {E : Env} {ap : Option Bool} (h : Hard E ap) (kw : ActKw) (w : Pt × Pt) (a b : Pt) (patch : ℝ)
    (hp : -(1 / 2) < patch) :
    Holds ((Wall.ofPts w.1 w.2).interact.intersects E ap kw (F.fin patch) (V2.fin a) (V2.fin b)) ↔ Blocks w patch a b := by
  obtain ⟨r, hr, -⟩ := C20_extended E ap h kw w.1 w.2 a b patch
  have := C20_parameter E ap h kw w.1 w.2 a b patch hp
  show Holds ((Wall.ofPts w.1 w.2).intersects E ap kw (F.fin patch) (V2.fin a) (V2.fin b)) ↔ _
  rw [hr] at this ⊢
  unfold Blocks
  rw [← this]
  simp [Holds]

/-- Validity of a finite path over walls, in hard mode. -/
theorem valid_walls {E : Env} {ap : Option Bool} (h : Hard E ap) (kw : ActKw) (walls : List (Pt × Pt)) (c : List ℤ)
    (hnd : ∀ w ∈ walls, w.1 ≠ w.2) (hc : IsCandidate walls.length c) (pts : List Pt) (loss tol patch : ℝ)
    (hlen : pts.length = c.length + 2) (hp : -(1 / 2) < patch)
    (hon : ∀ (i : ℕ) (w : Pt × Pt) (q : Pt), (wallsAt walls c)[i]? = some w → pts[i + 1]? = some q → loss < tol → OnLine w.1 w.2 q) :
    ∃ v, (finitePath pts loss).isValid E ((wallsOf walls).map Obj.interact) c
        ((wallsOf (wallsAt walls c)).map Obj.interact) (F.fin tol) (F.fin patch) ap kw = .ok (.b v) ∧
      (v = true ↔
        (∀ (i : ℕ) (w : Pt × Pt) (q : Pt), (wallsAt walls c)[i]? = some w → pts[i + 1]? = some q → OnSegment w.1 w.2 q) ∧
        (∀ (i j : ℕ) (w : Pt × Pt) (p q : Pt), pts[i]? = some p → pts[i + 1]? = some q → walls[j]? = some w →
          ¬ Adjacent c i j → ¬ Blocks w patch p q) ∧ loss < tol) := by
  have hlen' : (wallsAt walls c).length = c.length := by
    have h1 : ∀ i < c.length, i < (wallsAt walls c).length := by
      intro i hi
      obtain ⟨h0, h1⟩ := hc.1 _ (List.getElem_mem hi)
      have hlt : (c[i]).toNat < walls.length := by omega
      have := (wallsAt_get walls c hc.1 i walls[(c[i]).toNat]).mpr
        ⟨(c[i]).toNat, by rw [List.getElem?_eq_getElem hi]; congr 1; omega, List.getElem?_eq_getElem hlt⟩
      exact (List.getElem?_eq_some_iff.mp this).1
    have h2 : (wallsAt walls c).length ≤ c.length := List.length_filterMap_le _ _
    by_contra hne
    have := h1 (wallsAt walls c).length (by omega)
    omega
  obtain ⟨v, hv, hiff⟩ := C38_hard (finitePath pts loss) E ap h kw ((wallsOf walls).map Obj.interact)
    ((wallsOf (wallsAt walls c)).map Obj.interact) c (F.fin tol) (F.fin patch) (by simp [finitePath, hlen])
    (by simp [wallsOf, hlen'])
  refine ⟨v, hv, hiff.trans ?_⟩
  have hloss : Lt (finitePath pts loss).loss (F.fin tol) ↔ loss < tol := by
    rw [← F.lt_iff]; simp [finitePath]
  rw [hloss]
  have hB : (¬ ∃ i j o a b, (finitePath pts loss).xys[i]? = some a ∧ (finitePath pts loss).xys[i + 1]? = some b ∧
      ((wallsOf walls).map Obj.interact)[j]? = some o ∧ ¬ Adjacent c i j ∧ Holds (o.intersects E ap kw (F.fin patch) a b)) ↔
      (∀ (i j : ℕ) (w : Pt × Pt) (p q : Pt), pts[i]? = some p → pts[i + 1]? = some q → walls[j]? = some w →
          ¬ Adjacent c i j → ¬ Blocks w patch p q) := by
    constructor
    · intro hh i j w p q hp' hq hw hadj hb
      refine hh ⟨i, j, _, V2.fin p, V2.fin q, (fin_get _ _ _).mpr ⟨p, hp', rfl⟩, (fin_get _ _ _).mpr ⟨q, hq, rfl⟩,
        (wallsOf_get _ _ _).mpr ⟨w, hw, rfl⟩, hadj, (hit_blocks h kw w p q patch hp).mpr hb⟩
    · rintro hh ⟨i, j, o, a, b, ha, hb, ho, hadj, hit⟩
      obtain ⟨p, hp', rfl⟩ := (fin_get _ _ _).mp ha
      obtain ⟨q, hq, rfl⟩ := (fin_get _ _ _).mp hb
      obtain ⟨w, hw, rfl⟩ := (wallsOf_get _ _ _).mp ho
      exact hh i j w p q hp' hq hw hadj ((hit_blocks h kw w p q patch hp).mp hit)
  rw [hB]
  have hA : loss < tol → ((∀ i o q, ((wallsOf (wallsAt walls c)).map Obj.interact)[i]? = some o →
      (finitePath pts loss).xys[i + 1]? = some q → Holds (o.contains E ap kw (o.toParam q))) ↔
      (∀ (i : ℕ) (w : Pt × Pt) (q : Pt), (wallsAt walls c)[i]? = some w → pts[i + 1]? = some q → OnSegment w.1 w.2 q)) := by
    intro hl
    have key : ∀ (i : ℕ) (w : Pt × Pt) (q : Pt), (wallsAt walls c)[i]? = some w → pts[i + 1]? = some q →
        (Holds ((Wall.ofPts w.1 w.2).interact.contains E ap kw ((Wall.ofPts w.1 w.2).interact.toParam (V2.fin q))) ↔
          OnSegment w.1 w.2 q) := by
      intro i w q hw hq
      have hne : w.1 ≠ w.2 := by
        obtain ⟨j, -, hj⟩ := (wallsAt_get walls c hc.1 i w).mp hw
        exact hnd w (List.mem_of_getElem? hj)
      obtain ⟨r, hr, hri⟩ := C19_segment E ap h kw w.1 w.2 q hne (hon i w q hw hq hl)
      simp only [Wall.interact, List.headD_cons]
      rw [hr, ← hri]; simp [Holds]
    constructor
    · intro hh i w q hw hq
      exact (key i w q hw hq).mp (hh i _ _ ((wallsOf_get _ _ _).mpr ⟨w, hw, rfl⟩) ((fin_get _ _ _).mpr ⟨q, hq, rfl⟩))
    · intro hh i o q ho hq
      obtain ⟨w, hw, rfl⟩ := (wallsOf_get _ _ _).mp ho
      obtain ⟨p, hp', rfl⟩ := (fin_get _ _ _).mp hq
      exact (key i w p hw hp').mpr (hh i w p hw hp')
  constructor
  · rintro ⟨h1, h2, h3⟩; exact ⟨(hA h3).mp h1, h2, h3⟩
  · rintro ⟨h1, h2, h3⟩; exact ⟨(hA h3).mpr h1, h2, h3⟩

/-- The traversal as a set: one entry for each transmitter, receiver and candidate. -/
theorem traversal_mem {Key : Type} (G : GraphLib) (hG : GraphContract G) (s : Scene) (tx rx : PyDict (V2 F))
    (ht : Distinct tx) (hr : Distinct rx) (h1 : s.transmitters = .fromMapping tx)
    (h2 : s.receivers = .fromMapping rx) (o : Scene.Orders) (ho : NonNegative o) (split : Key → ℕ → List Key)
    (key : Option Key) (cs : List (List ℤ)) (hcs : s.allPathCandidates G o = .ok cs) (hcd : cs.Nodup)
    (m : Scene.PathMethod Key) (v : Scene.ValidOpts) (ts : List Scene.Traced)
    (hts : s.allPaths G split m o v key = .ok ts) :
    (∀ x ∈ ts, ∃ k t r, (x.tx, t) ∈ tx ∧ (x.rx, r) ∈ rx ∧ x.candidate ∈ cs ∧
      TracedAs s m v k t r x.candidate x.path x.valid) ∧
    (∀ t ∈ tx, ∀ r ∈ rx, ∀ c ∈ cs, ∃ x ∈ ts, ∃ k, x.tx = t.1 ∧ x.rx = r.1 ∧ x.candidate = c ∧
      TracedAs s m v k t.2 r.2 c x.path x.valid) ∧
    (ts.map fun x => (x.tx, x.rx, x.candidate)).Nodup := by
  obtain ⟨cs', hcs', hc⟩ := orders_candidates G hG s o ho
  rw [hcs] at hcs'; cases hcs'
  rw [allPaths_eq G s tx rx ht hr h1 h2 o cs hcs, tracePaths_ok] at hts
  obtain ⟨hl, hturn⟩ := hts
  have turn : ∀ (n : ℕ) (t r : String × V2 F) (c : List ℤ) (x : Scene.Traced),
      ((tx ×ˢ rx) ×ˢ cs)[n]? = some ((t, r), c) → ts[n]? = some x →
      x.tx = t.1 ∧ x.rx = r.1 ∧ x.candidate = c ∧ TracedAs s m v (keyAt split n key) t.2 r.2 c x.path x.valid := by
    intro n t r c x hget hx
    obtain ⟨e1, e2, e3, os, e4, e5, e6⟩ := hturn n _ _ hget hx
    have hmem := List.mem_of_getElem? hget
    have hos := interacting_eq s c (hc c (List.mem_product.mp hmem).2)
    simp only at e4
    rw [hos] at e4
    cases e4
    exact ⟨e1, e2, e3, e5, e6⟩
  refine ⟨?_, ?_, ?_⟩
  · intro x hx
    obtain ⟨n, hn, rfl⟩ := List.getElem_of_mem hx
    have hlt : n < ((tx ×ˢ rx) ×ˢ cs).length := by rw [← hl]; exact hn
    rcases he : ((tx ×ˢ rx) ×ˢ cs)[n] with ⟨⟨t, r⟩, c⟩
    have hget : ((tx ×ˢ rx) ×ˢ cs)[n]? = some ((t, r), c) := by rw [List.getElem?_eq_getElem hlt, he]
    obtain ⟨e1, e2, e3, e4⟩ := turn n t r c _ hget (List.getElem?_eq_getElem hn)
    have hmem := List.mem_product.mp (List.mem_of_getElem? hget)
    have hmem' := List.mem_product.mp hmem.1
    refine ⟨_, t.2, r.2, ?_, ?_, ?_, by rw [e3]; exact e4⟩
    · rw [e1]; exact hmem'.1
    · rw [e2]; exact hmem'.2
    · rw [e3]; exact hmem.2
  · intro t ht' r hr' c hc'
    have hmem : ((t, r), c) ∈ (tx ×ˢ rx) ×ˢ cs :=
      List.mem_product.mpr ⟨List.mem_product.mpr ⟨ht', hr'⟩, hc'⟩
    obtain ⟨n, hn, he⟩ := List.getElem_of_mem hmem
    have hlt : n < ts.length := by rw [hl]; exact hn
    obtain ⟨e1, e2, e3, e4⟩ := turn n t r c _ (by rw [List.getElem?_eq_getElem hn, he]) (List.getElem?_eq_getElem hlt)
    exact ⟨_, List.getElem_mem hlt, _, e1, e2, e3, e4⟩
  · have hmap : (ts.map fun x => (x.tx, x.rx, x.candidate)) =
        ((tx ×ˢ rx) ×ˢ cs).map fun e => (e.1.1.1, e.1.2.1, e.2) := by
      apply List.ext_getElem? 
      intro n
      simp only [List.getElem?_map]
      by_cases hn : n < ts.length
      · have hlt : n < ((tx ×ˢ rx) ×ˢ cs).length := by rw [← hl]; exact hn
        rcases he : ((tx ×ˢ rx) ×ˢ cs)[n] with ⟨⟨t, r⟩, c⟩
        have hget : ((tx ×ˢ rx) ×ˢ cs)[n]? = some ((t, r), c) := by rw [List.getElem?_eq_getElem hlt, he]
        obtain ⟨e1, e2, e3, e4⟩ := turn n t r c _ hget (List.getElem?_eq_getElem hn)
        rw [hget, List.getElem?_eq_getElem hn]
        simp [e1, e2, e3]
      · rw [List.getElem?_eq_none (by omega), List.getElem?_eq_none (by omega)]; rfl
    rw [hmap, List.nodup_map_iff_inj_on]
    · rintro ⟨⟨t, r⟩, c⟩ h ⟨⟨t', r'⟩, c'⟩ h' e
      simp only [Prod.mk.injEq] at e
      have m1 := List.mem_product.mp (List.mem_product.mp h).1
      have m2 := List.mem_product.mp (List.mem_product.mp h').1
      have inj : ∀ (d : PyDict (V2 F)), Distinct d → ∀ a ∈ d, ∀ b ∈ d, a.1 = b.1 → a = b := by
        intro d hd a ha b hb hab
        exact List.inj_on_of_nodup_map hd ha hb hab
      obtain rfl := inj tx ht t m1.1 t' m2.1 e.1
      obtain rfl := inj rx hr r m1.2 r' m2.2 e.2.1
      rw [e.2.2]
    · exact ((List.Nodup.of_map _ ht).product (List.Nodup.of_map _ hr)).product hcd

/-- Tracing and checking one candidate in a scene of walls. -/
theorem traced_walls {Key : Type} (tx rx : PyDict Pt) (walls : List (Pt × Pt)) (hnd : ∀ w ∈ walls, w.1 ≠ w.2)
    {E : Env} {ap : Option Bool} (hh : Hard E ap) (kw : ActKw) (tol patch : ℝ) (h0 : 0 < tol) (h1 : tol ≤ 1)
    (hp : -(1 / 2) < patch) (k : Option Key) (t r : Pt) (c : List ℤ) (hc : IsCandidate walls.length c)
    (path : Path) (valid : Truthy)
    (h : TracedAs (wallScene tx rx walls) (imageMethod Key) ⟨E, F.fin tol, F.fin patch, ap, kw⟩ k (V2.fin t) (V2.fin r) c path valid) :
    (Holds valid → ∃ pts, path = finitePath pts 0 ∧ ((c ≠ [] → t = r → Moves pts) → RayPath walls patch t r c pts)) ∧
    ∀ pts, RayPath walls patch t r c pts → path = finitePath pts 0 ∧ Holds valid := by
  obtain ⟨g1, g2⟩ := h
  rw [wallScene_objects, objectsAt_walls] at g2
  have g1' : traceImage t (wallsAt walls c) r = .ok path := by
    rw [objectsAt_walls] at g1; exact g1
  have hnd' : ∀ w ∈ wallsAt walls c, w.1 ≠ w.2 := by
    intro w hw
    obtain ⟨i, -, hi⟩ := List.mem_filterMap.mp hw
    exact hnd w (List.mem_of_getElem? hi)
  have hwl : (wallsAt walls c).length = c.length := by
    have e := objectsAt_length (wallScene tx rx walls) c (by rw [wallScene_objects]; simpa [wallsOf] using hc)
    rw [objectsAt_walls] at e; simpa [wallsOf] using e
  obtain ⟨inner, loss, hil, e⟩ := C33_finite t r (wallsAt walls c)
  rw [g1'] at e
  obtain rfl := Except.ok.inj e
  set pts := t :: inner ++ [r] with hpts
  have hlen : pts.length = c.length + 2 := by simp [hpts, hil, hwl]
  obtain ⟨v, hv, hiff⟩ := valid_walls hh kw walls c hnd hc pts loss tol patch hlen hp (by
    intro i w q hw hq hl
    have hF := C30_on_lines t r (wallsAt walls c) inner loss g1' hnd' (by linarith)
    obtain ⟨hlt, hget⟩ := List.getElem?_eq_some_iff.mp hw
    have hq' : inner[i]? = some q := by
      rw [hpts] at hq
      simp only [List.cons_append, List.getElem?_cons_succ] at hq
      rwa [List.getElem?_append_left (by omega)] at hq
    obtain ⟨hlt', hget'⟩ := List.getElem?_eq_some_iff.mp hq'
    have := (List.forall₂_iff_get.mp hF).2 i hlt hlt'
    simp only [List.get_eq_getElem] at this
    rwa [hget, hget'] at this)
  rw [hv] at g2
  obtain rfl := Except.ok.inj g2
  have hholds : Holds (Truthy.b v) ↔ v = true := by simp [Holds]
  rw [hholds]
  constructor
  · intro hvt
    obtain ⟨a1, a2, a3⟩ := hiff.mp hvt
    have hz := (C31_threshold t r _ pts loss tol g1' h0 h1).mp a3
    subst hz
    refine ⟨pts, rfl, fun hnp => ?_⟩
    have hspec : Specular (wallsAt walls c) pts := by
      by_cases hce : c = []
      · subst hce
        exact ⟨by simpa [wallsAt] using hlen, fun i w a b c' hw => by simp [wallsAt] at hw⟩
      · refine C73_sound t r _ hnd' pts 0 g1' one_pos ?_
        by_cases htr : t = r
        · exact hnp hce htr
        · exact ⟨t, by simp [hpts], r, by simp [hpts], htr⟩
    refine ⟨by simp [hpts], by rw [hpts, List.getLast?_append]; rfl, hlen, ?_, a2⟩
    intro i j w p q q' hi hj ha hb hc'
    have hw := (wallsAt_get walls c hc.1 i w).mpr ⟨j, hi, hj⟩
    exact ⟨hspec.2 i w p q q' hw ha hb hc', a1 i w q hw hb⟩
  · intro pts' hr'
    have hshape : ∃ qs, pts' = t :: qs ++ [r] := by
      have hl := hr'.count
      have hs := hr'.start
      have hf := hr'.finish
      match pts', hl, hs, hf with
      | a :: rest, hl, hs, hf =>
        simp at hs; subst hs
        have hne : rest ≠ [] := by rintro rfl; simp at hl
        rw [List.getLast?_cons_of_ne_nil hne] at hf
        obtain ⟨ys, rfl⟩ := List.getLast?_eq_some_iff.mp hf
        exact ⟨ys, rfl⟩
    obtain ⟨qs, rfl⟩ := hshape
    have hspec : Specular (wallsAt walls c) (t :: qs ++ [r]) := by
      refine ⟨by rw [hr'.count, hwl], fun i w a b c' hw ha hb hc' => ?_⟩
      obtain ⟨j, hi, hj⟩ := (wallsAt_get walls c hc.1 i w).mp hw
      exact (hr'.reflected i j w a b c' hi hj ha hb hc').1
    have e2 := C73_complete t r _ hnd' qs hspec
    rw [g1'] at e2
    obtain ⟨e3, rfl⟩ := finitePath_inj (Except.ok.inj e2)
    refine ⟨by rw [e3], ?_⟩
    rw [hiff]
    rw [e3]
    refine ⟨?_, hr'.clear, h0⟩
    intro i w q hw hq
    obtain ⟨j, hi, hj⟩ := (wallsAt_get walls c hc.1 i w).mp hw
    have hci : i < c.length := (List.getElem?_eq_some_iff.mp hi).1
    have hl := hr'.count
    exact (hr'.reflected i j w _ q _ hi hj (List.getElem?_eq_getElem (by omega)) hq
      (List.getElem?_eq_getElem (by omega))).2

/-- C74, with the path being what the image method returns. -/
theorem valid_paths_traced {Key : Type} (G : GraphLib) (hG : GraphContract G) (tx rx : PyDict Pt)
    (ht : Distinct tx) (hr : Distinct rx) (walls : List (Pt × Pt)) (hnd : ∀ w ∈ walls, w.1 ≠ w.2)
    (lo hi : ℤ) (hlo : 0 ≤ lo) (split : Key → ℕ → List Key) (key : Option Key)
    (E : Env) (approx : Option Bool) (hh : Hard E approx) (kw : ActKw) (tol patch : ℝ) (h0 : 0 < tol) (h1 : tol ≤ 1)
    (hp : -(1 / 2) < patch) :
    ∃ out, (wallScene tx rx walls).allValidPaths G split (imageMethod Key) { minOrder := lo, maxOrder := hi }
        ⟨E, F.fin tol, F.fin patch, approx, kw⟩ key = .ok out ∧
      (out.map fun x => (x.1, x.2.1, x.2.2.2)).Nodup ∧
      (∀ tn rn path c, (tn, rn, path, c) ∈ out → ∃ t r pts, (tn, t) ∈ tx ∧ (rn, r) ∈ rx ∧
        IsCandidate walls.length c ∧ lo ≤ c.length ∧ (c.length : ℤ) ≤ hi ∧ path = finitePath pts 0 ∧
        traceImage t (wallsAt walls c) r = .ok path ∧ ((c ≠ [] → t = r → Moves pts) → RayPath walls patch t r c pts)) ∧
      (∀ tn t rn r c pts, (tn, t) ∈ tx → (rn, r) ∈ rx → IsCandidate walls.length c → lo ≤ c.length →
        (c.length : ℤ) ≤ hi → RayPath walls patch t r c pts → (tn, rn, finitePath pts 0, c) ∈ out) := by
  set s := wallScene tx rx walls with hs
  have hfin : ∀ d : PyDict Pt, Distinct d → Distinct (finPoints d) := by
    intro d hd; simpa [Distinct, finPoints, Function.comp_def] using hd
  have e1 : s.transmitters = .fromMapping (finPoints tx) := rfl
  have e2 : s.receivers = .fromMapping (finPoints rx) := rfl
  have hS : IsScene s := ⟨⟨_, hfin tx ht, e1⟩, ⟨_, hfin rx hr, e2⟩⟩
  have hobj : s.objects = wallsOf walls := wallScene_objects tx rx walls
  have hol : s.objects.length = walls.length := by rw [hobj]; simp [wallsOf]
  obtain ⟨cs, hcs, hcd, hcm, -⟩ := C53_sound_complete G hG s lo hi hlo
  rw [hol] at hcm
  set v : Scene.ValidOpts := ⟨E, F.fin tol, F.fin patch, approx, kw⟩ with hv
  obtain ⟨ts, hts⟩ := C56_image_total G hG Key s hS (by
    intro o ho; rw [hobj] at ho
    obtain ⟨w, -, rfl⟩ := List.mem_map.mp ho; exact ⟨_, rfl⟩) { minOrder := lo, maxOrder := hi } hlo split key v
  obtain ⟨m1, m2, m3⟩ := traversal_mem G hG s _ _ (hfin tx ht) (hfin rx hr) e1 e2 { minOrder := lo, maxOrder := hi } hlo split key cs hcs hcd
    (imageMethod Key) v ts hts
  have hout := C57_valid G s hS { minOrder := lo, maxOrder := hi } split key (imageMethod Key) v
  rw [hts] at hout
  refine ⟨_, hout, ?_, ?_, ?_⟩
  · rw [List.map_map]
    exact m3.sublist (List.Sublist.map _ List.filter_sublist)
  · intro tn rn path c hmem
    obtain ⟨x, hx, hxe⟩ := List.mem_map.mp hmem
    obtain ⟨hx, hacc⟩ := List.mem_filter.mp hx
    simp only [Prod.mk.injEq] at hxe
    obtain ⟨rfl, rfl, rfl, rfl⟩ := hxe
    have hholds : Holds x.valid := by
      rcases of_decide_eq_true hacc with ⟨-, h⟩ | ⟨h, -⟩
      · exact h
      · rcases hh with h' | ⟨h', h''⟩ <;> rcases h with g | ⟨g, g'⟩ <;> simp_all
    obtain ⟨k, t, r, ht', hr', hc', htr⟩ := m1 x hx
    obtain ⟨⟨tn, t⟩, htm, hte⟩ := List.mem_map.mp ht'
    obtain ⟨⟨rn, r⟩, hrm, hre⟩ := List.mem_map.mp hr'
    simp only [Prod.mk.injEq] at hte hre
    obtain ⟨hte1, rfl⟩ := hte
    obtain ⟨hre1, rfl⟩ := hre
    rw [← hte1, ← hre1]
    obtain ⟨hcand, hl1, hl2⟩ := (hcm _).mp hc'
    obtain ⟨pts, hpath, hray⟩ := (traced_walls tx rx walls hnd hh kw tol patch h0 h1 hp k t r _ hcand _ _ htr).1 hholds
    have htri := htr.1
    rw [objectsAt_walls] at htri
    exact ⟨t, r, pts, htm, hrm, hcand, hl1, hl2, hpath, htri, hray⟩
  · intro tn t rn r c pts htm hrm hcand hl1 hl2 hray
    obtain ⟨x, hx, k, x1, x2, x3, htr⟩ := m2 (tn, V2.fin t) (List.mem_map.mpr ⟨_, htm, rfl⟩) (rn, V2.fin r)
      (List.mem_map.mpr ⟨_, hrm, rfl⟩) c ((hcm c).mpr ⟨hcand, hl1, hl2⟩)
    obtain ⟨p1, p2⟩ := (traced_walls tx rx walls hnd hh kw tol patch h0 h1 hp k t r _ hcand _ _ htr).2 pts hray
    refine List.mem_map.mpr ⟨x, List.mem_filter.mpr ⟨hx, decide_eq_true (.inl ⟨hh, p2⟩)⟩, ?_⟩
    rw [x1, x2, x3, p1]

/-- **C74.** In a scene of walls (none of zero length), in hard mode, with a tolerance in `(0, 1]`, the paths that
`all_valid_paths` yields are, for each transmitter, receiver and candidate of the requested orders, the
physical ray paths: it succeeds; each transmitter, receiver and candidate gives at most one path; all its
paths have a null loss; every physical ray path is yielded; and every path yielded is a physical
ray path, unless it has reflections and all its points, including both ends, are equal. -/
theorem C74_valid_paths {Key : Type} (G : GraphLib) (hG : GraphContract G) (tx rx : PyDict Pt)
    (ht : Distinct tx) (hr : Distinct rx) (walls : List (Pt × Pt)) (hnd : ∀ w ∈ walls, w.1 ≠ w.2)
    (lo hi : ℤ) (hlo : 0 ≤ lo) (split : Key → ℕ → List Key) (key : Option Key)
    (E : Env) (approx : Option Bool) (hh : Hard E approx) (kw : ActKw) (tol patch : ℝ) (h0 : 0 < tol) (h1 : tol ≤ 1)
    (hp : -(1 / 2) < patch) :
    ∃ out, (wallScene tx rx walls).allValidPaths G split (imageMethod Key) { minOrder := lo, maxOrder := hi }
        ⟨E, F.fin tol, F.fin patch, approx, kw⟩ key = .ok out ∧
      (out.map fun x => (x.1, x.2.1, x.2.2.2)).Nodup ∧
      (∀ tn rn path c, (tn, rn, path, c) ∈ out → ∃ t r pts, (tn, t) ∈ tx ∧ (rn, r) ∈ rx ∧
        IsCandidate walls.length c ∧ lo ≤ c.length ∧ (c.length : ℤ) ≤ hi ∧ path = finitePath pts 0 ∧
        ((c ≠ [] → t = r → Moves pts) → RayPath walls patch t r c pts)) ∧
      (∀ tn t rn r c pts, (tn, t) ∈ tx → (rn, r) ∈ rx → IsCandidate walls.length c → lo ≤ c.length →
        (c.length : ℤ) ≤ hi → RayPath walls patch t r c pts → (tn, rn, finitePath pts 0, c) ∈ out) := by
  obtain ⟨out, e, s1, s2, s3⟩ := valid_paths_traced G hG tx rx ht hr walls hnd lo hi hlo split key E approx hh kw tol patch h0 h1 hp
  refine ⟨out, e, s1, fun tn rn path c h => ?_, s3⟩
  obtain ⟨t, r, pts, a1, a2, a3, a4, a5, a6, -, a8⟩ := s2 tn rn path c h
  exact ⟨t, r, pts, a1, a2, a3, a4, a5, a6, a8⟩

/-- Non-vacuity: with one wall on the x axis, the reflected path from `(0,1)` to `(2,1)` is a physical path, and
it is yielded. -/
theorem example_rayPath : RayPath [(⟨0, 0⟩, ⟨3, 0⟩)] 0 ⟨0, 1⟩ ⟨2, 1⟩ [0] [⟨0, 1⟩, ⟨1, 0⟩, ⟨2, 1⟩] := by
  refine ⟨rfl, rfl, rfl, ?_, ?_⟩
  · intro i j w p q q' hi hj ha hb hc
    cases i with
    | succ i => simp at hi
    | zero =>
      simp at hi; obtain rfl : j = 0 := by omega
      refine ⟨example_specular.2 0 w p q q' hj ha hb hc, ?_⟩
      simp at hj hb; subst hj hb
      exact ⟨1 / 3, by norm_num, by norm_num, by ext <;> norm_num [pointAt]⟩
  · intro i j w p q ha hb hj hadj
    exfalso; apply hadj
    have hj0 : j = 0 := by
      cases j with
      | zero => rfl
      | succ j => simp at hj
    subst hj0
    match i, hb with
    | 0, _ => exact .inl rfl
    | 1, _ => exact .inr ⟨0, rfl, rfl⟩
    | i + 2, hb => simp at hb

example (E : Env) (kw : ActKw) : ∃ out, (wallScene [("tx", ⟨0, 1⟩)] [("rx", ⟨2, 1⟩)] [(⟨0, 0⟩, ⟨3, 0⟩)]).allValidPaths refLib
    (fun _ : Unit => fun _ => []) (imageMethod Unit) { minOrder := 0, maxOrder := 1 } ⟨E, F.fin (1 / 100), F.fin 0, some false, kw⟩ none =
      .ok out ∧ ("tx", "rx", finitePath [⟨0, 1⟩, ⟨1, 0⟩, ⟨2, 1⟩] 0, [0]) ∈ out := by
  obtain ⟨out, e, -, -, h⟩ := C74_valid_paths refLib refLib_contract [("tx", ⟨0, 1⟩)] [("rx", ⟨2, 1⟩)] (by simp [Distinct]) (by simp [Distinct])
    [(⟨0, 0⟩, ⟨3, 0⟩)] (by
      intro w hw e
      simp at hw; subst hw
      have := congrArg V2.x e; norm_num at this) 0 1 le_rfl (fun _ : Unit => fun _ => []) none E (some false) (.inl rfl) kw (1 / 100) 0
    (by norm_num) (by norm_num) (by norm_num)
  refine ⟨out, e, h _ _ _ _ _ _ (by simp) (by simp) ?_ (by simp) (by simp) example_rayPath⟩
  exact ⟨by simp, by simp⟩

end DiffeRT2d.Props
