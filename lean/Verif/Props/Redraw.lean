import Verif.Props.Laws
import Verif.Props.Fields
import Verif.Props.Grid

/-! # C122: walls have no direction -/

namespace DiffeRT2d.Props
open Classical Spec

/-! ## One wall -/

theorem rimg_other (o d p : Pt) : rimg d o p = rimg o d p := by
  have h := rn_orth o d
  unfold rimg
  rw [rn_swap o d]
  have e : dp (p - d) (-rn o d) = -dp (p - o) (rn o d) := by
    simp only [dp, V2.sub_x, V2.sub_y, V2.neg_x, V2.neg_y] at h ⊢; linarith
  rw [e]
  ext <;> simp only [V2.neg_x, V2.neg_y] <;> ring

theorem rback_other (o d im p : Pt) : rback d o im p = rback o d im p := by
  have h := rn_orth o d
  have e : dp (d - p) (-rn o d) = -dp (o - p) (rn o d) := by
    simp only [dp, V2.sub_x, V2.sub_y, V2.neg_x, V2.neg_y] at h ⊢; linarith
  have e2 : dp (p - im) (-rn o d) = -dp (p - im) (rn o d) := by
    simp only [dp, V2.neg_x, V2.neg_y]; ring
  unfold rback un
  rw [rn_swap o d, e, e2]
  simp only [neg_eq_zero, neg_mul, neg_div_neg_eq]

theorem reval_other (o d a b c : Pt) : reval d o a b c = reval o d a b c := by
  rw [reval_eq, reval_eq, rn_swap o d]
  simp only [dp, V2.neg_x, V2.neg_y]; ring

theorem rpar_other {o d : Pt} (h : o ≠ d) (p : Pt) : rpar d o p = 1 - rpar o d p := by
  have h0 : dp (d - o) (d - o) ≠ 0 := fun e => h ((dp_self_eq_zero o d).mp e)
  have e : dp (o - d) (o - d) = dp (d - o) (d - o) := by simp only [dp, V2.sub_x, V2.sub_y]; ring
  rw [rpar, rpar, e, if_neg h0, if_neg h0, eq_sub_iff_add_eq, ← add_div, div_eq_one_iff_eq h0]
  simp only [dp, V2.sub_x, V2.sub_y]; ring

/-- A parameter counted from the other end. -/
theorem contains_other (E : Env) (ap : Option Bool) (kw : ActKw) (w w' : Wall) (s : ℝ) :
    w'.contains E ap kw (F.fin (1 - s)) = w.contains E ap kw (F.fin s) := by
  unfold Wall.contains
  rw [logicalAnd_comm]
  unfold greaterEqual lessEqual
  simp only [F.zero_eq, F.one_eq, F.fin_sub, F.le_fin]
  rw [show 1 - (1 - s) = s - 0 by ring, show 1 - s - 0 = 1 - s by ring]
  have e1 : decide (1 - s ≤ 1) = decide (0 ≤ s) := by congr 1; rw [eq_iff_iff]; constructor <;> intro <;> linarith
  have e2 : decide (0 ≤ 1 - s) = decide (s ≤ 1) := by congr 1; rw [eq_iff_iff]; constructor <;> intro <;> linarith
  rw [e1, e2]

theorem _root_.DiffeRT2d.Spec.SameSegment.on {w w' : Pt × Pt} (h : SameSegment w w') (E : Env) (ap : Option Bool) (kw : ActKw) (q : Pt) :
    (Wall.ofPts w'.1 w'.2).contains E ap kw (F.fin (rpar w'.1 w'.2 q)) =
      (Wall.ofPts w.1 w.2).contains E ap kw (F.fin (rpar w.1 w.2 q)) := by
  obtain ⟨o, d⟩ := w
  rcases h with rfl | rfl
  · rfl
  · by_cases hod : o = d
    · subst hod; rfl
    · simp only [rpar_other hod]
      exact contains_other E ap kw _ _ _

theorem pointAt_other (o d : Pt) (s : ℝ) : pointAt d o s = pointAt o d (1 - s) := by
  ext <;> simp only [pointAt] <;> ring

theorem _root_.DiffeRT2d.Spec.SameSegment.crosses {w w' : Pt × Pt} (h : SameSegment w w') (E : Env) (ap : Option Bool) (kw : ActKw) (patch : ℝ) (a b : Pt) :
    (Wall.ofPts w'.1 w'.2).intersects E ap kw (F.fin patch) (V2.fin a) (V2.fin b) =
      (Wall.ofPts w.1 w.2).intersects E ap kw (F.fin patch) (V2.fin a) (V2.fin b) := by
  obtain ⟨o, d⟩ := w
  rcases h with rfl | rfl
  · rfl
  · simp only
    rw [patched, patched, pointAt_other o d, pointAt_other o d, segTol_eq, show 1 - -patch = 1 + patch by ring,
      show 1 - (1 + patch) = -patch by ring]
    exact (C11_reverse E ap kw _ _ a b _).1

/-- **C122.** A RIS does have a direction, as its angle is measured from its normal: redrawing a RIS from its other end is the same as
adding half a turn to its angle. -/
theorem C122_ris (o d b c : Pt) (a : V2 F) (phi : ℝ) :
    (RIS.mk (Wall.ofPts d o) (F.fin phi)).evaluate a (V2.fin b) (V2.fin c) =
      (RIS.mk (Wall.ofPts o d) (F.fin (phi + Real.pi))).evaluate a (V2.fin b) (V2.fin c) := by
  rw [ris_fin, ris_fin, rn_swap o d, Real.sin_add_pi, Real.cos_add_pi]
  congr 1
  simp only [dp, V2.neg_x, V2.neg_y]
  ring

/-! ## Paths and their validity -/

theorem _root_.DiffeRT2d.Spec.SameSegment.img {w w' : Pt × Pt} (h : SameSegment w w') (p : Pt) : rimg w'.1 w'.2 p = rimg w.1 w.2 p := by
  rcases h with rfl | rfl
  · rfl
  · exact rimg_other _ _ _

theorem _root_.DiffeRT2d.Spec.SameSegment.back {w w' : Pt × Pt} (h : SameSegment w w') (im p : Pt) : rback w'.1 w'.2 im p = rback w.1 w.2 im p := by
  rcases h with rfl | rfl
  · rfl
  · exact rback_other _ _ _ _

theorem _root_.DiffeRT2d.Spec.SameSegment.score {w w' : Pt × Pt} (h : SameSegment w w') (a b c : Pt) : reval w'.1 w'.2 a b c = reval w.1 w.2 a b c := by
  rcases h with rfl | rfl
  · rfl
  · exact reval_other _ _ _ _ _

theorem _root_.DiffeRT2d.Spec.Redrawn.rpts {ws ws' : List (Pt × Pt)} (h : Redrawn ws ws') (tx rx : Pt) : rpts tx rx ws' = rpts tx rx ws := by
  induction h generalizing tx with
  | nil => rfl
  | cons h _ ih => simp only [DiffeRT2d.rpts, h.img, h.back, ih]

theorem _root_.DiffeRT2d.Spec.Redrawn.rpath {ws ws' : List (Pt × Pt)} (h : Redrawn ws ws') (tx rx : Pt) : rpath tx rx ws' = rpath tx rx ws := by
  simp only [DiffeRT2d.rpath, h.rpts]

theorem _root_.DiffeRT2d.Spec.Redrawn.scores {ws ws' : List (Pt × Pt)} (h : Redrawn ws ws') (pts : List Pt) : scores ws' pts = scores ws pts := by
  induction h generalizing pts with
  | nil => rfl
  | cons h _ ih =>
    match pts with
    | a :: b :: c :: pts => simp only [DiffeRT2d.scores, h.score, ih]
    | [] => rfl
    | [_] => rfl
    | [_, _] => rfl

/-- **C122.** The image path does not depend on the direction in which the walls are drawn, nor does its loss. -/
theorem C122_trace (tx rx : Pt) (ws ws' : List (Pt × Pt)) (h : Redrawn ws ws') : traceImage tx ws' rx = traceImage tx ws rx := by
  rw [traceImage_eq, traceImage_eq, Redrawn.rpath h, Redrawn.scores h]

theorem zipIdx_forall₂ {α : Type*} {R : α → α → Prop} {xs ys : List α} (h : List.Forall₂ R xs ys) (n : ℕ) :
    List.Forall₂ (fun x y => R x.1 y.1 ∧ x.2 = y.2) (xs.zipIdx n) (ys.zipIdx n) := by
  induction h generalizing n with
  | nil => exact .nil
  | cons h _ ih => exact .cons ⟨h, rfl⟩ (ih _)

theorem map_forall₂ {α β : Type*} {R : α → α → Prop} {f g : α → β} {xs ys : List α} (h : List.Forall₂ R xs ys)
    (hfg : ∀ x y, R x y → g y = f x) : ys.map g = xs.map f := by
  induction h with
  | nil => rfl
  | cons h _ ih => simp only [List.map_cons, hfg _ _ h, ih]

theorem hitPairs_forall₂ (n : ℕ) {ws ws' : List (Pt × Pt)} (h : Redrawn ws ws') (candidate : List ℤ) :
    List.Forall₂ (fun x y => SameSegment x.2.1 y.2.1 ∧ x.1 = y.1) (hitPairs n ws candidate) (hitPairs n ws' candidate) := by
  unfold hitPairs
  generalize List.range (n - 1) = is
  induction is with
  | nil => exact .nil
  | cons i is ih =>
    rw [List.flatMap_cons, List.flatMap_cons]
    refine List.rel_append ?_ ih
    rw [List.forall₂_map_left_iff, List.forall₂_map_right_iff]
    have := zipIdx_forall₂ h 0
    generalize ws.zipIdx = l at this
    generalize ws'.zipIdx = l' at this
    induction this with
    | nil => exact .nil
    | cons hab _ ih' =>
      rw [List.filter_cons, List.filter_cons, ← hab.2]
      split
      · exact .cons ⟨hab.1, rfl⟩ ih'
      · exact ih'

/-- **C122.** The validity of a path, in both modes, does not depend on the direction in which the walls of the scene and those the
path interacts with are drawn. -/
theorem C122_validity (E : Env) (ap : Option Bool) (kw : ActKw) (ws ws' scene scene' : List (Pt × Pt)) (hw : Redrawn ws ws')
    (hs : Redrawn scene scene') (candidate : List ℤ) (pts : List Pt) (loss patch : ℝ) (tol : F) (hne : pts ≠ [])
    (hlen : pts.length ≤ candidate.length + 2) :
    (finitePath pts loss).isValid E ((wallsOf scene').map Obj.interact) candidate ((wallsOf ws').map Obj.interact) tol (F.fin patch) ap kw =
      (finitePath pts loss).isValid E ((wallsOf scene).map Obj.interact) candidate ((wallsOf ws).map Obj.interact) tol (F.fin patch) ap kw := by
  have h1 : onVals (finitePath pts loss) E ((wallsOf ws').map Obj.interact) ap kw =
      onVals (finitePath pts loss) E ((wallsOf ws).map Obj.interact) ap kw := by
    unfold finitePath
    rw [onVals_walls _ _ hne, onVals_walls _ _ hne]
    refine map_forall₂ (zipIdx_forall₂ hw 0) ?_
    rintro ⟨w, i⟩ ⟨w', j⟩ ⟨h, rfl⟩
    exact h.on E ap kw _
  have h2 : hitVals (finitePath pts loss) E ((wallsOf scene').map Obj.interact) candidate (F.fin patch) ap kw =
      hitVals (finitePath pts loss) E ((wallsOf scene).map Obj.interact) candidate (F.fin patch) ap kw := by
    unfold finitePath
    rw [hitVals_walls _ _ hne, hitVals_walls _ _ hne]
    refine map_forall₂ (hitPairs_forall₂ _ hs candidate) ?_
    rintro ⟨i, w, j⟩ ⟨i', w', j'⟩ ⟨h, e⟩
    obtain rfl : i = i' := e
    exact h.crosses E ap kw _ _ _
  have l1 : (finitePath pts loss).xys.length ≤ candidate.length + 2 := by simpa [finitePath] using hlen
  unfold Path.isValid
  rw [intersects_eq _ _ _ _ _ _ _ l1, intersects_eq _ _ _ _ _ _ _ l1, onObjects_eq, onObjects_eq, h1, h2]

/-! ## Scenes -/

theorem _root_.DiffeRT2d.Spec.Redrawn.at {walls walls' : List (Pt × Pt)} (h : Redrawn walls walls') (c : List ℤ) :
    Redrawn (wallsAt walls c) (wallsAt walls' c) := by
  have hget : ∀ n : ℕ, (walls[n]? = none ∧ walls'[n]? = none) ∨ ∃ w w', walls[n]? = some w ∧ walls'[n]? = some w' ∧ SameSegment w w' := by
    unfold Redrawn at h
    induction h with
    | nil => intro n; left; simp
    | cons hab _ ih =>
      intro n
      cases n with
      | zero => right; exact ⟨_, _, rfl, rfl, hab⟩
      | succ n => simpa using ih n
  unfold wallsAt
  induction c with
  | nil => exact .nil
  | cons i c ih =>
    rcases hget i.toNat with ⟨h1, h2⟩ | ⟨w, w', h1, h2, h3⟩
    · simp only [List.filterMap_cons, h1, h2]; exact ih
    · simp only [List.filterMap_cons, h1, h2]; exact .cons h3 ih

theorem wallsOf_length (ws : List (Pt × Pt)) : (wallsOf ws).length = ws.length := by simp [wallsOf]

/-- What the loops over the paths do for one pair of points and one candidate. -/
theorem redrawn_turn {walls walls' : List (Pt × Pt)} (h : Redrawn walls walls') (s s' : Scene) (hs : s.objects = wallsOf walls)
    (hs' : s'.objects = wallsOf walls') (c : List ℤ) (hc : IsCandidate walls.length c) (E : Env) (ap : Option Bool) (kw : ActKw) (tol : F)
    (patch : ℝ) (t r : Pt) :
    s.getInteractingObjects c = .ok (wallsOf (wallsAt walls c)) ∧ s'.getInteractingObjects c = .ok (wallsOf (wallsAt walls' c)) ∧
    (wallsOf (wallsAt walls' c)).length = (wallsOf (wallsAt walls c)).length ∧
    ∃ p : Path, ImagePath.fromTxObjectsRx (V2.fin t) (wallsOf (wallsAt walls c)) (V2.fin r) = .ok p ∧
      ImagePath.fromTxObjectsRx (V2.fin t) (wallsOf (wallsAt walls' c)) (V2.fin r) = .ok p ∧
      s'.validity ⟨E, tol, F.fin patch, ap, kw⟩ p c (wallsOf (wallsAt walls' c)) = s.validity ⟨E, tol, F.fin patch, ap, kw⟩ p c (wallsOf (wallsAt walls c)) := by
  have hl : walls'.length = walls.length := (List.Forall₂.length_eq h).symm
  have hat := Redrawn.at h c
  have e : ∀ (s : Scene) (ws : List (Pt × Pt)), s.objects = wallsOf ws → objectsAt s c = wallsOf (wallsAt ws c) := by
    intro s ws hs
    rw [← objectsAt_walls [] [] ws c]
    unfold objectsAt
    rw [hs, wallScene_objects]
  have h1 : s.getInteractingObjects c = .ok (wallsOf (wallsAt walls c)) := by
    rw [interacting_eq s c (by rw [hs, wallsOf_length]; exact hc), e s walls hs]
  have h2 : s'.getInteractingObjects c = .ok (wallsOf (wallsAt walls' c)) := by
    rw [interacting_eq s' c (by rw [hs', wallsOf_length, hl]; exact hc), e s' walls' hs']
  refine ⟨h1, h2, by rw [wallsOf_length, wallsOf_length, List.Forall₂.length_eq hat], _, traceImage_eq t r (wallsAt walls c), ?_, ?_⟩
  · have := C122_trace t r _ _ hat
    rw [traceImage_eq t r (wallsAt walls c)] at this
    exact this
  · simp only [Scene.validity, hs, hs']
    exact C122_validity E ap kw _ _ _ _ hat h c _ _ patch tol (by simp [rpath]) (by rw [rpath_length, wallsAt_length hc])

theorem redrawn_trace {Key : Type} {walls walls' : List (Pt × Pt)} (h : Redrawn walls walls') (s s' : Scene) (hs : s.objects = wallsOf walls)
    (hs' : s'.objects = wallsOf walls') (split : Key → ℕ → List Key) (E : Env) (ap : Option Bool) (kw : ActKw) (tol : F) (patch : ℝ)
    (l : List (((String × V2 F) × (String × V2 F)) × List ℤ)) (hl : ∀ e ∈ l, IsCandidate walls.length e.2 ∧ ∃ t r, e.1.1.2 = V2.fin t ∧ e.1.2.2 = V2.fin r)
    (key : Option Key) :
    s'.tracePaths split (imageMethod Key) ⟨E, tol, F.fin patch, ap, kw⟩ key l = s.tracePaths split (imageMethod Key) ⟨E, tol, F.fin patch, ap, kw⟩ key l := by
  induction l generalizing key with
  | nil => rfl
  | cons e l ih =>
    obtain ⟨⟨⟨tk, t⟩, ⟨rk, r⟩⟩, c⟩ := e
    obtain ⟨hc, t, r, rfl, rfl⟩ := hl _ List.mem_cons_self
    obtain ⟨h1, h2, -, p, h3, h4, h5⟩ := redrawn_turn h s s' hs hs' c hc E ap kw tol patch t r
    unfold Scene.tracePaths
    simp only [h1, h2, bind, Except.bind, imageMethod] at ih ⊢
    simp only [h3, h4, h5, ih fun e he => hl e (List.mem_cons_of_mem _ he)]

theorem redrawn_facc {Key : Type} {walls walls' : List (Pt × Pt)} (h : Redrawn walls walls') (s s' : Scene) (hs : s.objects = wallsOf walls)
    (hs' : s'.objects = wallsOf walls') (E : Env) (ap : Option Bool) (kw : ActKw) (tol : F) (patch : ℝ) (f : Scene.PathFun) (hf : IgnoresObjects f)
    (t r : Pt) (l : List (List ℤ × Option Key)) (hl : ∀ e ∈ l, IsCandidate walls.length e.1) (acc : F) :
    s'.facc (imageMethod Key) ⟨E, tol, F.fin patch, ap, kw⟩ f (V2.fin t) (V2.fin r) acc l =
      s.facc (imageMethod Key) ⟨E, tol, F.fin patch, ap, kw⟩ f (V2.fin t) (V2.fin r) acc l := by
  induction l generalizing acc with
  | nil => rfl
  | cons e l ih =>
    obtain ⟨c, k⟩ := e
    obtain ⟨h1, h2, h0, p, h3, h4, h5⟩ := redrawn_turn h s s' hs hs' c (hl _ List.mem_cons_self) E ap kw tol patch t r
    unfold Scene.facc
    simp only [h1, h2, bind, Except.bind, imageMethod] at ih ⊢
    simp only [h3, h4, h5, ih fun e he => hl e (List.mem_cons_of_mem _ he), hf _ _ p _ _ h0]

theorem redrawn_candidates (G : GraphLib) {walls walls' : List (Pt × Pt)} (h : Redrawn walls walls') (tx rx : PyDict Pt) (o : Scene.Orders)
    (ho : o.filter = none) : (wallScene tx rx walls').allPathCandidates G o = (wallScene tx rx walls).allPathCandidates G o := by
  simp only [Scene.allPathCandidates, ho, wallScene_objects, wallsOf_length, List.Forall₂.length_eq h]

variable {Key : Type} (G : GraphLib) (hG : GraphContract G) (tx rx : PyDict Pt) (ht : Distinct tx) (hr : Distinct rx) (walls walls' : List (Pt × Pt))
  (h : Redrawn walls walls') (o : Scene.Orders) (ho : NonNegative o) (hof : o.filter = none) (split : Key → ℕ → List Key) (key : Option Key)
  (E : Env) (ap : Option Bool) (kw : ActKw) (tol : F) (patch : ℝ)

theorem finPoints_distinct {d : PyDict Pt} (hd : Distinct d) : Distinct (finPoints d) := by
  simpa [Distinct, finPoints, Function.comp_def] using hd

include hG ht hr h ho hof in
/-- **C122.** Redrawing some walls from their other end leaves `all_paths` as it is: the same list of names, paths, validities and
candidates; in both modes, whatever the activation, the tolerance and the (real) patch. Walls may be degenerate. -/
theorem C122_paths : (wallScene tx rx walls').allPaths G split (imageMethod Key) o ⟨E, tol, F.fin patch, ap, kw⟩ key =
    (wallScene tx rx walls).allPaths G split (imageMethod Key) o ⟨E, tol, F.fin patch, ap, kw⟩ key := by
  obtain ⟨cs, hcs, hc⟩ := orders_candidates G hG (wallScene tx rx walls) o ho
  rw [allPaths_eq G _ _ _ (finPoints_distinct ht) (finPoints_distinct hr) rfl rfl o cs hcs,
    allPaths_eq G (wallScene tx rx walls') _ _ (finPoints_distinct ht) (finPoints_distinct hr) rfl rfl o cs (by rw [redrawn_candidates G h tx rx o hof, hcs])]
  refine redrawn_trace h _ _ (wallScene_objects _ _ _) (wallScene_objects _ _ _) split E ap kw tol patch _ ?_ key
  rintro ⟨⟨a, b⟩, c⟩ he
  obtain ⟨h1, h2⟩ := List.mem_product.mp he
  obtain ⟨h3, h4⟩ := List.mem_product.mp h1
  obtain ⟨t, -, rfl⟩ := List.mem_map.mp h3
  obtain ⟨r, -, rfl⟩ := List.mem_map.mp h4
  have := hc c h2
  rw [wallScene_objects, wallsOf_length] at this
  exact ⟨this, _, _, rfl, rfl⟩

include hG ht hr h ho hof in
/-- **C122.** The same for the valid paths. -/
theorem C122_valid_paths : (wallScene tx rx walls').allValidPaths G split (imageMethod Key) o ⟨E, tol, F.fin patch, ap, kw⟩ key =
    (wallScene tx rx walls).allValidPaths G split (imageMethod Key) o ⟨E, tol, F.fin patch, ap, kw⟩ key := by
  unfold Scene.allValidPaths
  rw [C122_paths G hG tx rx ht hr walls walls' h o ho hof]

include hG ht hr h ho hof in
/-- **C122.** The same for the accumulated values of any function that does not look at the objects. -/
theorem C122_accumulate (f : Scene.PathFun) (hf : IgnoresObjects f) :
    (wallScene tx rx walls').accumulateOverPaths G split (imageMethod Key) o ⟨E, tol, F.fin patch, ap, kw⟩ key f =
      (wallScene tx rx walls).accumulateOverPaths G split (imageMethod Key) o ⟨E, tol, F.fin patch, ap, kw⟩ key f := by
  obtain ⟨cs, hcs, hc⟩ := orders_candidates G hG (wallScene tx rx walls) o ho
  have hcs' : (wallScene tx rx walls').allPathCandidates G o = .ok cs := by rw [redrawn_candidates G h tx rx o hof, hcs]
  have hp := C122_paths G hG tx rx ht hr walls walls' h o ho hof split key E ap kw tol patch
  by_cases hne : cs = []
  · subst hne
    have e : ∀ ws, (wallScene tx rx ws).allPathCandidates G o = .ok [] →
        (wallScene tx rx ws).accumulateOverPaths G split (imageMethod Key) o ⟨E, tol, F.fin patch, ap, kw⟩ key f = .ok [] := by
      intro ws hws
      unfold Scene.accumulateOverPaths
      rw [allPaths_eq G _ _ _ (finPoints_distinct ht) (finPoints_distinct hr) rfl rfl o [] hws]
      have : (finPoints tx ×ˢ finPoints rx) ×ˢ ([] : List (List ℤ)) = [] := List.product_nil _
      rw [this]
      rfl
    rw [e _ hcs', e _ hcs]
  · rw [C58_entries G hG _ _ _ (finPoints_distinct ht) (finPoints_distinct hr) rfl rfl o ho cs hcs hne,
      C58_entries G hG (wallScene tx rx walls') _ _ (finPoints_distinct ht) (finPoints_distinct hr) rfl rfl o ho cs hcs' hne, hp]
    congr 1
    funext ts
    apply List.map_congr_left
    rintro p -
    congr 3
    apply List.map_congr_left
    rintro x -
    unfold weighted
    rw [objectsAt_walls, objectsAt_walls]
    rw [hf _ _ _ (wallsOf (wallsAt walls' x.candidate)) (wallsOf (wallsAt walls x.candidate))
      (by rw [wallsOf_length, wallsOf_length, List.Forall₂.length_eq (Redrawn.at h x.candidate)])]

theorem mapM_congr' {α β : Type*} {f g : α → Except PyErr β} (l : List α) (h : ∀ x ∈ l, f x = g x) : l.mapM f = l.mapM g := by
  induction l with
  | nil => rfl
  | cons a l ih => rw [List.mapM_cons, List.mapM_cons, h a List.mem_cons_self, ih fun x hx => h x (List.mem_cons_of_mem _ hx)]

theorem finGrid_points (X Y : List (List ℝ)) : List.zipWith (List.zipWith fun x y => (⟨x, y⟩ : V2 F)) (finGrid X) (finGrid Y) =
    (List.zipWith (List.zipWith fun x y => (⟨x, y⟩ : Pt)) X Y).map (List.map V2.fin) := by
  unfold finGrid
  rw [List.zipWith_map, List.map_zipWith]
  congr 1
  funext a b
  rw [List.zipWith_map, List.map_zipWith]
  rfl

/-- Grid maps computed by functions that agree on real points. -/
theorem gridCore_real (gradOp : (V2 F → F) → V2 F → V2 F) (ps : PyDict Pt) (φ ψ : V2 F → V2 F → Except PyErr F)
    (hφ : ∀ p q : Pt, φ (V2.fin p) (V2.fin q) = ψ (V2.fin p) (V2.fin q)) (X Y : List (List ℝ)) :
    (gridCore gradOp (finPoints ps) φ (finGrid X) (finGrid Y)).map (List.map fun r => (r.1, gridSel false false r.2.1 r.2.2)) =
      (gridCore gradOp (finPoints ps) ψ (finGrid X) (finGrid Y)).map (List.map fun r => (r.1, gridSel false false r.2.1 r.2.2)) := by
  rw [← gridRun_eq, ← gridRun_eq]
  unfold Scene.dstack
  split
  · simp only [bind, Except.bind, finGrid_points]
    apply mapM_congr'
    intro p hp
    obtain ⟨p, -, rfl⟩ := List.mem_map.mp hp
    have e : List.mapM (fun row : List (V2 F) => row.mapM (φ (V2.fin p.2))) ((List.zipWith (List.zipWith fun x y => (⟨x, y⟩ : Pt)) X Y).map (List.map V2.fin)) =
        List.mapM (fun row : List (V2 F) => row.mapM (ψ (V2.fin p.2))) ((List.zipWith (List.zipWith fun x y => (⟨x, y⟩ : Pt)) X Y).map (List.map V2.fin)) := by
      apply mapM_congr'
      intro row hrow
      obtain ⟨row, -, rfl⟩ := List.mem_map.mp hrow
      apply mapM_congr'
      intro q hq
      obtain ⟨q, -, rfl⟩ := List.mem_map.mp hq
      exact hφ _ _
    simp only [Scene.mapGrid, e, Bool.false_eq_true, if_false]
  · rfl

include hG ht hr h ho hof in
/-- **C122.** The same for the maps of both grid methods, at real points. -/
theorem C122_grids (f : Scene.PathFun) (hf : IgnoresObjects f) (gradOp : (V2 F → F) → V2 F → V2 F) (X Y : List (List ℝ)) :
    (wallScene tx rx walls').accumulateOnReceiversGrid G split (imageMethod Key) o ⟨E, tol, F.fin patch, ap, kw⟩ key gradOp false false f (finGrid X) (finGrid Y) =
      (wallScene tx rx walls).accumulateOnReceiversGrid G split (imageMethod Key) o ⟨E, tol, F.fin patch, ap, kw⟩ key gradOp false false f (finGrid X) (finGrid Y) ∧
    (wallScene tx rx walls').accumulateOnTransmittersGrid G split (imageMethod Key) o ⟨E, tol, F.fin patch, ap, kw⟩ key gradOp false false f (finGrid X) (finGrid Y) =
      (wallScene tx rx walls).accumulateOnTransmittersGrid G split (imageMethod Key) o ⟨E, tol, F.fin patch, ap, kw⟩ key gradOp false false f (finGrid X) (finGrid Y) := by
  obtain ⟨cs, hcs, hc⟩ := orders_candidates G hG (wallScene tx rx walls) o ho
  have hcs' : (wallScene tx rx walls').allPathCandidates G o = .ok cs := by rw [redrawn_candidates G h tx rx o hof, hcs]
  rw [wallScene_objects, wallsOf_length] at hc
  have hl : ∀ e ∈ cs.zip (Scene.gridKeys split key cs.length), IsCandidate walls.length e.1 := fun e he => hc _ (List.of_mem_zip he).1
  constructor
  · rw [receivers_eq G _ _ (finPoints_distinct ht) rfl o cs hcs', receivers_eq G (wallScene tx rx walls) _ (finPoints_distinct ht) rfl o cs hcs]
    exact gridCore_real gradOp tx _ _ (fun p q => redrawn_facc h _ _ (wallScene_objects _ _ _) (wallScene_objects _ _ _) E ap kw tol patch f hf p q _ hl 0) X Y
  · rw [transmitters_eq G _ _ (finPoints_distinct hr) rfl o cs hcs', transmitters_eq G (wallScene tx rx walls) _ (finPoints_distinct hr) rfl o cs hcs]
    exact gridCore_real gradOp rx _ _ (fun p q => redrawn_facc h _ _ (wallScene_objects _ _ _) (wallScene_objects _ _ _) E ap kw tol patch f hf q p _ hl 0) X Y

/-- Non-vacuity: two of the three walls of a scene drawn from their other ends, and the received power. -/
theorem powerFun_ignoresObjects (E : Env) (c height : ℝ) : IgnoresObjects (powerFun E c height) := fun _ _ _ _ _ _ => rfl

example (E : Env) (ap : Option Bool) := C122_accumulate (Key := ℕ) refLib refLib_contract [("tx", ⟨0, 1⟩)] [("rx", ⟨2, 1⟩)] (by simp [Distinct])
  (by simp [Distinct]) [(⟨0, 0⟩, ⟨3, 0⟩), (⟨0, 4⟩, ⟨3, 4⟩), (⟨3, 0⟩, ⟨3, 4⟩)] [(⟨3, 0⟩, ⟨0, 0⟩), (⟨0, 4⟩, ⟨3, 4⟩), (⟨3, 4⟩, ⟨3, 0⟩)]
  (.cons (.inr rfl) (.cons (.inl rfl) (.cons (.inr rfl) .nil))) { maxOrder := 2 } (by simp [NonNegative]) rfl (fun _ _ => []) none E ap {} VALID_TOL 1
  (powerFun E (1 / 2) (1 / 10)) (powerFun_ignoresObjects _ _ _)

end DiffeRT2d.Props
