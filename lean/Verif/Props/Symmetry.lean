import Verif.Props.Redraw
import Verif.Props.Reorder
import Verif.Props.Monotone

/-! # C124: moved scenes give moved maps, and symmetric scenes symmetric maps -/

namespace DiffeRT2d.Props
open Classical Spec

theorem wallsAt_map (A : Affine) (walls : List (Pt × Pt)) (c : List ℤ) : wallsAt (walls.map (mapWall A)) c = (wallsAt walls c).map (mapWall A) := by
  unfold wallsAt; rw [List.map_filterMap]; congr 1; funext i; simp

/-- One turn of the traversal in a scene and in the moved scene. -/
theorem moved_turn (A : Affine) (k : ℝ) (hA : A.Similarity k) (walls : List (Pt × Pt)) (s s' : Scene) (hs : s.objects = wallsOf walls)
    (hs' : s'.objects = wallsOf (walls.map (mapWall A))) (c : List ℤ) (hc : IsCandidate walls.length c) (E : Env) (ap : Option Bool) (kw : ActKw) (tol : F)
    (patch : ℝ) (t r : Pt) :
    s.getInteractingObjects c = .ok (wallsOf (wallsAt walls c)) ∧
    s'.getInteractingObjects c = .ok (wallsOf ((wallsAt walls c).map (mapWall A))) ∧
    ∃ (pts : List Pt) (loss : ℝ), pts.length = c.length + 2 ∧
      (finitePath pts loss).isValid E ((wallsOf walls).map Obj.interact) c ((wallsOf (wallsAt walls c)).map Obj.interact) tol (F.fin patch) ap kw =
        (finitePath (rpath t r (wallsAt walls c)) (scores (wallsAt walls c) (rpath t r (wallsAt walls c))).sum).isValid E
          ((wallsOf walls).map Obj.interact) c ((wallsOf (wallsAt walls c)).map Obj.interact) tol (F.fin patch) ap kw ∧
      ImagePath.fromTxObjectsRx (V2.fin t) (wallsOf (wallsAt walls c)) (V2.fin r) = .ok (finitePath pts loss) ∧
      ImagePath.fromTxObjectsRx (V2.fin (A.app t)) (wallsOf ((wallsAt walls c).map (mapWall A))) (V2.fin (A.app r)) = .ok (finitePath (pts.map A.app) loss) ∧
      s'.validity ⟨E, tol, F.fin patch, ap, kw⟩ (finitePath (pts.map A.app) loss) c (wallsOf ((wallsAt walls c).map (mapWall A))) =
        s.validity ⟨E, tol, F.fin patch, ap, kw⟩ (finitePath pts loss) c (wallsOf (wallsAt walls c)) := by
  have e : ∀ (s : Scene) (ws : List (Pt × Pt)), s.objects = wallsOf ws → objectsAt s c = wallsOf (wallsAt ws c) := by
    intro s ws hs
    rw [← objectsAt_walls [] [] ws c]
    unfold objectsAt
    rw [hs, wallScene_objects]
  have h1 : s.getInteractingObjects c = .ok (wallsOf (wallsAt walls c)) := by
    rw [interacting_eq s c (by rw [hs, wallsOf_length]; exact hc), e s walls hs]
  have h2 : s'.getInteractingObjects c = .ok (wallsOf ((wallsAt walls c).map (mapWall A))) := by
    rw [interacting_eq s' c (by rw [hs', wallsOf_length, List.length_map]; exact hc), e s' _ hs', wallsAt_map]
  have h3 := traceImage_eq t r (wallsAt walls c)
  have h4 := C35_trace A k hA t r (wallsAt walls c) _ _ h3
  refine ⟨h1, h2, _, _, by rw [rpath_length, wallsAt_length hc], rfl, h3, h4, ?_⟩
  simp only [Scene.validity, hs, hs']
  exact C35_traced_validity A k hA E ap kw t r (wallsAt walls c) walls c patch tol (wallsAt_length hc).symm _ _ h3 h4

theorem moved_facc {Key : Type} (A : Affine) (k : ℝ) (hA : A.Similarity k) (walls : List (Pt × Pt)) (s s' : Scene) (hs : s.objects = wallsOf walls)
    (hs' : s'.objects = wallsOf (walls.map (mapWall A))) (E : Env) (ap : Option Bool) (kw : ActKw) (tol : F) (patch : ℝ) (f : Scene.PathFun)
    (hf : MotionInvariant A f) (t r : Pt) (l : List (List ℤ × Option Key)) (hl : ∀ e ∈ l, IsCandidate walls.length e.1) (acc : F) :
    s'.facc (imageMethod Key) ⟨E, tol, F.fin patch, ap, kw⟩ f (V2.fin (A.app t)) (V2.fin (A.app r)) acc l =
      s.facc (imageMethod Key) ⟨E, tol, F.fin patch, ap, kw⟩ f (V2.fin t) (V2.fin r) acc l := by
  induction l generalizing acc with
  | nil => rfl
  | cons e l ih =>
    obtain ⟨c, k'⟩ := e
    obtain ⟨h1, h2, pts, loss, -, -, h3, h4, h5⟩ := moved_turn A k hA walls s s' hs hs' c (hl _ List.mem_cons_self) E ap kw tol patch t r
    unfold Scene.facc
    simp only [h1, h2, bind, Except.bind, imageMethod] at ih ⊢
    simp only [h3, h4, h5, ih fun e he => hl e (List.mem_cons_of_mem _ he),
      hf t r pts loss (wallsOf (wallsAt walls c)) (wallsOf ((wallsAt walls c).map (mapWall A))) (by rw [wallsOf_length, wallsOf_length, List.length_map])]

theorem moved_points (A : Affine) (X Y : List (List ℝ)) :
    List.zipWith (List.zipWith fun x y => (⟨x, y⟩ : Pt)) (movedX A X Y) (movedY A X Y) =
      (List.zipWith (List.zipWith fun x y => (⟨x, y⟩ : Pt)) X Y).map (List.map A.app) := by
  unfold movedX movedY
  induction X generalizing Y with
  | nil => rfl
  | cons a X ih =>
    cases Y with
    | nil => rfl
    | cons b Y =>
      simp only [List.zipWith_cons_cons, List.map_cons, ih]
      congr 1
      induction a generalizing b with
      | nil => rfl
      | cons x a ih2 =>
        cases b with
        | nil => rfl
        | cons y b => simp only [List.zipWith_cons_cons, List.map_cons, ih2]

theorem moved_shape (A : Affine) (X Y : List (List ℝ)) : (movedX A X Y).map List.length = (movedY A X Y).map List.length := by
  unfold movedX movedY
  rw [List.map_zipWith, List.map_zipWith]
  congr 1
  funext a b
  rw [List.length_zipWith, List.length_zipWith]

theorem finGrid_shape (X : List (List ℝ)) : (finGrid X).map List.length = X.map List.length := by
  simp [finGrid, Function.comp_def]

/-- Maps on a grid and on the moved grid. -/
theorem gridCore_moved (A : Affine) (gradOp gradOp' : (V2 F → F) → V2 F → V2 F) (ps : PyDict Pt) (φ ψ : V2 F → V2 F → Except PyErr F)
    (hφ : ∀ p q : Pt, ψ (V2.fin (A.app p)) (V2.fin (A.app q)) = φ (V2.fin p) (V2.fin q)) (X Y : List (List ℝ))
    (hXY : X.map List.length = Y.map List.length) :
    (gridCore gradOp' (finPoints (mapPoints A ps)) ψ (finGrid (movedX A X Y)) (finGrid (movedY A X Y))).map (List.map fun r => (r.1, gridSel false false r.2.1 r.2.2)) =
      (gridCore gradOp (finPoints ps) φ (finGrid X) (finGrid Y)).map (List.map fun r => (r.1, gridSel false false r.2.1 r.2.2)) := by
  rw [← gridRun_eq, ← gridRun_eq]
  unfold Scene.dstack
  rw [if_pos (by rw [finGrid_shape, finGrid_shape, moved_shape]), if_pos (by rw [finGrid_shape, finGrid_shape, hXY])]
  simp only [bind, Except.bind, finGrid_points, moved_points]
  have hfp : finPoints (mapPoints A ps) = ps.map fun p => (p.1, V2.fin (A.app p.2)) := by
    simp [finPoints, mapPoints, Function.comp_def]
  rw [hfp, show finPoints ps = ps.map fun p => (p.1, V2.fin p.2) from rfl, List.mapM_map, List.mapM_map]
  apply mapM_congr'
  intro p _
  generalize List.zipWith (List.zipWith fun x y => (⟨x, y⟩ : Pt)) X Y = g
  have e : List.mapM (fun row : List (V2 F) => row.mapM (ψ (V2.fin (A.app p.2)))) ((g.map (List.map A.app)).map (List.map V2.fin)) =
      List.mapM (fun row : List (V2 F) => row.mapM (φ (V2.fin p.2))) (g.map (List.map V2.fin)) := by
    rw [List.mapM_map, List.mapM_map, List.mapM_map]
    apply mapM_congr'
    intro row _
    simp only [Function.comp_apply]
    rw [List.mapM_map, List.mapM_map, List.mapM_map]
    apply mapM_congr'
    intro q _
    exact hφ _ _
  simp only [Function.comp_apply, Scene.mapGrid, e, Bool.false_eq_true, if_false]

section
variable {Key : Type} (G : GraphLib) (hG : GraphContract G) (A : Affine) (k : ℝ) (hA : A.Similarity k) (tx rx : PyDict Pt) (ht : Distinct tx) (hr : Distinct rx)
  (walls : List (Pt × Pt)) (lo hi : ℤ) (hlo : 0 ≤ lo) (split : Key → ℕ → List Key) (key : Option Key)
  (E : Env) (ap : Option Bool) (kw : ActKw) (tol : F) (patch : ℝ) (f : Scene.PathFun) (hf : MotionInvariant A f)

theorem moved_candidates (o : Scene.Orders) (ho : o.filter = none) (tx' rx' : PyDict Pt) :
    (wallScene tx' rx' (walls.map (mapWall A))).allPathCandidates G o = (wallScene tx rx walls).allPathCandidates G o := by
  simp only [Scene.allPathCandidates, ho, wallScene_objects, wallsOf_length, List.length_map]

include hG hA ht hr hlo in
theorem moved_sums (f' : Scene.PathFun) (hf : ∀ t r pts loss (os os' : List Obj), os.length = os'.length →
      f (V2.fin (A.app t)) (V2.fin (A.app r)) (finitePath (pts.map A.app) loss) os' = f' (V2.fin t) (V2.fin r) (finitePath pts loss) os) :
    (wallScene (mapPoints A tx) (mapPoints A rx) (walls.map (mapWall A))).accumulateOverPaths G split (imageMethod Key) { minOrder := lo, maxOrder := hi }
        ⟨E, tol, F.fin patch, ap, kw⟩ key f =
      (wallScene tx rx walls).accumulateOverPaths G split (imageMethod Key) { minOrder := lo, maxOrder := hi } ⟨E, tol, F.fin patch, ap, kw⟩ key f' := by
  obtain ⟨cs, hcs, hc⟩ := orders_candidates G hG (wallScene tx rx walls) { minOrder := lo, maxOrder := hi } hlo
  have hcs' := moved_candidates G A tx rx walls { minOrder := lo, maxOrder := hi } rfl (mapPoints A tx) (mapPoints A rx)
  rw [hcs] at hcs'
  have ht' := finPoints_distinct (mapPoints_distinct A ht)
  have hr' := finPoints_distinct (mapPoints_distinct A hr)
  by_cases hne : cs = []
  · subst hne
    unfold Scene.accumulateOverPaths
    rw [allPaths_eq G _ _ _ (finPoints_distinct ht) (finPoints_distinct hr) rfl rfl _ [] hcs, allPaths_eq G _ _ _ ht' hr' rfl rfl _ [] hcs']
    have e : ∀ l : List ((String × V2 F) × (String × V2 F)), l ×ˢ ([] : List (List ℤ)) = [] := fun l => List.product_nil _
    rw [e, e]
    rfl
  · rw [C58_entries G hG _ _ _ (finPoints_distinct ht) (finPoints_distinct hr) rfl rfl { minOrder := lo, maxOrder := hi } hlo cs hcs hne,
      C58_entries G hG (wallScene (mapPoints A tx) (mapPoints A rx) _) _ _ ht' hr' rfl rfl { minOrder := lo, maxOrder := hi } hlo cs hcs' hne]
    obtain ⟨ts, ts', h1, h2, h3⟩ := C76_moved G hG A k hA tx rx ht hr walls lo hi hlo split key E ap kw tol patch
    rw [h1, h2]
    refine congrArg Except.ok ?_
    have e1 : finPoints tx ×ˢ finPoints rx = (tx ×ˢ rx).map fun e => ((e.1.1, V2.fin e.1.2), (e.2.1, V2.fin e.2.2)) := product_map _ _ _ _
    have e2 : finPoints (mapPoints A tx) ×ˢ finPoints (mapPoints A rx) =
        (tx ×ˢ rx).map fun e => ((e.1.1, V2.fin (A.app e.1.2)), (e.2.1, V2.fin (A.app e.2.2))) := by
      unfold finPoints mapPoints
      rw [List.map_map, List.map_map, product_map]; rfl
    simp only [e1, e2, List.map_map]
    apply List.map_congr_left
    rintro ⟨⟨tn, t⟩, ⟨rn, r⟩⟩ -
    simp only [Function.comp_apply]
    congr 3
    clear h1 h2
    induction h3 with
    | nil => rfl
    | @cons x x' l l' hx _ ih =>
      obtain ⟨a1, a2, a3, a4, pts, loss, a5, a6⟩ := hx
      have hw : weighted (wallScene (mapPoints A tx) (mapPoints A rx) (walls.map (mapWall A))) f (V2.fin (A.app t)) (V2.fin (A.app r)) x' =
          weighted (wallScene tx rx walls) f' (V2.fin t) (V2.fin r) x := by
        unfold weighted
        rw [a3, a4, a5, a6, objectsAt_walls, objectsAt_walls, wallsAt_map, hf _ _ _ _ (wallsOf (wallsAt walls x.candidate)) _
          (by rw [wallsOf_length, wallsOf_length, List.length_map])]
      rw [List.filter_cons, List.filter_cons, a1, a2]
      split
      · rw [List.map_cons, List.map_cons, ih, hw]
      · exact ih

include hG hA ht hr hlo hf in
/-- **C124.** Rotating, mirroring, scaling and translating a scene changes no accumulated value of a function that is invariant under the motion. -/
theorem C124_moved_sums :
    (wallScene (mapPoints A tx) (mapPoints A rx) (walls.map (mapWall A))).accumulateOverPaths G split (imageMethod Key) { minOrder := lo, maxOrder := hi }
        ⟨E, tol, F.fin patch, ap, kw⟩ key f =
      (wallScene tx rx walls).accumulateOverPaths G split (imageMethod Key) { minOrder := lo, maxOrder := hi } ⟨E, tol, F.fin patch, ap, kw⟩ key f :=
  moved_sums G hG A k hA tx rx ht hr walls lo hi hlo split key E ap kw tol patch f f hf

include hG hA ht hr hlo hf in
/-- **C124.** The same for the maps of both grid methods: the map of the moved scene on the moved grid is the map of the scene on the grid. -/
theorem C124_moved_maps (gradOp gradOp' : (V2 F → F) → V2 F → V2 F) (X Y : List (List ℝ)) (hXY : X.map List.length = Y.map List.length) :
    (wallScene (mapPoints A tx) (mapPoints A rx) (walls.map (mapWall A))).accumulateOnReceiversGrid G split (imageMethod Key) { minOrder := lo, maxOrder := hi }
        ⟨E, tol, F.fin patch, ap, kw⟩ key gradOp' false false f (finGrid (movedX A X Y)) (finGrid (movedY A X Y)) =
      (wallScene tx rx walls).accumulateOnReceiversGrid G split (imageMethod Key) { minOrder := lo, maxOrder := hi } ⟨E, tol, F.fin patch, ap, kw⟩ key gradOp false false
        f (finGrid X) (finGrid Y) ∧
    (wallScene (mapPoints A tx) (mapPoints A rx) (walls.map (mapWall A))).accumulateOnTransmittersGrid G split (imageMethod Key) { minOrder := lo, maxOrder := hi }
        ⟨E, tol, F.fin patch, ap, kw⟩ key gradOp' false false f (finGrid (movedX A X Y)) (finGrid (movedY A X Y)) =
      (wallScene tx rx walls).accumulateOnTransmittersGrid G split (imageMethod Key) { minOrder := lo, maxOrder := hi } ⟨E, tol, F.fin patch, ap, kw⟩ key gradOp false false
        f (finGrid X) (finGrid Y) := by
  obtain ⟨cs, hcs, hc⟩ := orders_candidates G hG (wallScene tx rx walls) { minOrder := lo, maxOrder := hi } hlo
  have hcs' := moved_candidates G A tx rx walls { minOrder := lo, maxOrder := hi } rfl (mapPoints A tx) (mapPoints A rx)
  rw [hcs] at hcs'
  rw [wallScene_objects, wallsOf_length] at hc
  have hl : ∀ e ∈ cs.zip (Scene.gridKeys split key cs.length), IsCandidate walls.length e.1 := fun e he => hc _ (List.of_mem_zip he).1
  constructor
  · rw [receivers_eq G _ _ (finPoints_distinct ht) rfl _ cs hcs, receivers_eq G _ _ (finPoints_distinct (mapPoints_distinct A ht)) rfl _ cs hcs']
    exact gridCore_moved A gradOp gradOp' tx _ _ (fun p q => moved_facc A k hA walls _ _ (wallScene_objects _ _ _) (wallScene_objects _ _ _) E ap kw tol patch f hf p q _ hl 0) X Y hXY
  · rw [transmitters_eq G _ _ (finPoints_distinct hr) rfl _ cs hcs, transmitters_eq G _ _ (finPoints_distinct (mapPoints_distinct A hr)) rfl _ cs hcs']
    exact gridCore_moved A gradOp gradOp' rx _ _ (fun p q => moved_facc A k hA walls _ _ (wallScene_objects _ _ _) (wallScene_objects _ _ _) E ap kw tol patch f hf q p _ hl 0) X Y hXY


theorem withObjects_walls (tx rx : PyDict Pt) (ws ws' : List (Pt × Pt)) : (wallScene tx rx ws).withObjects (wallsOf ws') = wallScene tx rx ws' := by
  have h := wallScene_objects tx rx ws'
  unfold Scene.withObjects
  rw [← h]
  rfl

include hG hA ht hr hlo hf in
/-- **C124.** If the walls are symmetric under a motion (rotation, mirroring, translation or scaling), moving the transmitters and the receivers
changes no accumulated value of a function that is invariant under the motion; in both modes, whatever the activation. -/
theorem C124_symmetric_sums (hsym : SymmetricUnder A walls) (hio : IgnoresObjects f) (es : List (String × String × F)) :
    (wallScene (mapPoints A tx) (mapPoints A rx) walls).accumulateOverPaths G split (imageMethod Key) { minOrder := lo, maxOrder := hi }
        ⟨E, tol, F.fin patch, ap, kw⟩ key f = .ok es ↔
      (wallScene tx rx walls).accumulateOverPaths G split (imageMethod Key) { minOrder := lo, maxOrder := hi } ⟨E, tol, F.fin patch, ap, kw⟩ key f = .ok es := by
  obtain ⟨walls', h1, h2⟩ := hsym
  have hr2 := C122_accumulate G hG (mapPoints A tx) (mapPoints A rx) (mapPoints_distinct A ht) (mapPoints_distinct A hr) _ _ h1 { minOrder := lo, maxOrder := hi } hlo rfl
    split key E ap kw tol patch f hio
  have hp : (wallsOf walls').Perm (wallsOf walls) := h2.map _
  obtain ⟨σ, hσ⟩ := perm_rearranged hp
  rw [← wallScene_objects (mapPoints A tx) (mapPoints A rx) walls'] at hσ
  have hr3 := C123_accumulate G hG (wallScene (mapPoints A tx) (mapPoints A rx) walls')
    ⟨⟨_, finPoints_distinct (mapPoints_distinct A ht), rfl⟩, ⟨_, finPoints_distinct (mapPoints_distinct A hr), rfl⟩⟩ σ _ hσ lo hi hlo split key (imageMethod Key)
    (fun _ _ _ _ _ => rfl) (onePointEach_image Key) ⟨E, tol, F.fin patch, ap, kw⟩ f es
  rw [withObjects_walls] at hr3
  rw [← hr3, hr2, C124_moved_sums G hG A k hA tx rx ht hr walls lo hi hlo split key E ap kw tol patch f hf]

include hG hA ht hr hlo hf in
/-- **C124.** If the walls are symmetric under a motion, so is the map of a function that is invariant under the motion: the map of the moved
transmitters on the moved grid is the map of the transmitters on the grid, and the same with the receivers. -/
theorem C124_symmetric_maps (hsym : SymmetricUnder A walls) (hio : IgnoresObjects f) (hsp : SplitCount split) (gradOp : (V2 F → F) → V2 F → V2 F) (X Y : List (List ℝ))
    (hXY : X.map List.length = Y.map List.length) (out : List (String × Scene.GridOut)) :
    ((wallScene (mapPoints A tx) (mapPoints A rx) walls).accumulateOnReceiversGrid G split (imageMethod Key) { minOrder := lo, maxOrder := hi }
        ⟨E, tol, F.fin patch, ap, kw⟩ key gradOp false false f (finGrid (movedX A X Y)) (finGrid (movedY A X Y)) = .ok out ↔
      (wallScene tx rx walls).accumulateOnReceiversGrid G split (imageMethod Key) { minOrder := lo, maxOrder := hi } ⟨E, tol, F.fin patch, ap, kw⟩ key gradOp false false
        f (finGrid X) (finGrid Y) = .ok out) ∧
    ((wallScene (mapPoints A tx) (mapPoints A rx) walls).accumulateOnTransmittersGrid G split (imageMethod Key) { minOrder := lo, maxOrder := hi }
        ⟨E, tol, F.fin patch, ap, kw⟩ key gradOp false false f (finGrid (movedX A X Y)) (finGrid (movedY A X Y)) = .ok out ↔
      (wallScene tx rx walls).accumulateOnTransmittersGrid G split (imageMethod Key) { minOrder := lo, maxOrder := hi } ⟨E, tol, F.fin patch, ap, kw⟩ key gradOp false false
        f (finGrid X) (finGrid Y) = .ok out) := by
  obtain ⟨walls', h1, h2⟩ := hsym
  obtain ⟨r1, r2⟩ := C122_grids G hG (mapPoints A tx) (mapPoints A rx) (mapPoints_distinct A ht) (mapPoints_distinct A hr) _ _ h1 { minOrder := lo, maxOrder := hi } hlo rfl
    split key E ap kw tol patch f hio gradOp (movedX A X Y) (movedY A X Y)
  have hp : (wallsOf walls').Perm (wallsOf walls) := h2.map _
  obtain ⟨σ, hσ⟩ := perm_rearranged hp
  rw [← wallScene_objects (mapPoints A tx) (mapPoints A rx) walls'] at hσ
  obtain ⟨q1, q2⟩ := C123_grids G hG (wallScene (mapPoints A tx) (mapPoints A rx) walls')
    ⟨⟨_, finPoints_distinct (mapPoints_distinct A ht), rfl⟩, ⟨_, finPoints_distinct (mapPoints_distinct A hr), rfl⟩⟩ σ _ hσ lo hi hlo split key (imageMethod Key)
    (fun _ _ _ _ _ => rfl) (onePointEach_image Key) ⟨E, tol, F.fin patch, ap, kw⟩ hsp f gradOp false false (finGrid (movedX A X Y)) (finGrid (movedY A X Y)) out
  obtain ⟨m1, m2⟩ := C124_moved_maps G hG A k hA tx rx ht hr walls lo hi hlo split key E ap kw tol patch f hf gradOp gradOp X Y hXY
  rw [withObjects_walls] at q1 q2
  exact ⟨by rw [← q1, r1, m1], by rw [← q2, r2, m2]⟩

end

/-! ## The received power -/

theorem nrm_isometry {A : Affine} (hA : A.Similarity 1) (u : Pt) : nrm ⟨A.a * u.x + A.b * u.y, A.c * u.x + A.d * u.y⟩ = nrm u := by
  unfold nrm
  congr 1
  have h1 := hA.col1
  have h2 := hA.col2
  have h3 := hA.orth
  linear_combination u.x ^ 2 * h1 + u.y ^ 2 * h2 + 2 * u.x * u.y * h3

theorem eucl_isometry {A : Affine} (hA : A.Similarity 1) (p q : Pt) : eucl (A.app p) (A.app q) = eucl p q := by
  unfold eucl Affine.app
  congr 1
  have h1 := hA.col1
  have h2 := hA.col2
  have h3 := hA.orth
  linear_combination (q.x - p.x) ^ 2 * h1 + (q.y - p.y) ^ 2 * h2 + 2 * (q.x - p.x) * (q.y - p.y) * h3

theorem polyLength_isometry {A : Affine} (hA : A.Similarity 1) (pts : List Pt) : polyLength (pts.map A.app) = polyLength pts := by
  induction pts with
  | nil => rfl
  | cons p ps ih =>
    cases ps with
    | nil => rfl
    | cons q ps =>
      simp only [List.map_cons, polyLength] at ih ⊢
      rw [eucl_isometry hA, ih]

theorem plen_diagonal {A : Affine} (hA : A.Similarity 1) (h1 : A.a + A.b = 1) (h2 : A.c + A.d = 1) (e : ℝ) (pts : List Pt) :
    plen e (pts.map A.app) = plen e pts := by
  induction pts with
  | nil => rfl
  | cons p ps ih =>
    cases ps with
    | nil => rfl
    | cons q ps =>
      simp only [List.map_cons, plen] at ih ⊢
      rw [ih]
      congr 1
      rw [← nrm_isometry hA (q - p + ⟨e, e⟩)]
      congr 1
      ext <;> simp only [V2.add_x, V2.add_y, V2.sub_x, V2.sub_y, Affine.app]
      · linear_combination -e * h1
      · linear_combination -e * h2

/-- **C124.** The received power is exactly invariant under the isometries that keep the direction of the first diagonal: the translations and
the exchange of the axes, with translations. -/
theorem C124_power_diagonal {A : Affine} (hA : A.Similarity 1) (h1 : A.a + A.b = 1) (h2 : A.c + A.d = 1) (E : Env) (coef height : ℝ) :
    MotionInvariant A (powerFun E coef height) := by
  intro t r pts loss os os' _
  have e : (finitePath (pts.map A.app) loss).length E = (finitePath pts loss).length E := by
    unfold Path.length finitePath
    rw [pathLength_fin, pathLength_fin, plen_diagonal hA h1 h2]
  unfold powerFun receivedPower
  rw [e]
  simp [finitePath]

/-- **C124.** With a machine precision of zero, it is invariant under all isometries. -/
theorem C124_power_exact {A : Affine} (hA : A.Similarity 1) (E : Env) (hE : E.eps = 0) (coef height : ℝ) : MotionInvariant A (powerFun E coef height) := by
  intro t r pts loss os os' _
  have e : (finitePath (pts.map A.app) loss).length E = (finitePath pts loss).length E := by
    unfold Path.length finitePath
    rw [C13_exact E hE, C13_exact E hE, polyLength_isometry hA]
  unfold powerFun receivedPower
  rw [e]
  simp [finitePath]

/-- Powers of lengths that are close are close. -/
theorem inverse_square_close {h r s : ℝ} (hh : 0 < h) (hr : 0 ≤ r) (hs : 0 ≤ s) : |1 / (h ^ 2 + r ^ 2) - 1 / (h ^ 2 + s ^ 2)| ≤ |r - s| / h ^ 3 := by
  have p1 : 0 < h ^ 2 + r ^ 2 := by positivity
  have p2 : 0 < h ^ 2 + s ^ 2 := by positivity
  have e : 1 / (h ^ 2 + r ^ 2) - 1 / (h ^ 2 + s ^ 2) = -((r - s) * ((r + s) / ((h ^ 2 + r ^ 2) * (h ^ 2 + s ^ 2)))) := by
    field_simp; ring
  rw [e, abs_neg, abs_mul, abs_of_nonneg (show 0 ≤ (r + s) / ((h ^ 2 + r ^ 2) * (h ^ 2 + s ^ 2)) by positivity), div_eq_mul_inv |r - s|]
  refine mul_le_mul_of_nonneg_left ?_ (abs_nonneg _)
  rw [div_le_iff₀ (by positivity), inv_mul_eq_div, le_div_iff₀ (by positivity)]
  have h1 : h * (r + s) ≤ h ^ 2 + r ^ 2 + s ^ 2 := by nlinarith [sq_nonneg (h - r), sq_nonneg (h - s), sq_nonneg r, sq_nonneg s]
  have h2 : 0 ≤ r ^ 2 * s ^ 2 := by positivity
  have h3 := mul_le_mul_of_nonneg_left h1 (sq_nonneg h)
  nlinarith

theorem plen_isometry {A : Affine} (hA : A.Similarity 1) (e : ℝ) (pts : List Pt) :
    |plen e (pts.map A.app) - plen e pts| ≤ 2 * ((pts.length - 1 : ℕ) * (Real.sqrt 2 * |e|)) := by
  have h1 := plen_approx e pts
  have h2 := plen_approx e (pts.map A.app)
  rw [polyLength_isometry hA, List.length_map] at h2
  rw [abs_le] at *
  constructor <;> linarith

/-- **C124.** Under any isometry, the power of a path changes by at most `|coef| ^ n * (n + 1) * 2 √2 eps / height ^ 3` where `n` is its number of
interactions: `path_length` adds the machine precision to both coordinates of every segment. -/
theorem C124_power_close {A : Affine} (hA : A.Similarity 1) (E : Env) (coef height : ℝ) (hh : 0 < height) (t r : Pt) (pts : List Pt) (loss : ℝ) (os os' : List Obj)
    (h2 : 2 ≤ pts.length) :
    ∃ u v : ℝ, powerFun E coef height (V2.fin (A.app t)) (V2.fin (A.app r)) (finitePath (pts.map A.app) loss) os' = F.fin u ∧
      powerFun E coef height (V2.fin t) (V2.fin r) (finitePath pts loss) os = F.fin v ∧
      |u - v| ≤ |coef| ^ (pts.length - 2) * ((pts.length - 1 : ℕ) * (2 * Real.sqrt 2 * |E.eps|)) / height ^ 3 := by
  refine ⟨_, _, realFun_power E coef height hh _ _ _ loss os' (by rw [List.length_map]; exact h2), realFun_power E coef height hh _ _ _ loss os h2, ?_⟩
  simp only [List.length_map]
  rw [div_eq_mul_one_div, div_eq_mul_one_div (coef ^ _) (height ^ 2 + plen E.eps pts ^ 2), ← mul_sub, abs_mul, abs_pow, mul_div_assoc]
  refine mul_le_mul_of_nonneg_left ?_ (by positivity)
  refine (inverse_square_close hh (plen_nonneg _ _) (plen_nonneg _ _)).trans ?_
  refine div_le_div_of_nonneg_right ((plen_isometry hA E.eps pts).trans (le_of_eq ?_)) (by positivity)
  ring

/-- The validity of a path traced in a scene of walls is a real number between 0 and 1. -/
theorem validity_unit (t r : Pt) (walls : List (Pt × Pt)) (c : List ℤ) (hc : IsCandidate walls.length c)
    (E : Env) (ap : Option Bool) (kw : ActKw) (hmode : Hard E ap ∨ (Soft E ap ∧ GoodKw kw)) (tol patch : F) :
    ∃ valid, (finitePath (rpath t r (wallsAt walls c)) (scores (wallsAt walls c) (rpath t r (wallsAt walls c))).sum).isValid E
        ((wallsOf walls).map Obj.interact) c ((wallsOf (wallsAt walls c)).map Obj.interact) tol patch ap kw = .ok valid ∧
      ∃ v : ℝ, valid.toF = F.fin v ∧ 0 ≤ v ∧ v ≤ 1 := by
  have hl : (finitePath (rpath t r (wallsAt walls c)) (scores (wallsAt walls c) (rpath t r (wallsAt walls c))).sum).xys.length = c.length + 2 := by
    simp [finitePath, rpath_length, wallsAt_length hc]
  rcases hmode with hh | ⟨hh, hk⟩
  · obtain ⟨v, e, -⟩ := C38_hard _ E ap hh kw ((wallsOf walls).map Obj.interact) ((wallsOf (wallsAt walls c)).map Obj.interact) c tol patch hl
      (by simp [wallsOf, wallsAt_length hc])
    refine ⟨_, e, if v then 1 else 0, ?_, ?_⟩
    · cases v <;> simp [Truthy.toF]
    · split_ifs <;> norm_num
  · have fz : ∀ ws : List (Pt × Pt), ∀ o ∈ (wallsOf ws).map Obj.interact, FuzzyObject E ap kw o := by
      intro ws o ho
      obtain ⟨x, hx, rfl⟩ := List.mem_map.mp ho
      obtain ⟨w, -, rfl⟩ := List.mem_map.mp hx
      exact (C38_builtin E ap hh kw hk).1 _
    obtain ⟨v, e, h0, h1, -⟩ := C38_soft _ E ap hh kw hk ((wallsOf walls).map Obj.interact) ((wallsOf (wallsAt walls c)).map Obj.interact) c tol
      patch hl.le (fz _) (fz _)
    exact ⟨_, e, v, rfl, h0, h1⟩

/-- A function for the moved path, as a function of the path. -/
noncomputable def pulled (A : Affine) (f : Scene.PathFun) : Scene.PathFun := fun t r p os =>
  if h : ∃ x : Pt × Pt × List Pt × ℝ, t = V2.fin x.1 ∧ r = V2.fin x.2.1 ∧ p = finitePath x.2.2.1 x.2.2.2 then
    f (V2.fin (A.app h.choose.1)) (V2.fin (A.app h.choose.2.1)) (finitePath (h.choose.2.2.1.map A.app) h.choose.2.2.2) os
  else F.nan

theorem fin_injective {p q : Pt} (h : V2.fin p = V2.fin q) : p = q := by
  have hx := congrArg V2.x h
  have hy := congrArg V2.y h
  exact V2.ext (F.fin.inj hx) (F.fin.inj hy)

theorem pulled_eq (A : Affine) (f : Scene.PathFun) (t r : Pt) (pts : List Pt) (loss : ℝ) (os : List Obj) :
    pulled A f (V2.fin t) (V2.fin r) (finitePath pts loss) os = f (V2.fin (A.app t)) (V2.fin (A.app r)) (finitePath (pts.map A.app) loss) os := by
  have h : ∃ x : Pt × Pt × List Pt × ℝ, V2.fin t = V2.fin x.1 ∧ V2.fin r = V2.fin x.2.1 ∧ finitePath pts loss = finitePath x.2.2.1 x.2.2.2 :=
    ⟨(t, r, pts, loss), rfl, rfl, rfl⟩
  unfold pulled
  rw [dif_pos h]
  obtain ⟨h1, h2, h3⟩ := h.choose_spec
  obtain ⟨h4, h5⟩ := finitePath_inj h3
  rw [← fin_injective h1, ← fin_injective h2, ← h4, ← h5]

/-- **C124.** Under any isometry, the accumulated power of every pair changes by at most a multiple of the machine precision: the sum over the
path candidates `c` of `|coef| ^ n * (n + 1) * 2 √2 eps / height ^ 3`, `n` the length of `c`. In hard mode, or in approximate mode with a good activation. -/
theorem C124_power_sums {Key : Type} (G : GraphLib) (hG : GraphContract G) (A : Affine) (hA : A.Similarity 1) (tx rx : PyDict Pt) (ht : Distinct tx) (hr : Distinct rx)
    (walls : List (Pt × Pt)) (lo hi : ℤ) (hlo : 0 ≤ lo) (hex : ∃ c, InRange walls.length lo hi c) (split : Key → ℕ → List Key) (key : Option Key)
    (E : Env) (ap : Option Bool) (kw : ActKw) (hmode : Hard E ap ∨ (Soft E ap ∧ GoodKw kw)) (tol : F) (patch coef height : ℝ) (hh : 0 < height) :
    ∃ (cs : Finset (List ℤ)) (value value' : String × Pt → String × Pt → ℝ), (∀ c, c ∈ cs ↔ InRange walls.length lo hi c) ∧
      (wallScene tx rx walls).accumulateOverPaths G split (imageMethod Key) { minOrder := lo, maxOrder := hi }
        ⟨E, tol, F.fin patch, ap, kw⟩ key (powerFun E coef height) = .ok ((tx ×ˢ rx).map fun p => (p.1.1, p.2.1, F.fin (value p.1 p.2))) ∧
      (wallScene (mapPoints A tx) (mapPoints A rx) (walls.map (mapWall A))).accumulateOverPaths G split (imageMethod Key) { minOrder := lo, maxOrder := hi }
        ⟨E, tol, F.fin patch, ap, kw⟩ key (powerFun E coef height) = .ok ((tx ×ˢ rx).map fun p => (p.1.1, p.2.1, F.fin (value' p.1 p.2))) ∧
      ∀ p ∈ tx ×ˢ rx, |value' p.1 p.2 - value p.1 p.2| ≤ ∑ c ∈ cs, |coef| ^ c.length * ((c.length + 1) * (2 * Real.sqrt 2 * |E.eps|)) / height ^ 3 := by
  obtain ⟨cs, hcs, hcd, hcm, hne⟩ := cands_walls G hG tx rx walls lo hi hlo hex
  let P : Pt → Pt → List ℤ → Truthy → Prop := fun t r c valid =>
    (finitePath (rpath t r (wallsAt walls c)) (scores (wallsAt walls c) (rpath t r (wallsAt walls c))).sum).isValid E
        ((wallsOf walls).map Obj.interact) c ((wallsOf (wallsAt walls c)).map Obj.interact) tol (F.fin patch) ap kw = .ok valid
  have hchoice : ∀ (t r : Pt) (c : List ℤ), ∃ v : ℝ, IsCandidate walls.length c → 0 ≤ v ∧ v ≤ 1 ∧ ∃ valid, P t r c valid ∧ valid.toF = F.fin v := by
    intro t r c
    by_cases hc : IsCandidate walls.length c
    · obtain ⟨valid, h1, v, h2, h3, h4⟩ := validity_unit t r walls c hc E ap kw hmode tol (F.fin patch)
      exact ⟨v, fun _ => ⟨h3, h4, valid, h1, h2⟩⟩
    · exact ⟨0, fun h => (hc h).elim⟩
  choose rv hrv using hchoice
  have hv : ∀ t ∈ tx, ∀ r ∈ rx, ∀ c ∈ cs, ∃ valid, P t.2 r.2 c valid ∧ valid.toF = F.fin (rv t.2 r.2 c) :=
    fun t _ r _ c hc => (hrv t.2 r.2 c ((hcm c).mp hc).1).2.2
  have g1 := realFun_power E coef height hh
  have g2 : RealFun (pulled A (powerFun E coef height)) fun _ _ pts => coef ^ (pts.length - 2) / (height ^ 2 + plen E.eps (pts.map A.app) ^ 2) := by
    intro t r pts loss os h2
    rw [pulled_eq, g1 _ _ _ loss os (by rw [List.length_map]; exact h2)]
    simp only [List.length_map]
  have e1 := accumulate_walls G hG tx rx ht hr walls lo hi hlo cs hcs hcd hcm hne split key ⟨E, tol, F.fin patch, ap, kw⟩ _ _ g1 rv hv
  have e2 := accumulate_walls G hG tx rx ht hr walls lo hi hlo cs hcs hcd hcm hne split key ⟨E, tol, F.fin patch, ap, kw⟩ _ _ g2 rv hv
  rw [← moved_sums G hG A 1 hA tx rx ht hr walls lo hi hlo split key E ap kw tol patch (powerFun E coef height) (pulled A (powerFun E coef height))
    (fun t r pts loss os os' _ => by rw [pulled_eq]; rfl)] at e2
  refine ⟨cs.toFinset, fun t r => (cs.map fun c => rv t.2 r.2 c * (coef ^ ((rpath t.2 r.2 (wallsAt walls c)).length - 2) /
      (height ^ 2 + plen E.eps (rpath t.2 r.2 (wallsAt walls c)) ^ 2))).sum,
    fun t r => (cs.map fun c => rv t.2 r.2 c * (coef ^ ((rpath t.2 r.2 (wallsAt walls c)).length - 2) /
      (height ^ 2 + plen E.eps ((rpath t.2 r.2 (wallsAt walls c)).map A.app) ^ 2))).sum, fun c => by rw [List.mem_toFinset]; exact hcm c, e1, e2, ?_⟩
  rintro ⟨t, r⟩ -
  simp only
  rw [← List.sum_toFinset _ hcd, ← List.sum_toFinset _ hcd, ← Finset.sum_sub_distrib]
  refine (Finset.abs_sum_le_sum_abs _ _).trans (Finset.sum_le_sum fun c hc => ?_)
  have hcand := ((hcm c).mp (List.mem_toFinset.mp hc)).1
  obtain ⟨v0, v1, -⟩ := hrv t.2 r.2 c hcand
  have hlen : (rpath t.2 r.2 (wallsAt walls c)).length = c.length + 2 := by rw [rpath_length, wallsAt_length hcand]
  obtain ⟨u, v, hu, hv', huv⟩ := C124_power_close hA E coef height hh t.2 r.2 (rpath t.2 r.2 (wallsAt walls c)) 0 [] [] (by omega)
  rw [g1 _ _ _ _ _ (by rw [List.length_map]; omega)] at hu
  rw [g1 _ _ _ _ _ (by omega)] at hv'
  simp only [List.length_map] at hu
  rw [← F.fin.inj hu, ← F.fin.inj hv'] at huv
  simp only [hlen] at huv
  rw [hlen, ← mul_sub, abs_mul, abs_of_nonneg v0]
  refine (mul_le_of_le_one_left (abs_nonneg _) v1).trans (huv.trans (le_of_eq ?_))
  simp only [Nat.add_sub_cancel, show c.length + 2 - 1 = c.length + 1 by omega]
  push_cast
  ring

/-- **C124.** It is not exactly invariant under all isometries: for any small positive precision, half a turn changes the power of the
direct path along the first diagonal. -/
theorem C124_power_inexact (E : Env) (h0 : 0 < E.eps) (h1 : E.eps < 1) : ∃ A : Affine, A.Similarity 1 ∧ ¬ MotionInvariant A (powerFun E 1 1) := by
  refine ⟨⟨-1, 0, 0, -1, 0, 0⟩, ⟨one_pos, by norm_num, by norm_num, by norm_num⟩, fun h => ?_⟩
  have e := h ⟨0, 0⟩ ⟨1, 1⟩ [⟨0, 0⟩, ⟨1, 1⟩] 0 [] [] rfl
  rw [realFun_power E 1 1 one_pos _ _ _ _ _ (by simp), realFun_power E 1 1 one_pos _ _ _ _ _ (by simp)] at e
  have e := F.fin.inj e
  have n1 : plen E.eps ([⟨0, 0⟩, ⟨1, 1⟩] : List Pt) ^ 2 = 2 * (1 + E.eps) ^ 2 := by
    simp only [plen, nrm, V2.add_x, V2.add_y, V2.sub_x, V2.sub_y, add_zero]
    rw [Real.sq_sqrt (by positivity)]; ring
  have n2 : plen E.eps (([⟨0, 0⟩, ⟨1, 1⟩] : List Pt).map (Affine.app ⟨-1, 0, 0, -1, 0, 0⟩)) ^ 2 = 2 * (1 - E.eps) ^ 2 := by
    simp only [List.map_cons, List.map_nil, Affine.app, plen, nrm, V2.add_x, V2.add_y, V2.sub_x, V2.sub_y, add_zero]
    rw [Real.sq_sqrt (add_nonneg (mul_self_nonneg _) (mul_self_nonneg _))]; ring
  beta_reduce at e
  rw [n1, n2] at e
  simp only [List.length_map, List.length_cons, List.length_nil, Nat.sub_self, zero_add, Nat.reduceAdd, pow_zero, one_pow] at e
  rw [div_eq_div_iff (by positivity) (by positivity)] at e
  nlinarith

/-! ## A concrete case -/

/-- A room without ceiling, symmetric under the mirroring of the abscissae. -/
theorem room_symmetric : SymmetricUnder ⟨-1, 0, 0, 1, 0, 0⟩ [(⟨-1, 0⟩, ⟨1, 0⟩), (⟨-1, 2⟩, ⟨-1, 0⟩), (⟨1, 0⟩, ⟨1, 2⟩)] := by
  refine ⟨[(⟨-1, 0⟩, ⟨1, 0⟩), (⟨1, 0⟩, ⟨1, 2⟩), (⟨-1, 2⟩, ⟨-1, 0⟩)], ?_, (List.Perm.swap _ _ _).cons _⟩
  unfold Redrawn
  simp only [List.map_cons, List.map_nil]
  refine .cons (.inr ?_) (.cons (.inr ?_) (.cons (.inr ?_) .nil)) <;> simp [mapWall, Affine.app]

theorem mirror_similarity : Affine.Similarity ⟨-1, 0, 0, 1, 0, 0⟩ 1 := ⟨one_pos, by norm_num, by norm_num, by norm_num⟩

/-- Non-vacuity: the power map of a transmitter on the axis of the room, in exact arithmetic, is symmetric, in any mode. -/
example (ap : Option Bool) (gradOp : (V2 F → F) → V2 F → V2 F) (out : List (String × Scene.GridOut)) :=
  C124_symmetric_maps (Key := ℕ) refLib refLib_contract ⟨-1, 0, 0, 1, 0, 0⟩ 1 mirror_similarity [("tx", ⟨0, 1⟩)] [] (by simp [Distinct]) (by simp [Distinct])
    [(⟨-1, 0⟩, ⟨1, 0⟩), (⟨-1, 2⟩, ⟨-1, 0⟩), (⟨1, 0⟩, ⟨1, 2⟩)] 0 2 le_rfl (fun k n => List.replicate n k) none ⟨true, 0⟩ ap {} VALID_TOL 1 (powerFun ⟨true, 0⟩ (1 / 2) (1 / 10))
    (C124_power_exact mirror_similarity _ rfl _ _) room_symmetric (powerFun_ignoresObjects _ _ _) (by simp [SplitCount]) gradOp
    [[1 / 4, 1 / 2], [1 / 4, 1 / 2]] [[1, 1], [3 / 2, 3 / 2]] rfl out

example : mapPoints ⟨-1, 0, 0, 1, 0, 0⟩ [("tx", ⟨0, 1⟩)] = [("tx", ⟨0, 1⟩)] ∧
    movedX ⟨-1, 0, 0, 1, 0, 0⟩ [[1 / 4, 1 / 2]] [[1, 3]] = [[-(1 / 4), -(1 / 2)]] := by
  simp [mapPoints, movedX, Affine.app]

/-- The exchange of the axes is one of the isometries under which the power is exactly invariant. -/
example (E : Env) := C124_power_diagonal (A := ⟨0, 1, 1, 0, 2, 3⟩) ⟨one_pos, by norm_num, by norm_num, by norm_num⟩ (by norm_num) (by norm_num) E (1 / 2) (1 / 10)

end DiffeRT2d.Props
