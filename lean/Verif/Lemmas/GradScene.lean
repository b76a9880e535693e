import Verif.Lemmas.GradDeriv
import Verif.Model.GradGrid
import Verif.Props.Smooth
import Verif.Lemmas.Grid

/-! The accumulations under differentiation. -/

namespace DiffeRT2d
open Classical Spec Filter Topology Props

variable {ι X : Type} [NormedAddCommGroup X] [NormedSpace ℝ X] {e : ι → X} {x0 : X}

/-- The differentiated walls a candidate names. -/
def dwallsAt (ws : List (Rev.RWall ι)) (c : List ℤ) : List (Rev.RWall ι) := c.filterMap fun i => ws[i.toNat]?

theorem mapM_getObject (ws : List (Rev.RWall ι)) (c : List ℤ) (hc : ∀ i ∈ c, 0 ≤ i ∧ i < ws.length) :
    c.mapM (Rev.getObject ws) = .ok (dwallsAt ws c) := by
  induction c with
  | nil => rfl
  | cons i c ih =>
    obtain ⟨h1, h2⟩ := hc i (by simp)
    rw [List.mapM_cons, ih fun i h => hc i (by simp [h])]
    have h3 : i.toNat < ws.length := by omega
    have hg : Rev.getObject ws i = .ok ws[i.toNat] := by
      cases ws with
      | nil => simp at h3
      | cons w ws =>
        simp only [Rev.getObject, Except.ok.injEq]
        have : Nat.min i.toNat ws.length = i.toNat := Nat.min_eq_left (by simp at h3; omega)
        rw [this, List.getD_eq_getElem?_getD, List.getElem?_eq_getElem h3]; rfl
    rw [hg]
    simp only [dwallsAt, List.filterMap_cons, List.getElem?_eq_getElem h3]
    rfl

theorem forall₂_at {α β : Type} {R : α → β → Prop} {xs : List α} {ys : List β} (h : List.Forall₂ R xs ys) (c : List ℤ) :
    List.Forall₂ R (c.filterMap fun i => xs[i.toNat]?) (c.filterMap fun i => ys[i.toNat]?) := by
  induction c with
  | nil => exact .nil
  | cons i c ih =>
    simp only [List.filterMap_cons]
    have hl := h.length_eq
    by_cases hi : i.toNat < xs.length
    · have hi' : i.toNat < ys.length := hl ▸ hi
      rw [List.getElem?_eq_getElem hi, List.getElem?_eq_getElem hi']
      exact .cons (h.get hi hi') ih
    · rw [List.getElem?_eq_none (by omega), List.getElem?_eq_none (by omega)]
      exact ih

theorem wall_val {w : Rev.RWall ι} {v : X → Pt × Pt} (h : DifferentiatesWall e x0 w v) : w.val = Wall.ofPts (v x0).1 (v x0).2 := by
  unfold Rev.RWall.val Wall.ofPts
  rw [h.1.val, h.2.1.val]

theorem walls_val {ws : List (Rev.RWall ι)} {vs : List (X → Pt × Pt)} (h : List.Forall₂ (DifferentiatesWall e x0) ws vs) :
    (ws.map fun w => Obj.wall w.val) = wallsOf (wallsX vs x0) := by
  induction h with
  | nil => rfl
  | cons h1 _ ih =>
    simp only [List.map_cons, wallsOf, wallsX] at ih ⊢
    rw [ih, wall_val h1]

theorem imagePath_val {tx rx : V2 (Rev ι)} {t r : X → Pt} (ht : DifferentiatesPt e x0 tx t) (hr : DifferentiatesPt e x0 rx r)
    {ws : List (Rev.RWall ι)} {vs : List (X → Pt × Pt)} (h : List.Forall₂ (DifferentiatesWall e x0) ws vs) :
    (Rev.imagePath tx ws rx).val = finitePath ((mpath t r vs).map (· x0)) (scores (vs.map (· x0)) ((mpath t r vs).map (· x0))).sum := by
  have e1 := Rev.val_imagePath tx ws rx
  rw [ht.val, hr.val, walls_val h] at e1
  have e2 := traceImage_eq (t x0) (r x0) (wallsX vs x0)
  have e3 := e1.symm.trans e2
  rw [Except.ok.inj e3, mpath_at]
  rfl

theorem map_interact (ws : List (Rev.RWall ι)) : (ws.map fun w => w.val.interact) = (ws.map fun w => Obj.wall w.val).map Obj.interact := by
  rw [List.map_map]; rfl

/-- Hard validity of a differentiated path is that of the path. -/
theorem dvalid_hard {E : Env} {ap : Option Bool} (hh : Hard E ap) {kw : Rev.ActKw ι} {kw' : ActKw} (hk : SameKw kw kw')
    {tx rx : V2 (Rev ι)} {t r : X → Pt} (ht : DifferentiatesPt e x0 tx t) (hr : DifferentiatesPt e x0 rx r)
    {ws : List (Rev.RWall ι)} {vs : List (X → Pt × Pt)} (h : List.Forall₂ (DifferentiatesWall e x0) ws vs) {c : List ℤ} (hc : IsCandidate vs.length c)
    (tol patch : ℝ) :
    (Rev.imagePath tx (dwallsAt ws c) rx).isValid E ws c (dwallsAt ws c) (F.fin tol) (F.fin patch) ap kw =
      .ok (.b (decide (HardOk ((wallsM vs c).map (· x0)) (wallsX vs x0) c ((mpath t r (wallsM vs c)).map (· x0))
        (scores ((wallsM vs c).map (· x0)) ((mpath t r (wallsM vs c)).map (· x0))).sum tol patch))) := by
  have hc2 : List.Forall₂ (DifferentiatesWall e x0) (dwallsAt ws c) (wallsM vs c) := forall₂_at h c
  have hv := Rev.val_isValid (E := E) (ap := ap) hk (Rev.imagePath tx (dwallsAt ws c) rx) ws c (dwallsAt ws c) (F.fin tol) (F.fin patch)
  rw [imagePath_val ht hr hc2, map_interact, map_interact, walls_val h, walls_val hc2] at hv
  have hi := isValid_hardOk hh kw' ((wallsM vs c).map (· x0)) (wallsX vs x0) c ((mpath t r (wallsM vs c)).map (· x0))
    (scores ((wallsM vs c).map (· x0)) ((mpath t r (wallsM vs c)).map (· x0))).sum tol patch (by simp [valid_length hc])
  rw [show wallsX (wallsM vs c) x0 = (wallsM vs c).map (· x0) from rfl, hi] at hv
  cases hx : (Rev.imagePath tx (dwallsAt ws c) rx).isValid E ws c (dwallsAt ws c) (F.fin tol) (F.fin patch) ap kw with
  | error err => rw [hx] at hv; cases hv
  | ok v =>
    rw [hx] at hv
    rcases v with v | v
    · have := Except.ok.inj hv
      simp only [Rev.RPath.val, RevTruthy.val, Truthy.b.injEq] at this
      rw [this]
    · have := Except.ok.inj hv
      simp [RevTruthy.val] at this

/-- The loop, if every turn is differentiated rightly. -/
theorem facc_diff (v : Rev.ValidOpts ι) {tx rx : V2 (Rev ι)} {ws : List (Rev.RWall ι)} (f : List (V2 (Rev ι)) → Rev ι)
    (V G : List ℤ → X → ℝ) (cs : List (List ℤ)) (hc : ∀ c ∈ cs, ∀ i ∈ c, 0 ≤ i ∧ i < ws.length)
    (h : ∀ c ∈ cs, ∃ valid, (Rev.imagePath tx (dwallsAt ws c) rx).isValid v.E ws c (dwallsAt ws c) v.tol v.patch v.approx v.kw = .ok valid ∧
      Differentiates e x0 valid.toF (V c) ∧ Differentiates e x0 (f (Rev.imagePath tx (dwallsAt ws c) rx).xys) (G c))
    {a : Rev ι} {f0 : X → ℝ} (ha : Differentiates e x0 a f0) :
    ∃ d, Rev.facc v ws f tx rx a cs = .ok d ∧ Differentiates e x0 d fun x => f0 x + (cs.map fun c => V c x * G c x).sum := by
  induction cs generalizing a f0 with
  | nil => exact ⟨a, rfl, ha.congr (Eventually.of_forall fun x => by simp)⟩
  | cons c cs ih =>
    obtain ⟨valid, h1, h2, h3⟩ := h c (by simp)
    obtain ⟨d, h4, h5⟩ := ih (fun c hc' => hc c (by simp [hc'])) (fun c hc' => h c (by simp [hc'])) (ha.add (h2.mul h3))
    refine ⟨d, ?_, h5.congr (Eventually.of_forall fun x => by simp [add_assoc])⟩
    simp only [Rev.facc]
    rw [mapM_getObject ws c (hc c (by simp))]
    simp only [Bind.bind, Except.bind, h1, h4]

/-- The loop at a fixed position, in the scene of real walls. -/
theorem facc_real {Key : Type} (s : Scene) (walls : List (Pt × Pt)) (hs : s.objects = wallsOf walls) (v : Scene.ValidOpts) (f : Scene.PathFun)
    (g : Pt → Pt → List Pt → ℝ) (hf : RealFun f g) (t r : Pt) (V : List ℤ → ℝ) (l : List (List ℤ × Option Key))
    (hc : ∀ c ∈ l.map Prod.fst, IsCandidate walls.length c)
    (h : ∀ c ∈ l.map Prod.fst, ∃ valid, (finitePath (rpath t r (wallsAt walls c)) (scores (wallsAt walls c) (rpath t r (wallsAt walls c))).sum).isValid v.E
      ((wallsOf walls).map Obj.interact) c ((wallsOf (wallsAt walls c)).map Obj.interact) v.tol v.patch v.approx v.kw = .ok valid ∧ valid.toF = F.fin (V c))
    (a : ℝ) :
    s.facc (imageMethod Key) v f (V2.fin t) (V2.fin r) (F.fin a) l =
      .ok (F.fin (a + ((l.map Prod.fst).map fun c => V c * g t r (rpath t r (wallsAt walls c))).sum)) := by
  induction l generalizing a with
  | nil => simp [Scene.facc]
  | cons ck l ih =>
    obtain ⟨c, k⟩ := ck
    obtain ⟨valid, h1, h2⟩ := h c (by simp)
    have hi : s.getInteractingObjects c = .ok (wallsOf (wallsAt walls c)) := by
      rw [interacting_eq s c (by rw [hs]; simpa [wallsOf] using hc c (by simp))]
      have := objectsAt_walls [] [] walls c
      rw [← this]
      unfold objectsAt
      rw [hs, wallScene_objects]
    have htr : (imageMethod Key).trace k (V2.fin t) (wallsOf (wallsAt walls c)) (V2.fin r) =
        .ok (finitePath (rpath t r (wallsAt walls c)) (scores (wallsAt walls c) (rpath t r (wallsAt walls c))).sum) := traceImage_eq t r (wallsAt walls c)
    have hv : s.validity v (finitePath (rpath t r (wallsAt walls c)) (scores (wallsAt walls c) (rpath t r (wallsAt walls c))).sum) c (wallsOf (wallsAt walls c)) = .ok valid := by
      unfold Scene.validity; rw [hs]; exact h1
    unfold Scene.facc
    rw [hi]
    simp only [Bind.bind, Except.bind, htr, hv, h2]
    rw [hf t r _ _ _ (by rw [rpath_length]; omega), F.fin_mul, F.fin_add,
      ih (fun c hc' => hc c (by simp at hc' ⊢; tauto)) (fun c hc' => h c (by simp at hc' ⊢; tauto))]
    simp [add_assoc]

/-! ### Grids -/

/-- The direction of each coordinate. -/
def axisOf : Rev.Coord → ℝ × ℝ
  | .x => (1, 0)
  | .y => (0, 1)

theorem inputs_diff (p : ℝ × ℝ) : DifferentiatesPt axisOf p (Rev.inputs ⟨F.fin p.1, F.fin p.2⟩) fun q => ⟨q.1, q.2⟩ := by
  constructor
  · refine ⟨rfl, ContinuousLinearMap.fst ℝ ℝ ℝ, hasFDerivAt_fst, fun c i => ?_⟩
    cases i <;> simp [Rev.inputs, Rev.var, axisOf]
  · refine ⟨rfl, ContinuousLinearMap.snd ℝ ℝ ℝ, hasFDerivAt_snd, fun c i => ?_⟩
    cases i <;> simp [Rev.inputs, Rev.var, axisOf]

theorem constWall_diff (w : Pt × Pt) (hw : w.1 ≠ w.2) : DifferentiatesWall e x0 ⟨Rev.constV (Wall.ofPts w.1 w.2).origin, Rev.constV (Wall.ofPts w.1 w.2).dest⟩ fun _ => w :=
  ⟨.const _, .const _, hw⟩

/-- The constant walls of the scene. -/
noncomputable def cwalls (ι : Type) (walls : List (Pt × Pt)) : List (Rev.RWall ι) :=
  walls.map fun w => ⟨Rev.constV (Wall.ofPts w.1 w.2).origin, Rev.constV (Wall.ofPts w.1 w.2).dest⟩

theorem cwalls_diff (walls : List (Pt × Pt)) (hw : ∀ w ∈ walls, w.1 ≠ w.2) :
    List.Forall₂ (DifferentiatesWall e x0) (cwalls ι walls) (walls.map fun w _ => w) := by
  induction walls with
  | nil => exact .nil
  | cons w walls ih => exact .cons (constWall_diff w (hw w (by simp))) (ih fun w h => hw w (by simp [h]))

theorem cwalls_val (walls : List (Pt × Pt)) : (cwalls ι walls).map (fun w => Obj.wall w.val) = wallsOf walls := by
  simp [cwalls, wallsOf, Rev.RWall.val, Rev.constV, Rev.valV, Function.comp_def]

theorem constWalls_walls (walls : List (Pt × Pt)) : Rev.constWalls (wallsOf walls) = .ok (cwalls _ walls) := by
  have : (wallsOf walls).mapM Rev.onlyWall = some (walls.map fun w => Wall.ofPts w.1 w.2) := by
    induction walls with
    | nil => rfl
    | cons w ws ih =>
      unfold wallsOf at ih ⊢
      simp [List.mapM_cons, ih, Rev.onlyWall]
  unfold Rev.constWalls
  rw [this]
  simp [cwalls, Function.comp_def]

theorem dstack_points (P : Scene.Grid (ℝ × ℝ)) : Scene.dstack (gridX P) (gridY P) = .ok (P.map fun row => row.map fun p => ⟨F.fin p.1, F.fin p.2⟩) := by
  unfold Scene.dstack
  rw [if_pos (by simp [gridX, gridY, Function.comp_def])]
  congr 1
  induction P with
  | nil => rfl
  | cons row P ih =>
    simp only [gridX, gridY, List.map_cons, List.zipWith_cons_cons] at ih ⊢
    rw [ih]
    congr 1
    induction row with
    | nil => rfl
    | cons p row ih' => simpa using ih'

theorem mapM_ok' {α β : Type} (f : α → Except PyErr β) (g : α → β) (l : List α) (h : ∀ a ∈ l, f a = .ok (g a)) : l.mapM f = .ok (l.map g) := by
  induction l with
  | nil => rfl
  | cons a l ih =>
    rw [List.mapM_cons, h a (by simp), ih fun a h' => h a (by simp [h'])]
    rfl

theorem rev_mapGrid (grad vag : Bool) (f : V2 (Rev Rev.Coord) → Except PyErr (Rev Rev.Coord)) (D : ℝ × ℝ → Rev Rev.Coord)
    (h : ∀ p : ℝ × ℝ, f (Rev.inputs ⟨F.fin p.1, F.fin p.2⟩) = .ok (D p)) (P : Scene.Grid (ℝ × ℝ)) :
    Rev.mapGrid grad vag f (P.map fun row => row.map fun p => ⟨F.fin p.1, F.fin p.2⟩) =
      .ok (gridSel grad vag (P.map fun row => row.map fun p => (D p).val) (P.map fun row => row.map fun p => ⟨(D p).grad .x, (D p).grad .y⟩)) := by
  have h1 : List.mapM (fun row : List (V2 F) => row.mapM (Rev.valueAndGrad f)) (P.map fun row => row.map fun p => ⟨F.fin p.1, F.fin p.2⟩) =
      .ok (P.map fun row => row.map fun p => ((D p).val, (⟨(D p).grad .x, (D p).grad .y⟩ : V2 F))) := by
    rw [List.mapM_map]
    refine mapM_ok' _ _ P fun row _ => ?_
    simp only [Function.comp]
    rw [List.mapM_map]
    refine mapM_ok' _ _ row fun p _ => ?_
    simp only [Function.comp, Rev.valueAndGrad, h p]
    rfl
  unfold Rev.mapGrid
  rw [h1]
  cases grad <;> cases vag <;> simp [gridSel, Bind.bind, Except.bind, Pure.pure, Except.pure, Function.comp_def]

/-- The differentiated loop succeeds, and its value is the accumulated value. -/
theorem facc_value {tx rx : V2 (Rev Rev.Coord)} {t r : Pt} (htx : Rev.valV tx = V2.fin t) (hrx : Rev.valV rx = V2.fin r) (walls : List (Pt × Pt))
    {E : Env} {ap : Option Bool} {tol patch : ℝ} {kw : Rev.ActKw Rev.Coord} {kw' : ActKw} (hk : SameKw kw kw')
    {f : List (V2 (Rev Rev.Coord)) → Rev Rev.Coord} {pf : Scene.PathFun} {g : List Pt → ℝ} (hs : SameFun f pf) (hf : RealFun pf fun _ _ pts => g pts)
    (V : List ℤ → ℝ) (cs : List (List ℤ)) (hc : ∀ c ∈ cs, IsCandidate walls.length c)
    (hV : ∀ c ∈ cs, ∃ valid, (finitePath (rpath t r (wallsAt walls c)) (scores (wallsAt walls c) (rpath t r (wallsAt walls c))).sum).isValid E
      ((wallsOf walls).map Obj.interact) c ((wallsOf (wallsAt walls c)).map Obj.interact) (F.fin tol) (F.fin patch) ap kw' = .ok valid ∧ valid.toF = F.fin (V c)) :
    ∃ d, Rev.facc ⟨E, F.fin tol, F.fin patch, ap, kw⟩ (cwalls _ walls) f tx rx (.const 0) cs = .ok d ∧
      d.val = F.fin (cs.map fun c => V c * g (rpath t r (wallsAt walls c))).sum := by
  have h1 := Rev.val_facc (Key := Unit) hk (wallScene [] [] walls) (cwalls _ walls) (by rw [wallScene_objects, cwalls_val]) hs (F.fin tol) (F.fin patch)
    tx rx (.const 0) (E := E) (ap := ap) (cs.map fun c => (c, none))
  have h2 := facc_real (Key := Unit) (wallScene [] [] walls) walls (wallScene_objects _ _ _) ⟨E, F.fin tol, F.fin patch, ap, kw'⟩ pf _ hf t r
    V (cs.map fun c => (c, none)) (by
      intro c hc'; simp only [List.map_map, Function.comp_def, List.map_id'] at hc'; exact hc c hc') (by
      intro c hc'; simp only [List.map_map, Function.comp_def, List.map_id'] at hc'; exact hV c hc') 0
  rw [htx, hrx] at h1
  simp only [List.map_map, Function.comp_def, List.map_id', zero_add] at h1 h2
  rw [F.zero_eq] at h1
  have h3 := h1.trans h2
  rw [F.zero_eq]
  cases hd : Rev.facc ⟨E, F.fin tol, F.fin patch, ap, kw⟩ (cwalls _ walls) f tx rx (.const (F.fin 0)) cs with
  | error err => rw [hd] at h3; cases h3
  | ok d => rw [hd] at h3; exact ⟨d, rfl, Except.ok.inj h3⟩

/-- What a grid of receivers returns, from the differentiated loops. -/
theorem receivers_grid (G : GraphLib) (tx rx : PyDict Pt) (ht : Distinct tx) (walls : List (Pt × Pt)) (lo hi : ℤ) (cs : List (List ℤ))
    (hcs : (wallScene tx rx walls).allPathCandidates G { minOrder := lo, maxOrder := hi } = .ok cs) (v : Rev.ValidOpts Rev.Coord)
    (f : List (V2 (Rev Rev.Coord)) → Rev Rev.Coord) (D : String × Pt → ℝ × ℝ → Rev Rev.Coord)
    (hD1 : ∀ t p, Rev.facc v (cwalls _ walls) f (Rev.constV (V2.fin t.2)) (Rev.inputs ⟨F.fin p.1, F.fin p.2⟩) (.const 0) cs = .ok (D t p)) :
    ∀ (grad vag : Bool) (P : Scene.Grid (ℝ × ℝ)),
      Rev.accumulateOnReceiversGrid (wallScene tx rx walls) G { minOrder := lo, maxOrder := hi } v grad vag f
        (gridX P) (gridY P) = .ok (tx.map fun t => (t.1, gridSel grad vag (P.map fun row => row.map fun p => (D t p).val)
          (P.map fun row => row.map fun p => ⟨(D t p).grad .x, (D t p).grad .y⟩))) := by
  intro grad vag P
  have hw : (wallScene tx rx walls).withReceivers [("rx", ⟨0, 0⟩)] = .ok { wallScene tx rx walls with receivers := .fromMapping [("rx", ⟨0, 0⟩)] } := by
    unfold Scene.withReceivers Scene.bindKwargs
    rw [if_neg (by simp)]; rfl
  have hd : Distinct [("rx", (⟨0, 0⟩ : V2 F))] := by simp [Distinct]
  have hdt : Distinct (finPoints tx) := by simpa [Distinct, finPoints, Function.comp_def] using ht
  have e1 : Scene.allPathCandidates { wallScene tx rx walls with receivers := .fromMapping [("rx", ⟨0, 0⟩)] } G { minOrder := lo, maxOrder := hi } = .ok cs := hcs
  have e2 : Scene.allTransmitterReceiverPairs { wallScene tx rx walls with receivers := .fromMapping [("rx", ⟨0, 0⟩)] } =
      .ok ((finPoints tx).map fun t => (t, ("rx", ⟨0, 0⟩))) := by
    have : (wallScene tx rx walls).transmitters = .fromMapping (finPoints tx) := rfl
    simp only [Scene.allTransmitterReceiverPairs, this, items_eq hdt, items_eq hd, Bind.bind, Except.bind, Pure.pure, Except.pure]
    congr 1
    exact product_single _ _
  unfold Rev.accumulateOnReceiversGrid
  rw [hw]
  simp only [Bind.bind, Except.bind, e1, e2]
  rw [show ({ wallScene tx rx walls with receivers := .fromMapping [("rx", ⟨0, 0⟩)] } : Scene).objects = wallsOf walls from wallScene_objects tx rx walls,
    constWalls_walls]
  simp only [dstack_points]
  rw [finPoints, List.map_map, List.mapM_map]
  refine mapM_ok' _ _ tx fun t _ => ?_
  simp only [Function.comp]
  rw [rev_mapGrid grad vag _ (D t) (fun p => hD1 t p)]
  rfl

/-- What a grid of transmitters returns, from the differentiated loops. -/
theorem transmitters_grid (G : GraphLib) (tx rx : PyDict Pt) (hr : Distinct rx) (walls : List (Pt × Pt)) (lo hi : ℤ) (cs : List (List ℤ))
    (hcs : (wallScene tx rx walls).allPathCandidates G { minOrder := lo, maxOrder := hi } = .ok cs) (v : Rev.ValidOpts Rev.Coord)
    (f : List (V2 (Rev Rev.Coord)) → Rev Rev.Coord) (D : String × Pt → ℝ × ℝ → Rev Rev.Coord)
    (hD1 : ∀ t p, Rev.facc v (cwalls _ walls) f (Rev.inputs ⟨F.fin p.1, F.fin p.2⟩) (Rev.constV (V2.fin t.2)) (.const 0) cs = .ok (D t p)) :
    ∀ (grad vag : Bool) (P : Scene.Grid (ℝ × ℝ)),
      Rev.accumulateOnTransmittersGrid (wallScene tx rx walls) G { minOrder := lo, maxOrder := hi } v grad vag f
        (gridX P) (gridY P) = .ok (rx.map fun t => (t.1, gridSel grad vag (P.map fun row => row.map fun p => (D t p).val)
          (P.map fun row => row.map fun p => ⟨(D t p).grad .x, (D t p).grad .y⟩))) := by
  intro grad vag P
  have hw : (wallScene tx rx walls).withTransmitters [("tx", ⟨0, 0⟩)] = .ok { wallScene tx rx walls with transmitters := .fromMapping [("tx", ⟨0, 0⟩)] } := by
    unfold Scene.withTransmitters Scene.bindKwargs
    rw [if_neg (by simp)]; rfl
  have hd : Distinct [("tx", (⟨0, 0⟩ : V2 F))] := by simp [Distinct]
  have hdt : Distinct (finPoints rx) := by simpa [Distinct, finPoints, Function.comp_def] using hr
  have e1 : Scene.allPathCandidates { wallScene tx rx walls with transmitters := .fromMapping [("tx", ⟨0, 0⟩)] } G { minOrder := lo, maxOrder := hi } = .ok cs := hcs
  have e2 : Scene.allTransmitterReceiverPairs { wallScene tx rx walls with transmitters := .fromMapping [("tx", ⟨0, 0⟩)] } =
      .ok ((finPoints rx).map fun r => (("tx", ⟨0, 0⟩), r)) := by
    have : (wallScene tx rx walls).receivers = .fromMapping (finPoints rx) := rfl
    simp only [Scene.allTransmitterReceiverPairs, this, items_eq hdt, items_eq hd, Bind.bind, Except.bind, Pure.pure, Except.pure]
    congr 1
    exact single_product _ _
  unfold Rev.accumulateOnTransmittersGrid
  rw [hw]
  simp only [Bind.bind, Except.bind, e1, e2]
  rw [show ({ wallScene tx rx walls with transmitters := .fromMapping [("tx", ⟨0, 0⟩)] } : Scene).objects = wallsOf walls from wallScene_objects tx rx walls,
    constWalls_walls]
  simp only [dstack_points]
  rw [finPoints, List.map_map, List.mapM_map]
  refine mapM_ok' _ _ rx fun t _ => ?_
  simp only [Function.comp]
  rw [rev_mapGrid grad vag _ (D t) (fun p => hD1 t p)]
  rfl

/-- The values and the gradients of a grid of receivers, for a validity `V` that is a real number. -/
theorem receivers_core {Key : Type} (G : GraphLib) (hG : GraphContract G) (tx rx : PyDict Pt) (ht : Distinct tx) (walls : List (Pt × Pt))
    (lo hi : ℤ) (hlo : 0 ≤ lo) (hex : ∃ c, InRange walls.length lo hi c) (split : Key → ℕ → List Key) (key : Option Key)
    (E : Env) (ap : Option Bool) (tol patch : ℝ) (kw : Rev.ActKw Rev.Coord) (kw' : ActKw) (hk : SameKw kw kw')
    (f : List (V2 (Rev Rev.Coord)) → Rev Rev.Coord) (pf : Scene.PathFun) (g : List Pt → ℝ) (hs : SameFun f pf) (hf : RealFun pf fun _ _ pts => g pts)
    (V : Pt → Pt → List ℤ → ℝ)
    (hV : ∀ t r c, InRange walls.length lo hi c → ∃ valid, (finitePath (rpath t r (wallsAt walls c)) (scores (wallsAt walls c) (rpath t r (wallsAt walls c))).sum).isValid E
      ((wallsOf walls).map Obj.interact) c ((wallsOf (wallsAt walls c)).map Obj.interact) (F.fin tol) (F.fin patch) ap kw' = .ok valid ∧ valid.toF = F.fin (V t r c))
    (Reg : Pt → Pt → Prop)
    (hD : ∀ t r, Reg t r → ∀ c, InRange walls.length lo hi c → ∃ (valid : RevTruthy Rev.Coord) (V' G' : ℝ × ℝ → ℝ),
      (Rev.imagePath (Rev.constV (V2.fin t)) (dwallsAt (cwalls _ walls) c) (Rev.inputs ⟨F.fin r.x, F.fin r.y⟩)).isValid E (cwalls _ walls) c (dwallsAt (cwalls _ walls) c) (F.fin tol) (F.fin patch) ap kw = .ok valid ∧
      Differentiates axisOf (r.x, r.y) valid.toF V' ∧ (∀ q, V' q = V t ⟨q.1, q.2⟩ c) ∧
      Differentiates axisOf (r.x, r.y) (f (Rev.imagePath (Rev.constV (V2.fin t)) (dwallsAt (cwalls _ walls) c) (Rev.inputs ⟨F.fin r.x, F.fin r.y⟩)).xys) G' ∧
      (∀ q, G' q = g (rpath t ⟨q.1, q.2⟩ (wallsAt walls c)))) :
    ∃ (value : String × Pt → ℝ × ℝ → ℝ) (gradient : String × Pt → ℝ × ℝ → V2 F),
      (∀ r : ℝ × ℝ, (wallScene tx [("rx", ⟨r.1, r.2⟩)] walls).accumulateOverPaths G split (imageMethod Key) { minOrder := lo, maxOrder := hi }
        ⟨E, F.fin tol, F.fin patch, ap, kw'⟩ key pf = .ok (tx.map fun t => (t.1, "rx", F.fin (value t r)))) ∧
      (∀ (grad : Bool) (P : Scene.Grid (ℝ × ℝ)),
        Rev.accumulateOnReceiversGrid (wallScene tx rx walls) G { minOrder := lo, maxOrder := hi } ⟨E, F.fin tol, F.fin patch, ap, kw⟩ grad true f
          (gridX P) (gridY P) = .ok (tx.map fun t => (t.1, .both (P.map fun row => row.map fun p => F.fin (value t p)) (P.map fun row => row.map (gradient t)))) ∧
        Rev.accumulateOnReceiversGrid (wallScene tx rx walls) G { minOrder := lo, maxOrder := hi } ⟨E, F.fin tol, F.fin patch, ap, kw⟩ true false f
          (gridX P) (gridY P) = .ok (tx.map fun t => (t.1, .gradient (P.map fun row => row.map (gradient t))))) ∧
      ∀ t ∈ tx, ∀ r : ℝ × ℝ, Reg t.2 ⟨r.1, r.2⟩ → GradientAt (value t) r (gradient t r) := by
  obtain ⟨cs, hcs, hcd, hcm, hne⟩ := cands_walls G hG tx rx walls lo hi hlo hex
  have hcs' : ∀ tx rx, (wallScene tx rx walls).allPathCandidates G { minOrder := lo, maxOrder := hi } = .ok cs := by
    intro tx' rx'
    have : (wallScene tx' rx' walls).objects = (wallScene tx rx walls).objects := by rw [wallScene_objects, wallScene_objects]
    rw [← hcs]
    unfold Scene.allPathCandidates
    rw [this]
  let value : String × Pt → ℝ × ℝ → ℝ := fun t p => (cs.map fun c => V t.2 ⟨p.1, p.2⟩ c * g (rpath t.2 ⟨p.1, p.2⟩ (wallsAt walls c))).sum
  have hR : ∀ (t : String × Pt) (p : ℝ × ℝ), ∃ d, Rev.facc ⟨E, F.fin tol, F.fin patch, ap, kw⟩ (cwalls _ walls) f (Rev.constV (V2.fin t.2))
      (Rev.inputs ⟨F.fin p.1, F.fin p.2⟩) (.const 0) cs = .ok d ∧ d.val = F.fin (value t p) := by
    exact fun t p => facc_value rfl rfl walls hk hs hf (V t.2 ⟨p.1, p.2⟩) cs (fun c hc => ((hcm c).mp hc).1) fun c hc => hV _ _ c ((hcm c).mp hc)
  choose D hD1 hD2 using hR
  have hgrid := receivers_grid G tx rx ht walls lo hi cs hcs ⟨E, F.fin tol, F.fin patch, ap, kw⟩ f D hD1
  refine ⟨value, fun t p => ⟨(D t p).grad .x, (D t p).grad .y⟩, ?_, ?_, ?_⟩
  · intro r
    have := accumulate_walls (Key := Key) G hG tx [("rx", ⟨r.1, r.2⟩)] ht (by simp [Distinct]) walls lo hi hlo cs (hcs' _ _) hcd hcm hne split key
      ⟨E, F.fin tol, F.fin patch, ap, kw'⟩ pf _ hf V fun t _ r _ c hc => hV t.2 r.2 c ((hcm c).mp hc)
    rw [this, product_single, List.map_map]
    rfl
  · intro grad P
    refine ⟨?_, ?_⟩
    · rw [hgrid]
      simp only [gridSel, if_true, hD2]
    · rw [hgrid]
      simp only [gridSel, if_true, Bool.false_eq_true, if_false]
  · intro t htm r hreg
    obtain hT := hD t.2 ⟨r.1, r.2⟩ hreg
    haveI : Nonempty (RevTruthy Rev.Coord) := ⟨.b false⟩
    choose! valid V' G' a1 a2 a3 a4 a5 using hT
    obtain ⟨d, h1, h2⟩ := facc_diff (e := axisOf) (x0 := r) ⟨E, F.fin tol, F.fin patch, ap, kw⟩ (ws := cwalls _ walls) f V' G' cs
      (fun c hc i hi => by simpa [cwalls] using ((hcm c).mp hc).1.1 i hi)
      (fun c hc => ⟨valid c, a1 c ((hcm c).mp hc), a2 c ((hcm c).mp hc), a4 c ((hcm c).mp hc)⟩) (Differentiates.const (e := axisOf) (x0 := r) 0)
    have e1 : D t r = d := by
      have := hD1 t r
      rw [F.zero_eq, h1] at this
      exact (Except.ok.inj this).symm
    have h3 : Differentiates axisOf r d (value t) := by
      refine h2.congr (Eventually.of_forall fun q => ?_)
      simp only [zero_add, value]
      congr 1
      refine List.map_congr_left fun c hc => ?_
      rw [a3 c ((hcm c).mp hc), a5 c ((hcm c).mp hc)]
    obtain ⟨-, v', h4, h5⟩ := h3
    refine ⟨v', h4, ?_⟩
    simp only [e1, Rev.grad, F.one_eq, h5, axisOf, one_mul]
    rfl

/-- The values and the gradients of a grid of transmitters, for a validity `V` that is a real number. -/
theorem transmitters_core {Key : Type} (G : GraphLib) (hG : GraphContract G) (tx rx : PyDict Pt) (hr : Distinct rx) (walls : List (Pt × Pt))
    (lo hi : ℤ) (hlo : 0 ≤ lo) (hex : ∃ c, InRange walls.length lo hi c) (split : Key → ℕ → List Key) (key : Option Key)
    (E : Env) (ap : Option Bool) (tol patch : ℝ) (kw : Rev.ActKw Rev.Coord) (kw' : ActKw) (hk : SameKw kw kw')
    (f : List (V2 (Rev Rev.Coord)) → Rev Rev.Coord) (pf : Scene.PathFun) (g : List Pt → ℝ) (hs : SameFun f pf) (hf : RealFun pf fun _ _ pts => g pts)
    (V : Pt → Pt → List ℤ → ℝ)
    (hV : ∀ t r c, InRange walls.length lo hi c → ∃ valid, (finitePath (rpath t r (wallsAt walls c)) (scores (wallsAt walls c) (rpath t r (wallsAt walls c))).sum).isValid E
      ((wallsOf walls).map Obj.interact) c ((wallsOf (wallsAt walls c)).map Obj.interact) (F.fin tol) (F.fin patch) ap kw' = .ok valid ∧ valid.toF = F.fin (V t r c))
    (Reg : Pt → Pt → Prop)
    (hD : ∀ t r, Reg t r → ∀ c, InRange walls.length lo hi c → ∃ (valid : RevTruthy Rev.Coord) (V' G' : ℝ × ℝ → ℝ),
      (Rev.imagePath (Rev.inputs ⟨F.fin t.x, F.fin t.y⟩) (dwallsAt (cwalls _ walls) c) (Rev.constV (V2.fin r))).isValid E (cwalls _ walls) c (dwallsAt (cwalls _ walls) c) (F.fin tol) (F.fin patch) ap kw = .ok valid ∧
      Differentiates axisOf (t.x, t.y) valid.toF V' ∧ (∀ q, V' q = V ⟨q.1, q.2⟩ r c) ∧
      Differentiates axisOf (t.x, t.y) (f (Rev.imagePath (Rev.inputs ⟨F.fin t.x, F.fin t.y⟩) (dwallsAt (cwalls _ walls) c) (Rev.constV (V2.fin r))).xys) G' ∧
      (∀ q, G' q = g (rpath ⟨q.1, q.2⟩ r (wallsAt walls c)))) :
    ∃ (value : String × Pt → ℝ × ℝ → ℝ) (gradient : String × Pt → ℝ × ℝ → V2 F),
      (∀ t : ℝ × ℝ, (wallScene [("tx", ⟨t.1, t.2⟩)] rx walls).accumulateOverPaths G split (imageMethod Key) { minOrder := lo, maxOrder := hi }
        ⟨E, F.fin tol, F.fin patch, ap, kw'⟩ key pf = .ok (rx.map fun r => ("tx", r.1, F.fin (value r t)))) ∧
      (∀ (grad : Bool) (P : Scene.Grid (ℝ × ℝ)),
        Rev.accumulateOnTransmittersGrid (wallScene tx rx walls) G { minOrder := lo, maxOrder := hi } ⟨E, F.fin tol, F.fin patch, ap, kw⟩ grad true f
          (gridX P) (gridY P) = .ok (rx.map fun r => (r.1, .both (P.map fun row => row.map fun p => F.fin (value r p)) (P.map fun row => row.map (gradient r)))) ∧
        Rev.accumulateOnTransmittersGrid (wallScene tx rx walls) G { minOrder := lo, maxOrder := hi } ⟨E, F.fin tol, F.fin patch, ap, kw⟩ true false f
          (gridX P) (gridY P) = .ok (rx.map fun r => (r.1, .gradient (P.map fun row => row.map (gradient r))))) ∧
      ∀ r ∈ rx, ∀ t : ℝ × ℝ, Reg ⟨t.1, t.2⟩ r.2 → GradientAt (value r) t (gradient r t) := by
  obtain ⟨cs, hcs, hcd, hcm, hne⟩ := cands_walls G hG tx rx walls lo hi hlo hex
  have hcs' : ∀ tx rx, (wallScene tx rx walls).allPathCandidates G { minOrder := lo, maxOrder := hi } = .ok cs := by
    intro tx' rx'
    have : (wallScene tx' rx' walls).objects = (wallScene tx rx walls).objects := by rw [wallScene_objects, wallScene_objects]
    rw [← hcs]
    unfold Scene.allPathCandidates
    rw [this]
  let value : String × Pt → ℝ × ℝ → ℝ := fun r p => (cs.map fun c => V ⟨p.1, p.2⟩ r.2 c * g (rpath ⟨p.1, p.2⟩ r.2 (wallsAt walls c))).sum
  have hR : ∀ (t : String × Pt) (p : ℝ × ℝ), ∃ d, Rev.facc ⟨E, F.fin tol, F.fin patch, ap, kw⟩ (cwalls _ walls) f (Rev.inputs ⟨F.fin p.1, F.fin p.2⟩)
      (Rev.constV (V2.fin t.2)) (.const 0) cs = .ok d ∧ d.val = F.fin (value t p) := by
    exact fun t p => facc_value rfl rfl walls hk hs hf (V ⟨p.1, p.2⟩ t.2) cs (fun c hc => ((hcm c).mp hc).1) fun c hc => hV _ _ c ((hcm c).mp hc)
  choose D hD1 hD2 using hR
  have hgrid := transmitters_grid G tx rx hr walls lo hi cs hcs ⟨E, F.fin tol, F.fin patch, ap, kw⟩ f D hD1
  refine ⟨value, fun t p => ⟨(D t p).grad .x, (D t p).grad .y⟩, ?_, ?_, ?_⟩
  · intro t
    have := accumulate_walls (Key := Key) G hG [("tx", ⟨t.1, t.2⟩)] rx (by simp [Distinct]) hr walls lo hi hlo cs (hcs' _ _) hcd hcm hne split key
      ⟨E, F.fin tol, F.fin patch, ap, kw'⟩ pf _ hf V fun t _ r _ c hc => hV t.2 r.2 c ((hcm c).mp hc)
    rw [this, single_product, List.map_map]
    rfl
  · intro grad P
    refine ⟨?_, ?_⟩
    · rw [hgrid]
      simp only [gridSel, if_true, hD2]
    · rw [hgrid]
      simp only [gridSel, if_true, Bool.false_eq_true, if_false]
  · intro t htm r hreg
    obtain hT := hD ⟨r.1, r.2⟩ t.2 hreg
    haveI : Nonempty (RevTruthy Rev.Coord) := ⟨.b false⟩
    choose! valid V' G' a1 a2 a3 a4 a5 using hT
    obtain ⟨d, h1, h2⟩ := facc_diff (e := axisOf) (x0 := r) ⟨E, F.fin tol, F.fin patch, ap, kw⟩ (ws := cwalls _ walls) f V' G' cs
      (fun c hc i hi => by simpa [cwalls] using ((hcm c).mp hc).1.1 i hi)
      (fun c hc => ⟨valid c, a1 c ((hcm c).mp hc), a2 c ((hcm c).mp hc), a4 c ((hcm c).mp hc)⟩) (Differentiates.const (e := axisOf) (x0 := r) 0)
    have e1 : D t r = d := by
      have := hD1 t r
      rw [F.zero_eq, h1] at this
      exact (Except.ok.inj this).symm
    have h3 : Differentiates axisOf r d (value t) := by
      refine h2.congr (Eventually.of_forall fun q => ?_)
      simp only [zero_add, value]
      congr 1
      refine List.map_congr_left fun c hc => ?_
      rw [a3 c ((hcm c).mp hc), a5 c ((hcm c).mp hc)]
    obtain ⟨-, v', h4, h5⟩ := h3
    refine ⟨v', h4, ?_⟩
    simp only [e1, Rev.grad, F.one_eq, h5, axisOf, one_mul]
    rfl

end DiffeRT2d
