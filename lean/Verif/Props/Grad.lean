import Verif.Lemmas.GradScene
import Verif.Lemmas.Grid

/-! # Properties C98 and C99: values and gradients of the differentiated program -/

namespace DiffeRT2d.Props
open Classical Spec Filter Topology

variable {ι X : Type} [NormedAddCommGroup X] [NormedSpace ℝ X] {e : ι → X} {x0 : X}

/-! ## Values -/

/-- The activation functions of the library and `received_power`, under differentiation, compute what they compute without it. -/
theorem C98_parts (a : F) (E : Env) (rCoef height : F) :
    SameKw (⟨a, Rev.sigmoid⟩ : Rev.ActKw ι) ⟨a, sigmoid⟩ ∧ SameKw (⟨a, Rev.hardSigmoid⟩ : Rev.ActKw ι) ⟨a, hardSigmoid⟩ ∧
    SameFun (Rev.receivedPower E rCoef height : List (V2 (Rev ι)) → Rev ι) fun t r path os =>
      receivedPower E t r path (os.map Obj.interact) rCoef height :=
  ⟨fun _ => rfl, fun _ => rfl, fun xys loss t r os => Rev.val_receivedPower rCoef height xys loss t r (os.map Obj.interact)⟩

theorem constWalls_eq (objects : List Obj) (ws : List Wall) (h : objects = ws.map Obj.wall) :
    Rev.constWalls objects = .ok (ws.map fun w => ⟨Rev.constV w.origin, Rev.constV w.dest⟩) := by
  have : (ws.map Obj.wall).mapM Rev.onlyWall = some ws := by
    clear h
    induction ws with
    | nil => rfl
    | cons w ws ih => simp [List.mapM_cons, ih, Rev.onlyWall]
  unfold Rev.constWalls
  rw [h, this]

theorem forget_sel {grad vag : Bool} {z : Scene.Grid F} {dz dz' : Scene.Grid (V2 F)} (h : gridShape dz = gridShape dz') :
    forgetGradients (gridSel grad vag z dz) = forgetGradients (gridSel grad vag z dz') := by
  have : (dz.map fun row => row.map fun _ => (⟨F.fin 0, F.fin 0⟩ : V2 F)) = dz'.map fun row => row.map fun _ => ⟨F.fin 0, F.fin 0⟩ := by
    unfold gridShape at h
    have e : ∀ l : Scene.Grid (V2 F), (l.map fun row => row.map fun _ => (⟨F.fin 0, F.fin 0⟩ : V2 F)) = (l.map List.length).map fun n => List.replicate n ⟨F.fin 0, F.fin 0⟩ := by
      intro l; simp [List.map_map, Function.comp_def]
    rw [e, e, h]
  cases grad <;> cases vag <;> simp only [gridSel, forgetGradients, this, if_true, Bool.false_eq_true, if_false]

theorem mapGrid_forget (gradOp : (V2 F → F) → V2 F → V2 F) (grad vag : Bool) (f : V2 (Rev Rev.Coord) → Except PyErr (Rev Rev.Coord))
    (f' : V2 F → Except PyErr F) (h : ∀ p, (f (Rev.inputs p)).map Rev.val = f' p) (grid : Scene.Grid (V2 F)) :
    (Rev.mapGrid grad vag f grid).map forgetGradients = (Scene.mapGrid gradOp grad vag f' grid).map forgetGradients := by
  have e1 : ∀ row : List (V2 F), (row.mapM (Rev.valueAndGrad f)).map (List.map Prod.fst) = row.mapM f' := by
    intro row
    rw [← mapM_map]
    congr 1
    funext p
    rw [← h p]
    unfold Rev.valueAndGrad
    cases f (Rev.inputs p) <;> rfl
  have e2 : (List.mapM (fun row : List (V2 F) => row.mapM (Rev.valueAndGrad f)) grid).map (List.map (List.map Prod.fst)) = List.mapM (fun row : List (V2 F) => row.mapM f') grid := by
    rw [← mapM_map]
    congr 1
    funext row
    exact e1 row
  unfold Rev.mapGrid Scene.mapGrid
  rw [← e2]
  cases ho : List.mapM (fun row : List (V2 F) => row.mapM (Rev.valueAndGrad f)) grid with
  | error err => rfl
  | ok out =>
    have hs : gridShape out = gridShape grid := (mapM_grid _ _ _ ho).1
    have := forget_sel (grad := grad) (vag := vag) (z := out.map fun row => row.map Prod.fst) (dz := out.map fun row => row.map Prod.snd)
      (dz' := grid.map fun row => row.map (gradOp fun x => match f' x with
        | .ok y => y
        | .error _ => F.nan)) (by
        unfold gridShape at hs ⊢
        simpa [List.map_map, Function.comp_def] using hs)
    cases grad <;> cases vag <;> exact congrArg Except.ok this

theorem mapM_forget {α : Type} (ps : List α) (name : α → String) (f g : α → Except PyErr Scene.GridOut)
    (h : ∀ p, (f p).map forgetGradients = (g p).map forgetGradients) :
    (ps.mapM fun p => (f p).bind fun out => Except.ok (name p, out)).map (List.map fun r : String × Scene.GridOut => (r.1, forgetGradients r.2)) =
      (ps.mapM fun p => (g p).bind fun out => Except.ok (name p, out)).map (List.map fun r : String × Scene.GridOut => (r.1, forgetGradients r.2)) := by
  rw [← mapM_map, ← mapM_map]
  congr 1
  funext p
  have hp := h p
  cases hf : f p <;> cases hg : g p <;> rw [hf, hg] at hp <;> simp_all [Except.map, Bind.bind, Except.bind, Pure.pure, Except.pure]

theorem cands_keys {Key : Type} (split : Key → ℕ → List Key) (hsp : SplitCount split) (key : Option Key) (cs : List (List ℤ)) :
    (cs.zip (Scene.gridKeys split key cs.length)).map Prod.fst = cs := by
  rw [List.map_fst_zip]
  rw [show (Scene.gridKeys split key cs.length).length = cs.length by
    unfold Scene.gridKeys
    cases key with
    | none => simp
    | some k => simp [hsp k cs.length]]

/-- **C98.** Differentiation does not change values: with `grad=True` or `value_and_grad=True`, the accumulation on a grid of
receivers raises the same exceptions and returns the same values, in arrays of the same shapes, as without differentiation, for
every scene of walls, every position (NaN and infinities included), every activation and every function of the path. -/
theorem C98_receivers {Key : Type} (s : Scene) (ws : List Wall) (hs : s.objects = ws.map Obj.wall) (G : GraphLib) (o : Scene.Orders)
    (E : Env) (tol patch : F) (ap : Option Bool) (kw : Rev.ActKw Rev.Coord) (kw' : ActKw) (hk : SameKw kw kw') (grad vag : Bool)
    (f : List (V2 (Rev Rev.Coord)) → Rev Rev.Coord) (g : Scene.PathFun) (hf : SameFun f g) (split : Key → ℕ → List Key) (hsp : SplitCount split)
    (key : Option Key) (gradOp : (V2 F → F) → V2 F → V2 F) (X Y : Scene.Grid F) :
    (Rev.accumulateOnReceiversGrid s G o ⟨E, tol, patch, ap, kw⟩ grad vag f X Y).map (List.map fun r => (r.1, forgetGradients r.2)) =
      (s.accumulateOnReceiversGrid G split (imageMethod Key) o ⟨E, tol, patch, ap, kw'⟩ key gradOp grad vag g X Y).map
        (List.map fun r => (r.1, forgetGradients r.2)) := by
  have hw : s.withReceivers [("rx", ⟨0, 0⟩)] = .ok { s with receivers := .fromMapping [("rx", ⟨0, 0⟩)] } := by
    unfold Scene.withReceivers Scene.bindKwargs
    rw [if_neg (by simp)]; rfl
  unfold Rev.accumulateOnReceiversGrid Scene.accumulateOnReceiversGrid
  rw [hw]
  simp only [Bind.bind, Except.bind]
  rw [constWalls_eq _ ws (show ({ s with receivers := .fromMapping [("rx", ⟨0, 0⟩)] } : Scene).objects = _ from hs)]
  cases Scene.allPathCandidates { s with receivers := .fromMapping [("rx", ⟨0, 0⟩)] } G o with
  | error err => rfl
  | ok cs =>
    cases Scene.allTransmitterReceiverPairs { s with receivers := .fromMapping [("rx", ⟨0, 0⟩)] } with
    | error err => rfl
    | ok pairs =>
      cases Scene.dstack X Y with
      | error err => rfl
      | ok grid =>
        refine mapM_forget pairs (fun pair => pair.1.1) _ _ fun pair => mapGrid_forget gradOp grad vag _ _ (fun p => ?_) grid
        have := Rev.val_facc hk { s with receivers := .fromMapping [("rx", ⟨0, 0⟩)] } (ws.map fun w => ⟨Rev.constV w.origin, Rev.constV w.dest⟩)
          (by rw [List.map_map]; exact hs) hf tol patch (Rev.constV pair.1.2) (Rev.inputs p) (Rev.const 0)
          (E := E) (ap := ap) (cs.zip (Scene.gridKeys split key cs.length))
        rw [cands_keys split hsp] at this
        exact this

/-- **C98.** The same on a grid of transmitters. -/
theorem C98_transmitters {Key : Type} (s : Scene) (ws : List Wall) (hs : s.objects = ws.map Obj.wall) (G : GraphLib) (o : Scene.Orders)
    (E : Env) (tol patch : F) (ap : Option Bool) (kw : Rev.ActKw Rev.Coord) (kw' : ActKw) (hk : SameKw kw kw') (grad vag : Bool)
    (f : List (V2 (Rev Rev.Coord)) → Rev Rev.Coord) (g : Scene.PathFun) (hf : SameFun f g) (split : Key → ℕ → List Key) (hsp : SplitCount split)
    (key : Option Key) (gradOp : (V2 F → F) → V2 F → V2 F) (X Y : Scene.Grid F) :
    (Rev.accumulateOnTransmittersGrid s G o ⟨E, tol, patch, ap, kw⟩ grad vag f X Y).map (List.map fun r => (r.1, forgetGradients r.2)) =
      (s.accumulateOnTransmittersGrid G split (imageMethod Key) o ⟨E, tol, patch, ap, kw'⟩ key gradOp grad vag g X Y).map
        (List.map fun r => (r.1, forgetGradients r.2)) := by
  have hw : s.withTransmitters [("tx", ⟨0, 0⟩)] = .ok { s with transmitters := .fromMapping [("tx", ⟨0, 0⟩)] } := by
    unfold Scene.withTransmitters Scene.bindKwargs
    rw [if_neg (by simp)]; rfl
  unfold Rev.accumulateOnTransmittersGrid Scene.accumulateOnTransmittersGrid
  rw [hw]
  simp only [Bind.bind, Except.bind]
  rw [constWalls_eq _ ws (show ({ s with transmitters := .fromMapping [("tx", ⟨0, 0⟩)] } : Scene).objects = _ from hs)]
  cases Scene.allPathCandidates { s with transmitters := .fromMapping [("tx", ⟨0, 0⟩)] } G o with
  | error err => rfl
  | ok cs =>
    cases Scene.allTransmitterReceiverPairs { s with transmitters := .fromMapping [("tx", ⟨0, 0⟩)] } with
    | error err => rfl
    | ok pairs =>
      cases Scene.dstack X Y with
      | error err => rfl
      | ok grid =>
        refine mapM_forget pairs (fun pair => pair.2.1) _ _ fun pair => mapGrid_forget gradOp grad vag _ _ (fun p => ?_) grid
        have := Rev.val_facc hk { s with transmitters := .fromMapping [("tx", ⟨0, 0⟩)] } (ws.map fun w => ⟨Rev.constV w.origin, Rev.constV w.dest⟩)
          (by rw [List.map_map]; exact hs) hf tol patch (Rev.inputs p) (Rev.constV pair.2.2) (Rev.const 0)
          (E := E) (ap := ap) (cs.zip (Scene.gridKeys split key cs.length))
        rw [cands_keys split hsp] at this
        exact this

/-! ## Gradients -/

theorem guardedLength_eq (eps : ℝ) (pts : List Pt) : guardedLength eps pts = plen eps pts := by
  match pts with
  | [] => rfl
  | [_] => rfl
  | a :: b :: pts =>
    rw [guardedLength, plen, guardedLength_eq eps (b :: pts)]
    congr 1
    unfold eucl nrm
    congr 1
    simp
    ring

theorem realFun_powerAlong (E : Env) (c height : ℝ) (hh : 0 < height) : RealFun (powerFun E c height) fun _ _ pts => powerAlong E.eps c height pts := by
  simp only [powerAlong, guardedLength_eq]
  exact realFun_power E c height hh

/-- `received_power` is differentiated rightly, unless some step of the path is the opposite of the guard of `path_length`. -/
theorem C99_power (E : Env) (c height : ℝ) (hh : 0 < height) :
    DifferentiatesFun (OffGuard E.eps) (Rev.receivedPower E (F.fin c) (F.fin height) : List (V2 (Rev ι)) → Rev ι) (powerAlong E.eps c height) := by
  have e0 : powerAlong E.eps c height = fun pts => c ^ (pts.length - 2) / (height ^ 2 + plen E.eps pts ^ 2) := by
    funext pts; rw [powerAlong, guardedLength_eq]
  rw [e0]
  intro X _ _ e x0 ps pts h2 h hq
  have hl := h.length_eq
  have hL := pathLength_diff E h hq
  have hd := (Differentiates.const (e := e) (x0 := x0) (c ^ (pts.length - 2))).div
    ((Differentiates.const (e := e) (x0 := x0) (height * height)).add (hL.mul hL)) (by nlinarith [mul_pos hh hh, mul_self_nonneg (plen E.eps (pts.map (· x0)))])
  unfold Rev.receivedPower
  have e1 : F.ipow (F.fin c) ((ps.length : ℤ) - 2) = F.fin (c ^ (pts.length - 2)) := by
    have : ((ps.length : ℤ) - 2) = ((pts.length - 2 : ℕ) : ℤ) := by omega
    rw [this]
    simp [F.ipow, npow_fin]
  simp only [e1, F.fin_mul]
  refine hd.congr (Eventually.of_forall fun x => ?_)
  simp only [List.length_map]
  ring

/-- A turn of the loop in hard mode. -/
theorem turn_hard {E : Env} {ap : Option Bool} (hh : Hard E ap) {kw : Rev.ActKw ι} {kw' : ActKw} (hk : SameKw kw kw')
    {tx rx : V2 (Rev ι)} {t r : X → Pt} (ht : DifferentiatesPt e x0 tx t) (hr : DifferentiatesPt e x0 rx r)
    {ws : List (Rev.RWall ι)} {walls : List (X → Pt × Pt)} (hw : List.Forall₂ (DifferentiatesWall e x0) ws walls)
    (f : List (V2 (Rev ι)) → Rev ι) (g : List Pt → ℝ) (Q : List Pt → Prop) (hg : DifferentiatesFun Q f g)
    (tol patch : ℝ) (hp : -(1 / 2) < patch) {c : List ℤ} (hc : IsCandidate walls.length c)
    (hreg : ∀ pts loss, traceImage (t x0) (wallsAt (wallsX walls x0) c) (r x0) = .ok (finitePath pts loss) →
      RegularPath (wallsX walls x0) c pts ∧ Generic (wallsAt (wallsX walls x0) c) (wallsX walls x0) c pts loss tol patch ∧ Q pts) :
    ∃ valid, (Rev.imagePath tx (dwallsAt ws c) rx).isValid E ws c (dwallsAt ws c) (F.fin tol) (F.fin patch) ap kw = .ok valid ∧
      Differentiates e x0 valid.toF (fun x => if HardOk ((wallsM walls c).map (· x)) (wallsX walls x) c ((mpath t r (wallsM walls c)).map (· x))
        (scores ((wallsM walls c).map (· x)) ((mpath t r (wallsM walls c)).map (· x))).sum tol patch then 1 else 0) ∧
      Differentiates e x0 (f (Rev.imagePath tx (dwallsAt ws c) rx).xys) (fun x => g ((mpath t r (wallsM walls c)).map (· x))) := by
  obtain ⟨q1, q2, q3⟩ := hreg _ _ (trace_moves t r walls c x0)
  have hne : dwallsAt ws c ≠ [] → c ≠ [] := by rintro h rfl; exact h rfl
  have hwc : List.Forall₂ (DifferentiatesWall e x0) (dwallsAt ws c) (wallsM walls c) := forall₂_at hw c
  have hm := dpath_diff ht hr hwc fun h => by rw [← mpath_at]; exact q1.moves (hne h)
  have hmv : ∀ {p : X → Pt} {a : V2 (Rev ι)}, DifferentiatesPt e x0 a p → MovesAt p x0 := fun h => ⟨h.1.continuousAt, h.2.continuousAt⟩
  have hwm : ∀ w ∈ walls, WallMoves w x0 := by
    intro w hw'
    obtain ⟨w', -, h⟩ := forall₂_mem hw hw'
    exact ⟨hmv h.1, hmv h.2.1, h.2.2⟩
  have hmm : ∀ p ∈ mpath t r (wallsM walls c), MovesAt p x0 := by
    intro p hp'
    obtain ⟨a, -, h⟩ := forall₂_mem hm hp'
    exact hmv h
  have hl := scores_moves (wallsM_moves hwm c) hmm fun h => q1.moves (by rintro rfl; exact h rfl)
  rw [wallsAt_X] at q2
  have hst := hardOk_stable hp (valid_length hc t r) (wallsM_moves hwm c) hwm hmm (wallsM_length hc) hl q1 q2
  refine ⟨_, dvalid_hard hh hk ht hr hw hc tol patch, ?_, hg X e x0 _ _ ?_ hm q3⟩
  · have := Differentiates.const (e := e) (x0 := x0) (if HardOk ((wallsM walls c).map (· x0)) (wallsX walls x0) c ((mpath t r (wallsM walls c)).map (· x0))
        (scores ((wallsM walls c).map (· x0)) ((mpath t r (wallsM walls c)).map (· x0))).sum tol patch then 1 else 0)
    have h2 := this.congr (g := fun x => if HardOk ((wallsM walls c).map (· x)) (wallsX walls x) c ((mpath t r (wallsM walls c)).map (· x))
        (scores ((wallsM walls c).map (· x)) ((mpath t r (wallsM walls c)).map (· x))).sum tol patch then 1 else 0) (by
      filter_upwards [hst] with x hx
      have hx' : HardOk ((wallsM walls c).map (· x)) (wallsX walls x) c ((mpath t r (wallsM walls c)).map (· x))
        (scores ((wallsM walls c).map (· x)) ((mpath t r (wallsM walls c)).map (· x))).sum tol patch ↔ _ := hx
      simp only [hx']
      rfl)
    by_cases hok : HardOk ((wallsM walls c).map (· x0)) (wallsX walls x0) c ((mpath t r (wallsM walls c)).map (· x0))
        (scores ((wallsM walls c).map (· x0)) ((mpath t r (wallsM walls c)).map (· x0))).sum tol patch
    · simp only [hok, decide_true, RevTruthy.toF, F.one_eq]
      rw [if_pos hok] at h2
      exact h2
    · simp only [hok, decide_false, RevTruthy.toF, F.zero_eq]
      rw [if_neg hok] at h2
      exact h2
  · rw [hm.length_eq, mpath_length]; omega

/-- **C99.** In hard mode, at regular positions without ties, what `jax.grad` returns for the accumulation over path candidates is its
derivative: with respect to any parameters `X`, on which the ends and the walls of the scene depend differentiably. -/
theorem C99_program {Key : Type} (tx rx : V2 (Rev ι)) (t r : X → Pt) (ht : DifferentiatesPt e x0 tx t) (hr : DifferentiatesPt e x0 rx r)
    (ws : List (Rev.RWall ι)) (walls : List (X → Pt × Pt)) (hw : List.Forall₂ (DifferentiatesWall e x0) ws walls)
    (f : List (V2 (Rev ι)) → Rev ι) (pf : Scene.PathFun) (g : List Pt → ℝ) (hf : RealFun pf fun _ _ pts => g pts) (Q : List Pt → Prop)
    (hg : DifferentiatesFun Q f g) (E : Env) (ap : Option Bool) (hh : Hard E ap) (kw : Rev.ActKw ι) (kw' : ActKw) (hk : SameKw kw kw')
    (tol patch : ℝ) (hp : -(1 / 2) < patch) (cs : List (List ℤ)) (hc : ∀ c ∈ cs, IsCandidate walls.length c)
    (hreg : ∀ c ∈ cs, ∀ pts loss, traceImage (t x0) (wallsAt (wallsX walls x0) c) (r x0) = .ok (finitePath pts loss) →
      RegularPath (wallsX walls x0) c pts ∧ Generic (wallsAt (wallsX walls x0) c) (wallsX walls x0) c pts loss tol patch ∧ Q pts) :
    ∃ (d : Rev ι) (value : X → ℝ), Rev.facc ⟨E, F.fin tol, F.fin patch, ap, kw⟩ ws f tx rx (.const 0) cs = .ok d ∧ Differentiates e x0 d value ∧
      ∀ (x : X) (s : Scene), s.objects = wallsOf (wallsX walls x) → ∀ keys : List (Option Key), keys.length = cs.length →
        s.facc (imageMethod Key) ⟨E, F.fin tol, F.fin patch, ap, kw'⟩ pf (V2.fin (t x)) (V2.fin (r x)) 0 (cs.zip keys) = .ok (F.fin (value x)) := by
  have hlen := hw.length_eq
  obtain ⟨d, h1, h2⟩ := facc_diff ⟨E, F.fin tol, F.fin patch, ap, kw⟩ f _ _ cs (fun c hc' i hi => by rw [hlen]; exact (hc c hc').1 i hi)
    (fun c hc' => turn_hard hh hk ht hr hw f g Q hg tol patch hp (hc c hc') (hreg c hc')) (Differentiates.const (e := e) (x0 := x0) 0)
  refine ⟨d, _, by rw [F.zero_eq]; exact h1, h2, fun x s hs keys hkeys => ?_⟩
  have hfst : (cs.zip keys).map Prod.fst = cs := by rw [List.map_fst_zip]; omega
  have := facc_real (Key := Key) s (wallsX walls x) hs ⟨E, F.fin tol, F.fin patch, ap, kw'⟩ pf _ hf (t x) (r x)
    (fun c => if HardOk ((wallsM walls c).map (· x)) (wallsX walls x) c ((mpath t r (wallsM walls c)).map (· x))
        (scores ((wallsM walls c).map (· x)) ((mpath t r (wallsM walls c)).map (· x))).sum tol patch then 1 else 0) (cs.zip keys) (by
      rw [hfst]; intro c hc'; simpa [wallsX] using hc c hc') (by
      rw [hfst]; intro c hc'
      rw [wallsAt_X, ← mpath_at]
      refine ⟨_, isValid_hardOk hh kw' _ _ c _ _ tol patch (by simp [valid_length (hc c hc')]), ?_⟩
      by_cases hok : HardOk ((wallsM walls c).map (· x)) (wallsX walls x) c ((mpath t r (wallsM walls c)).map (· x))
        (scores ((wallsM walls c).map (· x)) ((mpath t r (wallsM walls c)).map (· x))).sum tol patch <;> simp [hok, Truthy.toF]) 0
  rw [F.zero_eq, this, hfst]
  simp only [wallsAt_X, ← mpath_at]

omit [NormedAddCommGroup X] [NormedSpace ℝ X] in
theorem wallsX_const (walls : List (Pt × Pt)) (x : X) : wallsX (walls.map fun w _ => w) x = walls := by
  simp [wallsX, Function.comp_def]

omit [NormedAddCommGroup X] [NormedSpace ℝ X] in
theorem wallsM_const (walls : List (Pt × Pt)) (c : List ℤ) (x : X) : (wallsM (walls.map fun w (_ : X) => w) c).map (· x) = wallsAt walls c := by
  rw [← wallsAt_X, wallsX_const]

/-- **C99.** In hard mode, the gradients that the accumulation on a grid of receivers returns with `grad=True` or
`value_and_grad=True` are the gradients of the accumulated value with respect to the position of the receiver, at every grid point where, for
every transmitter and path candidate, the traced path is regular, without ties, and `fun` is differentiated rightly. The value at any
position is what `accumulate_over_paths` returns with the receiver there. -/
theorem C99_receivers {Key : Type} (G : GraphLib) (hG : GraphContract G) (tx rx : PyDict Pt) (ht : Distinct tx) (walls : List (Pt × Pt))
    (hw : ∀ w ∈ walls, w.1 ≠ w.2) (lo hi : ℤ) (hlo : 0 ≤ lo) (hex : ∃ c, InRange walls.length lo hi c) (split : Key → ℕ → List Key) (key : Option Key)
    (E : Env) (ap : Option Bool) (hh : Hard E ap) (tol patch : ℝ) (hp : -(1 / 2) < patch) (kw : Rev.ActKw Rev.Coord) (kw' : ActKw) (hk : SameKw kw kw')
    (f : List (V2 (Rev Rev.Coord)) → Rev Rev.Coord) (pf : Scene.PathFun) (hs : SameFun f pf) (g : List Pt → ℝ) (hf : RealFun pf fun _ _ pts => g pts)
    (Q : List Pt → Prop) (hg : DifferentiatesFun Q f g) :
    ∃ (value : String × Pt → ℝ × ℝ → ℝ) (gradient : String × Pt → ℝ × ℝ → V2 F),
      (∀ r : ℝ × ℝ, (wallScene tx [("rx", ⟨r.1, r.2⟩)] walls).accumulateOverPaths G split (imageMethod Key) { minOrder := lo, maxOrder := hi }
        ⟨E, F.fin tol, F.fin patch, ap, kw'⟩ key pf = .ok (tx.map fun t => (t.1, "rx", F.fin (value t r)))) ∧
      (∀ (grad : Bool) (P : Scene.Grid (ℝ × ℝ)),
        Rev.accumulateOnReceiversGrid (wallScene tx rx walls) G { minOrder := lo, maxOrder := hi } ⟨E, F.fin tol, F.fin patch, ap, kw⟩ grad true f
          (gridX P) (gridY P) = .ok (tx.map fun t => (t.1, .both (P.map fun row => row.map fun p => F.fin (value t p)) (P.map fun row => row.map (gradient t)))) ∧
        Rev.accumulateOnReceiversGrid (wallScene tx rx walls) G { minOrder := lo, maxOrder := hi } ⟨E, F.fin tol, F.fin patch, ap, kw⟩ true false f
          (gridX P) (gridY P) = .ok (tx.map fun t => (t.1, .gradient (P.map fun row => row.map (gradient t))))) ∧
      ∀ t ∈ tx, ∀ r : ℝ × ℝ, (∀ c, InRange walls.length lo hi c → ∀ pts loss, traceImage t.2 (wallsAt walls c) ⟨r.1, r.2⟩ = .ok (finitePath pts loss) →
          RegularPath walls c pts ∧ Generic (wallsAt walls c) walls c pts loss tol patch ∧ Q pts) →
        GradientAt (value t) r (gradient t r) := by
  refine receivers_core G hG tx rx ht walls lo hi hlo hex split key E ap tol patch kw kw' hk f pf g hs hf
    (fun t r c => if HardOk (wallsAt walls c) walls c (rpath t r (wallsAt walls c)) (scores (wallsAt walls c) (rpath t r (wallsAt walls c))).sum tol patch then 1 else 0) ?_
    (fun t r => ∀ c, InRange walls.length lo hi c → ∀ pts loss, traceImage t (wallsAt walls c) r = .ok (finitePath pts loss) →
          RegularPath walls c pts ∧ Generic (wallsAt walls c) walls c pts loss tol patch ∧ Q pts) ?_
  · intro t r c hc
    refine ⟨_, isValid_hardOk hh kw' _ _ c _ _ tol patch (by rw [rpath_length, wallsAt_length hc.1]), ?_⟩
    by_cases hok : HardOk (wallsAt walls c) walls c (rpath t r (wallsAt walls c)) (scores (wallsAt walls c) (rpath t r (wallsAt walls c))).sum tol patch <;>
      simp [hok, Truthy.toF]
  · intro t r hreg c hc
    obtain ⟨valid, h1, h2, h3⟩ := turn_hard (e := axisOf) (x0 := (r.x, r.y)) hh hk (.const t) (inputs_diff (r.x, r.y)) (cwalls_diff walls hw) f g Q hg tol patch hp (c := c)
      (by simpa using hc.1) (by rw [wallsX_const]; exact hreg c hc)
    refine ⟨valid, _, _, h1, h2, fun q => ?_, h3, fun q => ?_⟩
    · simp only [wallsM_const, wallsX_const, mpath_at]
    · simp only [wallsM_const, mpath_at]

/-- **C99.** The same on a grid of transmitters. -/
theorem C99_transmitters {Key : Type} (G : GraphLib) (hG : GraphContract G) (tx rx : PyDict Pt) (hr : Distinct rx) (walls : List (Pt × Pt))
    (hw : ∀ w ∈ walls, w.1 ≠ w.2) (lo hi : ℤ) (hlo : 0 ≤ lo) (hex : ∃ c, InRange walls.length lo hi c) (split : Key → ℕ → List Key) (key : Option Key)
    (E : Env) (ap : Option Bool) (hh : Hard E ap) (tol patch : ℝ) (hp : -(1 / 2) < patch) (kw : Rev.ActKw Rev.Coord) (kw' : ActKw) (hk : SameKw kw kw')
    (f : List (V2 (Rev Rev.Coord)) → Rev Rev.Coord) (pf : Scene.PathFun) (hs : SameFun f pf) (g : List Pt → ℝ) (hf : RealFun pf fun _ _ pts => g pts)
    (Q : List Pt → Prop) (hg : DifferentiatesFun Q f g) :
    ∃ (value : String × Pt → ℝ × ℝ → ℝ) (gradient : String × Pt → ℝ × ℝ → V2 F),
      (∀ t : ℝ × ℝ, (wallScene [("tx", ⟨t.1, t.2⟩)] rx walls).accumulateOverPaths G split (imageMethod Key) { minOrder := lo, maxOrder := hi }
        ⟨E, F.fin tol, F.fin patch, ap, kw'⟩ key pf = .ok (rx.map fun r => ("tx", r.1, F.fin (value r t)))) ∧
      (∀ (grad : Bool) (P : Scene.Grid (ℝ × ℝ)),
        Rev.accumulateOnTransmittersGrid (wallScene tx rx walls) G { minOrder := lo, maxOrder := hi } ⟨E, F.fin tol, F.fin patch, ap, kw⟩ grad true f
          (gridX P) (gridY P) = .ok (rx.map fun r => (r.1, .both (P.map fun row => row.map fun p => F.fin (value r p)) (P.map fun row => row.map (gradient r)))) ∧
        Rev.accumulateOnTransmittersGrid (wallScene tx rx walls) G { minOrder := lo, maxOrder := hi } ⟨E, F.fin tol, F.fin patch, ap, kw⟩ true false f
          (gridX P) (gridY P) = .ok (rx.map fun r => (r.1, .gradient (P.map fun row => row.map (gradient r))))) ∧
      ∀ r ∈ rx, ∀ t : ℝ × ℝ, (∀ c, InRange walls.length lo hi c → ∀ pts loss, traceImage ⟨t.1, t.2⟩ (wallsAt walls c) r.2 = .ok (finitePath pts loss) →
          RegularPath walls c pts ∧ Generic (wallsAt walls c) walls c pts loss tol patch ∧ Q pts) →
        GradientAt (value r) t (gradient r t) := by
  refine transmitters_core G hG tx rx hr walls lo hi hlo hex split key E ap tol patch kw kw' hk f pf g hs hf
    (fun t r c => if HardOk (wallsAt walls c) walls c (rpath t r (wallsAt walls c)) (scores (wallsAt walls c) (rpath t r (wallsAt walls c))).sum tol patch then 1 else 0) ?_
    (fun t r => ∀ c, InRange walls.length lo hi c → ∀ pts loss, traceImage t (wallsAt walls c) r = .ok (finitePath pts loss) →
          RegularPath walls c pts ∧ Generic (wallsAt walls c) walls c pts loss tol patch ∧ Q pts) ?_
  · intro t r c hc
    refine ⟨_, isValid_hardOk hh kw' _ _ c _ _ tol patch (by rw [rpath_length, wallsAt_length hc.1]), ?_⟩
    by_cases hok : HardOk (wallsAt walls c) walls c (rpath t r (wallsAt walls c)) (scores (wallsAt walls c) (rpath t r (wallsAt walls c))).sum tol patch <;>
      simp [hok, Truthy.toF]
  · intro t r hreg c hc
    obtain ⟨valid, h1, h2, h3⟩ := turn_hard (e := axisOf) (x0 := (t.x, t.y)) hh hk (inputs_diff (t.x, t.y)) (.const r) (cwalls_diff walls hw) f g Q hg tol patch hp (c := c)
      (by simpa using hc.1) (by rw [wallsX_const]; exact hreg c hc)
    refine ⟨valid, _, _, h1, h2, fun q => ?_, h3, fun q => ?_⟩
    · simp only [wallsM_const, wallsX_const, mpath_at]
    · simp only [wallsM_const, mpath_at]

/-! ## A concrete case -/

/-- One wall, the transmitter at `(0, 1)` and the receiver at `(2, 1)`: the paths of orders 0 and 1 are regular and generic. -/
theorem oneWall_regular (E : Env) (he : 0 < E.eps) (c : List ℤ) (hc : InRange 1 0 1 c) (pts : List Pt) (loss : ℝ)
    (htr : traceImage ⟨0, 1⟩ (wallsAt [(⟨0, 0⟩, ⟨3, 0⟩)] c) ⟨2, 1⟩ = .ok (finitePath pts loss)) :
    RegularPath [(⟨0, 0⟩, ⟨3, 0⟩)] c pts ∧ Generic (wallsAt [(⟨0, 0⟩, ⟨3, 0⟩)] c) [(⟨0, 0⟩, ⟨3, 0⟩)] c pts loss (1 / 100) 0 ∧ OffGuard E.eps pts := by
  rcases ex_trace c hc pts loss htr with ⟨rfl, rfl, rfl⟩ | ⟨rfl, rfl, rfl⟩
  · refine ⟨⟨fun h => absurd rfl h, ?_⟩, ⟨by simp [wallsAt], ?_, by norm_num⟩, ?_⟩
    · intro i j w a b ha hb hj _
      have hi : i = 0 := by rcases i with _ | _ | i <;> simp_all
      subst hi
      have hj0 : j = 0 := by rcases j with _ | j <;> simp_all
      subst hj0
      simp at ha hb hj
      subst ha hb hj
      rintro ⟨⟨s, hs⟩, -⟩
      have := congrArg V2.y hs
      simp [pointAt] at this
    · intro i j w a b ha hb hj _
      left
      have hi : i = 0 := by rcases i with _ | _ | i <;> simp_all
      subst hi
      have hj0 : j = 0 := by rcases j with _ | j <;> simp_all
      subst hj0
      simp at ha hb hj
      subst ha hb hj
      norm_num [Parallel, pointAt]
    · intro i a b ha hb h
      have hi : i = 0 := by rcases i with _ | _ | i <;> simp_all
      subst hi
      simp at ha hb
      subst ha hb
      have := congrArg V2.x h
      simp only at this
      linarith
  · refine ⟨⟨fun _ => noPause_of_specular example_specular (by simp), ?_⟩, oneWall_generic, ?_⟩
    · intro i j w a b ha hb hj hadj
      exfalso; apply hadj
      have hj0 : j = 0 := by
        cases j with
        | zero => rfl
        | succ j => simp at hj
      subst hj0
      match i, hb with
      | 0, _ => exact .inl rfl
      | 1, _ => exact .inr ⟨0, rfl, rfl⟩
      | i + 2, hb => simp at hb
    · intro i a b ha hb h
      have hx := congrArg V2.x h
      match i, ha, hb with
      | 0, ha, hb => simp at ha hb; subst ha hb; simp only at hx; linarith
      | 1, ha, hb => simp at ha hb; subst ha hb; simp only at hx; linarith
      | i + 2, _, hb => simp at hb

/-- Non-vacuity of C99: in the scene with one wall, the gradient of the received power, with respect to the receiver, is right at `(2, 1)`. -/
example (E : Env) (he : 0 < E.eps) (rx : PyDict Pt) (a : F) : ∃ (value : String × Pt → ℝ × ℝ → ℝ) (gradient : String × Pt → ℝ × ℝ → V2 F),
    (∀ P : Scene.Grid (ℝ × ℝ), Rev.accumulateOnReceiversGrid (wallScene [("tx", ⟨0, 1⟩)] rx [(⟨0, 0⟩, ⟨3, 0⟩)]) refLib { minOrder := 0, maxOrder := 1 }
        ⟨E, F.fin (1 / 100), F.fin 0, some false, ⟨a, Rev.sigmoid⟩⟩ true true (Rev.receivedPower E (F.fin (1 / 2)) (F.fin 1)) (gridX P) (gridY P) =
        .ok [("tx", .both (P.map fun row => row.map fun p => F.fin (value ("tx", ⟨0, 1⟩) p)) (P.map fun row => row.map (gradient ("tx", ⟨0, 1⟩))))]) ∧
      GradientAt (value ("tx", ⟨0, 1⟩)) (2, 1) (gradient ("tx", ⟨0, 1⟩) (2, 1)) := by
  obtain ⟨h1, -, h3⟩ := C98_parts (ι := Rev.Coord) a E (F.fin (1 / 2)) (F.fin 1)
  obtain ⟨value, gradient, -, q2, q3⟩ := C99_receivers (Key := ℕ) refLib refLib_contract [("tx", ⟨0, 1⟩)] rx (by simp [Distinct]) [(⟨0, 0⟩, ⟨3, 0⟩)]
    (by simp) 0 1 le_rfl ⟨[], by simp [InRange, IsCandidate]⟩ (fun k _ => [k]) none E (some false) (.inl rfl) (1 / 100) 0 (by norm_num) _ _ h1 _ _ h3 _
    (realFun_powerAlong E (1 / 2) 1 one_pos) (OffGuard E.eps) (C99_power E (1 / 2) 1 one_pos)
  exact ⟨value, gradient, fun P => (q2 true P).1, q3 _ (by simp) (2, 1) (oneWall_regular E he)⟩

example (E : Env) (he : 0 < E.eps) (tx : PyDict Pt) (a : F) : ∃ (value : String × Pt → ℝ × ℝ → ℝ) (gradient : String × Pt → ℝ × ℝ → V2 F),
    (∀ P : Scene.Grid (ℝ × ℝ), Rev.accumulateOnTransmittersGrid (wallScene tx [("rx", ⟨2, 1⟩)] [(⟨0, 0⟩, ⟨3, 0⟩)]) refLib { minOrder := 0, maxOrder := 1 }
        ⟨E, F.fin (1 / 100), F.fin 0, some false, ⟨a, Rev.hardSigmoid⟩⟩ true true (Rev.receivedPower E (F.fin (1 / 2)) (F.fin 1)) (gridX P) (gridY P) =
        .ok [("rx", .both (P.map fun row => row.map fun p => F.fin (value ("rx", ⟨2, 1⟩) p)) (P.map fun row => row.map (gradient ("rx", ⟨2, 1⟩))))]) ∧
      GradientAt (value ("rx", ⟨2, 1⟩)) (0, 1) (gradient ("rx", ⟨2, 1⟩) (0, 1)) := by
  obtain ⟨-, h2, h3⟩ := C98_parts (ι := Rev.Coord) a E (F.fin (1 / 2)) (F.fin 1)
  obtain ⟨value, gradient, -, q2, q3⟩ := C99_transmitters (Key := ℕ) refLib refLib_contract tx [("rx", ⟨2, 1⟩)] (by simp [Distinct]) [(⟨0, 0⟩, ⟨3, 0⟩)]
    (by simp) 0 1 le_rfl ⟨[], by simp [InRange, IsCandidate]⟩ (fun k _ => [k]) none E (some false) (.inl rfl) (1 / 100) 0 (by norm_num) _ _ h2 _ _ h3 _
    (realFun_powerAlong E (1 / 2) 1 one_pos) (OffGuard E.eps) (C99_power E (1 / 2) 1 one_pos)
  exact ⟨value, gradient, fun P => (q2 true P).1, q3 _ (by simp) (0, 1) (oneWall_regular E he)⟩

/-- Non-vacuity of C99: the same scene, the height of the wall being the parameter that is differentiated. -/
example (E : Env) (he : 0 < E.eps) (a : F) : ∃ (d : Rev Unit) (value : ℝ → ℝ),
    Rev.facc ⟨E, F.fin (1 / 100), F.fin 0, some false, ⟨a, Rev.sigmoid⟩⟩ [⟨⟨.const (F.fin 0), .var (F.fin 0) ()⟩, ⟨.const (F.fin 3), .var (F.fin 0) ()⟩⟩]
      (Rev.receivedPower E (F.fin (1 / 2)) (F.fin 1)) (Rev.constV (V2.fin ⟨0, 1⟩)) (Rev.constV (V2.fin ⟨2, 1⟩)) (.const 0) [[], [0]] = .ok d ∧
      Differentiates (fun _ : Unit => (1 : ℝ)) 0 d value := by
  have hv : Differentiates (fun _ : Unit => (1 : ℝ)) 0 (.var (F.fin 0) ()) fun x => x :=
    ⟨rfl, ContinuousLinearMap.id ℝ ℝ, hasFDerivAt_id _, fun c i => by simp [Rev.var]⟩
  obtain ⟨h1, -, -⟩ := C98_parts (ι := Unit) a E (F.fin (1 / 2)) (F.fin 1)
  obtain ⟨d, value, q1, q2, -⟩ := C99_program (Key := ℕ) (e := fun _ : Unit => (1 : ℝ)) (x0 := 0) (Rev.constV (V2.fin ⟨0, 1⟩)) (Rev.constV (V2.fin ⟨2, 1⟩)) _ _ (.const _) (.const _)
    [⟨⟨.const (F.fin 0), .var (F.fin 0) ()⟩, ⟨.const (F.fin 3), .var (F.fin 0) ()⟩⟩] [fun x => (⟨0, x⟩, ⟨3, x⟩)]
    (.cons ⟨⟨.const 0, hv⟩, ⟨.const 3, hv⟩, by simp⟩ .nil) _ _ _ (realFun_powerAlong E (1 / 2) 1 one_pos) (OffGuard E.eps) (C99_power E (1 / 2) 1 one_pos)
    E (some false) (.inl rfl) _ _ h1 (1 / 100) 0 (by norm_num) [[], [0]] (by simp [IsCandidate]) (by
      intro c hc pts loss h
      exact oneWall_regular E he c (by
        simp only [List.mem_cons, List.not_mem_nil, or_false] at hc
        rcases hc with rfl | rfl <;> simp [InRange, IsCandidate]) pts loss h)
  exact ⟨d, value, q1, q2⟩

end DiffeRT2d.Props
