import Verif.Lemmas.PowerOptimize
import Verif.Props.GradSoft
import Verif.Props.Presets
import Verif.Props.Diffraction

/-! # Property C127: the optimization of the position of a transmitter -/

namespace DiffeRT2d.Props
open Classical Spec

theorem powerLoss_walls (G : GraphLib) (tx rx : PyDict Pt) (hr : Distinct rx) (walls : List (Pt × Pt)) (lo hi : ℤ) (cs : List (List ℤ))
    (hcs : (wallScene tx rx walls).allPathCandidates G { minOrder := lo, maxOrder := hi } = .ok cs) (hne : cs ≠ []) (v : Rev.ValidOpts Rev.Coord)
    (f : List (V2 (Rev Rev.Coord)) → Rev Rev.Coord) (p : ℝ × ℝ) (D : String × Pt → Rev Rev.Coord)
    (hD1 : ∀ r, Rev.facc v (cwalls _ walls) f (Rev.inputs ⟨F.fin p.1, F.fin p.2⟩) (Rev.constV (V2.fin r.2)) (.const 0) cs = .ok (D r)) :
    Rev.powerLoss (wallScene tx rx walls) G { minOrder := lo, maxOrder := hi } v f (Rev.inputs ⟨F.fin p.1, F.fin p.2⟩) =
      .ok (-(Rev.objectiveFunction (rx.map D))) := by
  have hv : Rev.valV (Rev.inputs ⟨F.fin p.1, F.fin p.2⟩) = ⟨F.fin p.1, F.fin p.2⟩ := rfl
  have hw : (wallScene tx rx walls).withTransmitters [("tx", ⟨F.fin p.1, F.fin p.2⟩)] = .ok { wallScene tx rx walls with transmitters := .fromMapping [("tx", ⟨F.fin p.1, F.fin p.2⟩)] } := by
    unfold Scene.withTransmitters Scene.bindKwargs
    rw [if_neg (by simp)]; rfl
  have hd : Distinct [("tx", (⟨F.fin p.1, F.fin p.2⟩ : V2 F))] := by simp [Distinct]
  have hdt : Distinct (finPoints rx) := by simpa [Distinct, finPoints, Function.comp_def] using hr
  have e1 : Scene.allPathCandidates { wallScene tx rx walls with transmitters := .fromMapping [("tx", ⟨F.fin p.1, F.fin p.2⟩)] } G { minOrder := lo, maxOrder := hi } = .ok cs := hcs
  have e2 : Scene.allTransmitterReceiverPairs { wallScene tx rx walls with transmitters := .fromMapping [("tx", ⟨F.fin p.1, F.fin p.2⟩)] } =
      .ok ((finPoints rx).map fun r => (("tx", ⟨F.fin p.1, F.fin p.2⟩), r)) := by
    have : (wallScene tx rx walls).receivers = .fromMapping (finPoints rx) := rfl
    simp only [Scene.allTransmitterReceiverPairs, this, items_eq hdt, items_eq hd, Bind.bind, Except.bind, Pure.pure, Except.pure]
    congr 1
    exact single_product _ _
  unfold Rev.powerLoss
  rw [hv, hw]
  simp only [Bind.bind, Except.bind, e1, e2]
  rw [show ({ wallScene tx rx walls with transmitters := .fromMapping [("tx", ⟨F.fin p.1, F.fin p.2⟩)] } : Scene).objects = wallsOf walls from wallScene_objects tx rx walls,
    constWalls_walls]
  simp only [if_neg hne]
  have e3 := mapM_ok' ((fun pair : (String × V2 F) × (String × V2 F) => Rev.facc v (cwalls Rev.Coord walls) f (Rev.inputs ⟨F.fin p.1, F.fin p.2⟩) (Rev.constV pair.2.2) (.const 0) cs) ∘
    (fun r => (("tx", (⟨F.fin p.1, F.fin p.2⟩ : V2 F)), r)) ∘ fun kv : String × Pt => (kv.1, V2.fin kv.2)) D rx fun r _ => hD1 r
  rw [finPoints, List.map_map, List.mapM_map, e3]
  rfl

theorem distinct_nodup {rx : PyDict Pt} (hr : Distinct rx) : rx.Nodup := List.Nodup.of_map _ hr

theorem worst_core (rx : PyDict Pt) (hr : Distinct rx) (hne : rx ≠ []) (D : String × Pt → Rev Rev.Coord) (v : String × Pt → ℝ)
    (hD : ∀ r ∈ rx, (D r).val = F.fin (v r)) (hd : ∀ r ∈ rx, Tame (D r) ∨ ∀ i, Nans i (D r)) :
    WorstServed rx v (fun r => ⟨(D r).grad .x, (D r).grad .y⟩)
      ((-(Rev.objectiveFunction (rx.map D))).val, ⟨(-(Rev.objectiveFunction (rx.map D))).grad .x, (-(Rev.objectiveFunction (rx.map D))).grad .y⟩) := by
  refine ⟨?_, ?_, ?_, ?_⟩
  · obtain ⟨r, hr', h1, h2⟩ := objective_val rx hne D v hD
    refine ⟨r, hr', h1, ?_⟩
    show -(Rev.objectiveFunction (rx.map D)).val = _
    rw [h2, F.fin_neg]
  · intro r hr'
    rcases hd r hr' with ⟨v', φ, -, h⟩ | h
    · refine .inr ⟨⟨φ .x, φ .y⟩, ?_⟩
      simp only [Rev.grad, F.one_eq, h, one_mul]; rfl
    · refine .inl ?_
      simp only [Rev.grad, h .x 1, h .y 1]
  · rintro ⟨r, hr', hg⟩
    have hn : ∀ i, Nans i (D r) := by
      rcases hd r hr' with ⟨v', φ, -, h⟩ | h
      · have := congrArg V2.x hg
        simp only [Rev.grad, F.one_eq, h] at this
        cases this
      · exact h
    have := fun i => nans_neg (objective_nans (i := i) (ps := rx.map D) ⟨D r, List.mem_map_of_mem hr', hn i⟩)
    simp only [Rev.grad, this .x 1, this .y 1]
  · intro g hg
    have ht : ∀ r ∈ rx, ∀ (c : ℝ) (i : Rev.Coord), (D r).pull (F.fin c) i = F.fin (c * (match i with | .x => (g r).x | .y => (g r).y)) := by
      intro r hr' c i
      have hgr := hg r hr'
      rcases hd r hr' with ⟨v', φ, -, h⟩ | h
      · simp only [Rev.grad, F.one_eq, h, one_mul, V2.fin, V2.mk.injEq, F.fin.injEq] at hgr
        rw [h]
        cases i
        · simp only [hgr.1]
        · simp only [hgr.2]
      · have := congrArg V2.x hgr
        simp only [Rev.grad, h .x 1, V2.fin] at this
        cases this
    obtain ⟨w, w1, w2, w3, w4⟩ := objective_pull rx hne (distinct_nodup hr) D v (fun r i => match i with | .x => (g r).x | .y => (g r).y) hD ht
    refine ⟨w, w1, w2, w3, ?_⟩
    have e : ∀ i, (-(Rev.objectiveFunction (rx.map D))).grad i = (Rev.objectiveFunction (rx.map D)).pull (F.fin (-1)) i := by
      intro i
      show (Rev.objectiveFunction (rx.map D)).pull (-1) i = _
      rw [F.one_eq, F.fin_neg]
    simp only [e, w4, neg_mul, one_mul]
    rfl

/-- **C127.** In hard mode: the loss of the example and its gradient, from the powers of the receivers and their gradients (which C100 describes). -/
theorem C127_hard {Key : Type} (G : GraphLib) (hG : GraphContract G) (tx rx : PyDict Pt) (hr : Distinct rx) (hrx : rx ≠ []) (walls : List (Pt × Pt))
    (lo hi : ℤ) (hlo : 0 ≤ lo) (hex : ∃ c, InRange walls.length lo hi c) (split : Key → ℕ → List Key) (key : Option Key)
    (E : Env) (ap : Option Bool) (hh : Hard E ap) (tol patch : ℝ) (kw : Rev.ActKw Rev.Coord) (kw' : ActKw) (hk : SameKw kw kw')
    (coef height : ℝ) (hht : 0 < height) (t : ℝ × ℝ) :
    ∃ (power : String × Pt → ℝ) (gradient : String × Pt → V2 F) (out : F × V2 F),
      (wallScene [("tx", ⟨t.1, t.2⟩)] rx walls).accumulateOverPaths G split (imageMethod Key) { minOrder := lo, maxOrder := hi }
        ⟨E, F.fin tol, F.fin patch, ap, kw'⟩ key (powerFun E coef height) = .ok (rx.map fun r => ("tx", r.1, F.fin (power r))) ∧
      Rev.accumulateOnTransmittersGrid (wallScene tx rx walls) G { minOrder := lo, maxOrder := hi } ⟨E, F.fin tol, F.fin patch, ap, kw⟩ false true
          (Rev.receivedPower E (F.fin coef) (F.fin height)) [[F.fin t.1]] [[F.fin t.2]] = .ok (rx.map fun r => (r.1, .both [[F.fin (power r)]] [[gradient r]])) ∧
      Rev.valueAndGrad (Rev.powerLoss (wallScene tx rx walls) G { minOrder := lo, maxOrder := hi } ⟨E, F.fin tol, F.fin patch, ap, kw⟩
        (Rev.receivedPower E (F.fin coef) (F.fin height))) ⟨F.fin t.1, F.fin t.2⟩ = .ok out ∧
      WorstServed rx power gradient out := by
  obtain ⟨cs, hcs, hcd, hcm, hne⟩ := cands_walls G hG tx rx walls lo hi hlo hex
  have hcs' : ∀ tx rx, (wallScene tx rx walls).allPathCandidates G { minOrder := lo, maxOrder := hi } = .ok cs := by
    intro tx' rx'
    have : (wallScene tx' rx' walls).objects = (wallScene tx rx walls).objects := by rw [wallScene_objects, wallScene_objects]
    rw [← hcs]
    unfold Scene.allPathCandidates
    rw [this]
  let ok : Pt → Pt → List ℤ → Prop := fun t r c => HardOk (wallsAt walls c) walls c (rpath t r (wallsAt walls c)) (scores (wallsAt walls c) (rpath t r (wallsAt walls c))).sum tol patch
  have hV : ∀ t r c, InRange walls.length lo hi c → ∃ valid, (finitePath (rpath t r (wallsAt walls c)) (scores (wallsAt walls c) (rpath t r (wallsAt walls c))).sum).isValid E
      ((wallsOf walls).map Obj.interact) c ((wallsOf (wallsAt walls c)).map Obj.interact) (F.fin tol) (F.fin patch) ap kw' = .ok valid ∧
      valid.toF = F.fin (if ok t r c then 1 else 0) := by
    intro t r c hc
    refine ⟨_, isValid_hardOk hh kw' _ _ c _ _ tol patch (by rw [rpath_length, wallsAt_length hc.1]), ?_⟩
    by_cases hok : ok t r c
    · rw [if_pos hok]; simp [show HardOk _ _ _ _ _ _ _ from hok, Truthy.toF]
    · rw [if_neg hok]; simp [show ¬ HardOk _ _ _ _ _ _ _ from hok, Truthy.toF]
  obtain ⟨-, -, hsf⟩ := C98_parts (ι := Rev.Coord) (F.fin 1) E (F.fin coef) (F.fin height)
  have hR : ∀ (r : String × Pt) (p : ℝ × ℝ), _ := fun r p => facc_value (tx := Rev.inputs ⟨F.fin p.1, F.fin p.2⟩) (rx := Rev.constV (V2.fin r.2)) (t := ⟨p.1, p.2⟩) (r := r.2)
    rfl rfl walls hk hsf (realFun_powerAlong E coef height hht) (fun c => if ok ⟨p.1, p.2⟩ r.2 c then 1 else 0) cs (fun c hc => ((hcm c).mp hc).1)
    fun c hc => hV _ _ c ((hcm c).mp hc)
  choose D hD1 hD2 using hR
  have hgrid := transmitters_grid G tx rx hr walls lo hi cs hcs ⟨E, F.fin tol, F.fin patch, ap, kw⟩ _ D hD1 false true [[t]]
  have hloss := powerLoss_walls G tx rx hr walls lo hi cs hcs hne ⟨E, F.fin tol, F.fin patch, ap, kw⟩ _ t (fun r => D r t) fun r => hD1 r t
  refine ⟨fun r => (cs.map fun c => (if ok ⟨t.1, t.2⟩ r.2 c then 1 else 0) * powerAlong E.eps coef height (rpath ⟨t.1, t.2⟩ r.2 (wallsAt walls c))).sum,
    fun r => ⟨(D r t).grad .x, (D r t).grad .y⟩, _, ?_, ?_, by rw [Rev.valueAndGrad, hloss]; rfl, worst_core rx hr hrx (fun r => D r t) _ (fun r _ => hD2 r t) fun r _ => ?_⟩
  · have := accumulate_walls (Key := Key) G hG [("tx", ⟨t.1, t.2⟩)] rx (by simp [Distinct]) hr walls lo hi hlo cs (hcs' _ _) hcd hcm hne split key
      ⟨E, F.fin tol, F.fin patch, ap, kw'⟩ (powerFun E coef height) _ (realFun_powerAlong E coef height hht) (fun t r c => if ok t r c then 1 else 0)
      fun t _ r _ c hc => hV t.2 r.2 c ((hcm c).mp hc)
    rw [this, single_product, List.map_map]
    rfl
  · simp only [gridX, gridY, List.map_cons, List.map_nil, gridSel, if_true, hD2] at hgrid
    exact hgrid
  · by_cases hgood : ∀ c ∈ cs, Unguarded ⟨t.1, t.2⟩ r.2 (wallsAt walls c) ∧ OffGuard E.eps (rpath ⟨t.1, t.2⟩ r.2 (wallsAt walls c))
    · left
      obtain ⟨d, h1, h2⟩ := facc_frozen (inputs_diff t) (.const r.2) walls hh hk tol patch _ _ _ (C99_power E coef height hht) cs (fun c hc => ((hcm c).mp hc).1) hgood
      have e1 : D r t = d := Except.ok.inj ((hD1 r t).symm.trans h1)
      rw [e1]
      exact Tame.of_diff h2
    · right
      push Not at hgood
      obtain ⟨c, hc, hb⟩ := hgood
      exact fun i => facc_power_nans (t := ⟨t.1, t.2⟩) (r := r.2) rfl rfl (.inl (passes_inputs _ i)) walls _ E _ _ cs (fun c hc => ((hcm c).mp hc).1) (hD1 r t)
        hc fun h => hb h.1 h.2

/-- **C127.** The same in approximate mode, with one of the activations of the library (C101 describes the gradients of the powers). -/
theorem C127_soft {Key : Type} (G : GraphLib) (hG : GraphContract G) (tx rx : PyDict Pt) (hr : Distinct rx) (hrx : rx ≠ []) (walls : List (Pt × Pt))
    (lo hi : ℤ) (hlo : 0 ≤ lo) (hex : ∃ c, InRange walls.length lo hi c) (split : Key → ℕ → List Key) (key : Option Key)
    (E : Env) (ap : Option Bool) (hs : Soft E ap) (tol patch a : ℝ) (ha : 0 < a) (kw : Rev.ActKw Rev.Coord) (kw' : ActKw) (hk : LibraryActivation a kw kw')
    (coef height : ℝ) (hht : 0 < height) (t : ℝ × ℝ) :
    ∃ (power : String × Pt → ℝ) (gradient : String × Pt → V2 F) (out : F × V2 F),
      (wallScene [("tx", ⟨t.1, t.2⟩)] rx walls).accumulateOverPaths G split (imageMethod Key) { minOrder := lo, maxOrder := hi }
        ⟨E, F.fin tol, F.fin patch, ap, kw'⟩ key (powerFun E coef height) = .ok (rx.map fun r => ("tx", r.1, F.fin (power r))) ∧
      Rev.accumulateOnTransmittersGrid (wallScene tx rx walls) G { minOrder := lo, maxOrder := hi } ⟨E, F.fin tol, F.fin patch, ap, kw⟩ false true
          (Rev.receivedPower E (F.fin coef) (F.fin height)) [[F.fin t.1]] [[F.fin t.2]] = .ok (rx.map fun r => (r.1, .both [[F.fin (power r)]] [[gradient r]])) ∧
      Rev.valueAndGrad (Rev.powerLoss (wallScene tx rx walls) G { minOrder := lo, maxOrder := hi } ⟨E, F.fin tol, F.fin patch, ap, kw⟩
        (Rev.receivedPower E (F.fin coef) (F.fin height))) ⟨F.fin t.1, F.fin t.2⟩ = .ok out ∧
      WorstServed rx power gradient out := by
  obtain ⟨cs, hcs, hcd, hcm, hne⟩ := cands_walls G hG tx rx walls lo hi hlo hex
  have hcs' : ∀ tx rx, (wallScene tx rx walls).allPathCandidates G { minOrder := lo, maxOrder := hi } = .ok cs := by
    intro tx' rx'
    have : (wallScene tx' rx' walls).objects = (wallScene tx rx walls).objects := by rw [wallScene_objects, wallScene_objects]
    rw [← hcs]
    unfold Scene.allPathCandidates
    rw [this]
  obtain ⟨V, hV⟩ := soft_valid hs (library_lipschitz ha hk) walls tol patch
  obtain ⟨-, -, hsf⟩ := C98_parts (ι := Rev.Coord) (F.fin 1) E (F.fin coef) (F.fin height)
  have hR : ∀ (r : String × Pt) (p : ℝ × ℝ), _ := fun r p => facc_value (tx := Rev.inputs ⟨F.fin p.1, F.fin p.2⟩) (rx := Rev.constV (V2.fin r.2)) (t := ⟨p.1, p.2⟩) (r := r.2)
    rfl rfl walls (library_same hk) hsf (realFun_powerAlong E coef height hht) (V ⟨p.1, p.2⟩ r.2) cs (fun c hc => ((hcm c).mp hc).1)
    fun c hc => hV _ _ c ((hcm c).mp hc).1
  choose D hD1 hD2 using hR
  have hgrid := transmitters_grid G tx rx hr walls lo hi cs hcs ⟨E, F.fin tol, F.fin patch, ap, kw⟩ _ D hD1 false true [[t]]
  have hloss := powerLoss_walls G tx rx hr walls lo hi cs hcs hne ⟨E, F.fin tol, F.fin patch, ap, kw⟩ _ t (fun r => D r t) fun r => hD1 r t
  refine ⟨fun r => (cs.map fun c => V ⟨t.1, t.2⟩ r.2 c * powerAlong E.eps coef height (rpath ⟨t.1, t.2⟩ r.2 (wallsAt walls c))).sum,
    fun r => ⟨(D r t).grad .x, (D r t).grad .y⟩, _, ?_, ?_, by rw [Rev.valueAndGrad, hloss]; rfl, worst_core rx hr hrx (fun r => D r t) _ (fun r _ => hD2 r t) fun r _ => ?_⟩
  · have := accumulate_walls (Key := Key) G hG [("tx", ⟨t.1, t.2⟩)] rx (by simp [Distinct]) hr walls lo hi hlo cs (hcs' _ _) hcd hcm hne split key
      ⟨E, F.fin tol, F.fin patch, ap, kw'⟩ (powerFun E coef height) _ (realFun_powerAlong E coef height hht) V
      fun t _ r _ c hc => hV t.2 r.2 c ((hcm c).mp hc).1
    rw [this, single_product, List.map_map]
    rfl
  · simp only [gridX, gridY, List.map_cons, List.map_nil, gridSel, if_true, hD2] at hgrid
    exact hgrid
  · by_cases hgood : ∀ c ∈ cs, (c ≠ [] → NoPause (rpath ⟨t.1, t.2⟩ r.2 (wallsAt walls c))) ∧ OffGuard E.eps (rpath ⟨t.1, t.2⟩ r.2 (wallsAt walls c))
    · left
      exact facc_soft_tame (inputs_diff t) (.const r.2) walls (library_tame ha hk) tol patch coef height hht cs (fun c hc => ((hcm c).mp hc).1) hgood (hD1 r t)
    · right
      obtain ⟨c, hc⟩ := not_forall.mp hgood
      obtain ⟨hc, hb⟩ := Classical.not_imp.mp hc
      exact fun i => facc_soft_nans (t := ⟨t.1, t.2⟩) (r := r.2) rfl rfl (.inl (passes_inputs _ i)) walls hs (library_tame ha hk) _ _ _ _ cs
        (fun c hc => ((hcm c).mp hc).1) (hD1 r t) hc hb

/-- **C127.** If one receiver gets less than all the others, the gradient of the loss is minus that receiver's gradient (over 100): the others do not count. -/
theorem C127_single {rx : PyDict Pt} (hr : Distinct rx) {power : String × Pt → ℝ} {gradient : String × Pt → V2 F} {out : F × V2 F}
    (h : WorstServed rx power gradient out) (g : String × Pt → Pt) (hg : ∀ r ∈ rx, gradient r = V2.fin (g r)) (r : String × Pt) (hrm : r ∈ rx)
    (hmin : ∀ r' ∈ rx, r' ≠ r → power r < power r') : out = (F.fin (-(power r / 100)), V2.fin ⟨-((g r).x / 100), -((g r).y / 100)⟩) := by
  obtain ⟨w, w1, w2, w3, w4⟩ := h.mean g hg
  have hw : ∀ r' ∈ rx, r' ≠ r → w r' = 0 := by
    intro r' hr' hne
    by_contra hc
    exact absurd (w3 r' hr' hc r hrm) (not_le.mpr (hmin r' hr' hne))
  have hs : ∀ f : String × Pt → ℝ, (rx.map fun r => w r * f r).sum = w r * f r := by
    intro f
    have : ∀ l : List (String × Pt), l.Nodup → (∀ r' ∈ l, r' ≠ r → w r' = 0) → (l.map fun r => w r * f r).sum = if r ∈ l then w r * f r else 0 := by
      intro l
      induction l with
      | nil => simp
      | cons a l ih =>
        intro hnd hz
        rw [List.map_cons, List.sum_cons, ih (List.nodup_cons.mp hnd).2 fun r' hr' => hz r' (by simp [hr'])]
        by_cases har : a = r
        · subst har
          simp [(List.nodup_cons.mp hnd).1]
        · rw [hz a (by simp) har]
          simp [Ne.symm har]
    rw [this rx (distinct_nodup hr) hw, if_pos hrm]
  have h1 : w r = 1 := by
    have := hs fun _ => 1
    simp only [mul_one] at this
    rw [← this]; exact w2
  obtain ⟨q, hq, hqm, hqv⟩ := h.value
  have hqr : q = r := by
    by_contra hne
    exact absurd (hqm r hrm) (not_le.mpr (hmin q hq hne))
  subst hqr
  refine Prod.ext hqv ?_
  rw [w4, hs, hs, h1, one_mul, one_mul]

/-! ### The run -/

/-- **C127.** Whatever the losses of the frames, as long as they can be evaluated: the coordinates of the transmitter are real numbers after every
frame, no frame moves a coordinate by `√(370/7)` learning rates or more, and from the first gradient that is not real in a coordinate on, this coordinate is never
changed again, although the NaN itself is never seen. -/
theorem C127_run {α : Type} (lr : ℝ) (hlr : 0 < lr) (loss : α → V2 (Rev Rev.Coord) → Except PyErr (Rev Rev.Coord))
    (hloss : ∀ a (p : Pt), ∃ out, Rev.valueAndGrad (loss a) (V2.fin p) = .ok out) (p0 : Pt) (frames : List α) :
    ∃ pos : ℕ → Pt, pos 0 = p0 ∧ ∀ k ≤ frames.length,
      (∃ st, Rev.animate (exampleOptimizer (F.fin lr)) loss (frames.take k) (Rev.start _ (V2.fin p0)) = .ok (V2.fin (pos k), st)) ∧
      (k < frames.length → |(pos (k + 1)).x - (pos k).x| < lr * Real.sqrt (370 / 7) ∧ |(pos (k + 1)).y - (pos k).y| < lr * Real.sqrt (370 / 7)) ∧
      ∀ a out, frames[k]? = some a → Rev.valueAndGrad (loss a) (V2.fin (pos k)) = .ok out → ∀ m, k ≤ m → m ≤ frames.length →
        (NotReal out.2.x → (pos m).x = (pos k).x) ∧ (NotReal out.2.y → (pos m).y = (pos k).y) := by
  -- the states
  have hrun : ∀ k ≤ frames.length, ∃ (p : Pt) (mx my vx vy : F), Rev.animate (exampleOptimizer (F.fin lr)) loss (frames.take k) (Rev.start _ (V2.fin p0)) =
      .ok (V2.fin p, exState (F.fin lr) mx my vx vy k) ∧ CoordInv k mx vx ∧ CoordInv k my vy := by
    intro k hk
    induction k with
    | zero =>
      refine ⟨p0, 0, 0, 0, 0, ?_, ?_, ?_⟩
      · rw [List.take_zero, example_init]; rfl
      · exact .inl ⟨fun _ => 0, by simp [am, F.zero_eq], by simp [av, F.zero_eq]⟩
      · exact .inl ⟨fun _ => 0, by simp [am, F.zero_eq], by simp [av, F.zero_eq]⟩
    | succ k ih =>
      obtain ⟨p, mx, my, vx, vy, h1, h2, h3⟩ := ih (by omega)
      have ha : frames[k]? = some frames[k] := List.getElem?_eq_getElem (by omega)
      obtain ⟨out, hout⟩ := hloss frames[k] p
      obtain ⟨ux, x1, -, x2, -⟩ := coord_step hlr h2 out.2.x
      obtain ⟨uy, y1, -, y2, -⟩ := coord_step hlr h3 out.2.y
      refine ⟨⟨p.x + ux, p.y + uy⟩, _, _, _, _, ?_, x2, y2⟩
      rw [animate_take_succ _ loss frames _ _ k _ ha h1, example_step (F.fin lr) (loss frames[k]) p mx my vx vy k hout x1 y1]
  haveI : Nonempty Pt := ⟨p0⟩
  choose! pos mx my vx vy hpos hx hy using hrun
  have hstep : ∀ k < frames.length, ∀ a out, frames[k]? = some a → Rev.valueAndGrad (loss a) (V2.fin (pos k)) = .ok out →
      |(pos (k + 1)).x - (pos k).x| < lr * Real.sqrt (370 / 7) ∧ |(pos (k + 1)).y - (pos k).y| < lr * Real.sqrt (370 / 7) ∧
      (Spoilt (mx k) (vx k) ∨ NotReal out.2.x → (pos (k + 1)).x = (pos k).x ∧ Spoilt (mx (k + 1)) (vx (k + 1))) ∧
      (Spoilt (my k) (vy k) ∨ NotReal out.2.y → (pos (k + 1)).y = (pos k).y ∧ Spoilt (my (k + 1)) (vy (k + 1))) := by
    intro k hk a out ha hout
    obtain ⟨ux, x1, x2, -, x3⟩ := coord_step hlr (hx k (by omega)) out.2.x
    obtain ⟨uy, y1, y2, -, y3⟩ := coord_step hlr (hy k (by omega)) out.2.y
    have e := animate_take_succ _ loss frames _ _ k _ ha (hpos k (by omega))
    rw [example_step (F.fin lr) (loss a) (pos k) _ _ _ _ k hout x1 y1, hpos (k + 1) (by omega)] at e
    obtain ⟨e1, e2⟩ := Prod.mk.inj (Except.ok.inj e)
    simp only [V2.fin, V2.mk.injEq, F.fin.injEq] at e1
    obtain ⟨q1, q2, q3, q4⟩ := exState_inj e2
    rw [e1.1, e1.2, q1, q2, q3, q4]
    refine ⟨by simpa using x2, by simpa using y2, fun h => ?_, fun h => ?_⟩
    · obtain ⟨h1, h2⟩ := x3 h
      exact ⟨by rw [h1, add_zero], h2⟩
    · obtain ⟨h1, h2⟩ := y3 h
      exact ⟨by rw [h1, add_zero], h2⟩
  have hget : ∀ k < frames.length, ∃ a out, frames[k]? = some a ∧ Rev.valueAndGrad (loss a) (V2.fin (pos k)) = .ok out := by
    intro k hk
    obtain ⟨out, h⟩ := hloss frames[k] (pos k)
    exact ⟨_, out, List.getElem?_eq_getElem hk, h⟩
  refine ⟨pos, ?_, fun k hk => ⟨⟨_, hpos k hk⟩, fun hlt => ?_, ?_⟩⟩
  · have := hpos 0 (by omega)
    rw [List.take_zero, example_init] at this
    have := congrArg Prod.fst (Except.ok.inj (show Except.ok _ = _ from this))
    simp only [V2.fin, V2.mk.injEq, F.fin.injEq] at this
    ext
    · exact this.1.symm
    · exact this.2.symm
  · obtain ⟨a, out, h1, h2⟩ := hget k hlt
    have := hstep k hlt a out h1 h2
    exact ⟨this.1, this.2.1⟩
  · intro a out ha hout m hkm hm
    have hlt : k < frames.length := (List.getElem?_eq_some_iff.mp ha).1
    have h0 := hstep k hlt a out ha hout
    constructor
    · intro hn
      have key : ∀ j, k + 1 + j ≤ frames.length → (pos (k + 1 + j)).x = (pos k).x ∧ Spoilt (mx (k + 1 + j)) (vx (k + 1 + j)) := by
        intro j
        induction j with
        | zero => intro _; exact h0.2.2.1 (.inr hn)
        | succ j ih =>
          intro hj
          obtain ⟨i1, i2⟩ := ih (by omega)
          obtain ⟨a', out', ha', hout'⟩ := hget (k + 1 + j) (by omega)
          obtain ⟨j1, j2⟩ := (hstep (k + 1 + j) (by omega) a' out' ha' hout').2.2.1 (.inl i2)
          exact ⟨by rw [← add_assoc, j1, i1], j2⟩
      rcases Nat.eq_or_lt_of_le hkm with rfl | hlt'
      · rfl
      · obtain ⟨j, rfl⟩ := Nat.exists_eq_add_of_le hlt'
        exact (key j hm).1
    · intro hn
      have key : ∀ j, k + 1 + j ≤ frames.length → (pos (k + 1 + j)).y = (pos k).y ∧ Spoilt (my (k + 1 + j)) (vy (k + 1 + j)) := by
        intro j
        induction j with
        | zero => intro _; exact h0.2.2.2 (.inr hn)
        | succ j ih =>
          intro hj
          obtain ⟨i1, i2⟩ := ih (by omega)
          obtain ⟨a', out', ha', hout'⟩ := hget (k + 1 + j) (by omega)
          obtain ⟨j1, j2⟩ := (hstep (k + 1 + j) (by omega) a' out' ha' hout').2.2.2 (.inl i2)
          exact ⟨by rw [← add_assoc, j1, i1], j2⟩
      rcases Nat.eq_or_lt_of_le hkm with rfl | hlt'
      · rfl
      · obtain ⟨j, rfl⟩ := Nat.exists_eq_add_of_le hlt'
        exact (key j hm).1

/-- **C127.** A transmitter does not move, for any number of frames, if at its first position every gradient has components that are zero or not real. -/
theorem C127_stays {α : Type} (lr : ℝ) (loss : α → V2 (Rev Rev.Coord) → Except PyErr (Rev Rev.Coord)) (p0 : Pt) (frames : List α)
    (h : ∀ a ∈ frames, ∃ out, Rev.valueAndGrad (loss a) (V2.fin p0) = .ok out ∧ (out.2.x = F.fin 0 ∨ NotReal out.2.x) ∧ (out.2.y = F.fin 0 ∨ NotReal out.2.y)) :
    ∃ st, Rev.animate (exampleOptimizer (F.fin lr)) loss frames (Rev.start _ (V2.fin p0)) = .ok (V2.fin p0, st) := by
  have hc : ∀ (k : ℕ) (x m v : F), (x = F.fin 0 ∨ NotReal x) → (m = F.fin 0 ∧ v = F.fin 0 ∨ Spoilt m v) →
      cu (F.fin lr) k (cm x m) (cv x v) = F.fin 0 ∧ (cm x m = F.fin 0 ∧ cv x v = F.fin 0 ∨ Spoilt (cm x m) (cv x v)) := by
    have dead : ∀ (k : ℕ) (m v : F), Spoilt m v → cu (F.fin lr) k m v = F.fin 0 := by
      intro k m v hs
      rw [cu, spoilt_update hs]; exact F.zero_eq
    intro k x m v hx hm
    rcases hm with ⟨rfl, rfl⟩ | hm
    · rcases hx with rfl | hx
      · obtain ⟨z1, z2, z3⟩ := coord_zero lr k
        rw [z1, z2]
        exact ⟨z3, .inl ⟨rfl, rfl⟩⟩
      · have := spoilt_step (.inr ⟨hx, 0, 0, rfl, rfl⟩)
        exact ⟨dead _ _ _ this, .inr this⟩
    · have := spoilt_step (x := x) (.inl hm)
      exact ⟨dead _ _ _ this, .inr this⟩
  rw [example_init]
  have H : ∀ (frames : List α) (k : ℕ) (mx my vx vy : F), (∀ a ∈ frames, ∃ out, Rev.valueAndGrad (loss a) (V2.fin p0) = .ok out ∧
      (out.2.x = F.fin 0 ∨ NotReal out.2.x) ∧ (out.2.y = F.fin 0 ∨ NotReal out.2.y)) → (mx = F.fin 0 ∧ vx = F.fin 0 ∨ Spoilt mx vx) →
      (my = F.fin 0 ∧ vy = F.fin 0 ∨ Spoilt my vy) →
      ∃ st, Rev.animate (exampleOptimizer (F.fin lr)) loss frames (V2.fin p0, exState (F.fin lr) mx my vx vy k) = .ok (V2.fin p0, st) := by
    intro frames
    induction frames with
    | nil => intro k mx my vx vy _ _ _; exact ⟨_, rfl⟩
    | cons a frames ih =>
      intro k mx my vx vy hf hmx hmy
      obtain ⟨out, hout, ox, oy⟩ := hf a (by simp)
      obtain ⟨x1, x2⟩ := hc k _ _ _ ox hmx
      obtain ⟨y1, y2⟩ := hc k _ _ _ oy hmy
      simp only [Rev.animate, Bind.bind, example_step (F.fin lr) (loss a) p0 mx my vx vy k hout x1 y1, Except.bind]
      have := ih (k + 1) _ _ _ _ (fun a ha => hf a (by simp [ha])) x2 y2
      simpa using this
  exact H frames 0 0 0 0 0 h (.inl ⟨F.zero_eq, F.zero_eq⟩) (.inl ⟨F.zero_eq, F.zero_eq⟩)

/-- Hard mode does not look at the activation. -/
theorem accumulate_hard_kw {Key : Type} (G : GraphLib) (hG : GraphContract G) (tx rx : PyDict Pt) (ht : Distinct tx) (hr : Distinct rx) (walls : List (Pt × Pt))
    (lo hi : ℤ) (hlo : 0 ≤ lo) (hex : ∃ c, InRange walls.length lo hi c) (split : Key → ℕ → List Key) (key : Option Key)
    (E : Env) (ap : Option Bool) (hh : Hard E ap) (tol patch : ℝ) (kw kw' : ActKw) (coef height : ℝ) (hht : 0 < height) :
    (wallScene tx rx walls).accumulateOverPaths G split (imageMethod Key) { minOrder := lo, maxOrder := hi } ⟨E, F.fin tol, F.fin patch, ap, kw⟩ key (powerFun E coef height) =
    (wallScene tx rx walls).accumulateOverPaths G split (imageMethod Key) { minOrder := lo, maxOrder := hi } ⟨E, F.fin tol, F.fin patch, ap, kw'⟩ key (powerFun E coef height) := by
  obtain ⟨cs, hcs, hcd, hcm, hne⟩ := cands_walls G hG tx rx walls lo hi hlo hex
  let ok : Pt → Pt → List ℤ → Prop := fun t r c => HardOk (wallsAt walls c) walls c (rpath t r (wallsAt walls c)) (scores (wallsAt walls c) (rpath t r (wallsAt walls c))).sum tol patch
  have hV : ∀ kw t r c, InRange walls.length lo hi c → ∃ valid, (finitePath (rpath t r (wallsAt walls c)) (scores (wallsAt walls c) (rpath t r (wallsAt walls c))).sum).isValid E
      ((wallsOf walls).map Obj.interact) c ((wallsOf (wallsAt walls c)).map Obj.interact) (F.fin tol) (F.fin patch) ap kw = .ok valid ∧
      valid.toF = F.fin (if ok t r c then 1 else 0) := by
    intro kw t r c hc
    refine ⟨_, isValid_hardOk hh kw _ _ c _ _ tol patch (by rw [rpath_length, wallsAt_length hc.1]), ?_⟩
    by_cases hok : ok t r c
    · rw [if_pos hok]; simp [show HardOk _ _ _ _ _ _ _ from hok, Truthy.toF]
    · rw [if_neg hok]; simp [show ¬ HardOk _ _ _ _ _ _ _ from hok, Truthy.toF]
  rw [accumulate_walls (Key := Key) G hG tx rx ht hr walls lo hi hlo cs hcs hcd hcm hne split key
      ⟨E, F.fin tol, F.fin patch, ap, kw⟩ (powerFun E coef height) _ (realFun_powerAlong E coef height hht) (fun t r c => if ok t r c then 1 else 0)
      fun t _ r _ c hc => hV kw t.2 r.2 c ((hcm c).mp hc),
    accumulate_walls (Key := Key) G hG tx rx ht hr walls lo hi hlo cs hcs hcd hcm hne split key
      ⟨E, F.fin tol, F.fin patch, ap, kw'⟩ (powerFun E coef height) _ (realFun_powerAlong E coef height hht) (fun t r c => if ok t r c then 1 else 0)
      fun t _ r _ c hc => hV kw' t.2 r.2 c ((hcm c).mp hc)]

theorem powerAlong_pos (eps : ℝ) {coef height : ℝ} (hc : 0 < coef) (hh : 0 < height) (pts : List Pt) : 0 < powerAlong eps coef height pts := by
  unfold powerAlong
  have := sq_nonneg (guardedLength eps pts)
  positivity

section Stuck
variable {Key : Type} (G : GraphLib) (hG : GraphContract G) (tx rx : PyDict Pt) (hr : Distinct rx) (walls : List (Pt × Pt))
  (lo hi : ℤ) (hlo : 0 ≤ lo) (hex : ∃ c, InRange walls.length lo hi c) (split : Key → ℕ → List Key) (key : Option Key)
  (E : Env) (ap : Option Bool) (tol patch : ℝ) (act : Rev Rev.Coord → F → Rev Rev.Coord) (act' : F → F → F) 
  (coef height : ℝ) (hcoef : 0 < coef) (hht : 0 < height) (lr : ℝ)
include hG hr hlo hex hht

include hcoef in
/-- **C127.** Without approximation, if some receiver gets no power at all, the transmitter never moves, however many frames there are and whatever
their slopes: the optimization is stuck in a zero-gradient zone. -/
theorem C127_stuck (hh : Hard E ap) (hk : ∀ a, SameKw ⟨a, act⟩ ⟨a, act'⟩) (t : ℝ × ℝ) (a0 : F) (results : List (String × String × F))
    (hres : (wallScene [("tx", ⟨t.1, t.2⟩)] rx walls).accumulateOverPaths G split (imageMethod Key) { minOrder := lo, maxOrder := hi }
      ⟨E, F.fin tol, F.fin patch, ap, ⟨a0, act'⟩⟩ key (powerFun E coef height) = .ok results)
    (name : String) (hz : ("tx", name, F.fin 0) ∈ results) (alphas : List F) :
    ∃ st, Rev.animate (exampleOptimizer (F.fin lr)) (fun alpha => Rev.powerLoss (wallScene tx rx walls) G { minOrder := lo, maxOrder := hi }
      ⟨E, F.fin tol, F.fin patch, ap, ⟨alpha, act⟩⟩ (Rev.receivedPower E (F.fin coef) (F.fin height))) alphas (Rev.start _ ⟨F.fin t.1, F.fin t.2⟩) =
      .ok (⟨F.fin t.1, F.fin t.2⟩, st) := by
  refine C127_stays lr _ ⟨t.1, t.2⟩ alphas fun alpha _ => ?_
  have hrx : rx ≠ [] := by
    rintro rfl
    obtain ⟨value, -, -, -, q1, -⟩ := C100_transmitters (Key := Key) G hG tx [] hr walls lo hi hlo hex split key E ap hh tol patch _ _ (hk a0) coef height hht
    rw [q1 t] at hres
    obtain rfl := Except.ok.inj hres
    simp at hz
  obtain ⟨power, gradient, out, p1, p2, p3, p4⟩ := C127_hard (Key := Key) G hG tx rx hr hrx walls lo hi hlo hex split key E ap hh tol patch _ _ (hk alpha) coef height hht t
  obtain ⟨value, gradient', points, accepted, q1, q2, -, q4, q5⟩ := C100_transmitters (Key := Key) G hG tx rx hr walls lo hi hlo hex split key E ap hh tol patch _ _ (hk alpha) coef height hht
  have hgg : ∀ r ∈ rx, power r = value r t ∧ gradient r = gradient' r t := by
    have := p2.symm.trans (q2 false [[t]]).1
    have := Except.ok.inj this
    intro r hr'
    have := List.map_inj_left.mp this r hr'
    simpa using this
  have hzero : ∀ r ∈ rx, power r = 0 → gradient r = V2.fin ⟨0, 0⟩ ∨ gradient r = ⟨F.nan, F.nan⟩ := by
    intro r hrm h0
    obtain ⟨g1, g2⟩ := hgg r hrm
    obtain ⟨v1, v2, v3⟩ := q5 r hrm t
    rw [g1, v1] at h0
    have hempty : accepted r.2 t = ∅ := by
      by_contra hne
      have := Finset.sum_pos (s := accepted r.2 t) (f := fun c => powerAlong E.eps coef height (points r.2 t c)) (fun c _ => powerAlong_pos _ hcoef hht _)
        (Finset.nonempty_iff_ne_empty.mpr hne)
      exact this.ne' h0
    by_cases hg : ∀ c, InRange walls.length lo hi c → Determined ⟨t.1, t.2⟩ (wallsAt walls c) (points r.2 t c) ∧ OffGuard E.eps (points r.2 t c)
    · obtain ⟨v', hd, hv'⟩ := v2 hg
      left
      rw [hempty] at hd
      simp only [Finset.sum_empty] at hd
      have : v' = 0 := hd.unique (hasFDerivAt_const 0 t)
      rw [g2, hv', this]; rfl
    · right
      rw [g2]
      obtain ⟨c, hc⟩ := not_forall.mp hg
      exact v3 ⟨c, (Classical.not_imp.mp hc).1, (Classical.not_imp.mp hc).2⟩
  have hnn : ∀ r ∈ rx, 0 ≤ power r := by
    intro r hrm
    rw [(hgg r hrm).1, (q5 r hrm t).1]
    exact Finset.sum_nonneg fun c _ => (powerAlong_pos _ hcoef hht _).le
  obtain ⟨r0, hr0, hp0⟩ : ∃ r ∈ rx, power r = 0 := by
    rw [accumulate_hard_kw (Key := Key) G hG _ rx (by simp [Distinct]) hr walls lo hi hlo hex split key E ap hh tol patch ⟨a0, act'⟩ ⟨alpha, act'⟩ coef height hht, p1] at hres
    obtain rfl := Except.ok.inj hres
    obtain ⟨r, hrm, he⟩ := List.mem_map.mp hz
    simp only [Prod.mk.injEq, F.fin.injEq] at he
    exact ⟨r, hrm, he.2.2⟩
  refine ⟨out, p3, ?_⟩
  by_cases hnan : ∃ r ∈ rx, gradient r = ⟨F.nan, F.nan⟩
  · rw [p4.nan hnan]
    exact ⟨.inr notReal_nan, .inr notReal_nan⟩
  · push Not at hnan
    have hreal : ∀ r ∈ rx, ∃ g : Pt, gradient r = V2.fin g := fun r hrm => (p4.either r hrm).resolve_left (hnan r hrm)
    haveI : Nonempty Pt := ⟨⟨0, 0⟩⟩
    choose! g hg using hreal
    obtain ⟨w, w1, w2, w3, w4⟩ := p4.mean g hg
    have hwg : ∀ r ∈ rx, w r * (g r).x = 0 ∧ w r * (g r).y = 0 := by
      intro r hrm
      by_cases hw : w r = 0
      · simp [hw]
      · have h0 : power r = 0 := le_antisymm ((w3 r hrm hw r0 hr0).trans hp0.le) (hnn r hrm)
        have := (hzero r hrm h0).resolve_right (hnan r hrm)
        rw [hg r hrm] at this
        simp only [V2.fin, V2.mk.injEq, F.fin.injEq] at this
        simp [this]
    have e1 : (rx.map fun r => w r * (g r).x).sum = 0 := List.sum_eq_zero (by
      intro x hx
      obtain ⟨r, hrm, rfl⟩ := List.mem_map.mp hx
      exact (hwg r hrm).1)
    have e2 : (rx.map fun r => w r * (g r).y).sum = 0 := List.sum_eq_zero (by
      intro x hx
      obtain ⟨r, hrm, rfl⟩ := List.mem_map.mp hx
      exact (hwg r hrm).2)
    rw [w4, e1, e2]
    exact ⟨.inl (by simp [V2.fin]), .inl (by simp [V2.fin])⟩

/-- **C127.** Without approximation: the transmitter never moves either from a position where a reflection point of some candidate to some receiver -
accepted or not - is not determined, or a step is the opposite of the guard, although all powers are real there, and possibly none is zero. -/
theorem C127_nan_hard (hh : Hard E ap) (hk : ∀ a, SameKw ⟨a, act⟩ ⟨a, act'⟩) (t : ℝ × ℝ) (r : String × Pt) (hrm : r ∈ rx) (c : List ℤ)
    (hc : InRange walls.length lo hi c) (pts : List Pt) (loss : ℝ) (hp : traceImage ⟨t.1, t.2⟩ (wallsAt walls c) r.2 = .ok (finitePath pts loss))
    (hbad : ¬ (Determined ⟨t.1, t.2⟩ (wallsAt walls c) pts ∧ OffGuard E.eps pts)) (alphas : List F) :
    ∃ st, Rev.animate (exampleOptimizer (F.fin lr)) (fun alpha => Rev.powerLoss (wallScene tx rx walls) G { minOrder := lo, maxOrder := hi }
      ⟨E, F.fin tol, F.fin patch, ap, ⟨alpha, act⟩⟩ (Rev.receivedPower E (F.fin coef) (F.fin height))) alphas (Rev.start _ ⟨F.fin t.1, F.fin t.2⟩) =
      .ok (⟨F.fin t.1, F.fin t.2⟩, st) := by
  refine C127_stays lr _ ⟨t.1, t.2⟩ alphas fun alpha _ => ?_
  obtain ⟨power, gradient, out, p1, p2, p3, p4⟩ := C127_hard (Key := Unit) G hG tx rx hr (List.ne_nil_of_mem hrm) walls lo hi hlo hex (fun k _ => [k]) none E ap hh tol patch _ _ (hk alpha)
    coef height hht t
  obtain ⟨value, gradient', points, accepted, q1, q2, q3, q4, q5⟩ := C100_transmitters (Key := Unit) G hG tx rx hr walls lo hi hlo hex (fun k _ => [k]) none E ap hh tol patch _ _ (hk alpha)
    coef height hht
  have hgg : gradient r = gradient' r t := by
    have := Except.ok.inj (p2.symm.trans (q2 false [[t]]).1)
    have := List.map_inj_left.mp this r hrm
    simp at this
    exact this.2
  refine ⟨out, p3, ?_⟩
  rw [p4.nan ⟨r, hrm, ?_⟩]
  · exact ⟨.inr notReal_nan, .inr notReal_nan⟩
  · rw [hgg]
    refine (q5 r hrm t).2.2 ⟨c, hc, ?_⟩
    obtain ⟨loss', hl⟩ := q3 r.2 t c
    have e := (traceImage_iff hp).1
    rw [(traceImage_iff hl).1, ← e]
    exact hbad

/-- **C127.** With approximation: the transmitter never moves from a position where some candidate with reflections, to some receiver, has two equal consecutive points,
or a step is the opposite of the guard. -/
theorem C127_nan_soft (hs : Soft E ap) (hk : ∀ a, 0 < a → LibraryActivation a ⟨F.fin a, act⟩ ⟨F.fin a, act'⟩) (t : ℝ × ℝ) (r : String × Pt) (hrm : r ∈ rx) (c : List ℤ)
    (hc : InRange walls.length lo hi c) (pts : List Pt) (loss : ℝ) (hp : traceImage ⟨t.1, t.2⟩ (wallsAt walls c) r.2 = .ok (finitePath pts loss))
    (hbad : ¬ ((c ≠ [] → NoPause pts) ∧ OffGuard E.eps pts)) (alphas : List ℝ) (ha : ∀ a ∈ alphas, 0 < a) :
    ∃ st, Rev.animate (exampleOptimizer (F.fin lr)) (fun alpha : ℝ => Rev.powerLoss (wallScene tx rx walls) G { minOrder := lo, maxOrder := hi }
      ⟨E, F.fin tol, F.fin patch, ap, ⟨F.fin alpha, act⟩⟩ (Rev.receivedPower E (F.fin coef) (F.fin height))) alphas (Rev.start _ ⟨F.fin t.1, F.fin t.2⟩) =
      .ok (⟨F.fin t.1, F.fin t.2⟩, st) := by
  refine C127_stays lr _ ⟨t.1, t.2⟩ alphas fun alpha ham => ?_
  obtain ⟨power, gradient, out, p1, p2, p3, p4⟩ := C127_soft (Key := Unit) G hG tx rx hr (List.ne_nil_of_mem hrm) walls lo hi hlo hex (fun k _ => [k]) none E ap hs tol patch alpha (ha _ ham)
    _ _ (hk alpha (ha _ ham)) coef height hht t
  obtain ⟨value, gradient', points, q1, q2, q3, q5⟩ := C101_transmitters (Key := Unit) G hG tx rx hr walls lo hi hlo hex (fun k _ => [k]) none E ap hs tol patch alpha (ha _ ham)
    _ _ (hk alpha (ha _ ham)) coef height hht
  have hgg : gradient r = gradient' r t := by
    have := Except.ok.inj (p2.symm.trans (q2 false [[t]]).1)
    have := List.map_inj_left.mp this r hrm
    simp at this
    exact this.2
  refine ⟨out, p3, ?_⟩
  rw [p4.nan ⟨r, hrm, ?_⟩]
  · exact ⟨.inr notReal_nan, .inr notReal_nan⟩
  · rw [hgg]
    refine (q5 r hrm t).2 ⟨c, hc, ?_⟩
    obtain ⟨loss', hl⟩ := q3 r.2 t c
    have e := (traceImage_iff hp).1
    rw [(traceImage_iff hl).1, ← e]
    exact hbad

end Stuck

/-! ### Positions in a shadow -/

theorem inRange_zero {n : ℕ} {c : List ℤ} (h : InRange n 0 0 c) : c = [] := by
  have := h.2.2
  have : c.length = 0 := by omega
  exact List.length_eq_zero_iff.mp this

theorem wallsOf_shapes (walls : List (Pt × Pt)) : wallsOf walls = (walls.map fun w => Shape.wall w.1 w.2).map Shape.obj := by
  simp [wallsOf, Shape.obj, Function.comp_def]

section Shadow
variable (G : GraphLib) (hG : GraphContract G) (tx rx : PyDict Pt) (hr : Distinct rx) (walls : List (Pt × Pt))
  (E : Env) (ap : Option Bool) (hh : Hard E ap) (tol patch : ℝ) (act : Rev Rev.Coord → F → Rev Rev.Coord) (act' : F → F → F)
  (hk : ∀ a, SameKw ⟨a, act⟩ ⟨a, act'⟩) (coef height : ℝ) (hht : 0 < height) (lr : ℝ)
include hG hr hh hk hht

/-- **C127.** Without approximation, and with lines of sight only: a transmitter that a wall hides from some receiver never moves. -/
theorem C127_shadow (hcoef : 0 < coef) (hpatch : 0 ≤ patch) (t : ℝ × ℝ) (r : String × Pt) (hrm : r ∈ rx) (w : Pt × Pt) (hw : w ∈ walls)
    (hb : Blocks w patch ⟨t.1, t.2⟩ r.2) (alphas : List F) :
    ∃ st, Rev.animate (exampleOptimizer (F.fin lr)) (fun alpha => Rev.powerLoss (wallScene tx rx walls) G { minOrder := 0, maxOrder := 0 }
      ⟨E, F.fin tol, F.fin patch, ap, ⟨alpha, act⟩⟩ (Rev.receivedPower E (F.fin coef) (F.fin height))) alphas (Rev.start _ ⟨F.fin t.1, F.fin t.2⟩) =
      .ok (⟨F.fin t.1, F.fin t.2⟩, st) := by
  have hex : ∃ c, InRange walls.length 0 0 c := ⟨[], by simp [InRange, IsCandidate]⟩
  obtain ⟨value, gradient', points, accepted, q1, -, q3, q4, q5⟩ := C100_transmitters (Key := Unit) G hG tx rx hr walls 0 0 le_rfl hex (fun k _ => [k]) none E ap hh tol patch _ _
    (hk (F.fin 1)) coef height hht
  have hacc : accepted r.2 t = ∅ := by
    rw [Finset.eq_empty_iff_forall_notMem]
    intro c hc
    obtain ⟨hc1, hc2⟩ := (q4 r.2 t c).mp hc
    obtain rfl := inRange_zero hc1
    obtain ⟨loss, hl⟩ := q3 r.2 t []
    have hp : points r.2 t [] = [⟨t.1, t.2⟩, r.2] := (traceImage_iff hl).1
    have hv := hc2 _ hl
    rw [wallsOf_shapes walls] at hv
    obtain ⟨j, hj⟩ := List.mem_iff_getElem?.mp hw
    refine valid_clear hh _ (walls.map fun w => Shape.wall w.1 w.2) [] _ (finitePath (points r.2 t []) loss) (points r.2 t []) rfl _ patch (by rw [hp]; rfl) rfl (by linarith) hv
      0 j (.wall w.1 w.2) w ⟨t.1, t.2⟩ r.2 (by rw [hp]; rfl) (by rw [hp]; rfl) (by rw [List.getElem?_map, hj]; rfl) rfl ?_ hb
    simp [Adjacent]
  have hz : value r t = 0 := by rw [(q5 r hrm t).1, hacc, Finset.sum_empty]
  exact C127_stuck (Key := Unit) G hG tx rx hr walls 0 0 le_rfl hex (fun k _ => [k]) none E ap tol patch act act' coef height hcoef hht lr hh hk t _ _ (q1 t) r.1
    (List.mem_map.mpr ⟨r, hrm, by rw [hz]⟩) alphas

/-- **C127.** Without approximation, with two perpendicular walls and paths of order 3: a transmitter that is as far from one of these walls as some receiver,
on the same side, never moves. -/
theorem C127_right_angle (i j : ℕ) (hij : i ≠ j) (w w' : Pt × Pt) (hi' : walls[i]? = some w) (hj' : walls[j]? = some w') (hw : w.1 ≠ w.2) (hw' : w'.1 ≠ w'.2)
    (hperp : Orthogonal w.1 w.2 w'.1 w'.2) (lo hi : ℤ) (hlo : 0 ≤ lo) (h3 : lo ≤ 3) (h3' : 3 ≤ hi) (t : ℝ × ℝ) (r : String × Pt) (hrm : r ∈ rx)
    (hside : side w.1 w.2 ⟨t.1, t.2⟩ = side w.1 w.2 r.2) (alphas : List F) :
    ∃ st, Rev.animate (exampleOptimizer (F.fin lr)) (fun alpha => Rev.powerLoss (wallScene tx rx walls) G { minOrder := lo, maxOrder := hi }
      ⟨E, F.fin tol, F.fin patch, ap, ⟨alpha, act⟩⟩ (Rev.receivedPower E (F.fin coef) (F.fin height))) alphas (Rev.start _ ⟨F.fin t.1, F.fin t.2⟩) =
      .ok (⟨F.fin t.1, F.fin t.2⟩, st) := by
  have hli := (List.getElem?_eq_some_iff.mp hi').1
  have hlj := (List.getElem?_eq_some_iff.mp hj').1
  have hc : InRange walls.length lo hi [(i : ℤ), j, i] := by
    refine ⟨⟨?_, ?_⟩, ?_, ?_⟩
    · intro k hk
      simp only [List.mem_cons, List.not_mem_nil, or_false] at hk
      rcases hk with rfl | rfl | rfl <;> constructor <;> omega
    · intro k a b ha hb
      match k with
      | 0 => simp at ha hb; omega
      | 1 => simp at ha hb; omega
      | k + 2 => simp at hb
    · simpa using h3
    · simpa using h3'
  have hat : wallsAt walls [(i : ℤ), j, i] = [w, w', w] := by simp [wallsAt, hi', hj']
  refine C127_nan_hard G hG tx rx hr walls lo hi hlo ⟨_, hc⟩ E ap tol patch act act' coef height hht lr hh hk t r hrm _ hc _ _
    (traceImage_eq ⟨t.1, t.2⟩ r.2 (wallsAt walls [(i : ℤ), j, i])) (fun h => ?_) alphas
  rw [hat, determined_iff] at h
  obtain ⟨-, -, h3, -⟩ := h.1
  apply h3
  simp only [rpts, List.headD_nil]
  rw [un_side hw, side_rimg hw, side_rimg_perp hw' hperp, side_rimg hw, neg_neg]
  exact hside

end Shadow

/-! ### The scene of the example -/

/-- The scene of the example: `square_scene_with_obstacle()`, then `with_transmitters` and `with_receivers` (examples/plot_power_optimize.py:47, 112-116). -/
noncomputable def powerScene (t0 r0 : Pt) : Except PyErr Scene := do
  let s ← (Scene.squareSceneWithObstacle 0.1 (V2.fin t0) (V2.fin r0)).withTransmitters [("tx", V2.fin ⟨1 / 2, 7 / 10⟩)]
  s.withReceivers [("rx_0", V2.fin ⟨3 / 10, 1 / 10⟩), ("rx_1", V2.fin ⟨1 / 2, 1 / 10⟩)]

/-- The walls of the example. -/
noncomputable def powerWalls : List (Pt × Pt) :=
  [(⟨0, 0⟩, ⟨1, 0⟩), (⟨1, 0⟩, ⟨1, 1⟩), (⟨1, 1⟩, ⟨0, 1⟩), (⟨0, 1⟩, ⟨0, 0⟩), (⟨9 / 20, 9 / 20⟩, ⟨11 / 20, 9 / 20⟩), (⟨11 / 20, 9 / 20⟩, ⟨11 / 20, 11 / 20⟩),
    (⟨11 / 20, 11 / 20⟩, ⟨9 / 20, 11 / 20⟩), (⟨9 / 20, 11 / 20⟩, ⟨9 / 20, 9 / 20⟩)]

theorem powerScene_eq (t0 r0 : Pt) :
    powerScene t0 r0 = .ok (wallScene [("tx", ⟨1 / 2, 7 / 10⟩)] [("rx_0", ⟨3 / 10, 1 / 10⟩), ("rx_1", ⟨1 / 2, 1 / 10⟩)] powerWalls) := by
  have hw : closedPolygon (squareCorners roomCentre 1) ++ closedPolygon (squareCorners roomCentre (1 / 10)) = powerWalls.map fun w => .wall w.1 w.2 := by
    simp [closedPolygon, squareCorners, roomCentre, List.rotate, powerWalls]
    norm_num
  unfold powerScene
  rw [lit_01, C67_obstacle, hw]
  unfold Scene.withTransmitters Scene.withReceivers Scene.bindKwargs
  simp [Bind.bind, Except.bind, Pure.pure, Except.pure]
  rfl

/-- **C127.** The example without approximation, at the position where it starts: the transmitter never moves, with lines of sight only (as the example says) because
the obstacle hides a receiver, and with all orders up to any `hi ≥ 3` because a receiver has the same abscissa. -/
theorem C127_example (G : GraphLib) (hG : GraphContract G) (t0 r0 : Pt) (s : Scene) (hs : powerScene t0 r0 = .ok s) (E : Env) (tol patch : ℝ) (hpatch : 0 ≤ patch)
    (hi : ℤ) (hhi : hi = 0 ∨ 3 ≤ hi) (act : Rev Rev.Coord → F → Rev Rev.Coord) (act' : F → F → F) (hk : ∀ a, SameKw ⟨a, act⟩ ⟨a, act'⟩)
    (coef height : ℝ) (hcoef : 0 < coef) (hht : 0 < height) (lr : ℝ) (alphas : List F) :
    ∃ st, Rev.animate (exampleOptimizer (F.fin lr)) (fun alpha => Rev.powerLoss s G { minOrder := 0, maxOrder := hi }
      ⟨E, F.fin tol, F.fin patch, some false, ⟨alpha, act⟩⟩ (Rev.receivedPower E (F.fin coef) (F.fin height))) alphas (Rev.start _ ⟨F.fin (1 / 2), F.fin (7 / 10)⟩) =
      .ok (⟨F.fin (1 / 2), F.fin (7 / 10)⟩, st) := by
  rw [powerScene_eq] at hs
  obtain rfl := Except.ok.inj hs
  have hd : Distinct [("rx_0", (⟨3 / 10, 1 / 10⟩ : Pt)), ("rx_1", ⟨1 / 2, 1 / 10⟩)] := by simp [Distinct]
  rcases hhi with rfl | h3
  · refine C127_shadow G hG _ _ hd powerWalls E (some false) (.inl rfl) tol patch act act' hk coef height hht lr hcoef hpatch (1 / 2, 7 / 10) ("rx_1", ⟨1 / 2, 1 / 10⟩) (by simp)
      (⟨11 / 20, 11 / 20⟩, ⟨9 / 20, 11 / 20⟩) (by simp [powerWalls]) ⟨?_, 1 / 2, 1 / 4, ?_, ⟨?_, ?_⟩, ?_, ?_⟩ alphas
    · norm_num [Parallel]
    · norm_num [pointAt]
    all_goals linarith
  · exact C127_right_angle G hG _ _ hd powerWalls E (some false) (.inl rfl) tol patch act act' hk coef height hht lr 3 0 (by simp) (⟨0, 1⟩, ⟨0, 0⟩) (⟨0, 0⟩, ⟨1, 0⟩)
      rfl rfl (by simp) (by simp) (by simp [Orthogonal]) 0 hi le_rfl (by norm_num) h3 (1 / 2, 7 / 10) ("rx_1", ⟨1 / 2, 1 / 10⟩) (by simp) (by simp [side]) alphas

/-- Non-vacuity of C127: the library's activation, and the reference graph library. -/
example (E : Env) (s : Scene) (hs : powerScene ⟨0, 0⟩ ⟨1, 1⟩ = .ok s) := C127_example refLib refLib_contract ⟨0, 0⟩ ⟨1, 1⟩ s hs E (1 / 100) 0 le_rfl 0 (.inl rfl) Rev.sigmoid sigmoid
  (fun a => (C98_parts (ι := Rev.Coord) a E (F.fin (1 / 2)) (F.fin (1 / 10))).1) (1 / 2) (1 / 10) (by norm_num) (by norm_num) (1 / 100)

/-- Non-vacuity of C127_run: the optimization of the example is a run of it in both modes, with any activation of the library. -/
example (G : GraphLib) (hG : GraphContract G) (E : Env) (ap : Option Bool) (hs : Soft E ap) (coef height : ℝ) (hht : 0 < height) (p0 : Pt) (alphas : List {a : ℝ // 0 < a}) :=
  C127_run (1 / 100) (by norm_num) (fun (a : {a : ℝ // 0 < a}) => Rev.powerLoss (wallScene [] [("rx_0", ⟨3 / 10, 1 / 10⟩), ("rx_1", ⟨1 / 2, 1 / 10⟩)] powerWalls) G { minOrder := 0, maxOrder := 0 }
      ⟨E, F.fin (1 / 100), F.fin 0, ap, ⟨F.fin a, Rev.sigmoid⟩⟩ (Rev.receivedPower E (F.fin coef) (F.fin height)))
    (fun a p => by
      obtain ⟨-, -, out, -, -, h, -⟩ := C127_soft (Key := Unit) G hG [] [("rx_0", ⟨3 / 10, 1 / 10⟩), ("rx_1", ⟨1 / 2, 1 / 10⟩)] (by simp [Distinct]) (by simp) powerWalls 0 0 le_rfl
        ⟨[], by simp [InRange, IsCandidate]⟩ (fun k _ => [k]) none E ap hs (1 / 100) 0 a a.2 _ _ (.inl ⟨rfl, rfl⟩) coef height hht (p.x, p.y)
      exact ⟨out, h⟩) p0 alphas

/-- Non-vacuity of C127_single: two receivers, of which the second one gets less. -/
example : ∃ (rx : PyDict Pt) (power : String × Pt → ℝ) (gradient : String × Pt → V2 F) (out : F × V2 F) (r : String × Pt), Distinct rx ∧ rx.length = 2 ∧
    WorstServed rx power gradient out ∧ r ∈ rx ∧ (∀ r' ∈ rx, r' ≠ r → power r < power r') ∧ ∀ r ∈ rx, gradient r = V2.fin ⟨r.2.y, 3⟩ := by
  refine ⟨[("a", ⟨0, 2⟩), ("b", ⟨0, 1⟩)], fun r => r.2.y, fun r => V2.fin ⟨r.2.y, 3⟩, (F.fin (-(1 / 100)), V2.fin ⟨-(1 / 100), -(3 / 100)⟩), ("b", ⟨0, 1⟩), by simp [Distinct], rfl,
    ⟨⟨("b", ⟨0, 1⟩), by simp, by simp, rfl⟩, fun r _ => .inr ⟨_, rfl⟩, ?_, ?_⟩, by simp, by simp, fun r _ => rfl⟩
  · rintro ⟨r, -, h⟩
    exact absurd (congrArg V2.x h) (by simp [V2.fin])
  · intro g hg
    have hb := hg ("b", ⟨0, 1⟩) (by simp)
    simp only [V2.fin, V2.mk.injEq, F.fin.injEq] at hb
    refine ⟨fun r => if r.1 = "b" then 1 else 0, fun r _ => by dsimp only; split <;> norm_num, by simp, ?_, ?_⟩
    · intro r hr hw
      simp only [List.mem_cons, List.not_mem_nil, or_false] at hr
      rcases hr with rfl | rfl
      · simp at hw
      · simp
    · simp [← hb.1, ← hb.2]

/-- Non-vacuity of C127_nan_soft: a transmitter on a wall. -/
example (G : GraphLib) (hG : GraphContract G) (E : Env) (alphas : List ℝ) (ha : ∀ a ∈ alphas, 0 < a) : ∃ st, Rev.animate (exampleOptimizer (F.fin (1 / 100)))
      (fun alpha : ℝ => Rev.powerLoss (wallScene [] [("rx", ⟨1 / 2, 1 / 2⟩)] [(⟨0, 0⟩, ⟨1, 0⟩)]) G { minOrder := 0, maxOrder := 1 }
      ⟨E, F.fin (1 / 100), F.fin 0, some true, ⟨F.fin alpha, Rev.sigmoid⟩⟩ (Rev.receivedPower E (F.fin (1 / 2)) (F.fin (1 / 10)))) alphas (Rev.start _ ⟨F.fin (1 / 2), F.fin 0⟩) =
      .ok (⟨F.fin (1 / 2), F.fin 0⟩, st) := by
  have hc : InRange [((⟨0, 0⟩, ⟨1, 0⟩) : Pt × Pt)].length 0 1 [0] := by simp [InRange, IsCandidate]
  refine C127_nan_soft G hG [] [("rx", ⟨1 / 2, 1 / 2⟩)] (by simp [Distinct]) [(⟨0, 0⟩, ⟨1, 0⟩)] 0 1 le_rfl ⟨_, hc⟩ E (some true) (1 / 100) 0 Rev.sigmoid sigmoid (1 / 2) (1 / 10)
    (by norm_num) (1 / 100) (.inl rfl) (fun a _ => .inl ⟨rfl, rfl⟩) (1 / 2, 0) ("rx", ⟨1 / 2, 1 / 2⟩) (by simp) [0] hc _ _
    (traceImage_eq _ _ _) (fun h => ?_) alphas ha
  have h1 := h.1 (by simp) 0 ⟨1 / 2, 0⟩ ⟨1 / 2, 0⟩
  have hat : wallsAt [((⟨0, 0⟩, ⟨1, 0⟩) : Pt × Pt)] [0] = [(⟨0, 0⟩, ⟨1, 0⟩)] := rfl
  rw [hat] at h1
  apply h1
  · simp [rpath]
  · norm_num [rpath, rpts, rimg, rback, dp, rn, unit, un, len1, nrm]
  · rfl

end DiffeRT2d.Props
