import Verif.Lemmas.Stability
import Verif.Props.Logic
import Verif.Props.Fields

/-! # Properties C83 and C84: what moves continuously when the scene does -/

namespace DiffeRT2d.Props
open Classical Spec Filter Topology

variable {X : Type} [TopologicalSpace X] {x0 : X}

/-- The two activation functions of the library are continuous steps, for every positive slope. -/
theorem C83_steps (a : ℝ) (ha : 0 < a) : ContinuousStep ⟨F.fin a, sigmoid⟩ ∧ ContinuousStep ⟨F.fin a, hardSigmoid⟩ := by
  constructor
  · refine ⟨⟨softStep_sigmoid, a, ha, rfl⟩, fun x => 1 / (1 + Real.exp (-(a * x))), fun x => ?_, ?_, ?_⟩
    · obtain ⟨s, h1, rfl, -⟩ := (C04_values a x).2.2.2
      exact h1
    · have : ∀ x : ℝ, 1 + Real.exp (-(a * x)) ≠ 0 := fun x => by positivity
      fun_prop (disch := exact this _)
    · have h1 : Tendsto (fun x : ℝ => -(a * x)) atBot atTop := tendsto_neg_atBot_atTop.comp (tendsto_id.const_mul_atBot ha)
      have h2 := tendsto_atTop_add_const_left atBot (1 : ℝ) (Real.tendsto_exp_atTop.comp h1)
      have h3 := h2.inv_tendsto_atTop
      refine h3.congr fun x => ?_
      simp
  · refine ⟨⟨softStep_hardSigmoid, a, ha, rfl⟩, _, fun x => hardSigmoid_fin a x, ?_, ?_⟩
    · fun_prop
    · refine tendsto_const_nhds.congr' ?_
      filter_upwards [eventually_le_atBot (-3 / a)] with x hx
      have : a * x ≤ -3 := by rw [le_div_iff₀ ha] at hx; linarith
      rw [max_eq_right (by linarith), min_eq_left (by norm_num)]; norm_num

theorem kw_real {kw : ActKw} (h : ContinuousStep kw) : ∃ s : ℝ → ℝ, (∀ x : ℝ, activation kw (F.fin x) = F.fin (s x)) ∧
    activation kw F.pinf = F.fin 1 ∧ activation kw F.ninf = F.fin 0 ∧ Continuous s ∧ (∀ x, 0 ≤ s x ∧ s x ≤ 1) ∧ Tendsto s atBot (𝓝 0) := by
  obtain ⟨⟨⟨f, h1, h2, h3⟩, a, ha, e⟩, s, hs, hc, hl⟩ := h
  refine ⟨s, hs, ?_, ?_, hc, fun x => ?_, hl⟩
  · rw [activation, e]; exact (h3 a ha).1
  · rw [activation, e]; exact (h3 a ha).2.1
  · have := hs x
    rw [activation, e, h2 a x ha] at this
    rw [← F.fin.inj this]
    exact h1.range a x ha

/-- The moving walls a candidate names. -/
def wallsM (walls : List (X → Pt × Pt)) (c : List ℤ) : List (X → Pt × Pt) := c.filterMap fun i => walls[i.toNat]?

omit [TopologicalSpace X] in
theorem wallsAt_X (walls : List (X → Pt × Pt)) (c : List ℤ) (x : X) : wallsAt (wallsX walls x) c = (wallsM walls c).map (· x) := by
  unfold wallsAt wallsM wallsX
  rw [List.map_filterMap]
  congr 1
  funext i
  simp

theorem wallsM_moves {walls : List (X → Pt × Pt)} (hw : ∀ w ∈ walls, WallMoves w x0) (c : List ℤ) : ∀ w ∈ wallsM walls c, WallMoves w x0 := by
  intro w h
  obtain ⟨i, -, hi⟩ := List.mem_filterMap.mp h
  exact hw w (List.mem_of_getElem? hi)

omit [TopologicalSpace X] in
theorem wallsM_length {walls : List (X → Pt × Pt)} {c : List ℤ} (hc : IsCandidate walls.length c) : (wallsM walls c).length = c.length := by
  unfold wallsM
  have : ∀ l : List ℤ, (∀ i ∈ l, 0 ≤ i ∧ i < walls.length) → (l.filterMap fun i => walls[i.toNat]?).length = l.length := by
    intro l
    induction l with
    | nil => simp
    | cons i l ih =>
      intro hl
      have h1 := hl i (by simp)
      have h2 : i.toNat < walls.length := by omega
      simp [List.filterMap_cons, h2, ih fun i h => hl i (by simp [h])]
  exact this c hc.1

/-- What tracing over a candidate gives when everything moves. -/
theorem trace_moves (t r : X → Pt) (walls : List (X → Pt × Pt)) (c : List ℤ) (x : X) :
    traceImage (t x) (wallsAt (wallsX walls x) c) (r x) = .ok (finitePath ((mpath t r (wallsM walls c)).map (· x))
      (scores ((wallsM walls c).map (· x)) ((mpath t r (wallsM walls c)).map (· x))).sum) := by
  rw [traceImage_eq, wallsAt_X, mpath_at]

omit [TopologicalSpace X] in
theorem mpath_length (t r : X → Pt) (ws : List (X → Pt × Pt)) : (mpath t r ws).length = ws.length + 2 := by
  have : ∀ (i : X → Pt) , (mpts i r ws).length = ws.length := by
    induction ws with
    | nil => intro i; rfl
    | cons w ws ih => intro i; simp [mpts, ih]
  simp [mpath, this]

theorem cont_data {t r : X → Pt} (ht : MovesAt t x0) (hr : MovesAt r x0) {walls : List (X → Pt × Pt)} (hw : ∀ w ∈ walls, WallMoves w x0)
    {c : List ℤ} (hc : IsCandidate walls.length c)
    (hreg : ∀ pts loss, traceImage (t x0) (wallsAt (wallsX walls x0) c) (r x0) = .ok (finitePath pts loss) → RegularPath (wallsX walls x0) c pts) :
    (∀ p ∈ mpath t r (wallsM walls c), MovesAt p x0) ∧
    ContinuousAt (fun x => (scores ((wallsM walls c).map (· x)) ((mpath t r (wallsM walls c)).map (· x))).sum) x0 ∧
    RegularPath (wallsX walls x0) c ((mpath t r (wallsM walls c)).map (· x0)) := by
  have hR := hreg _ _ (trace_moves t r walls c x0)
  have hne : wallsM walls c ≠ [] → c ≠ [] := by rintro h rfl; exact h rfl
  have hm := mpath_moves ht hr (wallsM_moves hw c) (fun h => by rw [← mpath_at]; exact hR.moves (hne h))
  exact ⟨hm, scores_moves (wallsM_moves hw c) hm fun h => hR.moves (hne h), hR⟩

/-- **C83.** The points and the loss of a traced path move continuously, and so does its validity in approximate mode,
when the ends and the walls do (walls of non-zero length; the path is in regular position: it does not stand still, and
it does not slide along the line of a wall it is tested against). -/
theorem C83_path (t r : X → Pt) (ht : MovesAt t x0) (hr : MovesAt r x0) (walls : List (X → Pt × Pt))
    (hw : ∀ w ∈ walls, MovesAt (fun x => (w x).1) x0 ∧ MovesAt (fun x => (w x).2) x0 ∧ (w x0).1 ≠ (w x0).2)
    (c : List ℤ) (hc : IsCandidate walls.length c)
    (hreg : ∀ pts loss, traceImage (t x0) (wallsAt (wallsX walls x0) c) (r x0) = .ok (finitePath pts loss) → RegularPath (wallsX walls x0) c pts)
    (E : Env) (ap : Option Bool) (hs : Soft E ap) (kw : ActKw) (hkw : ContinuousStep kw) (tol patch : ℝ) (hp : -(1 / 2) < patch) :
    ∃ (pts : List (X → Pt)) (loss valid : X → ℝ), (∀ p ∈ pts, MovesAt p x0) ∧ ContinuousAt loss x0 ∧ ContinuousAt valid x0 ∧
      ∀ x, traceImage (t x) (wallsAt (wallsX walls x) c) (r x) = .ok (finitePath (pts.map (· x)) (loss x)) ∧
        (finitePath (pts.map (· x)) (loss x)).isValid E ((wallsOf (wallsX walls x)).map Obj.interact) c
          ((wallsOf (wallsAt (wallsX walls x) c)).map Obj.interact) (F.fin tol) (F.fin patch) ap kw = .ok (.f (F.fin (valid x))) := by
  obtain ⟨s, h1, h2, h3, h4, h5, h6⟩ := kw_real hkw
  obtain ⟨hm, hl, hR⟩ := cont_data ht hr hw hc hreg
  have hlen : (mpath t r (wallsM walls c)).length = c.length + 2 := by rw [mpath_length, wallsM_length hc]
  refine ⟨mpath t r (wallsM walls c), _, _, hm, hl,
    fmValid_moves h4 h5 h6 tol hp hlen (wallsM_moves hw c) hw hm hl hR, fun x => ⟨trace_moves t r walls c x, ?_⟩⟩
  rw [wallsAt_X]
  exact fmValid_soft hs h1 h2 h3 _ _ c _ _ tol patch (by simp [hlen])

/-- **C84.** In hard mode, validity does not change near a position where the path is regular and generic (no comparison
is a tie): it jumps at shadow and reflection boundaries only. -/
theorem C84_path (t r : X → Pt) (ht : MovesAt t x0) (hr : MovesAt r x0) (walls : List (X → Pt × Pt))
    (hw : ∀ w ∈ walls, MovesAt (fun x => (w x).1) x0 ∧ MovesAt (fun x => (w x).2) x0 ∧ (w x0).1 ≠ (w x0).2)
    (c : List ℤ) (hc : IsCandidate walls.length c) (E : Env) (ap : Option Bool) (hh : Hard E ap) (kw : ActKw)
    (tol patch : ℝ) (hp : -(1 / 2) < patch)
    (hreg : ∀ pts loss, traceImage (t x0) (wallsAt (wallsX walls x0) c) (r x0) = .ok (finitePath pts loss) → RegularPath (wallsX walls x0) c pts ∧
      Generic (wallsAt (wallsX walls x0) c) (wallsX walls x0) c pts loss tol patch) :
    ∃ (pts : List (X → Pt)) (loss : X → ℝ) (valid : X → Bool), (∀ p ∈ pts, MovesAt p x0) ∧ ContinuousAt loss x0 ∧ (∀ᶠ x in 𝓝 x0, valid x = valid x0) ∧
      ∀ x, traceImage (t x) (wallsAt (wallsX walls x) c) (r x) = .ok (finitePath (pts.map (· x)) (loss x)) ∧
        (finitePath (pts.map (· x)) (loss x)).isValid E ((wallsOf (wallsX walls x)).map Obj.interact) c
          ((wallsOf (wallsAt (wallsX walls x) c)).map Obj.interact) (F.fin tol) (F.fin patch) ap kw = .ok (.b (valid x)) := by
  obtain ⟨hm, hl, hR⟩ := cont_data ht hr hw hc fun pts loss h => (hreg pts loss h).1
  have hg := (hreg _ _ (trace_moves t r walls c x0)).2
  rw [wallsAt_X] at hg
  have hlen : (mpath t r (wallsM walls c)).length = c.length + 2 := by rw [mpath_length, wallsM_length hc]
  have hst := hardOk_stable hp hlen (wallsM_moves hw c) hw hm (wallsM_length hc) hl hR hg
  refine ⟨mpath t r (wallsM walls c), _, fun x => decide (HardOk ((wallsM walls c).map (· x)) (walls.map (· x)) c ((mpath t r (wallsM walls c)).map (· x))
    (scores ((wallsM walls c).map (· x)) ((mpath t r (wallsM walls c)).map (· x))).sum tol patch), hm, hl, ?_, fun x => ⟨trace_moves t r walls c x, ?_⟩⟩
  · filter_upwards [hst] with x hx
    exact decide_eq_decide.mpr hx
  · rw [wallsAt_X]
    exact isValid_hardOk hh kw _ _ c _ _ tol patch (by simp [hlen])

omit [TopologicalSpace X] in
/-- The accumulated value when everything moves. -/
theorem accumulate_formula {Key : Type} (G : GraphLib) (hG : GraphContract G) (x0 : X) (tx rx : PyDict (X → Pt)) (ht : Distinct tx) (hr : Distinct rx)
    (walls : List (X → Pt × Pt)) (lo hi : ℤ) (hlo : 0 ≤ lo) (hex : ∃ c, InRange walls.length lo hi c)
    (split : Key → ℕ → List Key) (key : Option Key) (v : Scene.ValidOpts) (f : Scene.PathFun) (g : Pt → Pt → List Pt → ℝ) (hf : RealFun f g)
    (pts : String × (X → Pt) → String × (X → Pt) → List ℤ → List (X → Pt)) (loss valid : String × (X → Pt) → String × (X → Pt) → List ℤ → X → ℝ)
    (hv : ∀ t ∈ tx, ∀ r ∈ rx, ∀ c, InRange walls.length lo hi c → ∀ x,
      traceImage (t.2 x) (wallsAt (wallsX walls x) c) (r.2 x) = .ok (finitePath ((pts t r c).map (· x)) (loss t r c x)) ∧
        ∃ val, (finitePath ((pts t r c).map (· x)) (loss t r c x)).isValid v.E ((wallsOf (wallsX walls x)).map Obj.interact) c
          ((wallsOf (wallsAt (wallsX walls x) c)).map Obj.interact) v.tol v.patch v.approx v.kw = .ok val ∧ val.toF = F.fin (valid t r c x)) :
    ∃ cs : List (List ℤ), (∀ c ∈ cs, InRange walls.length lo hi c) ∧
      ∀ x, (wallScene (atX tx x) (atX rx x) (wallsX walls x)).accumulateOverPaths G split (imageMethod Key) { minOrder := lo, maxOrder := hi }
        v key f = .ok ((tx ×ˢ rx).map fun p => (p.1.1, p.2.1,
          F.fin ((cs.map fun c => valid p.1 p.2 c x * g (p.1.2 x) (p.2.2 x) ((pts p.1 p.2 c).map (· x))).sum))) := by
  have hD : ∀ (d : PyDict (X → Pt)) (x : X), Distinct d → Distinct (atX d x) := by
    intro d x hd; simpa [Distinct, atX, Function.comp_def] using hd
  have hcs : ∀ x, ∃ cs, (wallScene (atX tx x) (atX rx x) (wallsX walls x)).allPathCandidates G { minOrder := lo, maxOrder := hi } = .ok cs ∧ cs.Nodup ∧
      (∀ c, c ∈ cs ↔ InRange walls.length lo hi c) ∧ cs ≠ [] := by
    intro x
    have := cands_walls G hG (atX tx x) (atX rx x) (wallsX walls x) lo hi hlo (by simpa [wallsX] using hex)
    simpa [wallsX] using this
  obtain ⟨cs0, -, hd0, hm0, -⟩ := hcs x0
  let term : String × (X → Pt) → String × (X → Pt) → List ℤ → X → ℝ := fun t r c x =>
    valid t r c x * g (t.2 x) (r.2 x) ((pts t r c).map (· x))
  refine ⟨cs0, fun c hc => (hm0 c).mp hc, ?_⟩
  intro x
  obtain ⟨cs, h1, h2, h3, h4⟩ := hcs x
  have hperm : cs.Perm cs0 := (List.perm_ext_iff_of_nodup h2 hd0).mpr fun c => by rw [h3, hm0]
  -- recover the moving points from their value at `x`
  have key1 : ∀ (d : PyDict (X → Pt)), Distinct d → ∀ p ∈ d, ∀ q ∈ d, p.1 = q.1 → p = q := fun d hd p hp q hq h =>
    List.inj_on_of_nodup_map hd hp hq h
  have rpath_eq : ∀ t ∈ tx, ∀ r ∈ rx, ∀ c ∈ cs, (pts t r c).map (· x) = rpath (t.2 x) (r.2 x) (wallsAt (wallsX walls x) c) ∧
      loss t r c x = (scores (wallsAt (wallsX walls x) c) (rpath (t.2 x) (r.2 x) (wallsAt (wallsX walls x) c))).sum := by
    intro t ht' r hr' c hc
    obtain ⟨e, -⟩ := hv t ht' r hr' c ((h3 c).mp hc) x
    rw [traceImage_eq] at e
    obtain ⟨e1, e2⟩ := finitePath_inj (Except.ok.inj e)
    exact ⟨e1.symm, e2.symm⟩
  let rv : Pt → Pt → List ℤ → ℝ := fun t r c =>
    if h : ∃ val : Truthy × ℝ, (finitePath (rpath t r (wallsAt (wallsX walls x) c)) (scores (wallsAt (wallsX walls x) c) (rpath t r (wallsAt (wallsX walls x) c))).sum).isValid v.E
        ((wallsOf (wallsX walls x)).map Obj.interact) c ((wallsOf (wallsAt (wallsX walls x) c)).map Obj.interact) v.tol v.patch v.approx v.kw = .ok val.1 ∧
        val.1.toF = F.fin val.2 then (Classical.choose h).2 else 0
  have hrv : ∀ t ∈ tx, ∀ r ∈ rx, ∀ c ∈ cs, (∃ val, (finitePath (rpath (t.2 x) (r.2 x) (wallsAt (wallsX walls x) c)) (scores (wallsAt (wallsX walls x) c) (rpath (t.2 x) (r.2 x) (wallsAt (wallsX walls x) c))).sum).isValid v.E
        ((wallsOf (wallsX walls x)).map Obj.interact) c ((wallsOf (wallsAt (wallsX walls x) c)).map Obj.interact) v.tol v.patch v.approx v.kw = .ok val ∧
        val.toF = F.fin (rv (t.2 x) (r.2 x) c)) ∧ rv (t.2 x) (r.2 x) c = valid t r c x := by
    intro t ht' r hr' c hc
    obtain ⟨-, val, e1, e2⟩ := hv t ht' r hr' c ((h3 c).mp hc) x
    obtain ⟨p1, p2⟩ := rpath_eq t ht' r hr' c hc
    rw [p1, p2] at e1
    have hex : ∃ val : Truthy × ℝ, (finitePath (rpath (t.2 x) (r.2 x) (wallsAt (wallsX walls x) c)) (scores (wallsAt (wallsX walls x) c) (rpath (t.2 x) (r.2 x) (wallsAt (wallsX walls x) c))).sum).isValid v.E
        ((wallsOf (wallsX walls x)).map Obj.interact) c ((wallsOf (wallsAt (wallsX walls x) c)).map Obj.interact) v.tol v.patch v.approx v.kw = .ok val.1 ∧
        val.1.toF = F.fin val.2 := ⟨(val, valid t r c x), e1, e2⟩
    have hspec := Classical.choose_spec hex
    have hrvv : rv (t.2 x) (r.2 x) c = (Classical.choose hex).2 := dif_pos hex
    have : (Classical.choose hex).1 = val := by
      have := hspec.1.symm.trans e1; exact Except.ok.inj this
    rw [this, e2] at hspec
    have hval := F.fin.inj hspec.2
    exact ⟨⟨val, e1, by rw [hrvv, ← hval, e2]⟩, by rw [hrvv, hval]⟩
  rw [accumulate_walls G hG (atX tx x) (atX rx x) (hD tx x ht) (hD rx x hr) (wallsX walls x) lo hi hlo cs h1 h2 (by simpa [wallsX] using h3) h4 split key v f g hf rv ?_]
  · have hprod : atX tx x ×ˢ atX rx x = (tx ×ˢ rx).map fun e => ((e.1.1, e.1.2 x), (e.2.1, e.2.2 x)) :=
      product_map (fun kv : String × (X → Pt) => (kv.1, kv.2 x)) (fun kv : String × (X → Pt) => (kv.1, kv.2 x)) tx rx
    rw [hprod]
    congr 1
    show List.map _ (List.map _ _) = _
    rw [List.map_map]
    apply List.map_congr_left
    intro p hp
    obtain ⟨hp1, hp2⟩ := List.mem_product.mp hp
    simp only [Function.comp]
    congr 3
    rw [← (hperm.map fun c => term p.1 p.2 c x).sum_eq]
    congr 1
    apply List.map_congr_left
    intro c hc
    show _ = valid p.1 p.2 c x * _
    rw [(hrv _ hp1 _ hp2 c hc).2, (rpath_eq _ hp1 _ hp2 c hc).1]
  · intro t ht' r hr' c hc
    obtain ⟨t', ht'', rfl⟩ := List.mem_map.mp ht'
    obtain ⟨r', hr'', rfl⟩ := List.mem_map.mp hr'
    exact (hrv t' ht'' r' hr'' c hc).1

theorem sum_moves (l : List (List ℤ)) (f : List ℤ → X → ℝ) (h : ∀ c ∈ l, ContinuousAt (f c) x0) : ContinuousAt (fun x => (l.map fun c => f c x).sum) x0 := by
  induction l with
  | nil => exact continuousAt_const
  | cons c l ih =>
    simp only [List.map_cons, List.sum_cons]
    exact (h c (by simp)).add (ih fun c hc => h c (by simp [hc]))

/-- The accumulated value is continuous if its terms are. -/
theorem accumulate_moves {Key : Type} (G : GraphLib) (hG : GraphContract G) (tx rx : PyDict (X → Pt)) (ht : Distinct tx) (hr : Distinct rx)
    (walls : List (X → Pt × Pt)) (lo hi : ℤ) (hlo : 0 ≤ lo) (hex : ∃ c, InRange walls.length lo hi c)
    (split : Key → ℕ → List Key) (key : Option Key) (v : Scene.ValidOpts) (f : Scene.PathFun) (g : Pt → Pt → List Pt → ℝ) (hf : RealFun f g)
    (hg : ContinuousFun g) (htm : ∀ t ∈ tx, MovesAt t.2 x0) (hrm : ∀ r ∈ rx, MovesAt r.2 x0)
    (hv : ∀ t ∈ tx, ∀ r ∈ rx, ∀ c, InRange walls.length lo hi c → ∃ (pts : List (X → Pt)) (loss valid : X → ℝ), (∀ p ∈ pts, MovesAt p x0) ∧
      ContinuousAt valid x0 ∧ ∀ x, traceImage (t.2 x) (wallsAt (wallsX walls x) c) (r.2 x) = .ok (finitePath (pts.map (· x)) (loss x)) ∧
        ∃ val, (finitePath (pts.map (· x)) (loss x)).isValid v.E ((wallsOf (wallsX walls x)).map Obj.interact) c
          ((wallsOf (wallsAt (wallsX walls x) c)).map Obj.interact) v.tol v.patch v.approx v.kw = .ok val ∧ val.toF = F.fin (valid x)) :
    ∃ value : String × (X → Pt) → String × (X → Pt) → X → ℝ,
      (∀ x, (wallScene (atX tx x) (atX rx x) (wallsX walls x)).accumulateOverPaths G split (imageMethod Key) { minOrder := lo, maxOrder := hi }
        v key f = .ok ((tx ×ˢ rx).map fun p => (p.1.1, p.2.1, F.fin (value p.1 p.2 x)))) ∧
      ∀ p ∈ tx ×ˢ rx, ContinuousAt (value p.1 p.2) x0 := by
  choose! pts loss valid hv1 hv2 hv3 using hv
  obtain ⟨cs, h1, h2⟩ := accumulate_formula G hG x0 tx rx ht hr walls lo hi hlo hex split key v f g hf pts loss valid hv3
  refine ⟨fun t r x => (cs.map fun c => valid t r c x * g (t.2 x) (r.2 x) ((pts t r c).map (· x))).sum, h2, ?_⟩
  intro p hp
  obtain ⟨hp1, hp2⟩ := List.mem_product.mp hp
  exact sum_moves cs _ fun c hc => (hv2 _ hp1 _ hp2 c (h1 c hc)).mul (hg X x0 _ _ _ (htm _ hp1) (hrm _ hp2) (hv1 _ hp1 _ hp2 c (h1 c hc)))

/-- **C83.** In approximate mode, the values of `accumulate_over_paths` move continuously when the points and the walls of
the scene do, at every position where the traced paths are regular, for every continuous function of the path. -/
theorem C83_field {Key : Type} (G : GraphLib) (hG : GraphContract G) (tx rx : PyDict (X → Pt)) (ht : Distinct tx) (hr : Distinct rx)
    (htm : ∀ t ∈ tx, MovesAt t.2 x0) (hrm : ∀ r ∈ rx, MovesAt r.2 x0) (walls : List (X → Pt × Pt))
    (hw : ∀ w ∈ walls, MovesAt (fun x => (w x).1) x0 ∧ MovesAt (fun x => (w x).2) x0 ∧ (w x0).1 ≠ (w x0).2)
    (lo hi : ℤ) (hlo : 0 ≤ lo) (hex : ∃ c, InRange walls.length lo hi c)
    (split : Key → ℕ → List Key) (key : Option Key) (f : Scene.PathFun) (g : Pt → Pt → List Pt → ℝ) (hf : RealFun f g) (hg : ContinuousFun g)
    (E : Env) (ap : Option Bool) (hs : Soft E ap) (kw : ActKw) (hkw : ContinuousStep kw) (tol patch : ℝ) (hp : -(1 / 2) < patch)
    (hreg : ∀ t ∈ tx, ∀ r ∈ rx, ∀ c, InRange walls.length lo hi c → ∀ pts loss,
      traceImage (t.2 x0) (wallsAt (wallsX walls x0) c) (r.2 x0) = .ok (finitePath pts loss) → RegularPath (wallsX walls x0) c pts) :
    ∃ value : String × (X → Pt) → String × (X → Pt) → X → ℝ,
      (∀ x, (wallScene (atX tx x) (atX rx x) (wallsX walls x)).accumulateOverPaths G split (imageMethod Key) { minOrder := lo, maxOrder := hi }
        ⟨E, F.fin tol, F.fin patch, ap, kw⟩ key f = .ok ((tx ×ˢ rx).map fun p => (p.1.1, p.2.1, F.fin (value p.1 p.2 x)))) ∧
      ∀ p ∈ tx ×ˢ rx, ContinuousAt (value p.1 p.2) x0 := by
  refine accumulate_moves G hG tx rx ht hr walls lo hi hlo hex split key _ f g hf hg htm hrm ?_
  intro t ht' r hr' c hc
  obtain ⟨pts, loss, valid, h1, -, h3, h4⟩ := C83_path t.2 r.2 (htm t ht') (hrm r hr') walls hw c hc.1 (hreg t ht' r hr' c hc) E ap hs kw hkw tol patch hp
  exact ⟨pts, loss, valid, h1, h3, fun x => ⟨(h4 x).1, _, (h4 x).2, rfl⟩⟩

/-- **C84.** In hard mode, the values of `accumulate_over_paths` are continuous where the traced paths are regular and
generic. -/
theorem C84_field {Key : Type} (G : GraphLib) (hG : GraphContract G) (tx rx : PyDict (X → Pt)) (ht : Distinct tx) (hr : Distinct rx)
    (htm : ∀ t ∈ tx, MovesAt t.2 x0) (hrm : ∀ r ∈ rx, MovesAt r.2 x0) (walls : List (X → Pt × Pt))
    (hw : ∀ w ∈ walls, MovesAt (fun x => (w x).1) x0 ∧ MovesAt (fun x => (w x).2) x0 ∧ (w x0).1 ≠ (w x0).2)
    (lo hi : ℤ) (hlo : 0 ≤ lo) (hex : ∃ c, InRange walls.length lo hi c)
    (split : Key → ℕ → List Key) (key : Option Key) (f : Scene.PathFun) (g : Pt → Pt → List Pt → ℝ) (hf : RealFun f g) (hg : ContinuousFun g)
    (E : Env) (ap : Option Bool) (hh : Hard E ap) (kw : ActKw) (tol patch : ℝ) (hp : -(1 / 2) < patch)
    (hreg : ∀ t ∈ tx, ∀ r ∈ rx, ∀ c, InRange walls.length lo hi c → ∀ pts loss,
      traceImage (t.2 x0) (wallsAt (wallsX walls x0) c) (r.2 x0) = .ok (finitePath pts loss) → RegularPath (wallsX walls x0) c pts ∧
        Generic (wallsAt (wallsX walls x0) c) (wallsX walls x0) c pts loss tol patch) :
    ∃ value : String × (X → Pt) → String × (X → Pt) → X → ℝ,
      (∀ x, (wallScene (atX tx x) (atX rx x) (wallsX walls x)).accumulateOverPaths G split (imageMethod Key) { minOrder := lo, maxOrder := hi }
        ⟨E, F.fin tol, F.fin patch, ap, kw⟩ key f = .ok ((tx ×ˢ rx).map fun p => (p.1.1, p.2.1, F.fin (value p.1 p.2 x)))) ∧
      ∀ p ∈ tx ×ˢ rx, ContinuousAt (value p.1 p.2) x0 := by
  refine accumulate_moves G hG tx rx ht hr walls lo hi hlo hex split key _ f g hf hg htm hrm ?_
  intro t ht' r hr' c hc
  obtain ⟨pts, loss, valid, h1, -, h3, h4⟩ := C84_path t.2 r.2 (htm t ht') (hrm r hr') walls hw c hc.1 E ap hh kw tol patch hp (hreg t ht' r hr' c hc)
  refine ⟨pts, loss, fun x => if valid x then 1 else 0, h1, ?_, fun x => ⟨(h4 x).1, _, (h4 x).2, ?_⟩⟩
  · refine (continuousAt_const (y := if valid x0 = true then (1 : ℝ) else 0)).congr ?_
    filter_upwards [h3] with x hx
    rw [hx]
  · rcases Bool.eq_false_or_eq_true (valid x) with e | e <;> simp [Truthy.toF, e]

/-- The received power is a continuous function of the path. -/
theorem C83_power (E : Env) (c height : ℝ) (hh : 0 < height) :
    ∃ g, RealFun (powerFun E c height) g ∧ ContinuousFun g := by
  refine ⟨_, realFun_power E c height hh, ?_⟩
  intro X _ x0 t r pts ht hr hpts
  have hlen : ∀ ps : List (X → Pt), (∀ p ∈ ps, MovesAt p x0) → ContinuousAt (fun x => plen E.eps (ps.map (· x))) x0 := by
    intro ps
    induction ps with
    | nil => intro _; exact continuousAt_const
    | cons p ps ih =>
      intro h
      cases ps with
      | nil => exact continuousAt_const
      | cons q ps =>
        have hp := h p (by simp)
        have hq := h q (by simp)
        have hs : MovesAt (fun x => q x - p x + ⟨E.eps, E.eps⟩) x0 :=
          ⟨(hq.1.sub hp.1).add continuousAt_const, (hq.2.sub hp.2).add continuousAt_const⟩
        exact hs.nrm.add (ih fun p h' => h p (by simp [h']))
  have hL := hlen pts hpts
  simp only [List.length_map]
  refine continuousAt_const.div (continuousAt_const.add (hL.pow 2)) ?_
  positivity

/-! ## A concrete case -/

/-- The hypotheses of C83 and C84 hold of the scene with one wall and a transmitter that moves to the right. -/
example : (∀ w ∈ [fun _ : ℝ => ((⟨0, 0⟩, ⟨3, 0⟩) : Pt × Pt)], MovesAt (fun x => (w x).1) 0 ∧ MovesAt (fun x => (w x).2) 0 ∧ (w 0).1 ≠ (w 0).2) ∧
    (∀ t ∈ [("tx", fun x : ℝ => (⟨x, 1⟩ : Pt))], MovesAt t.2 0) ∧
    (∀ t ∈ [("tx", fun x : ℝ => (⟨x, 1⟩ : Pt))], ∀ r ∈ [("rx", fun _ : ℝ => (⟨2, 1⟩ : Pt))], ∀ c,
      InRange [fun _ : ℝ => ((⟨0, 0⟩, ⟨3, 0⟩) : Pt × Pt)].length 0 1 c → ∀ pts loss,
      traceImage (t.2 0) (wallsAt (wallsX [fun _ : ℝ => ((⟨0, 0⟩, ⟨3, 0⟩) : Pt × Pt)] 0) c) (r.2 0) = .ok (finitePath pts loss) →
        RegularPath (wallsX [fun _ : ℝ => ((⟨0, 0⟩, ⟨3, 0⟩) : Pt × Pt)] 0) c pts) := by
  refine ⟨?_, ?_, ?_⟩
  · intro w hw
    simp only [List.mem_singleton] at hw
    subst hw
    exact ⟨⟨continuousAt_const, continuousAt_const⟩, ⟨continuousAt_const, continuousAt_const⟩, by simp⟩
  · intro t ht
    simp only [List.mem_singleton] at ht
    subst ht
    exact ⟨continuousAt_id, continuousAt_const⟩
  · intro t ht r hr c hc pts loss htr
    simp only [List.mem_singleton] at ht hr
    subst ht hr
    rcases ex_trace c hc pts loss htr with ⟨rfl, rfl, rfl⟩ | ⟨rfl, rfl, rfl⟩
    · refine ⟨fun h => absurd rfl h, ?_⟩
      intro i j w a b ha hb hj _
      have hi : i = 0 := by
        rcases i with _ | _ | i <;> simp_all
      subst hi
      have hj0 : j = 0 := by
        rcases j with _ | j <;> simp_all [wallsX]
      subst hj0
      simp [wallsX] at ha hb hj
      subst ha hb hj
      rintro ⟨⟨s, hs⟩, -⟩
      have := congrArg V2.y hs
      simp [pointAt] at this
    · refine ⟨fun _ => noPause_of_specular example_specular (by simp), ?_⟩
      intro i j w a b ha hb hj hadj
      exfalso; apply hadj
      have hj0 : j = 0 := by
        cases j with
        | zero => rfl
        | succ j => simp [wallsX] at hj
      subst hj0
      match i, hb with
      | 0, _ => exact .inl rfl
      | 1, _ => exact .inr ⟨0, rfl, rfl⟩
      | i + 2, hb => simp at hb

end DiffeRT2d.Props
