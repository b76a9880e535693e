import Verif.Lemmas.PrecisionFormats
import Verif.Lemmas.PrecisionSoft
import Verif.Props.Grad
import Verif.Props.Rounded
import Verif.Props.Stability

/-! # Properties C114 and C115: increasing the precision -/

namespace DiffeRT2d.Props
open Classical Spec Filter Topology

variable {ι : Type} {A : ι → FloatOps} {l : Filter ι} {E : ι → Env} {ap : Option Bool} {kw : ι → ActKw} {s : ℝ → ℝ}

/-- **C114.** IEEE binary formats become exact as their precision and their largest exponent grow. -/
theorem C114_formats {p : ι → ℕ} {emin emax : ι → ℤ} (hp : Tendsto p l atTop) (hx : Tendsto emax l atTop)
    (h4 : ∀ n, 4 ≤ p n) (h0 : ∀ n, emin n ≤ 0) (h3 : ∀ n, 3 ≤ emax n) : BecomeExact (fun n => ieee (p n) (emin n) (emax n)) l :=
  ieee_becomes_exact hp hx h4 h0 h3

/-- A wall and its stored forms. -/
noncomputable def storedPair (A : ι → FloatOps) (w : Pt × Pt) : (ι → Wall) × (Pt × Pt) := (fun n => storeWall (A n) w, w)

theorem storedPair_to (h : BecomeExact A l) {w : Pt × Pt} (hw : w.1 ≠ w.2) : WallTo l (storedPair A w).1 (storedPair A w).2 :=
  ⟨Approaches.store h w.1, Approaches.store h w.2, hw⟩

theorem interacting_store (A : FloatOps) (walls : List (Pt × Pt)) (c : List ℤ) :
    FloatOps.interacting (walls.map (storeWall A)) c = (wallsAt walls c).map (storeWall A) := by
  unfold FloatOps.interacting wallsAt
  rw [List.map_filterMap]
  congr 1
  funext i
  simp

theorem wallsAt_mem {walls : List (Pt × Pt)} {c : List ℤ} {w : Pt × Pt} (h : w ∈ wallsAt walls c) : w ∈ walls := by
  obtain ⟨i, -, hi⟩ := List.mem_filterMap.mp h
  exact List.mem_of_getElem? hi

/-- The data of a path that is computed more and more precisely. -/
theorem path_data (h : BecomeExact A l) (t r : Pt) {walls : List (Pt × Pt)} (hw : ∀ w ∈ walls, w.1 ≠ w.2) (c : List ℤ)
    (hm : c ≠ [] → NoPause (rpath t r (wallsAt walls c))) :
    ∃ (P : List (ι → V2 F)) (L : ι → F), List.Forall₂ (ApproachesPt l) P (rpath t r (wallsAt walls c)) ∧
      Approaches l L (scores (wallsAt walls c) (rpath t r (wallsAt walls c))).sum ∧
      ∀ n, (A n).imagePath (store (A n) t) ((wallsAt walls c).map (storeWall (A n))) (store (A n) r) = ⟨P.map (· n), L n⟩ := by
  set ws := wallsAt walls c with hws
  have hne : ws ≠ [] → c ≠ [] := by rintro h' rfl; exact h' rfl
  have hW : List.Forall₂ (WallTo l) (ws.map fun w => (storedPair A w).1) ws := by
    have : ∀ v : List (Pt × Pt), (∀ w ∈ v, w.1 ≠ w.2) → List.Forall₂ (WallTo l) (v.map fun w => (storedPair A w).1) v := by
      intro v
      induction v with
      | nil => intro _; exact .nil
      | cons w v ih => intro hv; exact .cons (storedPair_to h (hv w (by simp))) (ih fun w hw => hv w (by simp [hw]))
    exact this _ fun w hw' => hw w (wallsAt_mem hw')
  have hP := cpath_approach h (Approaches.store h t) (Approaches.store h r) hW fun h' => hm (hne h')
  have hz : Approaches l (fun _ => (0 : F)) 0 := by simpa using Approaches.const (l := l) 0
  have hL := loss_approach h hW hP (by rw [rpath_length]) (fun h' => hm (hne h')) hz
  rw [zero_add] at hL
  refine ⟨_, fun n => ((A n).imagePath (store (A n) t) (ws.map (storeWall (A n))) (store (A n) r)).loss, hP, ?_, fun n => ?_⟩
  · refine hL.congr' (.of_forall fun n => ?_)
    have e : (ws.map fun w => (storedPair A w).1).map (· n) = ws.map (storeWall (A n)) := by rw [List.map_map]; rfl
    rw [cpath_at, e]
    generalize ws.map (storeWall (A n)) = v
    cases v <;> rfl
  · have e : (ws.map fun w => (storedPair A w).1).map (· n) = ws.map (storeWall (A n)) := by rw [List.map_map]; rfl
    rw [cpath_at, e]

/-- **C114.** The points, the loss and the length of a path computed by the image method approach the exact ones: ends and
walls are those of the user, rounded; the walls have a non-zero length and the exact path does not pause. -/
theorem C114_path (h : BecomeExact A l) (t r : Pt) (walls : List (Pt × Pt)) (hw : ∀ w ∈ walls, w.1 ≠ w.2) (c : List ℤ)
    (pts : List Pt) (loss : ℝ) (htr : traceImage t (wallsAt walls c) r = .ok (finitePath pts loss)) (hm : c ≠ [] → NoPause pts)
    (E : ι → Env) (e : ℝ) (he : Tendsto (fun n => (E n).eps) l (𝓝 e)) :
    let path n := (A n).imagePath (store (A n) t) (FloatOps.interacting (walls.map (storeWall (A n))) c) (store (A n) r)
    ApproachesPts l (fun n => (path n).xys) pts ∧ Approaches l (fun n => (path n).loss) loss ∧
      Approaches l (fun n => (A n).pathLength (E n) (path n).xys) (guardedLength e pts) := by
  rw [traceImage_eq] at htr
  obtain ⟨rfl, rfl⟩ := finitePath_inj (Except.ok.inj htr)
  obtain ⟨P, L, h1, h2, h3⟩ := path_data h t r hw c hm
  intro path
  have e3 : ∀ n, path n = ⟨P.map (· n), L n⟩ := fun n => by simp only [path, interacting_store, h3]
  refine ⟨⟨P, fun n => congrArg Path.xys (e3 n), h1⟩, h2.congr' (.of_forall fun n => by rw [e3]), ?_⟩
  rw [guardedLength_eq]
  exact (length_approach h he h1).congr' (.of_forall fun n => by rw [e3])

/-- `received_power`, of a path that approaches the exact one. -/
theorem power_approach (h : BecomeExact A l) {P : List (ι → V2 F)} {pts : List Pt} (hP : List.Forall₂ (ApproachesPt l) P pts) (L : ι → F)
    {e : ℝ} (he : Tendsto (fun n => (E n).eps) l (𝓝 e)) {coef height : ℝ} (hh : 0 < height) :
    Approaches l (fun n => (A n).receivedPower (E n) ⟨P.map (· n), L n⟩ ((A n).rnd coef) ((A n).rnd height)) (powerAlong e coef height pts) := by
  have hc : Approaches l (fun n => (A n).rnd coef) coef := h.tendsto tendsto_const_nhds
  have hH : Approaches l (fun n => (A n).rnd height) height := h.tendsto tendsto_const_nhds
  have hr := length_approach h he hP
  have hpow : ∀ k : ℕ, Approaches l (fun n => (A n).power ((A n).rnd coef) k) (coef ^ k) := by
    intro k
    induction k with
    | zero => simpa [FloatOps.power] using Approaches.const (l := l) 1
    | succ k ih => rw [pow_succ]; exact ih.mul h hc
  have hd := (hH.mul h hH).add h (hr.mul h hr)
  have := (hpow (pts.length - 2)).div h hd (by have := mul_self_nonneg (plen e pts); positivity)
  rw [powerAlong, guardedLength_eq, pow_two, pow_two]
  refine this.congr' (.of_forall fun n => ?_)
  simp only [FloatOps.receivedPower, List.length_map, hP.length_eq]

/-- **C114.** Hard validity is eventually that of exact arithmetic, if the exact path is regular and generic (no comparison is
a tie). -/
theorem C114_valid (h : BecomeExact A l) (t r : Pt) (walls : List (Pt × Pt)) (hw : ∀ w ∈ walls, w.1 ≠ w.2) (c : List ℤ) (hc : IsCandidate walls.length c)
    (pts : List Pt) (loss : ℝ) (htr : traceImage t (wallsAt walls c) r = .ok (finitePath pts loss))
    (tol patch : ℝ) (hp : -(1 / 2) < patch) (hreg : RegularPath walls c pts) (hg : Generic (wallsAt walls c) walls c pts loss tol patch)
    (hh : ∀ n, Hard (E n) ap) (E0 : Env) (hh0 : Hard E0 ap) (kw0 : ActKw) :
    ∃ b, (finitePath pts loss).isValid E0 ((wallsOf walls).map Obj.interact) c ((wallsOf (wallsAt walls c)).map Obj.interact) (F.fin tol) (F.fin patch) ap kw0 = .ok (.b b) ∧
      ∀ᶠ n in l, (A n).validity (E n) (store (A n) t) (store (A n) r) (walls.map (storeWall (A n))) c ((A n).rnd tol) ((A n).rnd patch) ap (kw n) = .ok (.b b) := by
  rw [traceImage_eq] at htr
  obtain ⟨rfl, rfl⟩ := finitePath_inj (Except.ok.inj htr)
  obtain ⟨P, L, h1, h2, h3⟩ := path_data h t r hw c hreg.moves
  have hlen : (rpath t r (wallsAt walls c)).length = c.length + 2 := by rw [rpath_length, wallsAt_length hc]
  refine ⟨_, isValid_hardOk hh0 kw0 _ _ c _ _ tol patch hlen, ?_⟩
  have e2 : ∀ v : List (Pt × Pt), (v.map (storedPair A)).map (·.2) = v := fun v => by rw [List.map_map]; exact List.map_id v
  have e1 : ∀ (v : List (Pt × Pt)) (n : ι), (v.map (storedPair A)).map (·.1 n) = v.map (storeWall (A n)) := fun v n => by rw [List.map_map]; rfl
  have := hard_eventually (kw := kw) h hh (ws := (wallsAt walls c).map (storedPair A)) (scene := walls.map (storedPair A))
    (by intro w hw'; obtain ⟨w, h', rfl⟩ := List.mem_map.mp hw'; exact storedPair_to h (hw w (wallsAt_mem h')))
    (by intro w hw'; obtain ⟨w, h', rfl⟩ := List.mem_map.mp hw'; exact storedPair_to h (hw w h')) h1 hlen (by rw [List.length_map, wallsAt_length hc]) h2
    (h.tendsto (g := fun _ => tol) tendsto_const_nhds) (h.tendsto (g := fun _ => patch) tendsto_const_nhds) hp (by rw [e2]; exact hreg) (by rw [e2, e2]; exact hg)
  filter_upwards [this] with n hn
  rw [e1, e1, e2, e2] at hn
  rw [FloatOps.validity, interacting_store, h3, hn]

/-- The sum over the candidates. -/
theorem accumulate_approach (h : BecomeExact A l) (t r : Pt) {walls : List (Pt × Pt)} (hw : ∀ w ∈ walls, w.1 ≠ w.2) {e : ℝ}
    (he : Tendsto (fun n => (E n).eps) l (𝓝 e)) {coef height : ℝ} (hh : 0 < height) (T Q : ι → F) (rv : List ℤ → ℝ) (cs : List (List ℤ))
    (hv : ∀ c ∈ cs, (c ≠ [] → NoPause (rpath t r (wallsAt walls c))) ∧ ∃ V : ι → Truthy, Approaches l (fun n => (V n).toF) (rv c) ∧
      ∀ᶠ n in l, (A n).validity (E n) (store (A n) t) (store (A n) r) (walls.map (storeWall (A n))) c (T n) (Q n) ap (kw n) = .ok (V n))
    {acc : ι → F} {a : ℝ} (ha : Approaches l acc a) :
    ∃ f : ι → F, (∀ᶠ n in l, (A n).accumulate (E n) (store (A n) t) (store (A n) r) (walls.map (storeWall (A n))) (T n) (Q n) ap (kw n)
        ((A n).rnd coef) ((A n).rnd height) (acc n) cs = .ok (f n)) ∧
      Approaches l f (a + (cs.map fun c => rv c * powerAlong e coef height (rpath t r (wallsAt walls c))).sum) := by
  induction cs generalizing acc a with
  | nil => exact ⟨acc, .of_forall fun n => rfl, by simpa using ha⟩
  | cons c cs ih =>
    obtain ⟨hm, V, hV, hV'⟩ := hv c (by simp)
    obtain ⟨P, L, h1, h2, h3⟩ := path_data h t r hw c hm
    obtain ⟨f, f1, f2⟩ := ih (fun c hc => hv c (by simp [hc])) (ha.add h (hV.mul h (power_approach h h1 L he (coef := coef) hh)))
    refine ⟨f, ?_, by simpa [add_assoc] using f2⟩
    filter_upwards [f1, hV'] with n e1 e2
    rw [FloatOps.accumulate, e2]
    show FloatOps.accumulate _ _ _ _ _ _ _ _ _ _ _ _ _ = _
    rw [interacting_store, h3]
    exact e1

/-- **C114.** In hard mode, the power that `accumulate_over_paths` computes approaches the exact one, for every transmitter and
every receiver, if the exact paths are regular and generic. The guard `eps` of `path_length` may change with the precision. -/
theorem C114_field {Key : Type} (h : BecomeExact A l) (G : GraphLib) (hG : GraphContract G) (tx rx : PyDict Pt) (ht : Distinct tx) (hr : Distinct rx)
    (walls : List (Pt × Pt)) (hw : ∀ w ∈ walls, w.1 ≠ w.2) (lo hi : ℤ) (hlo : 0 ≤ lo) (hex : ∃ c, InRange walls.length lo hi c)
    (split : Key → ℕ → List Key) (key : Option Key) (tol patch : ℝ) (hp : -(1 / 2) < patch) (coef height : ℝ) (hH : 0 < height)
    (hreg : ∀ t ∈ tx, ∀ r ∈ rx, ∀ c, InRange walls.length lo hi c → ∀ pts loss, traceImage t.2 (wallsAt walls c) r.2 = .ok (finitePath pts loss) →
      RegularPath walls c pts ∧ Generic (wallsAt walls c) walls c pts loss tol patch)
    (hh : ∀ n, Hard (E n) ap) (E0 : Env) (hh0 : Hard E0 ap) (he : Tendsto (fun n => (E n).eps) l (𝓝 E0.eps)) (kw0 : ActKw) :
    ∃ (cs : List (List ℤ)) (value : String × Pt → String × Pt → ℝ),
      (wallScene tx rx walls).allPathCandidates G { minOrder := lo, maxOrder := hi } = .ok cs ∧
      (wallScene tx rx walls).accumulateOverPaths G split (imageMethod Key) { minOrder := lo, maxOrder := hi }
        ⟨E0, F.fin tol, F.fin patch, ap, kw0⟩ key (powerFun E0 coef height) = .ok ((tx ×ˢ rx).map fun p => (p.1.1, p.2.1, F.fin (value p.1 p.2))) ∧
      ∀ p ∈ tx ×ˢ rx, ∃ f : ι → F, (∀ᶠ n in l, (A n).accumulate (E n) (store (A n) p.1.2) (store (A n) p.2.2) (walls.map (storeWall (A n)))
          ((A n).rnd tol) ((A n).rnd patch) ap (kw n) ((A n).rnd coef) ((A n).rnd height) 0 cs = .ok (f n)) ∧ Approaches l f (value p.1 p.2) := by
  obtain ⟨cs, hcs, hcd, hcm, hne⟩ := cands_walls G hG tx rx walls lo hi hlo hex
  let ok : Pt → Pt → List ℤ → Bool := fun t r c => decide (HardOk (wallsAt walls c) walls c (rpath t r (wallsAt walls c)) (scores (wallsAt walls c) (rpath t r (wallsAt walls c))).sum tol patch)
  refine ⟨cs, fun t r => (cs.map fun c => (if ok t.2 r.2 c = true then 1 else 0) * powerAlong E0.eps coef height (rpath t.2 r.2 (wallsAt walls c))).sum, hcs, ?_, ?_⟩
  · refine accumulate_walls G hG tx rx ht hr walls lo hi hlo cs hcs hcd hcm hne split key _ _ _ (realFun_powerAlong E0 coef height hH) (fun t r c => if ok t r c = true then 1 else 0) ?_
    intro t ht' r hr' c hc
    have hc' := (hcm c).mp hc
    refine ⟨_, isValid_hardOk hh0 kw0 (wallsAt walls c) walls c _ _ tol patch (by rw [rpath_length, wallsAt_length hc'.1]), ?_⟩
    show Truthy.toF (.b (ok t.2 r.2 c)) = _
    cases ok t.2 r.2 c <;> simp [Truthy.toF]
  · intro p hp'
    obtain ⟨hp1, hp2⟩ := List.mem_product.mp hp'
    have hz : Approaches l (fun _ => (0 : F)) 0 := by simpa using Approaches.const (l := l) 0
    have := accumulate_approach (E := E) (ap := ap) (kw := kw) h p.1.2 p.2.2 hw he (coef := coef) hH (fun n => (A n).rnd tol) (fun n => (A n).rnd patch)
      (fun c => if ok p.1.2 p.2.2 c = true then 1 else 0) cs ?_ hz
    · simpa only [zero_add] using this
    intro c hc
    have hc' := (hcm c).mp hc
    obtain ⟨hR, hg⟩ := hreg p.1 hp1 p.2 hp2 c hc' _ _ (traceImage_eq _ _ _)
    refine ⟨hR.moves, fun _ => .b (ok p.1.2 p.2.2 c), ?_, ?_⟩
    · refine (Approaches.const _).congr' (.of_forall fun n => ?_)
      cases ok p.1.2 p.2.2 c <;> simp [Truthy.toF]
    · obtain ⟨b, b1, b2⟩ := C114_valid (kw := kw) h p.1.2 p.2.2 walls hw c hc'.1 _ _ (traceImage_eq _ _ _) tol patch hp hR hg hh E0 hh0 kw0
      rw [isValid_hardOk hh0 kw0 _ _ c _ _ tol patch (by rw [rpath_length, wallsAt_length hc'.1])] at b1
      have : ok p.1.2 p.2.2 c = b := by simpa using b1
      rw [this]; exact b2

/-! ## C115 — approximate mode -/

/-- **C115.** The activations of the library, computed in floating point, approach the exact ones; the slope may be rounded. -/
theorem C115_steps (h : BecomeExact A l) (α : ι → ℝ) (a : ℝ) (ha : 0 < a) (hα : ∀ n, 0 < α n) (ht : Tendsto α l (𝓝 a)) :
    StepsApproach l (fun n => ⟨F.fin (α n), (A n).sigmoid⟩) (fun x => 1 / (1 + Real.exp (-(a * x)))) ∧
    StepsApproach l (fun n => ⟨F.fin (α n), (A n).hardSigmoid⟩) (fun x => min (max (a * x + 3) 0) 6 / 6) := by
  have hal : Approaches l (fun n => F.fin (α n)) a := ⟨α, .of_forall fun _ => rfl, ht⟩
  constructor
  · refine ⟨fun n => (C87_steps (h.contract n) _ (hα n)).1, ?_, ?_⟩
    · intro f x hf
      obtain ⟨g, g1, g2⟩ := hal.mul h hf
      let r : ι → ℝ := fun n => match (A n).logistic (F.fin (g n)) with | F.fin r => r | _ => 0
      have hr : ∀ (n : ι) (y : ℝ), (A n).logistic (F.fin (g n)) = F.fin y → r n = y := by intro n y hy; simp only [r, hy]
      refine ⟨r, ?_, ?_⟩
      · filter_upwards [g1, h.logistic 1 one_pos] with n e1 e2
        obtain ⟨y, hy, -⟩ := e2 (g n)
        rw [hr n y hy]
        show (A n).logistic ((A n).mul _ _) = _
        rw [e1, hy]
      · have h1 : Tendsto (fun n => r n - 1 / (1 + Real.exp (-g n))) l (𝓝 0) := by
          rw [Metric.tendsto_nhds]
          intro ε hε
          filter_upwards [h.logistic ε hε] with n e2
          obtain ⟨y, hy, hy'⟩ := e2 (g n)
          rw [Real.dist_eq, sub_zero, hr n y hy]; exact hy'
        have hc : Continuous fun y : ℝ => 1 / (1 + Real.exp (-y)) := by
          have : ∀ x : ℝ, 1 + Real.exp (-x) ≠ 0 := fun x => by positivity
          fun_prop (disch := exact this _)
        have h2 : Tendsto (fun n => 1 / (1 + Real.exp (-g n))) l (𝓝 (1 / (1 + Real.exp (-(a * x))))) := (hc.tendsto _).comp g2
        simpa using h1.add h2
    · have h1 : Tendsto (fun x : ℝ => -(a * x)) atBot atTop := tendsto_neg_atBot_atTop.comp (tendsto_id.const_mul_atBot ha)
      have h2 := tendsto_atTop_add_const_left atBot (1 : ℝ) (Real.tendsto_exp_atTop.comp h1)
      have h3 := h2.inv_tendsto_atTop
      refine h3.congr fun x => ?_
      simp
  · refine ⟨fun n => (C87_steps (h.contract n) _ (hα n)).2, ?_, ?_⟩
    · intro f x hf
      have c3 : Approaches l (fun _ => (3 : F)) 3 := by simpa using Approaches.const (l := l) 3
      have c6 : Approaches l (fun _ => (6 : F)) 6 := by simpa using Approaches.const (l := l) 6
      obtain ⟨g, g1, g2⟩ := (hal.mul h hf).add h c3
      have : Approaches l (fun n => nnRelu6 ((A n).add ((A n).mul (F.fin (α n)) (f n)) 3)) (min (max (a * x + 3) 0) 6) := by
        refine ⟨fun n => min (max (g n) 0) 6, ?_, ?_⟩
        · filter_upwards [g1] with n e1
          rw [e1]; simp [nnRelu6]
        · exact (g2.max tendsto_const_nhds).min tendsto_const_nhds
      exact this.div h c6 (by norm_num)
    · refine tendsto_const_nhds.congr' ?_
      filter_upwards [eventually_le_atBot (-3 / a)] with x hx
      have : a * x ≤ -3 := by rw [le_div_iff₀ ha] at hx; linarith
      rw [max_eq_right (by linarith), min_eq_left (by norm_num)]; norm_num

/-- **C115.** The degree of validity of a path approaches the exact one, if the exact path is regular: no genericity is needed,
since approximate comparisons do not jump. -/
theorem C115_valid (h : BecomeExact A l) (t r : Pt) (walls : List (Pt × Pt)) (hw : ∀ w ∈ walls, w.1 ≠ w.2) (c : List ℤ) (hc : IsCandidate walls.length c)
    (pts : List Pt) (loss : ℝ) (htr : traceImage t (wallsAt walls c) r = .ok (finitePath pts loss))
    (tol patch : ℝ) (hp : -(1 / 2) < patch) (hreg : RegularPath walls c pts) (hs : ∀ n, Soft (E n) ap) (hk : StepsApproach l kw s)
    (E0 : Env) (hs0 : Soft E0 ap) (kw0 : ActKw) (hk0 : ContinuousStep kw0) (he : ∀ x, activation kw0 (F.fin x) = F.fin (s x)) :
    ∃ (v : ℝ) (f : ι → F), (finitePath pts loss).isValid E0 ((wallsOf walls).map Obj.interact) c ((wallsOf (wallsAt walls c)).map Obj.interact)
        (F.fin tol) (F.fin patch) ap kw0 = .ok (.f (F.fin v)) ∧
      (∀ n, (A n).validity (E n) (store (A n) t) (store (A n) r) (walls.map (storeWall (A n))) c ((A n).rnd tol) ((A n).rnd patch) ap (kw n) = .ok (.f (f n))) ∧
      Approaches l f v := by
  rw [traceImage_eq] at htr
  obtain ⟨rfl, rfl⟩ := finitePath_inj (Except.ok.inj htr)
  obtain ⟨P, L, h1, h2, h3⟩ := path_data h t r hw c hreg.moves
  have hlen : (rpath t r (wallsAt walls c)).length = c.length + 2 := by rw [rpath_length, wallsAt_length hc]
  obtain ⟨-, -, k2, k3, -, -, -⟩ := kw_real hk0
  have e2 : ∀ v : List (Pt × Pt), (v.map (storedPair A)).map (·.2) = v := fun v => by rw [List.map_map]; exact List.map_id v
  have e1 : ∀ (v : List (Pt × Pt)) (n : ι), (v.map (storedPair A)).map (·.1 n) = v.map (storeWall (A n)) := fun v n => by rw [List.map_map]; rfl
  obtain ⟨f, f1, f2⟩ := soft_approach h hs hk (ws := (wallsAt walls c).map (storedPair A)) (scene := walls.map (storedPair A))
    (by intro w hw'; obtain ⟨w, h', rfl⟩ := List.mem_map.mp hw'; exact storedPair_to h (hw w (wallsAt_mem h')))
    (by intro w hw'; obtain ⟨w, h', rfl⟩ := List.mem_map.mp hw'; exact storedPair_to h (hw w h')) h1 hlen (by rw [List.length_map, wallsAt_length hc]) h2
    (h.tendsto (g := fun _ => tol) tendsto_const_nhds) (h.tendsto (g := fun _ => patch) tendsto_const_nhds) hp (by rw [e2]; exact hreg)
  rw [e2, e2] at f2
  refine ⟨_, f, fmValid_soft hs0 he k2 k3 _ _ c _ _ tol patch hlen, fun n => ?_, f2⟩
  have hn := f1 n
  rw [e1, e1] at hn
  rw [FloatOps.validity, interacting_store, h3, hn]

/-- **C115.** In approximate mode, the power that `accumulate_over_paths` computes approaches the exact one, for every
transmitter and every receiver, if the exact paths are regular. -/
theorem C115_field {Key : Type} (h : BecomeExact A l) (G : GraphLib) (hG : GraphContract G) (tx rx : PyDict Pt) (ht : Distinct tx) (hr : Distinct rx)
    (walls : List (Pt × Pt)) (hw : ∀ w ∈ walls, w.1 ≠ w.2) (lo hi : ℤ) (hlo : 0 ≤ lo) (hex : ∃ c, InRange walls.length lo hi c)
    (split : Key → ℕ → List Key) (key : Option Key) (tol patch : ℝ) (hp : -(1 / 2) < patch) (coef height : ℝ) (hH : 0 < height)
    (hreg : ∀ t ∈ tx, ∀ r ∈ rx, ∀ c, InRange walls.length lo hi c → ∀ pts loss, traceImage t.2 (wallsAt walls c) r.2 = .ok (finitePath pts loss) →
      RegularPath walls c pts)
    (hs : ∀ n, Soft (E n) ap) (hk : StepsApproach l kw s) (E0 : Env) (hs0 : Soft E0 ap) (he : Tendsto (fun n => (E n).eps) l (𝓝 E0.eps))
    (kw0 : ActKw) (hk0 : ContinuousStep kw0) (hk1 : ∀ x, activation kw0 (F.fin x) = F.fin (s x)) :
    ∃ (cs : List (List ℤ)) (value : String × Pt → String × Pt → ℝ),
      (wallScene tx rx walls).allPathCandidates G { minOrder := lo, maxOrder := hi } = .ok cs ∧
      (wallScene tx rx walls).accumulateOverPaths G split (imageMethod Key) { minOrder := lo, maxOrder := hi }
        ⟨E0, F.fin tol, F.fin patch, ap, kw0⟩ key (powerFun E0 coef height) = .ok ((tx ×ˢ rx).map fun p => (p.1.1, p.2.1, F.fin (value p.1 p.2))) ∧
      ∀ p ∈ tx ×ˢ rx, ∃ f : ι → F, (∀ᶠ n in l, (A n).accumulate (E n) (store (A n) p.1.2) (store (A n) p.2.2) (walls.map (storeWall (A n)))
          ((A n).rnd tol) ((A n).rnd patch) ap (kw n) ((A n).rnd coef) ((A n).rnd height) 0 cs = .ok (f n)) ∧ Approaches l f (value p.1 p.2) := by
  obtain ⟨cs, hcs, hcd, hcm, hne⟩ := cands_walls G hG tx rx walls lo hi hlo hex
  let deg : Pt → Pt → List ℤ → ℝ := fun t r c => (fmValid (wallsAt walls c) walls c (rpath t r (wallsAt walls c)) (scores (wallsAt walls c) (rpath t r (wallsAt walls c))).sum tol patch).eval s
  obtain ⟨-, -, k2, k3, -, -, -⟩ := kw_real hk0
  refine ⟨cs, fun t r => (cs.map fun c => deg t.2 r.2 c * powerAlong E0.eps coef height (rpath t.2 r.2 (wallsAt walls c))).sum, hcs, ?_, ?_⟩
  · refine accumulate_walls G hG tx rx ht hr walls lo hi hlo cs hcs hcd hcm hne split key _ _ _ (realFun_powerAlong E0 coef height hH) deg ?_
    intro t ht' r hr' c hc
    have hc' := (hcm c).mp hc
    exact ⟨_, fmValid_soft hs0 hk1 k2 k3 (wallsAt walls c) walls c _ _ tol patch (by rw [rpath_length, wallsAt_length hc'.1]), rfl⟩
  · intro p hp'
    obtain ⟨hp1, hp2⟩ := List.mem_product.mp hp'
    have hz : Approaches l (fun _ => (0 : F)) 0 := by simpa using Approaches.const (l := l) 0
    have := accumulate_approach (E := E) (ap := ap) (kw := kw) h p.1.2 p.2.2 hw he (coef := coef) hH (fun n => (A n).rnd tol) (fun n => (A n).rnd patch)
      (deg p.1.2 p.2.2) cs ?_ hz
    · simpa only [zero_add] using this
    intro c hc
    have hc' := (hcm c).mp hc
    have hR := hreg p.1 hp1 p.2 hp2 c hc' _ _ (traceImage_eq _ _ _)
    obtain ⟨v, f, f1, f2, f3⟩ := C115_valid h p.1.2 p.2.2 walls hw c hc'.1 _ _ (traceImage_eq _ _ _) tol patch hp hR hs hk E0 hs0 kw0 hk0 hk1
    rw [fmValid_soft hs0 hk1 k2 k3 _ _ c _ _ tol patch (by rw [rpath_length, wallsAt_length hc'.1])] at f1
    have : deg p.1.2 p.2.2 c = v := by simpa using f1
    rw [this]
    exact ⟨hR.moves, fun n => .f (f n), f3, .of_forall f2⟩

/-! ## A concrete case -/

/-- Formats of precision `4, 5, 6, …` become exact, their slopes are soft steps, and the scene with one wall is regular and
generic at orders 0 and 1. -/
example : BecomeExact (fun n : ℕ => ieee (n + 4) 0 (n + 3)) atTop ∧
    StepsApproach atTop (fun n : ℕ => ⟨F.fin 100, (ieee (n + 4) 0 (n + 3)).hardSigmoid⟩) (fun x => min (max (100 * x + 3) 0) 6 / 6) ∧
    (∀ w ∈ [((⟨0, 0⟩, ⟨3, 0⟩) : Pt × Pt)], w.1 ≠ w.2) ∧
    ∀ c, InRange 1 0 1 c → ∀ pts loss, traceImage ⟨0, 1⟩ (wallsAt [(⟨0, 0⟩, ⟨3, 0⟩)] c) ⟨2, 1⟩ = .ok (finitePath pts loss) →
      RegularPath [(⟨0, 0⟩, ⟨3, 0⟩)] c pts ∧ Generic (wallsAt [(⟨0, 0⟩, ⟨3, 0⟩)] c) [(⟨0, 0⟩, ⟨3, 0⟩)] c pts loss (1 / 100) 0 := by
  have hb : BecomeExact (fun n : ℕ => ieee (n + 4) 0 (n + 3)) atTop :=
    C114_formats (tendsto_add_atTop_nat 4) ((tendsto_natCast_atTop_atTop (R := ℤ)).atTop_add tendsto_const_nhds) (by simp) (by simp) (by simp)
  refine ⟨hb, (C115_steps hb (fun _ => 100) 100 (by norm_num) (fun _ => by norm_num) tendsto_const_nhds).2, exWall_ne, fun c hc pts loss htr => ?_⟩
  obtain ⟨h1, h2, -⟩ := oneWall_regular ⟨false, 1⟩ one_pos c hc pts loss htr
  exact ⟨h1, h2⟩

end DiffeRT2d.Props
