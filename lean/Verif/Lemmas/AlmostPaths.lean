import Verif.Lemmas.AlmostScene

/-! `all_paths`, `all_valid_paths` and `accumulate_over_paths` on families of scenes. -/

namespace DiffeRT2d
open Classical Spec MeasureTheory Filter Topology

variable {X : Type} [NormedAddCommGroup X] [NormedSpace ℝ X] [FiniteDimensional ℝ X] [MeasurableSpace X] [BorelSpace X] {μ : Measure X} [μ.IsAddHaarMeasure]

/-- A named value: the name is fixed. -/
def NamedBy {V : Type} (P : (X → V) → Prop) (p : X → String × V) : Prop := (∃ k, ∀ x, (p x).1 = k) ∧ P fun x => (p x).2

theorem items_family (d : PyDict (X → V2 F)) (hd : ∀ p ∈ d, AnalyticPt μ p.2) :
    Outcome (AllOf (NamedBy (AnalyticPt μ))) fun x => (PyTreeDict.fromMapping (d.map fun p => (p.1, p.2 x))).items := by
  unfold PyTreeDict.items
  have hi : ∀ x : X, (PyTreeDict.fromMapping (d.map fun p => (p.1, p.2 x))).iter = d.map Prod.fst := by
    intro x
    simp [PyTreeDict.iter, PyTreeDict.fromMapping, Function.comp_def]
  simp only [hi]
  let f : X → String → Except PyErr (String × V2 F) := fun x key => ((PyTreeDict.fromMapping (d.map fun p => (p.1, p.2 x))).getItem key).map fun v => (key, v)
  have h1 : ∀ k ∈ d.map Prod.fst, Outcome (NamedBy (AnalyticPt μ)) fun x => f x k := by
    intro k _
    refine (getItem_family d k).map ?_
    rintro a ⟨p, hp, rfl⟩
    exact ⟨⟨k, fun _ => rfl⟩, hd p hp⟩
  exact Outcome.mapM f _ h1

theorem AllOf.product {α β : Type} {P : (X → α) → Prop} {Q : (X → β) → Prop} {l : X → List α} {l' : X → List β} (h : AllOf P l) (h' : AllOf Q l') :
    AllOf (fun p => P (fun x => (p x).1) ∧ Q fun x => (p x).2) fun x => l x ×ˢ l' x := by
  obtain ⟨L, hL, e⟩ := h
  obtain ⟨L', hL', e'⟩ := h'
  refine ⟨(L ×ˢ L').map fun p x => (p.1 x, p.2 x), ?_, fun x => ?_⟩
  · intro b hb
    obtain ⟨a, ha, rfl⟩ := List.mem_map.mp hb
    have := List.mem_product.mp (show (a.1, a.2) ∈ L ×ˢ L' from ha)
    exact ⟨hL _ this.1, hL' _ this.2⟩
  · simp only [e x, e' x]
    simp only [SProd.sprod, List.product, List.map_flatMap, List.flatMap_map, List.map_map, Function.comp_def]

/-- A transmitter, a receiver and a candidate: the names and the candidate are fixed. -/
def AnalyticJob (μ : Measure X) (j : X → ((String × V2 F) × (String × V2 F)) × List ℤ) : Prop :=
  (NamedBy (AnalyticPt μ) (fun x => (j x).1.1) ∧ NamedBy (AnalyticPt μ) fun x => (j x).1.2) ∧ ∃ c, ∀ x, (j x).2 = c

/-- What is asked of a family of scenes. -/
structure SceneFamily (μ : Measure X) (s : X → Scene) (tx rx : PyDict (X → V2 F)) (os : List (X → Obj)) : Prop where
  etx : ∀ x, (s x).transmitters = .fromMapping (tx.map fun p => (p.1, p.2 x))
  erx : ∀ x, (s x).receivers = .fromMapping (rx.map fun p => (p.1, p.2 x))
  objects : ∀ x, (s x).objects = os.map (· x)
  htx : ∀ p ∈ tx, AnalyticPt μ p.2
  hrx : ∀ p ∈ rx, AnalyticPt μ p.2
  hos : ∀ o ∈ os, AnalyticObj μ o

/-- What is asked of the options. -/
structure OptsFamily (μ : Measure X) (v : X → Scene.ValidOpts) (E : Env) (ap : Option Bool) : Prop where
  eE : ∀ x, (v x).E = E
  eap : ∀ x, (v x).approx = ap
  tol : AlmostAnalytic μ fun x => (v x).tol
  patch : AlmostAnalytic μ fun x => (v x).patch
  kw : Settings μ E ap fun x => (v x).kw

section
variable {s : X → Scene} {tx rx : PyDict (X → V2 F)} {os : List (X → Obj)} {v : X → Scene.ValidOpts} {E : Env} {ap : Option Bool}

theorem SceneFamily.pairs (h : SceneFamily μ s tx rx os) :
    Outcome (AllOf fun p => NamedBy (AnalyticPt μ) (fun x => (p x).1) ∧ NamedBy (AnalyticPt μ) fun x => (p x).2) fun x => (s x).allTransmitterReceiverPairs := by
  unfold Scene.allTransmitterReceiverPairs
  refine Outcome.bind (P := AllOf (NamedBy (AnalyticPt μ))) ?_ fun a ha => Outcome.bind (P := AllOf (NamedBy (AnalyticPt μ))) ?_ fun b hb => Outcome.ok (AllOf.product ha hb)
  · simp only [h.etx]; exact items_family tx h.htx
  · simp only [h.erx]; exact items_family rx h.hrx

theorem SceneFamily.validity (h : SceneFamily μ s tx rx os) (hv : OptsFamily μ v E ap) {p : X → Path} (hp : AnalyticPath μ p) (c : List ℤ) {ws : X → List Obj} (hw : AllOf (AnalyticObj μ) ws) :
    Outcome (AnalyticTruth μ) fun x => (s x).validity (v x) (p x) c (ws x) := by
  obtain ⟨⟨L, hL, eL⟩, hl⟩ := hp
  obtain ⟨W, hW, eW⟩ := hw
  have key := isValid_analytic hv.kw hL hl (os.map fun o x => (o x).interact) (W.map fun o x => (o x).interact)
    (by intro o ho; obtain ⟨a, ha, rfl⟩ := List.mem_map.mp ho; exact interact_analytic hv.kw (h.hos a ha))
    (by intro o ho; obtain ⟨a, ha, rfl⟩ := List.mem_map.mp ho; exact interact_analytic hv.kw (hW a ha)) c hv.tol hv.patch
  have e : ∀ x, (s x).validity (v x) (p x) c (ws x) = (⟨L.map (· x), (p x).loss⟩ : Path).isValid E ((os.map fun o x => (o x).interact).map (· x)) c ((W.map fun o x => (o x).interact).map (· x)) (v x).tol (v x).patch ap (v x).kw := by
    intro x
    unfold Scene.validity
    rw [h.objects x, eW x, hv.eE x, hv.eap x, ← eL x]
    simp only [List.map_map, Function.comp_def]
  simp only [e]
  exact key

theorem SceneFamily.trace {Key : Type} (h : SceneFamily μ s tx rx os) (hv : OptsFamily μ v E ap) (split : Key → ℕ → List Key) {m : Scene.PathMethod Key} (hm : AnalyticMethod μ m)
    (J : List (X → ((String × V2 F) × (String × V2 F)) × List ℤ)) (hJ : ∀ j ∈ J, AnalyticJob μ j) (key : Option Key) :
    Outcome (AllOf (AnalyticTraced μ)) fun x => (s x).tracePaths split m (v x) key (J.map (· x)) := by
  induction J generalizing key with
  | nil => exact Outcome.ok (a := fun _ => []) ⟨[], by simp, fun x => rfl⟩
  | cons j J ih =>
    obtain ⟨⟨⟨⟨kt, hkt⟩, ht⟩, ⟨kr, hkr⟩, hr⟩, c, hc⟩ := hJ j (by simp)
    refine (?_ : Outcome _ fun x => ((s x).getInteractingObjects c).bind fun I => (m.trace (Scene.splitKey split key).2 (j x).1.1.2 I (j x).1.2.2).bind fun path =>
      ((s x).validity (v x) path c I).bind fun valid => ((s x).tracePaths split m (v x) (Scene.splitKey split key).1 (J.map (· x))).bind fun others =>
        .ok ((⟨kt, kr, valid, path, c⟩ : Scene.Traced) :: others)).congr fun x => ?_
    · refine Outcome.bind (interacting_family h.objects h.hos c) fun I hI => ?_
      have hI' := hI
      obtain ⟨W, hW, eW⟩ := hI'
      refine Outcome.bind (P := AnalyticPath μ) ?_ fun p hp => Outcome.bind (P := AnalyticTruth μ) (h.validity hv hp c hI) fun T hT =>
        Outcome.bind (ih (fun j hj => hJ j (by simp [hj])) _) fun l hl => ?_
      · have := hm (Scene.splitKey split key).2 _ _ W ht hr hW
        refine this.congr fun x => by rw [eW x]
      · obtain ⟨L, hL, eL⟩ := hl
        exact .ok ⟨(fun x => ⟨kt, kr, T x, p x, c⟩) :: L, by
          intro a ha
          rcases List.mem_cons.mp ha with rfl | ha
          · exact ⟨⟨kt, kr, c, fun _ => ⟨rfl, rfl, rfl⟩⟩, hT, hp⟩
          · exact hL a ha, fun x => by simp only [eL x]; rfl⟩
    · rw [List.map_cons]
      have e : j x = (((kt, (j x).1.1.2), (kr, (j x).1.2.2)), c) := by
        rw [← hkt x, ← hkr x, ← hc x]
      rw [e]
      rfl

theorem SceneFamily.allPaths {Key : Type} (h : SceneFamily μ s tx rx os) (hv : OptsFamily μ v E ap) (G : GraphLib) (split : Key → ℕ → List Key) {m : Scene.PathMethod Key} (hm : AnalyticMethod μ m)
    {o : Scene.Orders} (hf : FixedFilter o os) (key : Option Key) : Outcome (AllOf (AnalyticTraced μ)) fun x => (s x).allPaths G split m o (v x) key := by
  unfold Scene.allPaths
  refine Outcome.bind (candidates_family h.objects G o hf) fun cs ⟨c, hc⟩ => Outcome.bind h.pairs fun ps ⟨P, hP, eP⟩ => ?_
  refine (h.trace hv split hm (P.flatMap fun p => c.map fun d x => (p x, d)) ?_ key).congr fun x => ?_
  · intro j hj
    obtain ⟨p, hp, hj⟩ := List.mem_flatMap.mp hj
    obtain ⟨d, _, rfl⟩ := List.mem_map.mp hj
    exact ⟨hP p hp, d, fun _ => rfl⟩
  · rw [hc x, eP x, List.flatMap_map, List.map_flatMap]
    simp only [List.map_map, Function.comp_def]

/-! ## Selection -/

theorem isTrue_family (E : Env) (ap : Option Bool) {T : X → Truthy} (h : AnalyticTruth μ T) : Outcome (AlmostConstant μ) fun x => isTrue E ap (T x) := by
  unfold isTrue
  by_cases hr : resolveApprox E ap = true
  · simp only [if_pos hr]
    exact .ok ((AlmostAnalytic.const _).lt h.toF)
  · simp only [if_neg hr]
    rcases h with ⟨b, hb, e⟩ | ⟨f, hf, e⟩
    · simp only [e]; exact .ok hb
    · simp only [e]; exact .error _

theorem keepTrue_family (E : Env) (ap : Option Bool) (L : List (X → Scene.Traced)) (hL : ∀ t ∈ L, AnalyticTraced μ t) :
    Outcome (fun l => AlmostConstant μ fun x => (l x).map fun t => (t.1, t.2.1, t.2.2.2)) fun x => Scene.keepTrue E ap (L.map (· x)) := by
  induction L with
  | nil => exact .ok (a := fun _ => []) (.of_eq _)
  | cons t L ih =>
    obtain ⟨⟨kt, kr, c, hc⟩, hv, -⟩ := hL t (by simp)
    simp only [List.map_cons, Scene.keepTrue]
    refine Outcome.bind (isTrue_family E ap hv) fun b hb => Outcome.bind (ih fun t ht => hL t (by simp [ht])) fun l hl => .ok ?_
    have key := hb.map₂ hl fun b l => if b = true then (kt, kr, c) :: l else l
    refine key.mono fun x hx => hx.mono fun y hy => ?_
    have e : ∀ z, ((if b z = true then ((t z).tx, (t z).rx, (t z).path, (t z).candidate) :: l z else l z).map fun t => (t.1, t.2.1, t.2.2.2)) =
        if b z = true then (kt, kr, c) :: ((l z).map fun t => (t.1, t.2.1, t.2.2.2)) else (l z).map fun t => (t.1, t.2.1, t.2.2.2) := by
      intro z
      split <;> simp [(hc z).1, (hc z).2.1, (hc z).2.2]
    exact (e y).trans (hy.trans (e x).symm)

/-! ## Accumulation -/

theorem groupby_family {α κ : Type} [DecidableEq κ] (f : α → κ) (k : (X → α) → κ) (L : List (X → α)) (h : ∀ a ∈ L, ∀ x, f (a x) = k a) (x : X) :
    Scene.groupby f (L.map (· x)) = (Scene.groupby k L).map fun kg => (kg.1, kg.2.map (· x)) := by
  induction L with
  | nil => rfl
  | cons a L ih =>
    have e := ih fun a ha => h a (by simp [ha])
    simp only [List.map_cons, Scene.groupby, e, h a (by simp) x]
    cases Scene.groupby k L with
    | nil => rfl
    | cons g rest =>
      simp only [List.map_cons]
      split <;> rfl

theorem groupby_mem {α κ : Type} [DecidableEq κ] (k : α → κ) (L : List α) : ∀ g ∈ Scene.groupby k L, ∀ a ∈ g.2, a ∈ L := by
  induction L with
  | nil => intro g hg; cases hg
  | cons b L ih =>
    intro g hg a ha
    unfold Scene.groupby at hg
    cases hr : Scene.groupby k L with
    | nil =>
      rw [hr] at hg
      simp only [List.mem_singleton] at hg
      subst hg
      simp only [List.mem_singleton] at ha
      simp [ha]
    | cons g' rest =>
      rw [hr] at hg ih
      obtain ⟨k', l'⟩ := g'
      simp only at hg
      split at hg
      · rcases List.mem_cons.mp hg with rfl | hg
        · rcases List.mem_cons.mp ha with rfl | ha
          · simp
          · exact List.mem_cons_of_mem _ (ih (k', l') (by simp) a ha)
        · exact List.mem_cons_of_mem _ (ih g (by simp [hg]) a ha)
      · rcases List.mem_cons.mp hg with rfl | hg
        · simp only [List.mem_singleton] at ha
          simp [ha]
        · exact List.mem_cons_of_mem _ (ih g hg a ha)

theorem SceneFamily.group (h : SceneFamily μ s tx rx os) {f : X → Scene.PathFun} (hf : AnalyticFun μ f) {t r : X → V2 F} (ht : AnalyticPt μ t) (hr : AnalyticPt μ r)
    (L : List (X → Scene.Traced)) (hL : ∀ t ∈ L, AnalyticTraced μ t) {acc : X → F} (ha : AlmostAnalytic μ acc) :
    Outcome (AlmostAnalytic μ) fun x => (s x).accumulateGroup (f x) (t x) (r x) (acc x) (L.map (· x)) := by
  induction L generalizing acc with
  | nil => exact .ok ha
  | cons a L ih =>
    obtain ⟨⟨_, _, c, hc'⟩, hv, hp⟩ := hL a (by simp)
    have hc : ∀ x, (a x).candidate = c := fun x => (hc' x).2.2
    simp only [List.map_cons, Scene.accumulateGroup, hc]
    refine Outcome.bind (interacting_family h.objects h.hos c) fun I ⟨W, hW, eW⟩ => ih (fun a ha => hL a (by simp [ha])) (acc := fun x => acc x + (a x).valid.toF * f x (t x) (r x) (a x).path (I x)) ?_
    obtain ⟨⟨P, hP, eP⟩, hl⟩ := hp
    refine ha.add (hv.toF.mul ((hf t r P _ W ht hr hP hl hW).congr fun x => ?_))
    simp only [eW x, ← eP x]

theorem SceneFamily.results (h : SceneFamily μ s tx rx os) {f : X → Scene.PathFun} (hf : AnalyticFun μ f) {l : X → List Scene.Traced} (hl : AllOf (AnalyticTraced μ) l) :
    Outcome (AllOf fun z => ∃ (tx rx : String) (f : X → F), AlmostAnalytic μ f ∧ ∀ x, z x = (tx, rx, f x)) fun x => (s x).accumulateResults (f x) (l x) := by
  obtain ⟨L, hL, eL⟩ := hl
  unfold Scene.accumulateResults
  by_cases hX : Nonempty X
  swap
  · exact .inl ⟨.valueError, fun x => absurd ⟨x⟩ hX⟩
  obtain ⟨x0⟩ := hX
  let k : (X → Scene.Traced) → String × String := fun a => ((a x0).tx, (a x0).rx)
  have hk : ∀ a ∈ L, ∀ x, (fun t : Scene.Traced => (t.tx, t.rx)) (a x) = k a := by
    intro a ha x
    obtain ⟨⟨_, _, _, hc⟩, -⟩ := hL a ha
    simp only [k, (hc x).1, (hc x).2.1, (hc x0).1, (hc x0).2.1]
  have e := fun x => groupby_family (fun t : Scene.Traced => (t.tx, t.rx)) k L hk x
  simp only [eL, e, List.mapM_map]
  let F' : X → ((String × String) × List (X → Scene.Traced)) → Except PyErr (String × String × F) := fun x g =>
    ((s x).transmitters.getItem g.1.1).bind fun t => ((s x).receivers.getItem g.1.2).bind fun r => ((s x).accumulateGroup (f x) t r 0 (g.2.map (· x))).bind fun acc => .ok (g.1.1, g.1.2, acc)
  have key : ∀ g ∈ Scene.groupby k L, Outcome (fun z => ∃ (tx rx : String) (f : X → F), AlmostAnalytic μ f ∧ ∀ x, z x = (tx, rx, f x)) fun x => F' x g := by
    intro g hg
    refine Outcome.bind (P := AnalyticPt μ) ?_ fun t ht => Outcome.bind (P := AnalyticPt μ) ?_ fun r hr =>
      Outcome.bind (h.group hf ht hr g.2 (fun t ht => hL t (groupby_mem k L g hg t ht)) (.const 0)) fun acc ha => .ok ⟨_, _, acc, ha, fun _ => rfl⟩
    · simp only [h.etx]
      exact (getItem_family tx g.1.1).mono fun a ⟨p, hp, e⟩ => e ▸ h.htx p hp
    · simp only [h.erx]
      exact (getItem_family rx g.1.2).mono fun a ⟨p, hp, e⟩ => e ▸ h.hrx p hp
  exact Outcome.mapM F' _ key

/-! ## Methods -/

theorem imageMethod_analytic (Key : Type) : AnalyticMethod μ (imageMethod Key) := by
  intro key tx rx objs ht hr ho
  have hk : Settings μ ⟨false, 0⟩ (some false) (fun _ : X => ⟨0, sigmoid⟩) := ⟨by simp [resolveApprox]⟩
  rcases image_trace_analytic hk ht hr objs ho with h | ⟨L, loss, hL, hl, e⟩
  · exact .inl h
  · exact .inr ⟨fun x => ⟨L.map fun p : X → V2 F => p x, loss x⟩, ⟨⟨L, hL, fun _ => rfl⟩, hl⟩, e⟩

theorem plainMethod_analytic (Key : Type) : AnalyticMethod μ (plainMethod Key) := by
  intro key tx rx objs ht hr ho
  refine .ok ⟨⟨tx :: (objs.map fun o x => (o x).interact.toCart [0.5]) ++ [rx], ?_, fun x => ?_⟩, .const 0⟩
  · have : ∀ o ∈ objs, AnalyticPt μ fun x => (o x).interact.toCart [0.5] := by
      intro o h
      rcases ho o h with ⟨w, h0, h1, e⟩ | ⟨w, h0, h1, -, e⟩ | ⟨w, h0, e⟩ <;> simp only [e]
      · exact h0.add (.smul (.const 0.5) (h1.sub h0))
      · exact h0.add (.smul (.const 0.5) (h1.sub h0))
      · exact h0
    intro p hp
    simp only [List.cons_append, List.mem_cons, List.mem_append, List.mem_map, List.not_mem_nil, or_false] at hp
    rcases hp with rfl | ⟨o, h, rfl⟩ | rfl
    · exact ht
    · exact this o h
    · exact hr
  · simp [Path.fromTxObjectsRx, Function.comp_def]

end
end DiffeRT2d
