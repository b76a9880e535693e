import Verif.Lemmas.AlmostPaths
import Mathlib.Analysis.Analytic.ChangeOrigin
import Mathlib.Analysis.Calculus.FDeriv.Analytic
import Mathlib.MeasureTheory.Measure.Lebesgue.EqHaar
import Mathlib.Topology.Instances.Irrational

/-! # C104: near almost every parameter, results are real analytic -/

namespace DiffeRT2d.Props
open Classical Spec MeasureTheory Filter Topology

variable {X : Type} [NormedAddCommGroup X] [NormedSpace ℝ X] [FiniteDimensional ℝ X] [MeasurableSpace X] [BorelSpace X] {μ : Measure X} [μ.IsAddHaarMeasure]

section
variable {Key : Type} (G : GraphLib) (split : Key → ℕ → List Key) {m : Scene.PathMethod Key} (hm : AnalyticMethod μ m) (o : Scene.Orders) (key : Option Key)
  (tx rx : PyDict (X → V2 F)) (objs : List (X → Obj)) (htx : ∀ p ∈ tx, AnalyticPt μ p.2) (hrx : ∀ p ∈ rx, AnalyticPt μ p.2) (ho : ∀ a ∈ objs, AnalyticObj μ a) (hf : FixedFilter o objs)
  (E : Env) (ap : Option Bool) {tol patch : X → F} {kw : X → ActKw} (ht : AlmostAnalytic μ tol) (hp : AlmostAnalytic μ patch) (hk : resolveApprox E ap = true → AnalyticKw μ kw)
include hm htx hrx ho hf ht hp hk

private theorem family_scene : SceneFamily μ (familyScene tx rx objs) tx rx objs := ⟨fun _ => rfl, fun _ => rfl, fun _ => rfl, htx, hrx, ho⟩

private theorem family_opts : OptsFamily μ (fun x => (⟨E, tol x, patch x, ap, kw x⟩ : Scene.ValidOpts)) E ap := ⟨fun _ => rfl, fun _ => rfl, ht, hp, ⟨hk⟩⟩

/-- **C104.** Let the points, the objects, the tolerances and `alpha` depend on parameters (a finite-dimensional space, with Lebesgue measure). Then `all_paths` raises the same
exception for all parameters, or returns for all parameters, a fixed number of paths with fixed names and candidates, and the points, the loss and the validity of each path
are real analytic functions near almost every parameter (a Boolean validity: constant near almost every parameter). -/
theorem C104_all_paths : Outcome (AllOf (AnalyticTraced μ)) fun x => (familyScene tx rx objs x).allPaths G split m o ⟨E, tol x, patch x, ap, kw x⟩ key :=
  SceneFamily.allPaths (family_scene hm o tx rx objs htx hrx ho hf E ap ht hp hk) (family_opts hm o tx rx objs htx hrx ho hf E ap ht hp hk) G split hm hf key

/-- **C104.** `all_valid_paths` raises the same exception for all parameters, or near almost every parameter it yields paths for the same transmitters, receivers and candidates. -/
theorem C104_valid_paths : Outcome (fun l => AlmostConstant μ fun x => (l x).map fun t => (t.1, t.2.1, t.2.2.2))
    fun x => (familyScene tx rx objs x).allValidPaths G split m o ⟨E, tol x, patch x, ap, kw x⟩ key := by
  refine Outcome.bind (C104_all_paths G split hm o key tx rx objs htx hrx ho hf E ap ht hp hk) fun l ⟨L, hL, e⟩ => ?_
  exact (keepTrue_family E ap L hL).congr fun x => by simp only [e x]

/-- **C104.** `accumulate_over_paths` of an analytic function raises the same exception for all parameters, or yields a fixed number of sums with fixed names, each real analytic near
almost every parameter (or, a NaN or an infinity, constant there). -/
theorem C104_accumulate {f : X → Scene.PathFun} (hfun : AnalyticFun μ f) :
    Outcome (AllOf fun z => ∃ (tx rx : String) (v : X → F), AlmostAnalytic μ v ∧ ∀ x, z x = (tx, rx, v x))
      fun x => (familyScene tx rx objs x).accumulateOverPaths G split m o ⟨E, tol x, patch x, ap, kw x⟩ key (f x) :=
  Outcome.bind (C104_all_paths G split hm o key tx rx objs htx hrx ho hf E ap ht hp hk) fun _ hl =>
    SceneFamily.results (family_scene hm o tx rx objs htx hrx ho hf E ap ht hp hk) hfun hl

/-- **C104.** With `reduce_all=True`: one analytic sum. -/
theorem C104_reduce_all {f : X → Scene.PathFun} (hfun : AnalyticFun μ f) :
    Outcome (AlmostAnalytic μ) fun x => (familyScene tx rx objs x).accumulateOverPathsAll G split m o ⟨E, tol x, patch x, ap, kw x⟩ key (f x) := by
  refine Outcome.bind (C104_accumulate G split hm o key tx rx objs htx hrx ho hf E ap ht hp hk hfun) fun l ⟨L, hL, e⟩ => .ok ?_
  have key : ∀ (L : List (X → String × String × F)) (acc : X → F), AlmostAnalytic μ acc → (∀ z ∈ L, ∃ (tx rx : String) (v : X → F), AlmostAnalytic μ v ∧ ∀ x, z x = (tx, rx, v x)) →
      AlmostAnalytic μ fun x => (L.map (· x)).foldl (fun Z r => Z + r.2.2) (acc x) := by
    intro L
    induction L with
    | nil => intro acc h _; exact h
    | cons z L ih =>
      intro acc h hL
      obtain ⟨_, _, v, hv, ez⟩ := hL z (by simp)
      exact (ih (fun x => acc x + v x) (h.add hv) fun z hz => hL z (by simp [hz])).congr fun x => by simp only [List.map_cons, List.foldl_cons, ez x]
  exact (key L _ (.const 0) hL).congr fun x => by simp only [e x]

end

/-- **C104.** What the library supplies satisfies the hypotheses: the image method and the plain method, `sigmoid` and `hard_sigmoid` with any analytic `alpha`, and `received_power` with
analytic reflection coefficient and height. -/
theorem C104_library (Key : Type) (E : Env) {a coef height : X → F} (ha : AlmostAnalytic μ a) (hc : AlmostAnalytic μ coef) (hh : AlmostAnalytic μ height) :
    AnalyticMethod μ (imageMethod Key) ∧ AnalyticMethod μ (plainMethod Key) ∧ AnalyticKw μ (fun x => ⟨a x, sigmoid⟩) ∧ AnalyticKw μ (fun x => ⟨a x, hardSigmoid⟩) ∧
    AnalyticFun μ fun x tx rx path objs => receivedPower E tx rx path (objs.map Obj.interact) (coef x) (height x) :=
  ⟨imageMethod_analytic Key, plainMethod_analytic Key, sigmoid_analytic ha, hardSigmoid_analytic ha, receivedPower_analytic E hc hh⟩

/-- **C104.** The exceptional parameters form a closed null set. -/
theorem C104_closed {f : X → F} (h : AlmostAnalytic μ f) : ∃ N : Set X, IsClosed N ∧ μ N = 0 ∧
    ∀ x ∉ N, (∃ g : X → ℝ, AnalyticAt ℝ g x ∧ ∀ᶠ y in 𝓝 x, f y = F.fin (g y)) ∨ ∃ c, ∀ᶠ y in 𝓝 x, f y = c := by
  refine ⟨{x | (∃ g : X → ℝ, AnalyticAt ℝ g x ∧ ∀ᶠ y in 𝓝 x, f y = F.fin (g y)) ∨ ∃ c, ∀ᶠ y in 𝓝 x, f y = c}ᶜ, ?_, ?_, fun x hx => not_not.mp hx⟩
  · rw [isClosed_compl_iff, isOpen_iff_mem_nhds]
    rintro x (⟨g, hg, e⟩ | ⟨c, e⟩)
    · filter_upwards [hg.eventually_analyticAt, e.eventually_nhds] with y h1 h2
      exact .inl ⟨g, h1, h2⟩
    · filter_upwards [e.eventually_nhds] with y h2
      exact .inr ⟨c, h2⟩
  · exact h

/-- **C104.** A real result is infinitely differentiable near almost every parameter: where it is real, it is real all around, and smooth. -/
theorem C104_smooth {f : X → F} (h : AlmostAnalytic μ f) : ∀ᵐ x ∂μ, ∀ r, f x = F.fin r → ∃ g : X → ℝ, ContDiffAt ℝ ⊤ g x ∧ ∀ᶠ y in 𝓝 x, f y = F.fin (g y) := by
  refine h.mono fun x hx r hr => ?_
  rcases hx with ⟨g, hg, e⟩ | ⟨c, e⟩
  · exact ⟨g, hg.contDiffAt, e⟩
  · refine ⟨fun _ => r, contDiffAt_const, e.mono fun y hy => ?_⟩
    rw [hy, ← e.self_of_nhds, hr]

/-! ## The hypotheses are met, and the notion has content -/

/-- Coordinates that are coordinates of the parameter, or numbers, are analytic. -/
theorem almostAnalytic_fst : AlmostAnalytic (volume : Measure (ℝ × ℝ)) fun x => F.fin x.1 :=
  Eventually.of_forall fun _ => .inl ⟨Prod.fst, analyticAt_fst, Eventually.of_forall fun _ => rfl⟩

theorem almostAnalytic_snd : AlmostAnalytic (volume : Measure (ℝ × ℝ)) fun x => F.fin x.2 :=
  Eventually.of_forall fun _ => .inl ⟨Prod.snd, analyticAt_snd, Eventually.of_forall fun _ => rfl⟩

/-- A receiver that moves in the plane, with a wall and a wall with a moving end point: the received power is analytic near almost every position, in both modes. -/
example (G : GraphLib) (E : Env) (ap : Option Bool) :
    Outcome (AlmostAnalytic (volume : Measure (ℝ × ℝ))) fun x => (familyScene [("tx", fun _ => ⟨0, 0⟩)] [("rx", fun x : ℝ × ℝ => ⟨.fin x.1, .fin x.2⟩)]
      [fun _ => .wall ⟨⟨0, 1⟩, ⟨1, 1⟩⟩, fun x => .wall ⟨⟨0, 2⟩, ⟨.fin x.2, 1⟩⟩] x).accumulateOverPathsAll G (fun (_ : Unit) _ => []) (imageMethod Unit) { maxOrder := 2 } ⟨E, VALID_TOL, DEFAULT_PATCH, ap, ⟨100, sigmoid⟩⟩ none
      fun tx rx path objs => receivedPower E tx rx path (objs.map Obj.interact) 0.5 0.1 := by
  haveI : (volume : Measure (ℝ × ℝ)).IsAddHaarMeasure := by rw [Measure.volume_eq_prod]; infer_instance
  have L := C104_library (μ := (volume : Measure (ℝ × ℝ))) Unit E (.const 100) (.const 0.5) (.const 0.1)
  refine C104_reduce_all G _ L.1 _ none _ _ _ ?_ ?_ ?_ (fun _ h => by cases h) E ap (.const _) (.const _) (fun _ => L.2.2.1) L.2.2.2.2
  · intro p hp
    rw [List.mem_singleton] at hp
    subst hp
    exact ⟨.const _, .const _⟩
  · intro p hp
    rw [List.mem_singleton] at hp
    subst hp
    exact ⟨almostAnalytic_fst, almostAnalytic_snd⟩
  · intro a ha
    simp only [List.mem_cons, List.not_mem_nil, or_false] at ha
    rcases ha with rfl | rfl
    · exact .inl ⟨fun _ => ⟨⟨0, 1⟩, ⟨1, 1⟩⟩, ⟨.const _, .const _⟩, ⟨.const _, .const _⟩, fun _ => rfl⟩
    · exact .inl ⟨fun x => ⟨⟨0, 2⟩, ⟨.fin x.2, 1⟩⟩, ⟨.const _, .const _⟩, ⟨almostAnalytic_snd, .const _⟩, fun _ => rfl⟩

/-- Not every function is analytic near almost every point. -/
example : ¬ AlmostAnalytic (volume : Measure ℝ) fun x => if Irrational x then (1 : F) else 0 := by
  intro h
  obtain ⟨x, hx⟩ := h.exists
  obtain ⟨g, hg, e⟩ : ∃ g : ℝ → ℝ, ContinuousAt g x ∧ ∀ᶠ y in 𝓝 x, (if Irrational y then (1 : F) else 0) = F.fin (g y) := by
    rcases hx with ⟨g, hg, e⟩ | ⟨c, e⟩
    · exact ⟨g, hg.continuousAt, e⟩
    · refine ⟨fun _ => if Irrational x then 1 else 0, continuousAt_const, e.mono fun y hy => ?_⟩
      refine (hy.trans e.self_of_nhds.symm).trans ?_
      by_cases hi : Irrational x <;> simp only [hi, if_true, if_false, F.one_eq, F.zero_eq]
  have near : ∀ᶠ y in 𝓝 x, |g y - g x| < 1 := by
    have := hg.eventually (Metric.ball_mem_nhds (g x) one_pos)
    exact this.mono fun y hy => by simpa [Real.dist_eq] using hy
  have ev : ∀ᶠ y in 𝓝 x, (Irrational y ↔ Irrational x) := by
    have ex := e.self_of_nhds
    filter_upwards [e, near] with y hy hn
    by_cases h1 : Irrational y <;> by_cases h2 : Irrational x <;> simp only [h1, h2, if_true, if_false, F.one_eq, F.zero_eq, F.fin.injEq] at hy ex ⊢ <;>
      rw [← hy, ← ex] at hn <;> norm_num at hn
  obtain ⟨U, hU, hUo, hxU⟩ := mem_nhds_iff.mp ev
  by_cases hx : Irrational x
  · obtain ⟨y, hy, q, rfl⟩ := Rat.denseRange_cast (𝕜 := ℝ) |>.inter_open_nonempty U hUo ⟨x, hxU⟩
    exact (Rat.not_irrational q) ((hU hy).mpr hx)
  · obtain ⟨y, hy, hi⟩ := dense_irrational.inter_open_nonempty U hUo ⟨x, hxU⟩
    exact hx ((hU hy).mp hi)

end DiffeRT2d.Props
