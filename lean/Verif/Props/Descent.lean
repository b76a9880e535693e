import Verif.Props.GradPaths
import Verif.Props.Adam
import Verif.Props.Validity

/-! # C108: tracing by gradient descent with the default optimizer -/

namespace DiffeRT2d.Props
open Classical Spec

/-- The iterates of Adam keep their size, if the gradient has the size of its argument. -/
theorem run_length {Key : Type} {M : Minimizer Key} {lr : ℝ} (hopt : M.optimizer = adam (F.fin lr)) {f : List F → F} {x0 : List ℝ} {n : ℕ}
    {xs : ℕ → List F} {sts : ℕ → M.optimizer.State} (hr : Run M f (x0.map F.fin) n xs sts)
    (hg : ∀ x, (M.grad f x).length = x.length) : ∀ k ≤ n, (xs k).length = x0.length := by
  intro k
  induction k using Nat.strong_induction_on with
  | _ k ih =>
    intro hk
    rcases Nat.eq_zero_or_pos x0.length with h0 | h0
    · cases k with
      | zero => rw [hr.start]; simp
      | succ k =>
        rw [hr.step k (by omega), List.length_zipWith, ih k (by omega) (by omega), h0]; simp
    · have hr' : Run M f (x0.map F.fin) k xs sts := ⟨hr.start, hr.init, fun m hm => hr.step m (by omega), fun m hm => hr.state m (by omega)⟩
      obtain ⟨mu, nu, h⟩ := adam_run hopt hr' (fun m hm => by rw [hg, ih m hm (by omega)]) (List.getElem?_eq_getElem h0)
      exact (h k le_rfl).1

theorem real_list {x : List F} (h : ∀ i < x.length, ∃ r : ℝ, x[i]? = some (F.fin r)) : ∃ θ : List ℝ, x = θ.map F.fin := by
  induction x with
  | nil => exact ⟨[], rfl⟩
  | cons a x ih =>
    obtain ⟨r, hr⟩ := h 0 (by simp)
    obtain ⟨θ, rfl⟩ := ih fun i hi => by simpa using h (i + 1) (by simpa using hi)
    simp at hr
    exact ⟨r :: θ, by simp [hr]⟩

theorem descend {Key : Type} {M : Minimizer Key} {lr : ℝ} (hlr : 0 < lr) (hopt : M.optimizer = adam (F.fin lr)) {f : List F → F} {x0 : List ℝ} {n : ℕ}
    {xs : ℕ → List F} {sts : ℕ → M.optimizer.State} (hr : Run M f (x0.map F.fin) n xs sts) (hg : ∀ x, (M.grad f x).length = x.length)
    {Singular : List ℝ → Prop}
    (hS : ∀ θ : List ℝ, θ.length = x0.length → Singular θ → ∃ j < x0.length, (M.grad f (θ.map F.fin))[j]? = some F.nan)
    (hR : ∀ θ : List ℝ, θ.length = x0.length → ¬ Singular θ → ∀ j < x0.length, ∃ d : ℝ, (M.grad f (θ.map F.fin))[j]? = some (F.fin d)) :
    ((∀ i < n, ∀ θ, xs i = θ.map F.fin → ¬ Singular θ) →
      ∃ θ : List ℝ, θ.length = x0.length ∧ xs n = θ.map F.fin ∧ ∀ (i : ℕ) (a b : ℝ), x0[i]? = some a → θ[i]? = some b → |b - a| ≤ n * (lr * Real.sqrt (370 / 7))) ∧
    ((∃ i < n, ∃ θ, xs i = θ.map F.fin ∧ Singular θ) → ∃ j < x0.length, (xs n)[j]? = some F.nan) := by
  have hl := run_length hopt hr hg
  have hlen : ∀ k < n, (M.grad f (xs k)).length = x0.length := fun k hk => by rw [hg, hl k hk.le]
  refine ⟨fun h => ?_, ?_⟩
  · have key : ∀ k ≤ n, ∃ θ : List ℝ, xs k = θ.map F.fin := by
      intro k
      induction k using Nat.strong_induction_on with
      | _ k ih =>
        intro hk
        apply real_list
        intro i hi
        rw [hl k hk] at hi
        refine (C106_real_or_nan M lr hopt f x0 n xs sts hr hlen k hk i hi).1 fun m hm => ?_
        obtain ⟨θ, hθ⟩ := ih m hm (by omega)
        have hθl : θ.length = x0.length := by rw [← hl m (by omega), hθ]; simp
        rw [hθ]
        exact hR θ hθl (h m (by omega) θ hθ) i hi
    obtain ⟨θ, hθ⟩ := key n le_rfl
    refine ⟨θ, by rw [← hl n le_rfl, hθ]; simp, hθ, fun i a b ha hb => ?_⟩
    exact C106_total M lr hlr hopt f x0 n xs sts hr hlen n le_rfl i a b ha (by rw [hθ, List.getElem?_map, hb]; rfl)
  · rintro ⟨m, hm, θ, hθ, hs⟩
    have hθl : θ.length = x0.length := by rw [← hl m (by omega), hθ]; simp
    obtain ⟨j, hj, hn⟩ := hS θ hθl hs
    refine ⟨j, hj, (C106_real_or_nan M lr hopt f x0 n xs sts hr hlen n le_rfl j hj).2 ⟨m, hm, fun r => ?_⟩⟩
    rw [hθ, hn]; simp

/-- The points of the path, from the final parameters. -/
theorem points_real {ss : List Shape} (tx rx : Pt) {θ : List ℝ} (h : θ.length = (ss.map Shape.count).sum) :
    parametricToCartesian ((ss.map Shape.obj).map Obj.interact) (θ.map F.fin) (V2.fin tx) (V2.fin rx) = (ptsAt ss tx rx θ).map V2.fin := by
  rw [List.map_map]; exact cartesian_fin ss θ tx rx h

theorem points_nan {ss : List Shape} (tx rx : Pt) {x : List F} (h : x.length = (ss.map Shape.count).sum) {j : ℕ} (hj : x[j]? = some F.nan) :
    ∃ k s, ss[k]? = some s ∧ s.count = 1 ∧ (parametricToCartesian ((ss.map Shape.obj).map Obj.interact) x (V2.fin tx) (V2.fin rx))[k + 1]? = some V2.nan := by
  have hjl := (List.getElem?_eq_some_iff.mp hj).1
  obtain ⟨k, ⟨s, hs, hc, ho⟩, -⟩ := C107_owner ss j (h ▸ hjl)
  refine ⟨k, s, hs, hc, ?_⟩
  have h' := mapM_constObj (constObjs (ι := ℕ) ss)
  have e : (gpts ℕ ss tx rx (x.map .const)).map Rev.valV = parametricToCartesian ((ss.map Shape.obj).map Obj.interact) x (V2.fin tx) (V2.fin rx) := by
    simp only [gpts, Rev.parametricToCartesian, parametricToCartesian, List.map_cons, List.map_append, val_toCartesian h', List.cons_append, List.map_nil, List.map_map]
    have : x.map (Rev.val ∘ (Rev.const : F → Rev ℕ)) = x := by
      conv_rhs => rw [← List.map_id x]
      rfl
    rw [this]; rfl
  rw [← e, List.getElem?_map, gpts_succ ss tx rx _ (by simpa using h.symm) hs, Option.map_some]
  have ho' : offset ss k = j := ho
  rw [ho', List.getElem?_map, hj]
  have a1 : ∀ a : F, a + F.nan = F.nan := by intro a; cases a <;> rfl
  cases s with
  | vertex p => simp [Shape.count] at hc
  | wall o d => simp [rpoint, robj, Rev.RObj.toCart, Rev.RWall.toCart, Rev.valV, V2.smul, V2.nan, a1]
  | ris o d φ => simp [rpoint, robj, Rev.RObj.toCart, Rev.RWall.toCart, Rev.valV, V2.smul, V2.nan, a1]

/-- The path of a descent, from the parameters it visits. -/
theorem descentPath_of {Key : Type} {M : Minimizer Key} {lr : ℝ} (hlr : 0 < lr) (hopt : M.optimizer = adam (F.fin lr)) {f : List F → F} {shapes : List Shape} {tx rx : Pt}
    {x0 : List ℝ} (hlen : x0.length = (shapes.map Shape.count).sum) {n : ℕ} {xs : ℕ → List F} {sts : ℕ → M.optimizer.State} (hr : Run M f (x0.map F.fin) n xs sts)
    (hg : ∀ x, (M.grad f x).length = x.length) {Singular : List ℝ → Prop}
    (hS : ∀ θ : List ℝ, θ.length = x0.length → Singular θ → ∃ j < x0.length, (M.grad f (θ.map F.fin))[j]? = some F.nan)
    (hR : ∀ θ : List ℝ, θ.length = x0.length → ¬ Singular θ → ∀ j < x0.length, ∃ d : ℝ, (M.grad f (θ.map F.fin))[j]? = some (F.fin d)) :
    DescentPath Singular shapes tx rx x0 n (n * (lr * Real.sqrt (370 / 7))) xs
      (parametricToCartesian ((shapes.map Shape.obj).map Obj.interact) (xs n) (V2.fin tx) (V2.fin rx)) := by
  obtain ⟨h1, h2⟩ := descend hlr hopt hr hg hS hR
  refine ⟨fun h => ?_, fun h => ?_⟩
  · obtain ⟨θ, hθ, hx, hd⟩ := h1 h
    refine ⟨θ, ptsAt shapes tx rx θ, hx, (pathAt_iff (by omega)).mpr rfl, ?_, hd⟩
    rw [hx, points_real tx rx (by omega)]
  · obtain ⟨j, -, hj⟩ := h2 h
    exact points_nan tx rx (by rw [run_length hopt hr hg n le_rfl, hlen]) hj

/-- **C108** (Fermat). With the default optimizer, a `FermatPath` over real objects is real unless the gradient of the length is taken at
parameters for which a step that starts or ends at a wall or RIS is the opposite of the guard; then a point is NaN. -/
theorem C108_fermat {Key : Type} (E : Env) (M : Minimizer Key) (lr : ℝ) (hlr : 0 < lr) (hopt : M.optimizer = adam (F.fin lr)) (hs : 1 ≤ M.steps)
    (shapes : List Shape) (hne : shapes ≠ []) (tx rx : Pt) (key : Key) (x0 : List ℝ) (hx0 : M.uniform key (shapes.map Shape.count).sum = x0.map F.fin)
    (hlen : x0.length = (shapes.map Shape.count).sum) :
    ∃ (os : List (Rev.RObj ℕ)) (xs : ℕ → List F) (sts : ℕ → M.optimizer.State) (p : Path), (shapes.map Shape.obj).mapM Rev.constObj = some os ∧
      Run { M with grad := fun _ => Rev.gradient (Rev.fermatLoss E os (Rev.constV (V2.fin tx)) (Rev.constV (V2.fin rx))) } (fermatLoss E ((shapes.map Shape.obj).map Obj.interact) (V2.fin tx) (V2.fin rx))
        (x0.map F.fin) M.steps xs sts ∧
      FermatPath.differentiated E M (V2.fin tx) (shapes.map Shape.obj) (V2.fin rx) key = .ok p ∧
      DescentPath (FermatSingular E.eps shapes tx rx) shapes tx rx x0 M.steps (M.steps * (lr * Real.sqrt (370 / 7))) xs p.xys := by
  set os : List (Rev.RObj ℕ) := shapes.map (robj ℕ) with hos
  set M' := M.differentiating (Rev.fermatLoss E os (Rev.constV (V2.fin tx)) (Rev.constV (V2.fin rx))) with hM'
  set f := fermatLoss E ((shapes.map Shape.obj).map Obj.interact) (V2.fin tx) (V2.fin rx) with hf
  obtain ⟨xs, sts, hr, hm⟩ := C44_steps M' f (x0.map F.fin) hs
  have hcount : nUnknowns ((shapes.map Shape.obj).map Obj.interact) = (shapes.map Shape.count).sum := by
    rw [List.map_map]; exact shapes_count shapes
  have hL : ∀ θ' : List ℝ, θ'.length = x0.length → fermatLoss E (shapes.map fun s => s.obj.interact) (V2.fin tx) (V2.fin rx) (θ'.map F.fin) = F.fin (plen E.eps (ptsAt shapes tx rx θ')) :=
    fun θ' h' => fermat_real E tx rx (by omega)
  refine ⟨os, xs, sts, ⟨parametricToCartesian ((shapes.map Shape.obj).map Obj.interact) (xs M.steps) (V2.fin tx) (V2.fin rx),
    pathLoss 0 ((shapes.map Shape.obj).map Obj.interact) (parametricToCartesian ((shapes.map Shape.obj).map Obj.interact) (xs M.steps) (V2.fin tx) (V2.fin rx))⟩,
    constObjs shapes, hr, ?_, ?_⟩
  · simp only [FermatPath.differentiated, constObjs, FermatPath.fromTxObjectsRx, List.length_map, List.length_eq_zero_iff, if_neg hne, minimizeManyRandomUniform,
      minimizeRandomUniform, if_true, hcount]
    have e : M'.uniform key (shapes.map Shape.count).sum = x0.map F.fin := hx0
    rw [← hos, ← hM', ← hf, e, hm]
    rfl
  · refine descentPath_of hlr (M := M') hopt hlen hr (fun x => gradient_length _ x) (fun θ hθ hS => ?_) fun θ hθ hS j hj => ?_
    · obtain ⟨pts, k, j, hp, ho, hg⟩ := hS
      refine ⟨j, ?_, (C107_fermat E shapes tx rx θ (by omega) os (constObjs shapes) pts hp _ (fun θ' h' => hL θ' (by omega)) k j ho).1 hg⟩
      obtain ⟨s, h1, h2, rfl⟩ := ho
      rw [hlen]; exact offset_lt h1 h2
    · obtain ⟨k, ho, -⟩ := C107_owner shapes j (by omega)
      have hp := (pathAt_iff (ss := shapes) (tx := tx) (rx := rx) (θ := θ) (by omega)).mpr rfl
      obtain ⟨d, hd, -⟩ := (C107_fermat E shapes tx rx θ (by omega) os (constObjs shapes) _ hp _ (fun θ' h' => hL θ' (by omega)) k j ho).2
        (fun h => hS ⟨_, k, j, hp, ho, .inl h⟩) (fun h => hS ⟨_, k, j, hp, ho, .inr h⟩)
      exact ⟨d, hd⟩

/-- **C108** (MinPath). The same for `MinPath`: the parameters to avoid are those for which a step that a score looks at, and that starts or ends at
a wall or RIS, has length zero. -/
theorem C108_min {Key : Type} (M : Minimizer Key) (lr : ℝ) (hlr : 0 < lr) (hopt : M.optimizer = adam (F.fin lr)) (hs : 1 ≤ M.steps)
    (shapes : List Shape) (hne : shapes ≠ []) (tx rx : Pt) (key : Key) (x0 : List ℝ) (hx0 : M.uniform key (shapes.map Shape.count).sum = x0.map F.fin)
    (hlen : x0.length = (shapes.map Shape.count).sum) :
    ∃ (os : List (Rev.RObj ℕ)) (xs : ℕ → List F) (sts : ℕ → M.optimizer.State) (p : Path), (shapes.map Shape.obj).mapM Rev.constObj = some os ∧
      Run { M with grad := fun _ => Rev.gradient (Rev.minLoss os (Rev.constV (V2.fin tx)) (Rev.constV (V2.fin rx))) } (minLoss ((shapes.map Shape.obj).map Obj.interact) (V2.fin tx) (V2.fin rx))
        (x0.map F.fin) M.steps xs sts ∧
      MinPath.differentiated M (V2.fin tx) (shapes.map Shape.obj) (V2.fin rx) key = .ok p ∧
      DescentPath (MinSingular shapes tx rx) shapes tx rx x0 M.steps (M.steps * (lr * Real.sqrt (370 / 7))) xs p.xys := by
  set os : List (Rev.RObj ℕ) := shapes.map (robj ℕ) with hos
  set M' := M.differentiating (Rev.minLoss os (Rev.constV (V2.fin tx)) (Rev.constV (V2.fin rx))) with hM'
  set f := minLoss ((shapes.map Shape.obj).map Obj.interact) (V2.fin tx) (V2.fin rx) with hf
  obtain ⟨xs, sts, hr, hm⟩ := C44_steps M' f (x0.map F.fin) hs
  have hcount : nUnknowns ((shapes.map Shape.obj).map Obj.interact) = (shapes.map Shape.count).sum := by
    rw [List.map_map]; exact shapes_count shapes
  have hL : ∀ θ' : List ℝ, θ'.length = x0.length → minLoss (shapes.map fun s => s.obj.interact) (V2.fin tx) (V2.fin rx) (θ'.map F.fin) = F.fin (rtotal shapes (ptsAt shapes tx rx θ')) :=
    fun θ' h' => min_real tx rx (by omega)
  refine ⟨os, xs, sts, ⟨parametricToCartesian ((shapes.map Shape.obj).map Obj.interact) (xs M.steps) (V2.fin tx) (V2.fin rx), f (xs (M.steps - 1))⟩,
    constObjs shapes, hr, ?_, ?_⟩
  · simp only [MinPath.differentiated, constObjs, MinPath.fromTxObjectsRx, List.length_map, List.length_eq_zero_iff, if_neg hne, minimizeManyRandomUniform,
      minimizeRandomUniform, if_true, hcount]
    have e : M'.uniform key (shapes.map Shape.count).sum = x0.map F.fin := hx0
    rw [← hos, ← hM', ← hf, e, hm]
    rfl
  · refine descentPath_of hlr (M := M') hopt hlen hr (fun x => gradient_length _ x) (fun θ hθ hS => ?_) fun θ hθ hS j hj => ?_
    · obtain ⟨pts, k, j, m, hp, ho, hg⟩ := hS
      refine ⟨j, ?_, (C107_min shapes tx rx θ (by omega) os (constObjs shapes) pts hp _ (fun θ' h' => hL θ' (by omega)) k j ho).1 ⟨m, hg⟩⟩
      obtain ⟨s, h1, h2, rfl⟩ := ho
      rw [hlen]; exact offset_lt h1 h2
    · obtain ⟨k, ho, -⟩ := C107_owner shapes j (by omega)
      have hp := (pathAt_iff (ss := shapes) (tx := tx) (rx := rx) (θ := θ) (by omega)).mpr rfl
      obtain ⟨d, hd, -⟩ := (C107_min shapes tx rx θ (by omega) os (constObjs shapes) _ hp _ (fun θ' h' => hL θ' (by omega)) k j ho).2
        (fun m hm hs hn => hS ⟨_, k, j, m, hp, ho, hm, hs, hn⟩)
      exact ⟨d, hd⟩

/-- **C108** (NaN paths are never valid). -/
theorem C108_invalid (p : Path) (E : Env) (ap : Option Bool) (kw : ActKw) (hk : GoodKw kw) (shapes : List Shape) (scene : List Interactable) (candidate : List ℤ)
    (tol patch : F) (hl : p.xys.length = shapes.length + 2) (hc : candidate.length = shapes.length) (k : ℕ) (s : Shape) (hs : shapes[k]? = some s) (h1 : s.count = 1)
    (hn : p.xys[k + 1]? = some V2.nan) :
    (Hard E ap → p.isValid E scene candidate (shapes.map fun s => s.obj.interact) tol patch ap kw = .ok (.b false)) ∧
    (Soft E ap → p.isValid E scene candidate (shapes.map fun s => s.obj.interact) tol patch ap kw = .ok (.f (F.fin 0))) := by
  refine C40_point p E ap kw hk scene _ candidate tol patch (by omega) (by simp; omega) k s.obj.interact V2.nan (by simp [hs]) hn ?_ (.inl rfl)
  cases s with
  | vertex q => simp [Shape.count] at h1
  | wall o d => exact .inl ⟨_, rfl⟩
  | ris o d φ => exact .inr ⟨_, rfl⟩

/-- The hypotheses are met by the defaults (Adam at 0.1, 100 steps, one trial, a generator that returns real numbers). -/
example : ∃ (M : Minimizer Unit) (shapes : List Shape), M.optimizer = adam (F.fin 0.1) ∧ 1 ≤ M.steps ∧ shapes ≠ [] ∧
    ∃ x0 : List ℝ, M.uniform () (shapes.map Shape.count).sum = x0.map F.fin ∧ x0.length = (shapes.map Shape.count).sum :=
  ⟨⟨adam (F.fin 0.1), 100, fun _ x => x, fun _ n => List.replicate n (F.fin 0.25), fun k n => List.replicate n k⟩, [.wall ⟨0, 0⟩ ⟨1, 0⟩, .vertex ⟨2, 1⟩], rfl, by norm_num, by simp,
    [0.25], rfl, rfl⟩

end DiffeRT2d.Props
