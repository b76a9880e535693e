import Verif.Props.Descent
import Verif.Props.Objectives
import Verif.Spec.Methods
import Mathlib.Analysis.Calculus.LocalExtr.Basic
import Mathlib.Analysis.Calculus.Deriv.Prod

/-! # C109: where the minimizing tracers come to rest -/

namespace DiffeRT2d.Props
open Classical Spec

/-! ### Zero gradients -/

theorem ofFn_of {θ : List ℝ} {n : ℕ} (h : θ.length = n) : ∃ v : Fin n → ℝ, List.ofFn v = θ := by
  subst h; exact ⟨θ.get, List.ofFn_get θ⟩

theorem mixture_ofFn {n : ℕ} (v w : Fin n → ℝ) (t : ℝ) : mixture t (List.ofFn v) (List.ofFn w) = List.ofFn fun i => v i + t * (w i - v i) := by
  apply List.ext_getElem?
  intro j
  simp only [mixture, List.getElem?_zipWith, List.getElem?_ofFn]
  by_cases hj : j < n
  · simp [hj]; ring
  · simp [hj]

/-- A convex function has its minimum where its derivative vanishes. -/
theorem min_of_zero {n : ℕ} {L : List ℝ → ℝ} (hc : ∀ (v w : Fin n → ℝ) (t : ℝ), 0 ≤ t → t ≤ 1 → L (mixture t (List.ofFn v) (List.ofFn w)) ≤ (1 - t) * L (List.ofFn v) + t * L (List.ofFn w))
    {v : Fin n → ℝ} {f' : (Fin n → ℝ) →L[ℝ] ℝ} (hd : HasFDerivAt (fun v => L (List.ofFn v)) f' v) (h0 : f' = 0) (w : Fin n → ℝ) :
    L (List.ofFn v) ≤ L (List.ofFn w) := by
  subst h0
  have hl : HasDerivAt (fun t : ℝ => L (List.ofFn fun i => v i + t * (w i - v i))) 0 0 := by
    have hg : HasDerivAt (fun t : ℝ => fun i => v i + t * (w i - v i)) (fun i => w i - v i) 0 := by
      rw [hasDerivAt_pi]
      intro i
      simpa using ((hasDerivAt_id (0 : ℝ)).mul_const (w i - v i)).const_add (v i)
    have e : (fun i => v i + (0 : ℝ) * (w i - v i)) = v := by funext i; simp
    have := HasFDerivAt.comp_hasDerivAt (x := (0 : ℝ)) (f := fun t : ℝ => fun i => v i + t * (w i - v i)) (l := fun v => L (List.ofFn v)) (l' := 0) (by rw [e]; exact hd) hg
    rw [ContinuousLinearMap.zero_apply] at this
    exact this
  by_contra hlt
  push Not at hlt
  rw [hasDerivAt_iff_tendsto_slope_zero] at hl
  have hsub : nhdsWithin (0 : ℝ) (Set.Ioi 0) ≤ nhdsWithin (0 : ℝ) {0}ᶜ := nhdsWithin_mono (0 : ℝ) (fun t (ht : 0 < t) => (ne_of_gt ht : t ≠ 0))
  have hl' := hl.mono_left hsub
  have hev : ∀ᶠ t in nhdsWithin (0 : ℝ) (Set.Ioi 0), t⁻¹ • (L (List.ofFn fun i => v i + (0 + t) * (w i - v i)) - L (List.ofFn fun i => v i + 0 * (w i - v i))) ≤ L (List.ofFn w) - L (List.ofFn v) := by
    have : Set.Ioo (0 : ℝ) 1 ∈ nhdsWithin (0 : ℝ) (Set.Ioi 0) := Ioo_mem_nhdsGT one_pos
    filter_upwards [this] with t ht
    have := hc v w t ht.1.le ht.2.le
    rw [mixture_ofFn] at this
    simp only [zero_add, zero_mul, add_zero, smul_eq_mul]
    rw [inv_mul_le_iff₀ ht.1]
    linarith
  have := le_of_tendsto hl' hev
  linarith

theorem zero_of_singles {n : ℕ} {f' : (Fin n → ℝ) →L[ℝ] ℝ} (h : ∀ i, f' (Pi.single i 1) = 0) : f' = 0 := by
  ext v
  have : v = ∑ i, v i • (Pi.single i (1 : ℝ) : Fin n → ℝ) := by
    funext j
    simp [Finset.sum_apply, Pi.single_apply]
  rw [this, map_sum]
  simp [map_smul, h]

theorem Le_fin {a b : ℝ} : Le (F.fin a) (F.fin b) ↔ a ≤ b := by simp [Le, toEReal]

/-- **C109** (Fermat). The gradient is zero exactly at the minima of the objective that are not singular. -/
theorem C109_fermat_zero (E : Env) (shapes : List Shape) (tx rx : Pt) (θ : List ℝ) (hθ : θ.length = (shapes.map Shape.count).sum)
    (os : List (Rev.RObj ℕ)) (hos : (shapes.map Shape.obj).mapM Rev.constObj = some os) :
    (∀ j < θ.length, (Rev.gradient (Rev.fermatLoss E os (Rev.constV (V2.fin tx)) (Rev.constV (V2.fin rx))) (θ.map F.fin))[j]? = some (F.fin 0)) ↔
    ¬ FermatSingular E.eps shapes tx rx θ ∧ Minimizes (fermatLoss E (shapes.map fun s => s.obj.interact) (V2.fin tx) (V2.fin rx)) (shapes.map Shape.count).sum θ := by
  have hL : ∀ θ' : List ℝ, θ'.length = (shapes.map Shape.count).sum → fermatLoss E (shapes.map fun s => s.obj.interact) (V2.fin tx) (V2.fin rx) (θ'.map F.fin) =
      F.fin (fermatReal E shapes tx rx θ') := fun θ' h' => fermatLoss_fin E shapes tx rx θ' h'
  obtain ⟨v, rfl⟩ := ofFn_of hθ
  have hp : PathAt shapes tx rx (List.ofFn v) _ := (pathAt_iff hθ).mpr rfl
  constructor
  · intro h
    have hs : ¬ FermatSingular E.eps shapes tx rx (List.ofFn v) := by
      rintro ⟨pts, k, j, hp, ho, hg⟩
      have hn := (C107_fermat E shapes tx rx _ hθ os hos pts hp _ (fun θ' h' => hL θ' (by omega)) k j ho).1 hg
      have hj : j < (List.ofFn v).length := by
        obtain ⟨s, h1, h2, rfl⟩ := ho
        rw [hθ]; exact offset_lt h1 h2
      rw [h j hj] at hn
      simp at hn
    refine ⟨hs, by simpa using hθ, fun θ' h' => ?_⟩
    obtain ⟨w, rfl⟩ := ofFn_of h'
    obtain ⟨f', hd, hg⟩ := C107_fermat_gradient E shapes tx rx _ rfl v os hos _ hp (fermatReal E shapes tx rx) hL
      (fun k j ho => ⟨fun hg => hs ⟨_, k, j, hp, ho, .inl hg⟩, fun hg => hs ⟨_, k, j, hp, ho, .inr hg⟩⟩)
    rw [hL _ (by simp), hL _ (by simp), Le_fin]
    refine min_of_zero (fun v w t h0 h1 => ?_) hd (zero_of_singles fun i => ?_) w
    · obtain ⟨l₁, l₂, l, e1, e2, e3, hle⟩ := C41_convex E shapes tx rx (List.ofFn v) (List.ofFn w) t (by simp) (by simp) h0 h1
      rw [hL _ (by simp)] at e1 e2
      rw [hL _ (by simp [mixture])] at e3
      cases e1; cases e2; cases e3
      exact hle
    · have := h i (by simp)
      rw [hg, List.getElem?_ofFn, dif_pos i.2] at this
      simpa using this
  · rintro ⟨hs, -, hmin⟩ j hj
    obtain ⟨f', hd, hg⟩ := C107_fermat_gradient E shapes tx rx _ rfl v os hos _ hp (fermatReal E shapes tx rx) hL
      (fun k j ho => ⟨fun hg => hs ⟨_, k, j, hp, ho, .inl hg⟩, fun hg => hs ⟨_, k, j, hp, ho, .inr hg⟩⟩)
    have hf : f' = 0 := by
      refine IsLocalMin.hasFDerivAt_eq_zero (Filter.Eventually.of_forall fun w => ?_) hd
      have := hmin (List.ofFn w) (by simp)
      rwa [hL _ (by simp), hL _ (by simp), Le_fin] at this
    rw [hg, hf, List.getElem?_ofFn, dif_pos (by simpa using hj)]
    simp

/-- **C109** (MinPath). The gradient is zero at the parameters with null objective that are not singular. -/
theorem C109_min_zero (shapes : List Shape) (tx rx : Pt) (θ : List ℝ) (hθ : θ.length = (shapes.map Shape.count).sum)
    (os : List (Rev.RObj ℕ)) (hos : (shapes.map Shape.obj).mapM Rev.constObj = some os) (hs : ¬ MinSingular shapes tx rx θ)
    (h0 : minLoss (shapes.map fun s => s.obj.interact) (V2.fin tx) (V2.fin rx) (θ.map F.fin) = F.fin 0) (j : ℕ) (hj : j < θ.length) :
    (Rev.gradient (Rev.minLoss os (Rev.constV (V2.fin tx)) (Rev.constV (V2.fin rx))) (θ.map F.fin))[j]? = some (F.fin 0) := by
  have hL : ∀ θ' : List ℝ, θ'.length = (shapes.map Shape.count).sum → minLoss (shapes.map fun s => s.obj.interact) (V2.fin tx) (V2.fin rx) (θ'.map F.fin) =
      F.fin (rtotal shapes (ptsAt shapes tx rx θ')) := fun θ' h' => min_real tx rx h'
  obtain ⟨v, rfl⟩ := ofFn_of hθ
  have hp : PathAt shapes tx rx (List.ofFn v) _ := (pathAt_iff hθ).mpr rfl
  obtain ⟨f', hd, hg⟩ := C107_min_gradient shapes tx rx _ rfl v os hos _ hp _ hL (fun k j ho m hm hsc hn => hs ⟨_, k, j, m, hp, ho, hm, hsc, hn⟩)
  have hf : f' = 0 := by
    refine IsLocalMin.hasFDerivAt_eq_zero (Filter.Eventually.of_forall fun w => ?_) hd
    obtain ⟨l, h1, h2⟩ := C42_nonneg shapes tx rx (List.ofFn w) (by simp)
    rw [hL _ (by simp)] at h1 h0
    cases h1
    have := F.fin.inj h0
    show rtotal _ _ ≤ rtotal _ _
    rw [this]; exact h2
  rw [hg, hf, List.getElem?_ofFn, dif_pos (by simpa using hj)]
  simp

/-! ### Rest -/

theorem am_zero (k : ℕ) : am (fun _ => 0) k = 0 := by
  induction k with
  | zero => rfl
  | succ k ih => simp [am, ih]

theorem au_zero (lr : ℝ) (k : ℕ) : au lr (fun _ => 0) k = 0 := by simp [au, am_zero]

/-- **C109** (rest). Adam stays for ever where the gradient is zero, and moves at once where it is not. -/
theorem C109_rest {Key : Type} (M : Minimizer Key) (lr : ℝ) (hlr : 0 < lr) (hopt : M.optimizer = adam (F.fin lr)) (f : List F → F) (x0 : List ℝ) (n : ℕ)
    (xs : ℕ → List F) (sts : ℕ → M.optimizer.State) (hr : Run M f (x0.map F.fin) n xs sts) (hg : ∀ x, (M.grad f x).length = x.length) (hn : 1 ≤ n) :
    (xs 1 = x0.map F.fin ↔ ∀ j < x0.length, (M.grad f (x0.map F.fin))[j]? = some (F.fin 0)) ∧
    (xs 1 = x0.map F.fin → ∀ k ≤ n, xs k = x0.map F.fin) := by
  have hl := run_length hopt hr hg
  have hlen : ∀ k < n, (M.grad f (xs k)).length = x0.length := fun k hk => by rw [hg, hl k hk.le]
  have stay : (∀ j < x0.length, (M.grad f (x0.map F.fin))[j]? = some (F.fin 0)) → ∀ k ≤ n, xs k = x0.map F.fin := by
    intro hz k
    induction k using Nat.strong_induction_on with
    | _ k ih =>
      intro hk
      apply List.ext_getElem?
      intro j
      by_cases hj : j < x0.length
      · obtain ⟨mu, nu, h⟩ := adam_run hopt hr hlen (List.getElem?_eq_getElem hj)
        have := ((h k hk).2.1 (fun _ => 0) fun m hm => by rw [ih m hm (by omega)]; exact hz j hj).2.2
        rw [this, List.getElem?_map, List.getElem?_eq_getElem hj]
        have hz0 : (List.map (au lr fun _ => 0) (List.range k)).sum = 0 := List.sum_eq_zero (by simp [au_zero])
        simp [hz0]
      · rw [List.getElem?_eq_none (by rw [hl k hk]; omega), List.getElem?_eq_none (by simpa using hj)]
  have move : xs 1 = x0.map F.fin → ∀ j < x0.length, (M.grad f (x0.map F.fin))[j]? = some (F.fin 0) := by
    intro h1 j hj
    have hj' : j < (M.grad f (x0.map F.fin)).length := by rw [hg]; simpa using hj
    have hx : (xs 1)[j]? = some (F.fin x0[j]) := by rw [h1, List.getElem?_map, List.getElem?_eq_getElem hj]; rfl
    by_cases hreal : ∃ r : ℝ, (M.grad f (x0.map F.fin))[j]? = some (F.fin r)
    · obtain ⟨g, hgj⟩ := hreal
      have := C106_first M lr hopt f x0 n xs sts hr hlen hn j x0[j] g (List.getElem?_eq_getElem hj) hgj
      rw [hx] at this
      have h2 : lr * (g / (|g| + 1e-8)) = 0 := by
        have := F.fin.inj (Option.some.inj this); linarith
      have hpos : (0 : ℝ) < |g| + 1e-8 := by positivity
      rcases mul_eq_zero.mp h2 with h | h
      · linarith
      · rw [div_eq_zero_iff] at h
        rcases h with h | h
        · rw [hgj, h]
        · linarith
    · push Not at hreal
      have := (C106_real_or_nan M lr hopt f x0 n xs sts hr hlen 1 hn j hj).2 ⟨0, by omega, by rw [hr.start]; exact hreal⟩
      rw [hx] at this
      simp at this
  exact ⟨⟨move, fun h => stay h 1 hn⟩, fun h => stay (move h)⟩

/-! ### MinPath can rest anywhere -/

theorem mirror_score {o d t r p : Pt} (hod : o ≠ d) (hm : Mirror o d t r) (hp : OnLine o d p) (hne : p ≠ t) : reval o d t p r = 4 := by
  have hr : r = rimg o d t := by
    have := C16_unique o d t r hod hm
    rw [imageOf_fin] at this
    ext
    · exact (F.fin.inj (congrArg V2.x this)).symm
    · exact (F.fin.inj (congrArg V2.y this)).symm
  have hs := rn_sq hod
  have hpl := (onLine_iff hod p).mp hp
  set n := rn o d with hn
  -- the reflected direction is the opposite of the mirrored one
  have e : r - p = -(⟨(p - t).x - 2 * dp (p - t) n * n.x, (p - t).y - 2 * dp (p - t) n * n.y⟩ : Pt) := by
    rw [hr]
    simp only [rimg, ← hn]
    simp only [dp, V2.sub_x, V2.sub_y] at hpl ⊢
    ext
    · simp only [V2.sub_x, V2.neg_x]; linear_combination (-2 * n.x) * hpl
    · simp only [V2.sub_y, V2.neg_y]; linear_combination (-2 * n.y) * hpl
  have hv : p - t ≠ ⟨0, 0⟩ := fun h => hne (by
    have e1 : p.x - t.x = 0 := congrArg V2.x h
    have e2 : p.y - t.y = 0 := congrArg V2.y h
    ext <;> linarith)
  set v := p - t with hv'
  have hl : nrm (⟨v.x - 2 * dp v n * n.x, v.y - 2 * dp v n * n.y⟩ : Pt) = nrm v := by
    unfold nrm; congr 1
    simp only [dp] at hs ⊢
    linear_combination (4 * (v.x * n.x + v.y * n.y) ^ 2) * hs
  have hu : unit (r - p) = -(⟨(unit v).x - 2 * dp (unit v) n * n.x, (unit v).y - 2 * dp (unit v) n * n.y⟩ : Pt) := by
    rw [e, unit_neg]
    congr 1
    have hl1 : len1 (⟨v.x - 2 * dp v n * n.x, v.y - 2 * dp v n * n.y⟩ : Pt) = len1 v := by simp only [len1, hl]
    have hpos := (len1_pos v).ne'
    ext
    · show (v.x - 2 * dp v n * n.x) / len1 _ = _
      rw [hl1]; simp only [unit, dp]; field_simp
    · show (v.y - 2 * dp v n * n.y) / len1 _ = _
      rw [hl1]; simp only [unit, dp]; field_simp
  have h1 := unit_sq hv
  rw [reval, ← hv', hu]
  simp only [← hn, dp, V2.neg_x, V2.neg_y] at hs ⊢
  linear_combination 4 * h1 + (16 * ((unit v).x * n.x + (unit v).y * n.y) ^ 2) * hs

theorem onLine_pointAt' (o d : Pt) (s : ℝ) : OnLine o d (pointAt o d s) := ⟨s, rfl⟩

/-- **C109** (MinPath stuck). If the receiver is the mirror image of the transmitter in the wall, `MinPath` returns its random initial guess, whatever it
is, with the worst possible loss: a zero gradient does not mean a specular path. -/
theorem C109_min_stuck {Key : Type} (M : Minimizer Key) (lr : ℝ) (hlr : 0 < lr) (hopt : M.optimizer = adam (F.fin lr)) (hs : 1 ≤ M.steps)
    (o d tx rx : Pt) (hod : o ≠ d) (htx : ¬ OnLine o d tx) (hm : Mirror o d tx rx) (key : Key) (s : ℝ) (hx0 : M.uniform key 1 = [F.fin s]) :
    MinPath.differentiated M (V2.fin tx) [.wall (Wall.ofPts o d)] (V2.fin rx) key =
      .ok ⟨[V2.fin tx, V2.fin (pointAt o d s), V2.fin rx], F.fin 4⟩ := by
  have hrx : ¬ OnLine o d rx := by
    rintro ⟨a, ha⟩
    obtain ⟨b, hb⟩ := hm.2
    have h1 := congrArg V2.x ha
    have h2 := congrArg V2.y ha
    have h3 := congrArg V2.x hb
    have h4 := congrArg V2.y hb
    simp only [Spec.midpoint, pointAt] at h1 h2 h3 h4
    refine htx ⟨2 * b - a, ?_⟩
    ext
    · simp only [pointAt]; linarith
    · simp only [pointAt]; linarith
  set ss : List Shape := [.wall o d] with hss
  set os : List (Rev.RObj ℕ) := ss.map (robj ℕ) with hos
  set M' := M.differentiating (Rev.minLoss os (Rev.constV (V2.fin tx)) (Rev.constV (V2.fin rx))) with hM'
  set f := minLoss ((ss.map Shape.obj).map Obj.interact) (V2.fin tx) (V2.fin rx) with hf
  have hpts : ∀ t : ℝ, ptsAt ss tx rx [t] = [tx, pointAt o d t, rx] := fun t => by simp [ptsAt, place, hss]
  have hL : ∀ θ' : List ℝ, θ'.length = 1 → minLoss (ss.map fun s => s.obj.interact) (V2.fin tx) (V2.fin rx) (θ'.map F.fin) = F.fin 4 := by
    intro θ' h'
    obtain ⟨t, rfl⟩ := List.length_eq_one_iff.mp h'
    rw [min_real tx rx (by simp [hss, Shape.count]), hpts]
    have := mirror_score hod hm (onLine_pointAt' o d t) (fun h => htx (h ▸ onLine_pointAt' o d t))
    simp [rtotal, rscore, hss, this]
  have hgr : ∀ t : ℝ, ∀ j < 1, (M'.grad f ([t].map F.fin))[j]? = some (F.fin 0) := by
    intro t j hj
    obtain rfl : j = 0 := by omega
    have hp : PathAt ss tx rx [t] _ := (pathAt_iff (by simp [hss, Shape.count])).mpr rfl
    obtain ⟨g, hg, a, ha, hd⟩ := (C107_min ss tx rx [t] (by simp [hss, Shape.count]) os (constObjs ss) _ hp (fun _ => 4) (fun θ' h' => hL θ' (by simpa using h')) 0 0
      ⟨_, rfl, rfl, rfl⟩).2 (by
        rintro m hm' - ⟨a, h1, h2⟩
        rw [hpts] at h1 h2
        rcases hm' with rfl | rfl
        · simp at h1 h2
          exact htx (h1 ▸ h2 ▸ onLine_pointAt' o d t)
        · simp at h1 h2
          exact hrx (h2.trans h1.symm ▸ onLine_pointAt' o d t))
    have : g = 0 := hd.unique (hasDerivAt_const a 4)
    rw [← this]; exact hg
  obtain ⟨xs, sts, hr, hmin⟩ := C44_steps M' f ([s].map F.fin) hs
  have hst : ∀ k ≤ M.steps, xs k = [s].map F.fin := by
    have := C109_rest M' lr hlr hopt f [s] M'.steps xs sts hr (fun x => gradient_length _ x) hs
    exact this.2 (this.1.mpr (hgr s))
  have hcount : nUnknowns ((ss.map Shape.obj).map Obj.interact) = 1 := by
    rw [List.map_map]; exact shapes_count ss
  have hne : ss ≠ [] := by simp [hss]
  have : MinPath.differentiated M (V2.fin tx) (ss.map Shape.obj) (V2.fin rx) key =
      .ok ⟨parametricToCartesian ((ss.map Shape.obj).map Obj.interact) (xs M.steps) (V2.fin tx) (V2.fin rx), f (xs (M.steps - 1))⟩ := by
    simp only [MinPath.differentiated, constObjs, MinPath.fromTxObjectsRx, List.length_map, List.length_eq_zero_iff, if_neg hne, minimizeManyRandomUniform,
      minimizeRandomUniform, if_true, hcount]
    have e : M'.uniform key 1 = [s].map F.fin := hx0
    rw [← hos, ← hM', ← hf, e, hmin]
    rfl
  rw [hst _ le_rfl, hst _ (by omega), points_real tx rx (by simp [hss, Shape.count]), hpts] at this
  have e4 : f ([s].map F.fin) = F.fin 4 := hL [s] rfl
  rw [e4] at this
  exact this

/-- The hypotheses are met: a wall on the x axis, a transmitter and a receiver on either side of it. -/
example : Mirror ⟨0, 0⟩ ⟨1, 0⟩ ⟨1, 1⟩ ⟨1, -1⟩ ∧ ¬ OnLine ⟨0, 0⟩ ⟨1, 0⟩ ⟨1, 1⟩ := by
  refine ⟨⟨by simp [Orthogonal], ⟨1, by simp [Spec.midpoint, pointAt]⟩⟩, ?_⟩
  rintro ⟨s, hs⟩
  have := congrArg V2.y hs
  simp [pointAt] at this

end DiffeRT2d.Props
