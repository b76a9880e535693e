import Verif.Lemmas.ShapeSteps
import Verif.Props.Sgd

/-! # C146: gradient descent on paths with any number of interactions -/

namespace DiffeRT2d.Props
open Classical Spec

/-- One step of gradient descent on the length. -/
noncomputable def lenNext (eps : ℝ) (ss : List Shape) (tx rx : Pt) (lr : ℝ) {N : ℕ} (v : Fin N → ℝ) : Fin N → ℝ := fun i =>
  v i - lr * SumLengths.G (Finset.range (ss.length + 1)) (bcoef ss) (stepNo eps ss tx rx) v i

theorem gap_ofFn {N : ℕ} (v w : Fin N → ℝ) : gap (List.ofFn v) (List.ofFn w) = SumLengths.D v w := by
  rw [gap, SumLengths.D]
  have : List.zipWith (fun a b => (a - b) ^ 2) (List.ofFn v) (List.ofFn w) = List.ofFn fun i => (v i - w i) ^ 2 := by
    apply List.ext_getElem <;> simp
  rw [this, List.sum_ofFn]

/-- The iterates, before any singular parameters; and after them. -/
theorem sgd_many {Key : Type} {E : Env} {M : Minimizer Key} {lr : ℝ} (hopt : M.optimizer = sgd (F.fin lr)) {ss : List Shape} {tx rx : Pt} {N : ℕ}
    (hN : N = (ss.map Shape.count).sum) (hgrad : ∀ f, M.grad f = Rev.gradient (Rev.fermatLoss E (ss.map (robj ℕ)) (Rev.constV (V2.fin tx)) (Rev.constV (V2.fin rx))))
    {f : List F → F} {v0 : Fin N → ℝ} {n : ℕ} {xs : ℕ → List F} {sts : ℕ → M.optimizer.State} (hr : Run M f ((List.ofFn v0).map F.fin) n xs sts) :
    (∀ k ≤ n, (∀ m < k, ¬ FermatSingular E.eps ss tx rx (List.ofFn ((lenNext E.eps ss tx rx lr)^[m] v0))) →
      xs k = (List.ofFn ((lenNext E.eps ss tx rx lr)^[k] v0)).map F.fin) ∧
    ∀ k ≤ n, (∃ m < k, FermatSingular E.eps ss tx rx (List.ofFn ((lenNext E.eps ss tx rx lr)^[m] v0))) → (xs k).length = N ∧ ∃ j < N, (xs k)[j]? = some F.nan := by
  have hup : ∀ (g : List F) st, (M.optimizer.update g st).1 = g.map fun g => -F.fin lr * g := by
    rw [hopt]; intro g st; rfl
  have hreal : ∀ k ≤ n, (∀ m < k, ¬ FermatSingular E.eps ss tx rx (List.ofFn ((lenNext E.eps ss tx rx lr)^[m] v0))) →
      xs k = (List.ofFn ((lenNext E.eps ss tx rx lr)^[k] v0)).map F.fin := by
    intro k
    induction k with
    | zero => intro _ _; exact hr.start
    | succ k ih =>
      intro hk hns
      have h1 := ih (by omega) fun m hm => hns m (by omega)
      rw [hr.step k (by omega), hup, hgrad, h1, steps_gradient E ss tx rx hN _ (hns k (by omega)), Function.iterate_succ_apply']
      apply List.ext_getElem
      · simp
      · intro i h2 h3
        simp [lenNext, sub_eq_add_neg]
  refine ⟨hreal, ?_⟩
  have hlenall : ∀ k ≤ n, (xs k).length = N := by
    intro k
    induction k with
    | zero => intro _; rw [hr.start]; simp
    | succ k ih =>
      intro hk
      rw [hr.step k (by omega), hup, hgrad, List.length_zipWith, List.length_map, gradient_length, ih (by omega), min_self]
  intro k
  induction k with
  | zero => rintro _ ⟨m, hm, -⟩; omega
  | succ k ih =>
    rintro hk hex
    refine ⟨hlenall _ hk, ?_⟩
    by_cases hprev : ∃ m < k, FermatSingular E.eps ss tx rx (List.ofFn ((lenNext E.eps ss tx rx lr)^[m] v0))
    · obtain ⟨-, j, hj, hnan⟩ := ih (by omega) hprev
      refine ⟨j, hj, ?_⟩
      rw [hr.step k (by omega), hup, hgrad]
      have hl : j < (Rev.gradient (Rev.fermatLoss E (ss.map (robj ℕ)) (Rev.constV (V2.fin tx)) (Rev.constV (V2.fin rx))) (xs k)).length := by
        rw [gradient_length, hlenall k (by omega)]; exact hj
      rw [List.getElem?_zipWith, hnan, List.getElem?_map, List.getElem?_eq_getElem hl]
      rfl
    · push Not at hprev
      have hx := hreal k (by omega) hprev
      obtain ⟨m, hm, hS⟩ := hex
      have hmk : m = k := by
        rcases Nat.lt_succ_iff_lt_or_eq.mp hm with h | h
        · exact absurd hS (hprev m h)
        · exact h
      subst hmk
      obtain ⟨pts, k', j, hp, ho, hg⟩ := hS
      have hcnt : (List.ofFn ((lenNext E.eps ss tx rx lr)^[m] v0)).length = (ss.map Shape.count).sum := by simpa using hN
      have hj : j < N := by
        obtain ⟨s, h1, h2, rfl⟩ := ho
        rw [hN]; exact offset_lt h1 h2
      have hgn := (C107_fermat E ss tx rx _ hcnt _ (constObjs ss) pts hp _ (fun θ' h' => fermat_real E tx rx (by rw [h', hcnt])) k' j ho).1 hg
      refine ⟨j, hj, ?_⟩
      rw [hr.step m (by omega), hup, hgrad, hx]
      rw [List.getElem?_zipWith, List.getElem?_map, List.getElem?_map, hgn]
      have : ((List.ofFn ((lenNext E.eps ss tx rx lr)^[m] v0)))[j]? = some (((lenNext E.eps ss tx rx lr)^[m] v0) ⟨j, hj⟩) := by
        rw [List.getElem?_eq_getElem (by simpa using hj)]; simp
      rw [this]
      rfl

/-- **C146.** With plain gradient descent and a small enough rate, for any number of objects: the parameters never get farther from those of the shortest path, and the
length tends to its minimum, unless the gradient is taken at singular parameters, after which a point is NaN. -/
theorem C146_converges {Key : Type} (E : Env) (M : Minimizer Key) (lr : ℝ) (hlr : 0 < lr) (hopt : M.optimizer = sgd (F.fin lr))
    (shapes : List Shape) (hne : shapes ≠ []) (tx rx : Pt) (best : List ℝ) (pts : List Pt) (ℓ : ℝ) (hℓ : 0 < ℓ)
    (hbest : Minimizes (fermatLoss E (shapes.map fun s => s.obj.interact) (V2.fin tx) (V2.fin rx)) (shapes.map Shape.count).sum best)
    (hpts : PathAt shapes tx rx best pts) (hsteps : StepsAtLeast E.eps ℓ pts) (hrate : 2 * lr * (shapes.map fun s => extent s ^ 2).sum < ℓ)
    (key : Key) (x0 : List ℝ) (hx0 : M.uniform key (shapes.map Shape.count).sum = x0.map F.fin) (hlen : x0.length = (shapes.map Shape.count).sum) :
    ∃ θ : ℕ → List ℝ, θ 0 = x0 ∧
      (∀ n, 1 ≤ n → (∀ m < n, ¬ FermatSingular E.eps shapes tx rx (θ m)) → ∃ pts, PathAt shapes tx rx (θ n) pts ∧
        FermatPath.differentiated E { M with steps := n } (V2.fin tx) (shapes.map Shape.obj) (V2.fin rx) key =
          .ok ⟨pts.map V2.fin, minLoss (shapes.map fun s => s.obj.interact) (V2.fin tx) (V2.fin rx) ((θ n).map F.fin)⟩) ∧
      (∀ n, 1 ≤ n → (∃ m < n, FermatSingular E.eps shapes tx rx (θ m)) → ∃ p, V2.nan ∈ p.xys ∧
        FermatPath.differentiated E { M with steps := n } (V2.fin tx) (shapes.map Shape.obj) (V2.fin rx) key = .ok p) ∧
      (∀ n, (θ n).length = (shapes.map Shape.count).sum ∧ gap (θ (n + 1)) best ≤ gap (θ n) best) ∧
      (∀ tol : ℝ, 0 < tol → ∃ n0, ∀ n ≥ n0, ∃ l lmin : ℝ, fermatLoss E (shapes.map fun s => s.obj.interact) (V2.fin tx) (V2.fin rx) ((θ n).map F.fin) = F.fin l ∧
        fermatLoss E (shapes.map fun s => s.obj.interact) (V2.fin tx) (V2.fin rx) (best.map F.fin) = F.fin lmin ∧ l < lmin + tol) ∧
      ∀ T : ℕ, 1 ≤ T → ∃ n < T, ∃ l lmin : ℝ, fermatLoss E (shapes.map fun s => s.obj.interact) (V2.fin tx) (V2.fin rx) ((θ n).map F.fin) = F.fin l ∧
        fermatLoss E (shapes.map fun s => s.obj.interact) (V2.fin tx) (V2.fin rx) (best.map F.fin) = F.fin lmin ∧
        l - lmin ≤ gap x0 best * Real.sqrt (2 * (shapes.map fun s => extent s ^ 2).sum / (lr * (ℓ - 2 * lr * (shapes.map fun s => extent s ^ 2).sum) * T)) := by
  set N := (shapes.map Shape.count).sum with hN
  obtain ⟨v0, rfl⟩ := ofFn_of hlen
  obtain ⟨w, rfl⟩ := ofFn_of hbest.1
  have hcnt : ∀ v : Fin N → ℝ, (List.ofFn v).length = (shapes.map Shape.count).sum := fun v => by simpa using hN
  have hpts' := (pathAt_iff (hcnt w)).mp hpts
  subst hpts'
  -- the minimum
  have hw : ∀ k ∈ Finset.range (shapes.length + 1), ℓ ≤ nrm (stepNo E.eps shapes tx rx w k) := by
    intro k hk
    have hk' := Finset.mem_range.mp hk
    have l1 : k < (ptsAt shapes tx rx (List.ofFn w)).length := by rw [ptsAt_length]; omega
    have l2 : k + 1 < (ptsAt shapes tx rx (List.ofFn w)).length := by rw [ptsAt_length]; omega
    have := hsteps k _ _ (List.getElem?_eq_getElem l1) (List.getElem?_eq_getElem l2)
    rw [eucl_eq_nrm] at this
    refine this.trans (le_of_eq ?_)
    simp only [stepNo, ptNo, List.getElem?_eq_getElem l1, List.getElem?_eq_getElem l2, Option.getD_some]
    congr 1
    ext
    · simp only [V2.add_x, V2.sub_x]; ring
    · simp only [V2.add_y, V2.sub_y]; ring
  have hzero := C109_fermat_zero E shapes tx rx (List.ofFn w) (hcnt w) _ (constObjs shapes)
  have hnsw : ¬ FermatSingular E.eps shapes tx rx (List.ofFn w) := by
    rintro ⟨pts, k, j, hp, -, hg⟩
    obtain rfl := (pathAt_iff (hcnt w)).mp hp
    have : ∀ k, ¬ GuardStep E.eps (ptsAt shapes tx rx (List.ofFn w)) k := by
      rintro k ⟨a, b, h1, h2, h3⟩
      have := hsteps k a b h1 h2
      rw [h3] at this
      simp [eucl] at this
      linarith
    exact hg.elim (this _) (this _)
  have hG0 : ∀ i, SumLengths.G (Finset.range (shapes.length + 1)) (bcoef shapes) (stepNo E.eps shapes tx rx) w i = 0 := by
    intro i
    have h1 := hzero.mpr ⟨hnsw, hbest⟩ i (by simp)
    rw [steps_gradient E shapes tx rx hN w hnsw] at h1
    simpa using h1
  have hS : lr * SumLengths.S (Finset.range (shapes.length + 1)) (bcoef shapes (N := N)) < ℓ := by
    have := steps_size shapes hN
    nlinarith
  obtain ⟨d1, d2⟩ := SumLengths.descent (steps_affine E.eps shapes tx rx hN) w hw hℓ hlr hS hG0
    (fun n => (lenNext E.eps shapes tx rx lr)^[n] v0) (fun n => by rw [Function.iterate_succ_apply']; rfl)
  set M' := fun n : ℕ => (({ M with steps := n } : Minimizer Key).differentiating (Rev.fermatLoss E (shapes.map (robj ℕ)) (Rev.constV (V2.fin tx)) (Rev.constV (V2.fin rx)))) with hM'
  set f := fermatLoss E ((shapes.map Shape.obj).map Obj.interact) (V2.fin tx) (V2.fin rx) with hf
  have hcount : nUnknowns ((shapes.map Shape.obj).map Obj.interact) = N := by
    rw [List.map_map]; exact shapes_count shapes
  have hres : ∀ n, 1 ≤ n → ∃ xs sts, Run (M' n) f ((List.ofFn v0).map F.fin) n xs sts ∧
      FermatPath.differentiated E { M with steps := n } (V2.fin tx) (shapes.map Shape.obj) (V2.fin rx) key =
        .ok ⟨parametricToCartesian ((shapes.map Shape.obj).map Obj.interact) (xs n) (V2.fin tx) (V2.fin rx),
          minLoss (shapes.map fun s => s.obj.interact) (V2.fin tx) (V2.fin rx) (xs n)⟩ := by
    intro n hn
    obtain ⟨xs, sts, hr, he⟩ := C44_steps (M' n) f ((List.ofFn v0).map F.fin) hn
    refine ⟨xs, sts, hr, ?_⟩
    have hmm : (shapes.map fun s => s.obj.interact) = (shapes.map Shape.obj).map Obj.interact := by rw [List.map_map]; rfl
    rw [minLoss, hmm]
    simp only [FermatPath.differentiated, constObjs, FermatPath.fromTxObjectsRx, List.length_map, List.length_eq_zero_iff, if_neg hne, minimizeManyRandomUniform,
      minimizeRandomUniform, if_true, hcount]
    have e : (M' n).uniform key N = (List.ofFn v0).map F.fin := hx0
    rw [show (({ M with steps := n } : Minimizer Key).differentiating (Rev.fermatLoss E (shapes.map (robj ℕ)) (Rev.constV (V2.fin tx)) (Rev.constV (V2.fin rx)))) = M' n from rfl,
      ← hf, e, he]
    rfl
  refine ⟨fun n => List.ofFn ((lenNext E.eps shapes tx rx lr)^[n] v0), rfl, fun n hn hns => ?_, fun n hn hex => ?_, fun n => ⟨by simp, ?_⟩, fun tol htol => ?_, fun T hT => ?_⟩
  · obtain ⟨xs, sts, hr, he⟩ := hres n hn
    have hx := (sgd_many (M := M' n) hopt hN (fun _ => rfl) hr).1 n le_rfl hns
    refine ⟨_, (pathAt_iff (hcnt _)).mpr rfl, ?_⟩
    rw [he, hx, points_real tx rx (hcnt _)]
  · obtain ⟨xs, sts, hr, he⟩ := hres n hn
    obtain ⟨hl, j, hj, hnan⟩ := (sgd_many (M := M' n) hopt hN (fun _ => rfl) hr).2 n le_rfl hex
    obtain ⟨k, s, -, -, h3⟩ := points_nan tx rx (ss := shapes) (x := xs n) (by rw [hl]) hnan
    exact ⟨_, List.mem_of_getElem? h3, he⟩
  · simp only [gap_ofFn]
    exact d1 (Nat.le_succ n)
  · obtain ⟨n0, h0⟩ := d2 tol htol
    refine ⟨n0, fun n hn => ⟨_, _, fermat_real E tx rx (hcnt _), fermat_real E tx rx (hcnt _), ?_⟩⟩
    rw [steps_length, steps_length]
    exact h0 n hn
  · have hS2 := steps_size shapes hN
    obtain ⟨n, hn, hr⟩ := SumLengths.rate (steps_affine E.eps shapes tx rx hN) w hw hℓ hlr hS2 (by linarith) hG0
      (fun n => (lenNext E.eps shapes tx rx lr)^[n] v0) (fun n => by rw [Function.iterate_succ_apply']; rfl) T hT
    refine ⟨n, hn, _, _, fermat_real E tx rx (hcnt _), fermat_real E tx rx (hcnt _), ?_⟩
    rw [steps_length, steps_length, gap_ofFn, mul_comm 2 lr, mul_assoc lr 2]
    exact hr

theorem step_nrm (eps : ℝ) {ss : List Shape} {tx rx : Pt} {N : ℕ} (v : Fin N → ℝ) {k : ℕ} {a b : Pt} (h1 : (ptsAt ss tx rx (List.ofFn v))[k]? = some a)
    (h2 : (ptsAt ss tx rx (List.ofFn v))[k + 1]? = some b) : nrm (stepNo eps ss tx rx v k) = eucl ⟨a.x - eps, a.y - eps⟩ b := by
  rw [eucl_eq_nrm]
  simp only [stepNo, ptNo, h1, h2, Option.getD_some]
  congr 1
  ext
  · simp only [V2.add_x, V2.sub_x]; ring
  · simp only [V2.add_y, V2.sub_y]; ring

/-- Near the shortest path, no parameters are singular. -/
theorem near_regular {eps ℓ : ℝ} {shapes : List Shape} {tx rx : Pt} {best θ : List ℝ} {pts : List Pt} (hb : best.length = (shapes.map Shape.count).sum)
    (hθ : θ.length = (shapes.map Shape.count).sum) (hpts : PathAt shapes tx rx best pts) (hℓ : 0 < ℓ) (hsteps : StepsAtLeast eps ℓ pts)
    (hnear : 2 * (shapes.map fun s => extent s ^ 2).sum * gap θ best < ℓ ^ 2) : ¬ FermatSingular eps shapes tx rx θ := by
  obtain ⟨v, rfl⟩ := ofFn_of hθ
  obtain ⟨w, rfl⟩ := ofFn_of hb
  obtain rfl := (pathAt_iff hb).mp hpts
  rw [gap_ofFn] at hnear
  rintro ⟨pts, k', j, hp, -, hg⟩
  obtain rfl := (pathAt_iff hθ).mp hp
  have : ∀ k, ¬ GuardStep eps (ptsAt shapes tx rx (List.ofFn v)) k := by
    rintro k ⟨a, b, h1, h2, h3⟩
    have hk : k ∈ Finset.range (shapes.length + 1) := by
      have := (List.getElem?_eq_some_iff.mp h2).1
      rw [ptsAt_length] at this
      exact Finset.mem_range.mpr (by omega)
    have hk' := Finset.mem_range.mp hk
    have hv := step_nrm eps v h1 h2
    rw [h3] at hv
    simp only [eucl, sub_self, ne_eq, OfNat.ofNat_ne_zero, not_false_eq_true, zero_pow, add_zero, Real.sqrt_zero] at hv
    have l1 : k < (ptsAt shapes tx rx (List.ofFn w)).length := by rw [ptsAt_length]; omega
    have l2 : k + 1 < (ptsAt shapes tx rx (List.ofFn w)).length := by rw [ptsAt_length]; omega
    have hw := step_nrm eps w (List.getElem?_eq_getElem l1) (List.getElem?_eq_getElem l2)
    have hwl := hsteps k _ _ (List.getElem?_eq_getElem l1) (List.getElem?_eq_getElem l2)
    rw [← hw] at hwl
    have hm := SumLengths.move_le (steps_affine eps shapes tx rx rfl) v w hk
    have hS := steps_size shapes (N := (shapes.map Shape.count).sum) rfl
    have hD := SumLengths.D_nonneg v w
    have h0 := (nrm_eq_zero _).mp hv
    have e : dp (stepNo eps shapes tx rx v k - stepNo eps shapes tx rx w k) (stepNo eps shapes tx rx v k - stepNo eps shapes tx rx w k) =
        nrm (stepNo eps shapes tx rx w k) * nrm (stepNo eps shapes tx rx w k) := by
      rw [nrm_sq, h0]; simp [dp]
    rw [e] at hm
    nlinarith [mul_le_mul_of_nonneg_right hS hD, mul_self_le_mul_self hℓ.le hwl]
  exact hg.elim (this _) (this _)

/-- **C146** (nearby starts). If the start is near the parameters of the shortest path, the paths are real, at every step, and their lengths tend to the minimum. -/
theorem C146_near {Key : Type} (E : Env) (M : Minimizer Key) (lr : ℝ) (hlr : 0 < lr) (hopt : M.optimizer = sgd (F.fin lr))
    (shapes : List Shape) (hne : shapes ≠ []) (tx rx : Pt) (best : List ℝ) (pts : List Pt) (ℓ : ℝ) (hℓ : 0 < ℓ)
    (hbest : Minimizes (fermatLoss E (shapes.map fun s => s.obj.interact) (V2.fin tx) (V2.fin rx)) (shapes.map Shape.count).sum best)
    (hpts : PathAt shapes tx rx best pts) (hsteps : StepsAtLeast E.eps ℓ pts) (hrate : 2 * lr * (shapes.map fun s => extent s ^ 2).sum < ℓ)
    (key : Key) (x0 : List ℝ) (hx0 : M.uniform key (shapes.map Shape.count).sum = x0.map F.fin) (hlen : x0.length = (shapes.map Shape.count).sum)
    (hnear : 2 * (shapes.map fun s => extent s ^ 2).sum * gap x0 best < ℓ ^ 2) :
    ∃ θ : ℕ → List ℝ, θ 0 = x0 ∧
      (∀ n, 1 ≤ n → ∃ pts, PathAt shapes tx rx (θ n) pts ∧
        FermatPath.differentiated E { M with steps := n } (V2.fin tx) (shapes.map Shape.obj) (V2.fin rx) key =
          .ok ⟨pts.map V2.fin, minLoss (shapes.map fun s => s.obj.interact) (V2.fin tx) (V2.fin rx) ((θ n).map F.fin)⟩) ∧
      (∀ n, (θ n).length = (shapes.map Shape.count).sum ∧ gap (θ (n + 1)) best ≤ gap (θ n) best) ∧
      ∀ tol : ℝ, 0 < tol → ∃ n0, ∀ n ≥ n0, ∃ l lmin : ℝ, fermatLoss E (shapes.map fun s => s.obj.interact) (V2.fin tx) (V2.fin rx) ((θ n).map F.fin) = F.fin l ∧
        fermatLoss E (shapes.map fun s => s.obj.interact) (V2.fin tx) (V2.fin rx) (best.map F.fin) = F.fin lmin ∧ l < lmin + tol := by
  obtain ⟨θ, h0, h1, -, h3, h4, -⟩ := C146_converges E M lr hlr hopt shapes hne tx rx best pts ℓ hℓ hbest hpts hsteps hrate key x0 hx0 hlen
  have hanti : Antitone fun n => gap (θ n) best := antitone_nat_of_succ_le fun n => (h3 n).2
  have hsum : 0 ≤ (shapes.map fun s => extent s ^ 2).sum := List.sum_nonneg fun x hx => by
    obtain ⟨s, -, rfl⟩ := List.mem_map.mp hx
    positivity
  refine ⟨θ, h0, fun n hn => h1 n hn fun m _ => near_regular hbest.1 (h3 m).1 hpts hℓ hsteps ?_, h3, h4⟩
  have := hanti (Nat.zero_le m)
  simp only [h0] at this
  nlinarith [mul_le_mul_of_nonneg_left this hsum]

/-- **C146** (limit). If moreover the shortest path is unique, the parameters converge to its own. -/
theorem C146_limit {Key : Type} (E : Env) (M : Minimizer Key) (lr : ℝ) (hlr : 0 < lr) (hopt : M.optimizer = sgd (F.fin lr))
    (shapes : List Shape) (hne : shapes ≠ []) (tx rx : Pt) (best : List ℝ) (pts : List Pt) (ℓ : ℝ) (hℓ : 0 < ℓ)
    (hbest : ∀ θ, Minimizes (fermatLoss E (shapes.map fun s => s.obj.interact) (V2.fin tx) (V2.fin rx)) (shapes.map Shape.count).sum θ ↔ θ = best)
    (hpts : PathAt shapes tx rx best pts) (hsteps : StepsAtLeast E.eps ℓ pts) (hrate : 2 * lr * (shapes.map fun s => extent s ^ 2).sum < ℓ)
    (key : Key) (x0 : List ℝ) (hx0 : M.uniform key (shapes.map Shape.count).sum = x0.map F.fin) (hlen : x0.length = (shapes.map Shape.count).sum)
    (hnear : 2 * (shapes.map fun s => extent s ^ 2).sum * gap x0 best < ℓ ^ 2) :
    ∃ θ : ℕ → List ℝ,
      (∀ n, 1 ≤ n → ∃ pts, PathAt shapes tx rx (θ n) pts ∧
        FermatPath.differentiated E { M with steps := n } (V2.fin tx) (shapes.map Shape.obj) (V2.fin rx) key =
          .ok ⟨pts.map V2.fin, minLoss (shapes.map fun s => s.obj.interact) (V2.fin tx) (V2.fin rx) ((θ n).map F.fin)⟩) ∧
      (∀ n, (θ n).length = (shapes.map Shape.count).sum) ∧ ∀ tol : ℝ, 0 < tol → ∃ n0, ∀ n ≥ n0, gap (θ n) best < tol := by
  have hb := (hbest best).mpr rfl
  obtain ⟨θ, h0, h1, h3, h4⟩ := C146_near E M lr hlr hopt shapes hne tx rx best pts ℓ hℓ hb hpts hsteps hrate key x0 hx0 hlen hnear
  refine ⟨θ, h1, fun n => (h3 n).1, ?_⟩
  choose v hv using fun n => ofFn_of (h3 n).1
  obtain ⟨w, rfl⟩ := ofFn_of hb.1
  have hcnt : ∀ v : Fin (shapes.map Shape.count).sum → ℝ, (List.ofFn v).length = (shapes.map Shape.count).sum := fun v => by simp
  have hLv : ∀ v : Fin (shapes.map Shape.count).sum → ℝ, fermatLoss E (shapes.map fun s => s.obj.interact) (V2.fin tx) (V2.fin rx) ((List.ofFn v).map F.fin) =
      F.fin (SumLengths.L (Finset.range (shapes.length + 1)) (stepNo E.eps shapes tx rx) v) := fun v => by
    rw [fermat_real E tx rx (hcnt v), steps_length]
  have hle : ∀ a b : ℝ, Le (F.fin a) (F.fin b) ↔ a ≤ b := fun a b => by rw [← F.le_iff]; simp
  have hmin : ∀ v, SumLengths.L (Finset.range (shapes.length + 1)) (stepNo E.eps shapes tx rx) w ≤ SumLengths.L (Finset.range (shapes.length + 1)) (stepNo E.eps shapes tx rx) v := fun v => by
    have := hb.2 (List.ofFn v) (hcnt v)
    rw [hLv, hLv, hle] at this
    exact this
  have hlim := SumLengths.to_minimum (steps_affine E.eps shapes tx rx rfl) w (fun v hv' => by
      have := (hbest (List.ofFn v)).mp ⟨hcnt v, fun θ' hθ' => by
        obtain ⟨v', rfl⟩ := ofFn_of hθ'
        rw [hLv, hLv, hle]
        exact hv' v'⟩
      exact List.ofFn_injective this) v
    (antitone_nat_of_succ_le fun n => by
      have := (h3 n).2
      rw [← hv, ← hv n, gap_ofFn, gap_ofFn] at this
      exact this) hmin (fun tol htol => by
      obtain ⟨n0, hn0⟩ := h4 tol htol
      refine ⟨n0, fun n hn => ?_⟩
      obtain ⟨l, lmin, e1, e2, e3⟩ := hn0 n hn
      rw [← hv, hLv] at e1
      rw [hLv] at e2
      rw [F.fin.inj e1, F.fin.inj e2]
      exact e3)
  intro tol htol
  have hD := ((SumLengths.D_continuous w).tendsto w).comp hlim
  have hz : SumLengths.D w w = 0 := by simp [SumLengths.D]
  rw [hz] at hD
  obtain ⟨n0, hn0⟩ := Filter.eventually_atTop.mp (hD.eventually_lt_const htol)
  refine ⟨n0, fun n hn => ?_⟩
  rw [← hv, gap_ofFn]
  exact hn0 n hn

theorem ptNo_continuous (ss : List Shape) (tx rx : Pt) {N : ℕ} (hN : N = (ss.map Shape.count).sum) (w : Fin N → ℝ) (k : ℕ) :
    Continuous fun v : Fin N → ℝ => eucl (ptNo ss tx rx v k) (ptNo ss tx rx w k) := by
  have e : (fun v : Fin N → ℝ => eucl (ptNo ss tx rx v k) (ptNo ss tx rx w k)) = fun v =>
      Real.sqrt ((∑ i, (v i - w i) * (acoef ss k i).x) ^ 2 + (∑ i, (v i - w i) * (acoef ss k i).y) ^ 2) := by
    funext v
    obtain ⟨h1, h2⟩ := ptNo_affine ss tx rx hN v w k
    rw [← h1, ← h2, eucl]
    congr 1; ring
  rw [e]
  fun_prop

theorem pathAt_walls {ws : List (Pt × Pt)} {tx rx : Pt} {θ : List ℝ} (h : θ.length = ws.length) :
    ptsAt (ws.map fun w => Shape.wall w.1 w.2) tx rx θ = tx :: pointsAt ws θ ++ [rx] := by
  rw [ptsAt, place_pointsAt ws θ h]

theorem wallShapes_count (ws : List (Pt × Pt)) : ((ws.map fun w => Shape.wall w.1 w.2).map Shape.count).sum = ws.length := by
  induction ws with
  | nil => rfl
  | cons w ws ih => simp only [List.map_cons, List.sum_cons, ih, List.length_cons, Shape.count]; omega

/-- **C146** (reflections). Without the guard, from a start near the specular path over any number of walls, the paths converge to it (it is what `ImagePath` returns)
and the losses to zero. -/
theorem C146_image {Key : Type} (E : Env) (he : E.eps = 0) (M : Minimizer Key) (lr : ℝ) (hlr : 0 < lr) (hopt : M.optimizer = sgd (F.fin lr))
    (ws : List (Pt × Pt)) (hne : ws ≠ []) (hnd : ∀ w ∈ ws, w.1 ≠ w.2) (tx rx : Pt) (qs : List Pt) (h : Specular ws (tx :: qs ++ [rx]))
    (best : List ℝ) (hbl : best.length = ws.length) (hbq : pointsAt ws best = qs) (ℓ : ℝ) (hℓ : 0 < ℓ) (hsteps : StepsAtLeast 0 ℓ (tx :: qs ++ [rx]))
    (hrate : 2 * lr * (ws.map fun w => eucl w.1 w.2 ^ 2).sum < ℓ) (key : Key) (x0 : List ℝ) (hx0 : M.uniform key ws.length = x0.map F.fin)
    (hlen : x0.length = ws.length) (hnear : 2 * (ws.map fun w => eucl w.1 w.2 ^ 2).sum * gap x0 best < ℓ ^ 2) :
    traceImage tx ws rx = .ok ⟨(tx :: qs ++ [rx]).map V2.fin, F.fin 0⟩ ∧
    ∀ tol : ℝ, 0 < tol → ∃ n0, ∀ n ≥ n0, ∃ (pts : List Pt) (loss : ℝ), FermatPath.differentiated E { M with steps := n } (V2.fin tx) (wallsOf ws) (V2.fin rx) key =
      .ok ⟨pts.map V2.fin, F.fin loss⟩ ∧ |loss| < tol ∧ pts.length = ws.length + 2 ∧
      ∀ (i : ℕ) (a b : Pt), pts[i]? = some a → (tx :: qs ++ [rx])[i]? = some b → eucl a b < tol := by
  refine ⟨C73_complete tx rx ws hnd qs h, ?_⟩
  subst hbq
  set ss : List Shape := ws.map fun w => Shape.wall w.1 w.2 with hss
  have hc : (ss.map Shape.count).sum = ws.length := wallShapes_count ws
  have hobj : ss.map Shape.obj = wallsOf ws := by simp [hss, wallsOf, Shape.obj]
  have hint : (ss.map fun s => s.obj.interact) = (wallsOf ws).map Obj.interact := by rw [← hobj]; simp [Function.comp_def]
  have hext : (ss.map fun s => extent s ^ 2) = ws.map fun w => eucl w.1 w.2 ^ 2 := by simp [hss, extent]
  have hbest : ∀ θ, Minimizes (fermatLoss E (ss.map fun s => s.obj.interact) (V2.fin tx) (V2.fin rx)) (ss.map Shape.count).sum θ ↔ θ = best := by
    intro θ
    rw [hint, hc, C93_exact E he tx rx ws hnd _ h]
    refine ⟨fun ⟨h1, h2⟩ => ?_, fun e => by rw [e]; exact ⟨hbl, rfl⟩⟩
    apply List.ext_getElem (by omega)
    intro i i1 i2
    have hi : i < ws.length := by omega
    have e := congrArg (fun l : List Pt => l[i]?) h2
    simp only [pointsAt, List.getElem?_zipWith, List.getElem?_eq_getElem hi, List.getElem?_eq_getElem i1, List.getElem?_eq_getElem i2, Option.some.injEq] at e
    have ex := congrArg V2.x e
    have ey := congrArg V2.y e
    simp only [pointAt] at ex ey
    by_contra hneq
    apply hnd _ (List.getElem_mem hi)
    have hd : θ[i] - best[i] ≠ 0 := sub_ne_zero.mpr hneq
    ext
    · have : (θ[i] - best[i]) * ((ws[i]).2.x - (ws[i]).1.x) = 0 := by linarith
      have := (mul_eq_zero.mp this).resolve_left hd
      linarith
    · have : (θ[i] - best[i]) * ((ws[i]).2.y - (ws[i]).1.y) = 0 := by linarith
      have := (mul_eq_zero.mp this).resolve_left hd
      linarith
  have hpa : PathAt ss tx rx best (tx :: pointsAt ws best ++ [rx]) := (pathAt_iff (by rw [hc, hbl])).mpr (pathAt_walls hbl).symm
  obtain ⟨θ, h1, h2, h3⟩ := C146_limit E M lr hlr hopt ss (by simpa [hss] using hne) tx rx best _ ℓ hℓ hbest hpa (by rw [he]; exact hsteps) (by rw [hext]; exact hrate)
    key x0 (by rw [hc]; exact hx0) (by rw [hc]; exact hlen) (by rw [hext]; exact hnear)
  intro tol htol
  choose v hv using fun n => ofFn_of (h2 n)
  obtain ⟨w, hw⟩ := ofFn_of (hbl.trans hc.symm)
  -- the points and the loss are continuous
  have hz := (C92_zero_iff tx rx ws hnd hne best hbl).mp h
  have hLm : ∀ θ' : List ℝ, θ'.length = (ss.map Shape.count).sum → minLoss (ss.map fun s => s.obj.interact) (V2.fin tx) (V2.fin rx) (θ'.map F.fin) =
      F.fin (rtotal ss (ptsAt ss tx rx θ')) := fun θ' h' => min_real tx rx h'
  obtain ⟨f', hf, -⟩ := C107_min_gradient ss tx rx _ rfl w _ (constObjs ss) (tx :: pointsAt ws best ++ [rx]) (by rw [hw]; exact hpa) _ hLm (fun k j _ m _ _ => by
    rintro ⟨a, e1, e2⟩
    exact hz.2.1 m a a e1 e2 rfl)
  have h0 : rtotal ss (ptsAt ss tx rx (List.ofFn w)) = 0 := by
    have := hz.1
    rw [← hint, ← hw, hLm _ (by simp)] at this
    exact F.fin.inj this
  have hcl := hf.continuousAt.tendsto
  rw [h0] at hcl
  have hev1 : ∀ᶠ v in nhds w, |rtotal ss (ptsAt ss tx rx (List.ofFn v))| < tol := by
    have := hcl.abs
    rw [abs_zero] at this
    exact this.eventually_lt_const htol
  have hev2 : ∀ᶠ v in nhds w, ∀ k ∈ Finset.range (ws.length + 2), eucl (ptNo ss tx rx v k) (ptNo ss tx rx w k) < tol := by
    rw [Filter.eventually_all_finset]
    intro k _
    have := (ptNo_continuous ss tx rx rfl w k).tendsto w
    have hself : eucl (ptNo ss tx rx w k) (ptNo ss tx rx w k) = 0 := by simp [eucl]
    rw [hself] at this
    exact this.eventually_lt_const htol
  have hlim : Filter.Tendsto v Filter.atTop (nhds w) := by
    rw [tendsto_pi_nhds]
    intro i
    rw [Metric.tendsto_atTop]
    intro ε hε
    obtain ⟨n0, hn0⟩ := h3 (ε ^ 2) (by positivity)
    refine ⟨n0, fun n hn => ?_⟩
    have := hn0 n hn
    rw [← hv, ← hw, gap_ofFn] at this
    rw [Real.dist_eq]
    exact abs_lt_of_sq_lt_sq ((SumLengths.entry_le _ _ i).trans_lt this) hε.le
  obtain ⟨n0, hn0⟩ := Filter.eventually_atTop.mp (hlim.eventually (hev1.and hev2))
  refine ⟨max n0 1, fun n hn => ?_⟩
  obtain ⟨c1, c2⟩ := hn0 n ((le_max_left _ _).trans hn)
  obtain ⟨pts, e1, e2⟩ := h1 n ((le_max_right _ _).trans hn)
  rw [hobj, hLm _ (h2 n)] at e2
  obtain rfl := (pathAt_iff (h2 n)).mp e1
  refine ⟨_, _, e2, by rw [← hv]; exact c1, by rw [ptsAt_length]; simp [hss], fun i a b ha hb => ?_⟩
  rw [← pathAt_walls hbl, ← hss, ← hw] at hb
  rw [← hv] at ha
  have hi : i < ws.length + 2 := by
    have := (List.getElem?_eq_some_iff.mp hb).1
    rw [ptsAt_length] at this
    simpa [hss] using this
  have := c2 i (Finset.mem_range.mpr hi)
  simpa [ptNo, ha, hb] using this

/-- Non-vacuity: the wall from (0, 0) to (3, 0), the transmitter (0, 1), the receiver (2, 1), the rate 1/20, the start 1/2. -/
example (E : Env) (he : E.eps = 0) (M : Minimizer ℕ) (hopt : M.optimizer = sgd (F.fin (1 / 20))) (hx0 : M.uniform 0 1 = [1 / 3 + 1 / 10].map F.fin) :=
  C146_image E he M (1 / 20) (by norm_num) hopt [(⟨0, 0⟩, ⟨3, 0⟩)] (by simp)
    (by
      intro w hw e
      simp at hw; subst hw
      have := congrArg V2.x e; norm_num at this) ⟨0, 1⟩ ⟨2, 1⟩ [⟨1, 0⟩] example_specular [1 / 3] rfl (by norm_num [pointsAt, pointAt]) 1 one_pos
    (by
      intro k a b ha hb
      match k with
      | 0 => simp at ha hb; subst ha hb; exact Real.le_sqrt_of_sq_le (by norm_num)
      | 1 => simp at ha hb; subst ha hb; exact Real.le_sqrt_of_sq_le (by norm_num)
      | k + 2 => simp at ha hb)
    (by simp only [List.map_cons, List.map_nil, List.sum_cons, List.sum_nil]; rw [eucl, Real.sq_sqrt (by positivity)]; norm_num)
    0 [1 / 3 + 1 / 10] hx0 rfl
    (by simp only [List.map_cons, List.map_nil, List.sum_cons, List.sum_nil, gap, List.zipWith]; rw [eucl, Real.sq_sqrt (by positivity)]; norm_num)

end DiffeRT2d.Props
