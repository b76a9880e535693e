import Verif.Model.Sgd
import Verif.Lemmas.OneWall
import Verif.Spec.Sgd
import Verif.Props.Stationary
import Verif.Props.Trials
import Verif.Props.Methods

/-! # C145: gradient descent finds the reflected path -/

namespace DiffeRT2d.Props
open Classical Spec

/-- The distance from a point to the point of parameter `s` on a line, in terms of the foot of the perpendicular. -/
theorem eucl_far (p o d : Pt) (hod : o ≠ d) : ∃ a, ∀ s, eucl p (pointAt o d s) = OneWall.far (eucl o d ^ 2) a (eucl p (pointAt o d a)) s := by
  have hA : eucl o d ^ 2 = (d.x - o.x) ^ 2 + (d.y - o.y) ^ 2 := Real.sq_sqrt (by positivity)
  have hA0 : (d.x - o.x) ^ 2 + (d.y - o.y) ^ 2 ≠ 0 := by
    intro h
    apply hod
    have h1 : d.x - o.x = 0 := by nlinarith [sq_nonneg (d.x - o.x), sq_nonneg (d.y - o.y)]
    have h2 : d.y - o.y = 0 := by nlinarith [sq_nonneg (d.x - o.x), sq_nonneg (d.y - o.y)]
    ext <;> linarith
  refine ⟨((p.x - o.x) * (d.x - o.x) + (p.y - o.y) * (d.y - o.y)) / ((d.x - o.x) ^ 2 + (d.y - o.y) ^ 2), fun s => ?_⟩
  set a := ((p.x - o.x) * (d.x - o.x) + (p.y - o.y) * (d.y - o.y)) / ((d.x - o.x) ^ 2 + (d.y - o.y) ^ 2) with ha
  have ha' : a * ((d.x - o.x) ^ 2 + (d.y - o.y) ^ 2) = (p.x - o.x) * (d.x - o.x) + (p.y - o.y) * (d.y - o.y) := by rw [ha]; field_simp
  rw [OneWall.far, hA, eucl, eucl, Real.sq_sqrt (by positivity)]
  congr 1
  simp only [pointAt]
  clear_value a
  linear_combination (2 * (s - a)) * ha'

theorem plen_one (eps : ℝ) (tx p rx : Pt) :
    plen eps [tx, p, rx] = eucl ⟨tx.x - eps, tx.y - eps⟩ p + eucl ⟨rx.x + eps, rx.y + eps⟩ p := by
  have e1 : nrm (p - tx + ⟨eps, eps⟩) = eucl ⟨tx.x - eps, tx.y - eps⟩ p := by
    rw [nrm, eucl]; congr 1; simp only [V2.add_x, V2.add_y, V2.sub_x, V2.sub_y]; ring
  have e2 : nrm (rx - p + ⟨eps, eps⟩) = eucl ⟨rx.x + eps, rx.y + eps⟩ p := by
    rw [nrm, eucl]; congr 1; simp only [V2.add_x, V2.add_y, V2.sub_x, V2.sub_y]; ring
  rw [plen, plen, plen, e1, e2, add_zero]
  simp

theorem _root_.DiffeRT2d.Spec.Segment.count {o d : Pt} {sh : Shape} (h : Segment o d sh) : sh.count = 1 := by
  rcases h with rfl | ⟨φ, rfl⟩ <;> rfl

theorem _root_.DiffeRT2d.Spec.Segment.pts {o d : Pt} {sh : Shape} (h : Segment o d sh) (tx rx : Pt) (t : ℝ) : ptsAt [sh] tx rx [t] = [tx, pointAt o d t, rx] := by
  rcases h with rfl | ⟨φ, rfl⟩ <;> simp [ptsAt, place]

/-- The gradient of the length of a path with one reflection. -/
theorem one_gradient (E : Env) {o d tx rx : Pt} {sh : Shape} (hsh : Segment o d sh) {A a h b k : ℝ} (hA : 0 ≤ A) (hh : 0 < h) (hk : 0 < k)
    (h1 : ∀ s, eucl ⟨tx.x - E.eps, tx.y - E.eps⟩ (pointAt o d s) = OneWall.far A a h s)
    (h2 : ∀ s, eucl ⟨rx.x + E.eps, rx.y + E.eps⟩ (pointAt o d s) = OneWall.far A b k s) (t : ℝ) :
    Rev.gradient (Rev.fermatLoss E ([sh].map (robj ℕ)) (Rev.constV (V2.fin tx)) (Rev.constV (V2.fin rx))) [F.fin t] =
      [F.fin (OneWall.slope A a h t + OneWall.slope A b k t)] := by
  have hcnt : ([t] : List ℝ).length = ([sh].map Shape.count).sum := by simp [hsh.count]
  have hL : ∀ θ' : List ℝ, θ'.length = ([t] : List ℝ).length → fermatLoss E ([sh].map fun s => s.obj.interact) (V2.fin tx) (V2.fin rx) (θ'.map F.fin) =
      F.fin (plen E.eps (ptsAt [sh] tx rx θ')) := fun θ' h' => fermat_real E tx rx (by rw [h', hcnt])
  have hp : PathAt [sh] tx rx [t] _ := (pathAt_iff hcnt).mpr rfl
  have hown : Owns [sh] 0 0 := ⟨sh, rfl, hsh.count, rfl⟩
  have np : ∀ s, 0 < eucl ⟨tx.x - E.eps, tx.y - E.eps⟩ (pointAt o d s) := fun s => by rw [h1]; exact OneWall.far_pos hA hh s
  have nr : ∀ s, 0 < eucl ⟨rx.x + E.eps, rx.y + E.eps⟩ (pointAt o d s) := fun s => by rw [h2]; exact OneWall.far_pos hA hk s
  obtain ⟨g, hg, s, hs, hd⟩ := (C107_fermat E [sh] tx rx [t] hcnt _ (constObjs [sh]) _ hp _ hL 0 0 hown).2
    (by
      rintro ⟨x, y, e1, e2, e3⟩
      rw [hsh.pts] at e1 e2
      simp at e1 e2
      subst e1 e2
      have := np t
      rw [e3] at this
      simp [eucl] at this)
    (by
      rintro ⟨x, y, e1, e2, e3⟩
      rw [hsh.pts] at e1 e2
      simp at e1 e2
      subst e1 e2
      have := nr t
      rw [e3] at this
      simp [eucl] at this)
  simp at hs
  subst hs
  have hd' : HasDerivAt (fun u => OneWall.far A a h u + OneWall.far A b k u) g t := by
    refine hd.congr_of_eventuallyEq (Filter.Eventually.of_forall fun u => ?_)
    show _ = plen E.eps (ptsAt [sh] tx rx [u])
    rw [hsh.pts, plen_one, h1, h2]
  have e := hd'.unique ((OneWall.far_deriv hA hh t).add (OneWall.far_deriv hA hk t))
  have hlen := gradient_length (Rev.fermatLoss E ([sh].map (robj ℕ)) (Rev.constV (V2.fin tx)) (Rev.constV (V2.fin rx))) [F.fin t]
  obtain ⟨y, hy⟩ := List.length_eq_one_iff.mp hlen
  have hg' : (Rev.gradient (Rev.fermatLoss E ([sh].map (robj ℕ)) (Rev.constV (V2.fin tx)) (Rev.constV (V2.fin rx))) [F.fin t])[0]? = some (F.fin g) := hg
  rw [hy] at hg' ⊢
  simp at hg'
  rw [hg', e]

/-- The iterates of gradient descent. -/
theorem sgd_run {Key : Type} {M : Minimizer Key} {lr : ℝ} (hopt : M.optimizer = sgd (F.fin lr)) {f : List F → F} {σ : ℝ → ℝ}
    (hg : ∀ t, M.grad f [F.fin t] = [F.fin (σ t)]) {x : ℝ} {n : ℕ} {xs : ℕ → List F} {sts : ℕ → M.optimizer.State} (hr : Run M f [F.fin x] n xs sts) :
    ∀ k ≤ n, xs k = [F.fin ((fun t => t - lr * σ t)^[k] x)] := by
  have hup : ∀ (g : ℝ) st, (M.optimizer.update [F.fin g] st).1 = [F.fin (-lr * g)] := by
    rw [hopt]; intro g st; simp [sgd]
  intro k
  induction k with
  | zero => intro _; rw [hr.start]; rfl
  | succ k ih =>
    intro hk
    rw [hr.step k (by omega), ih (by omega), hg, hup, Function.iterate_succ_apply']
    simp [sub_eq_add_neg]

theorem converges_core {Key : Type} (E : Env) (M : Minimizer Key) (lr : ℝ) (hlr : 0 < lr) (hopt : M.optimizer = sgd (F.fin lr))
    (hU : ∀ key, ∃ x : ℝ, 0 ≤ x ∧ x ≤ 1 ∧ M.uniform key 1 = [F.fin x]) (hS : ∀ key n, (M.split key n).length = n)
    (o d tx rx : Pt) (hod : o ≠ d) (sh : Shape) (hsh : Segment o d sh) (dt dr : ℝ) (hdt : 0 < dt) (hdr : 0 < dr)
    (ht : ∀ s, dt ≤ eucl ⟨tx.x - E.eps, tx.y - E.eps⟩ (pointAt o d s)) (hr : ∀ s, dr ≤ eucl ⟨rx.x + E.eps, rx.y + E.eps⟩ (pointAt o d s))
    (hL : lr * (eucl o d ^ 2 * (1 / dt + 1 / dr)) < 2) :
    ∃ best q : ℝ, 0 ≤ q ∧ q < 1 ∧ (∀ θ, Minimizes (fermatLoss E [sh.obj.interact] (V2.fin tx) (V2.fin rx)) 1 θ ↔ θ = [best]) ∧
      ∀ key many n, 1 ≤ many → 1 ≤ n → ∃ θ, FermatPath.differentiated E { M with steps := n } (V2.fin tx) [sh.obj] (V2.fin rx) key many =
        .ok ⟨[tx, pointAt o d θ, rx].map V2.fin, pathLoss 0 [sh.obj.interact] ([tx, pointAt o d θ, rx].map V2.fin)⟩ ∧ |θ - best| ≤ q ^ n * (1 + |best|) := by
  obtain ⟨a, ha⟩ := eucl_far ⟨tx.x - E.eps, tx.y - E.eps⟩ o d hod
  obtain ⟨b, hb⟩ := eucl_far ⟨rx.x + E.eps, rx.y + E.eps⟩ o d hod
  have hh0 := ht a
  have hk0 := hr b
  set h := eucl ⟨tx.x - E.eps, tx.y - E.eps⟩ (pointAt o d a) with hh
  set k := eucl ⟨rx.x + E.eps, rx.y + E.eps⟩ (pointAt o d b) with hk
  have hhp : 0 < h := hdt.trans_le hh0
  have hkp : 0 < k := hdr.trans_le hk0
  set A := eucl o d ^ 2 with hAd
  have hA : 0 < A := by
    have h1 : A = (d.x - o.x) ^ 2 + (d.y - o.y) ^ 2 := Real.sq_sqrt (by positivity)
    rcases eq_or_ne o.x d.x with e | e
    · have : d.y - o.y ≠ 0 := fun e' => hod (by ext <;> linarith)
      rw [h1]; positivity
    · have : d.x - o.x ≠ 0 := fun e' => e (by linarith)
      rw [h1]; positivity
  have hL' : lr * (A / h + A / k) < 2 := by
    refine lt_of_le_of_lt ?_ hL
    have e1 : A / h ≤ A * (1 / dt) := by rw [mul_one_div]; gcongr
    have e2 : A / k ≤ A * (1 / dr) := by rw [mul_one_div]; gcongr
    rw [mul_add A]
    gcongr
  set best := (a * k + b * h) / (h + k) with hbest
  have hbal := OneWall.balance (a := a) (b := b) hA.le hhp hkp
  rw [← hbest] at hbal
  obtain ⟨q, hq0, hq1, hq⟩ := OneWall.contraction (a := a) (b := b) hA hhp hkp hlr hL' (1 + 2 * |best|) (by positivity)
  have hfix : OneWall.next lr A a h b k best = best := by rw [OneWall.next, hbal]; ring
  have hgrad := one_gradient E hsh hA.le hhp hkp ha hb
  have hcnt : ∀ t : ℝ, ([t] : List ℝ).length = ([sh].map Shape.count).sum := fun t => by simp [hsh.count]
  -- no singular parameters
  have hns : ∀ t, ¬ FermatSingular E.eps [sh] tx rx [t] := by
    rintro t ⟨pts, i, j, hp, ho, hgs⟩
    obtain rfl := (pathAt_iff (hcnt t)).mp hp
    have hi : i = 0 := by
      obtain ⟨s, hs, -⟩ := ho
      have := (List.getElem?_eq_some_iff.mp hs).1
      simpa using this
    subst hi
    rw [hsh.pts] at hgs
    rcases hgs with ⟨x, y, e1, e2, e3⟩ | ⟨x, y, e1, e2, e3⟩
    · simp at e1 e2
      subst e1 e2
      have := ht t
      rw [e3] at this
      simp [eucl] at this
      linarith
    · simp at e1 e2
      subst e1 e2
      have := hr t
      rw [e3] at this
      simp [eucl] at this
      linarith
  have hzero : ∀ t : ℝ, Minimizes (fermatLoss E [sh.obj.interact] (V2.fin tx) (V2.fin rx)) 1 [t] ↔ OneWall.slope A a h t + OneWall.slope A b k t = 0 := by
    intro t
    have := C109_fermat_zero E [sh] tx rx [t] (hcnt t) _ (constObjs [sh])
    have hg := hgrad t
    simp only [List.map_cons, List.map_nil, List.length_singleton, Nat.lt_one_iff, forall_eq, List.sum_cons, List.sum_nil, hsh.count, add_zero] at this hg
    rw [hg] at this
    constructor
    · intro hm
      have := this.mpr ⟨hns t, hm⟩
      simpa using this
    · intro hm
      exact (this.mp (by simp [hm])).2
  refine ⟨best, q, hq0, hq1, fun θ => ⟨fun hm => ?_, ?_⟩, ?_⟩
  · obtain ⟨t, rfl⟩ := List.length_eq_one_iff.mp hm.1
    have h0 := (hzero t).mp hm
    have hm' : StrictMono fun t => OneWall.slope A a h t + OneWall.slope A b k t := by
      apply strictMono_of_deriv_pos
      intro t
      have e := ((OneWall.slope_deriv (a := a) hA.le hhp t).add (OneWall.slope_deriv (a := b) hA.le hkp t)).deriv
      exact lt_of_lt_of_eq (add_pos (OneWall.bend_pos hA hhp t) (OneWall.bend_pos hA hkp t)) e.symm
    rw [hm'.injective (h0.trans hbal.symm)]
  · rintro rfl
    exact (hzero best).mpr hbal
  · intro key many n hmany hn
    set M' := (({ M with steps := n } : Minimizer Key).differentiating (Rev.fermatLoss E ([sh].map (robj ℕ)) (Rev.constV (V2.fin tx)) (Rev.constV (V2.fin rx)))) with hM'
    set f := fermatLoss E (([sh].map Shape.obj).map Obj.interact) (V2.fin tx) (V2.fin rx) with hf
    have hopt' : M'.optimizer = sgd (F.fin lr) := hopt
    have hrun : ∀ (x : ℝ) xs sts, Run M' f [F.fin x] n xs sts → xs n = [F.fin ((OneWall.next lr A a h b k)^[n] x)] := fun x xs sts hR =>
      sgd_run hopt' (fun t => hgrad t) hR n le_rfl
    have hclose : ∀ x : ℝ, 0 ≤ x → x ≤ 1 → |(OneWall.next lr A a h b k)^[n] x - best| ≤ q ^ n * (1 + |best|) := by
      intro x x0 x1
      have hxb : |x - best| ≤ 1 + |best| := (abs_sub _ _).trans (by rw [abs_of_nonneg x0]; linarith)
      refine (OneWall.iterate_close (R := 1 + |best|) hq0 hq1 hfix (fun s hs => ?_) x hxb n).trans (by gcongr)
      have e1 : |s| ≤ 1 + 2 * |best| := by
        have := abs_add_le (s - best) best
        rw [sub_add_cancel] at this
        linarith
      have := hq s best e1 (by have := abs_nonneg best; linarith)
      rwa [hfix] at this
    have hcount : nUnknowns (([sh].map Shape.obj).map Obj.interact) = 1 := by
      rw [List.map_map]; exact (shapes_count [sh]).trans (by simp [hsh.count])
    obtain ⟨x, x0, x1, l, hmin⟩ : ∃ x : ℝ, 0 ≤ x ∧ x ≤ 1 ∧ ∃ l, minimizeManyRandomUniform M' f key 1 many = .ok ([F.fin ((OneWall.next lr A a h b k)^[n] x)], l) := by
      rcases Nat.lt_or_ge 1 many with h2 | h2
      · obtain ⟨xs, sts, w, hw, hR, he, -⟩ := many_runs M' f key 1 many h2 (hS key many) hn
        obtain ⟨kw, hkw⟩ : ∃ kw, (M'.split key many)[w]? = some kw := ⟨_, List.getElem?_eq_getElem (by rw [show M'.split key many = M.split key many from rfl, hS]; exact hw)⟩
        obtain ⟨x, x0, x1, hx⟩ := hU kw
        have hR' := hR w _ hkw
        rw [show M'.uniform _ 1 = _ from hx] at hR'
        exact ⟨x, x0, x1, _, he.trans (by rw [show M'.steps = n from rfl, hrun x _ _ hR'])⟩
      · obtain rfl : many = 1 := by omega
        obtain ⟨x, x0, x1, hx⟩ := hU key
        obtain ⟨xs, sts, hR, he⟩ := C44_steps M' f [F.fin x] hn
        refine ⟨x, x0, x1, f (xs (n - 1)), ?_⟩
        rw [minimizeManyRandomUniform, if_pos rfl, minimizeRandomUniform, show M'.uniform key 1 = _ from hx, he, show M'.steps = n from rfl, hrun x _ _ hR]
    refine ⟨(OneWall.next lr A a h b k)^[n] x, ?_, hclose x x0 x1⟩
    have hpt := points_real (ss := [sh]) tx rx (hcnt ((OneWall.next lr A a h b k)^[n] x))
    rw [hsh.pts] at hpt
    show FermatPath.differentiated E { M with steps := n } (V2.fin tx) ([sh].map Shape.obj) (V2.fin rx) key many = _
    simp only [FermatPath.differentiated, constObjs, FermatPath.fromTxObjectsRx, List.length_map, List.length_singleton, one_ne_zero, if_false, hcount]
    rw [← hM', ← hf, hmin]
    simp only [Bind.bind, Except.bind, Pure.pure, Except.pure]
    rw [← hpt]
    rfl

/-- **C145.** With plain gradient descent and a small enough rate, the paths of `FermatPath` over one wall or RIS converge geometrically, for all random starts,
to the only minimum of the length. -/
theorem C145_converges {Key : Type} (E : Env) (M : Minimizer Key) (lr : ℝ) (hlr : 0 < lr) (hopt : M.optimizer = sgd (F.fin lr))
    (hU : ∀ key, ∃ x : ℝ, 0 ≤ x ∧ x ≤ 1 ∧ M.uniform key 1 = [F.fin x]) (hS : ∀ key n, (M.split key n).length = n)
    (o d tx rx : Pt) (hod : o ≠ d) (sh : Shape) (hsh : Segment o d sh) (dt dr : ℝ) (hdt : 0 < dt) (hdr : 0 < dr)
    (ht : ∀ s, dt ≤ eucl ⟨tx.x - E.eps, tx.y - E.eps⟩ (pointAt o d s)) (hr : ∀ s, dr ≤ eucl ⟨rx.x + E.eps, rx.y + E.eps⟩ (pointAt o d s))
    (hL : lr * (eucl o d ^ 2 * (1 / dt + 1 / dr)) < 2) :
    ∃ best q : ℝ, 0 ≤ q ∧ q < 1 ∧ (∀ θ, Minimizes (fermatLoss E [sh.obj.interact] (V2.fin tx) (V2.fin rx)) 1 θ ↔ θ = [best]) ∧
      ∀ key many n, 1 ≤ many → 1 ≤ n → ∃ θ loss, FermatPath.differentiated E { M with steps := n } (V2.fin tx) [sh.obj] (V2.fin rx) key many =
        .ok ⟨[tx, pointAt o d θ, rx].map V2.fin, loss⟩ ∧ |θ - best| ≤ q ^ n * (1 + |best|) := by
  obtain ⟨best, q, h1, h2, h3, h4⟩ := converges_core E M lr hlr hopt hU hS o d tx rx hod sh hsh dt dr hdt hdr ht hr hL
  refine ⟨best, q, h1, h2, h3, fun key many n e1 e2 => ?_⟩
  obtain ⟨θ, e3, e4⟩ := h4 key many n e1 e2
  exact ⟨θ, _, e3, e4⟩

/-- The score of a wall, for a point that moves along it. -/
theorem score_continuous (o d tx rx : Pt) (ht : ∀ s, 0 < eucl tx (pointAt o d s)) (hr : ∀ s, 0 < eucl rx (pointAt o d s)) :
    Continuous fun s => reval o d tx (pointAt o d s) rx := by
  have e1 : ∀ s, len1 (pointAt o d s - tx) = nrm (pointAt o d s - tx) := fun s => by
    have : nrm (pointAt o d s - tx) = eucl tx (pointAt o d s) := by
      rw [nrm, eucl]; congr 1; simp only [V2.sub_x, V2.sub_y]; ring
    rw [len1, if_neg]; rw [this]; exact (ht s).ne'
  have e2 : ∀ s, len1 (rx - pointAt o d s) = nrm (rx - pointAt o d s) := fun s => by
    have : nrm (rx - pointAt o d s) = eucl rx (pointAt o d s) := by
      rw [nrm, eucl]; congr 1; simp only [V2.sub_x, V2.sub_y]; ring
    rw [len1, if_neg]; rw [this]; exact (hr s).ne'
  have n1 : ∀ s, nrm (pointAt o d s - tx) ≠ 0 := fun s => by rw [← e1]; exact (len1_pos _).ne'
  have n2 : ∀ s, nrm (rx - pointAt o d s) ≠ 0 := fun s => by rw [← e2]; exact (len1_pos _).ne'
  have c1 : Continuous fun s => nrm (pointAt o d s - tx) := by
    unfold nrm; simp only [pointAt, V2.sub_x, V2.sub_y]; fun_prop
  have c2 : Continuous fun s => nrm (rx - pointAt o d s) := by
    unfold nrm; simp only [pointAt, V2.sub_x, V2.sub_y]; fun_prop
  have u1 : Continuous fun s => (unit (pointAt o d s - tx)).x := by
    simp only [unit, e1, V2.sub_x]; exact Continuous.div (by simp only [pointAt]; fun_prop) c1 n1
  have u2 : Continuous fun s => (unit (pointAt o d s - tx)).y := by
    simp only [unit, e1, V2.sub_y]; exact Continuous.div (by simp only [pointAt]; fun_prop) c1 n1
  have u3 : Continuous fun s => (unit (rx - pointAt o d s)).x := by
    simp only [unit, e2, V2.sub_x]; exact Continuous.div (by simp only [pointAt]; fun_prop) c2 n2
  have u4 : Continuous fun s => (unit (rx - pointAt o d s)).y := by
    simp only [unit, e2, V2.sub_y]; exact Continuous.div (by simp only [pointAt]; fun_prop) c2 n2
  simp only [reval, dp]
  fun_prop

/-- **C145** (specular). Without the guard and for a wall: the paths converge to the specular reflection, that is to the path of `ImagePath`. -/
theorem C145_specular {Key : Type} (E : Env) (he : E.eps = 0) (M : Minimizer Key) (lr : ℝ) (hlr : 0 < lr) (hopt : M.optimizer = sgd (F.fin lr))
    (hU : ∀ key, ∃ x : ℝ, 0 ≤ x ∧ x ≤ 1 ∧ M.uniform key 1 = [F.fin x]) (hS : ∀ key n, (M.split key n).length = n)
    (o d tx rx p : Pt) (hod : o ≠ d) (h : Specular [(o, d)] [tx, p, rx]) (dt dr : ℝ) (hdt : 0 < dt) (hdr : 0 < dr)
    (ht : ∀ s, dt ≤ eucl tx (pointAt o d s)) (hr : ∀ s, dr ≤ eucl rx (pointAt o d s)) (hL : lr * (eucl o d ^ 2 * (1 / dt + 1 / dr)) < 2) :
    traceImage tx [(o, d)] rx = .ok ⟨[tx, p, rx].map V2.fin, F.fin 0⟩ ∧
    (∃ C q : ℝ, 0 ≤ q ∧ q < 1 ∧ ∀ key many n, 1 ≤ many → 1 ≤ n → ∃ p' loss,
      FermatPath.differentiated E { M with steps := n } (V2.fin tx) [.wall (Wall.ofPts o d)] (V2.fin rx) key many = .ok ⟨[tx, p', rx].map V2.fin, loss⟩ ∧
      eucl p' p ≤ C * q ^ n) ∧
    ∀ tol : ℝ, 0 < tol → ∃ N, ∀ key many n, 1 ≤ many → N ≤ n → ∃ p' loss,
      FermatPath.differentiated E { M with steps := n } (V2.fin tx) [.wall (Wall.ofPts o d)] (V2.fin rx) key many = .ok ⟨[tx, p', rx].map V2.fin, F.fin loss⟩ ∧
      eucl p' p < tol ∧ loss < tol := by
  have hnd : ∀ w ∈ [(o, d)], w.1 ≠ w.2 := by simpa using hod
  refine ⟨C73_complete tx rx [(o, d)] hnd [p] h, ?_⟩
  obtain ⟨best, q, hq0, hq1, hb, hc⟩ := converges_core E M lr hlr hopt hU hS o d tx rx hod (.wall o d) (.inl rfl) dt dr hdt hdr (by simpa [he] using ht)
    (by simpa [he] using hr) hL
  have hp : pointAt o d best = p := by
    have h1 := (C93_exact E he tx rx [(o, d)] hnd [p] h [best]).mp ((hb [best]).mpr rfl)
    simpa [pointsAt] using h1.2
  have hdist : ∀ θ, eucl (pointAt o d θ) p = eucl o d * |θ - best| := fun θ => by
    rw [← hp, eucl, eucl, ← Real.sqrt_sq_eq_abs, ← Real.sqrt_mul (by positivity)]
    congr 1
    simp only [pointAt]; ring
  have hloss : ∀ θ, pathLoss 0 [(Shape.wall o d).obj.interact] ([tx, pointAt o d θ, rx].map V2.fin) = F.fin (reval o d tx (pointAt o d θ) rx) := fun θ => by
    have := walls_loss [(o, d)] [tx, pointAt o d θ, rx] (by simp)
    simpa [scores, wallsOf, Shape.obj] using this
  refine ⟨⟨eucl o d * (1 + |best|), q, hq0, hq1, fun key many n h1 h2 => ?_⟩, fun tol htol => ?_⟩
  · obtain ⟨θ, e1, e2⟩ := hc key many n h1 h2
    refine ⟨_, _, e1, ?_⟩
    rw [hdist, mul_assoc, mul_comm (1 + |best|)]
    exact mul_le_mul_of_nonneg_left e2 (Real.sqrt_nonneg _)
  · have h0 : reval o d tx (pointAt o d best) rx = 0 := by
      rw [hp]
      have := (rpts_of_specular [(o, d)] hnd tx rx tx [p] 1 one_pos rfl (by ext <;> simp) (reflChain_of _ _ h.2)).2
      exact this _ (by simp [scores])
    have hcont := (score_continuous o d tx rx (fun s => hdt.trans_le (ht s)) (fun s => hdr.trans_le (hr s))).tendsto best
    rw [h0] at hcont
    have hev1 : ∀ᶠ θ in nhds best, reval o d tx (pointAt o d θ) rx < tol := hcont.eventually_lt_const htol
    have hcont2 : Filter.Tendsto (fun θ => eucl (pointAt o d θ) p) (nhds best) (nhds 0) := by
      have : Continuous fun θ => eucl o d * |θ - best| := by fun_prop
      have := this.tendsto best
      simpa [hdist] using this
    have hev2 : ∀ᶠ θ in nhds best, eucl (pointAt o d θ) p < tol := hcont2.eventually_lt_const htol
    obtain ⟨δ, hδ, hball⟩ := Metric.eventually_nhds_iff.mp (hev1.and hev2)
    have hlim : Filter.Tendsto (fun n : ℕ => q ^ n * (1 + |best|)) Filter.atTop (nhds 0) := by
      simpa using (tendsto_pow_atTop_nhds_zero_of_lt_one hq0 hq1).mul_const (1 + |best|)
    obtain ⟨N, hN⟩ := Filter.eventually_atTop.mp (hlim.eventually_lt_const hδ)
    refine ⟨max N 1, fun key many n h1 h2 => ?_⟩
    obtain ⟨θ, e1, e2⟩ := hc key many n h1 ((le_max_right _ _).trans h2)
    rw [hloss] at e1
    have hb' := hball (y := θ) (by rw [Real.dist_eq]; exact e2.trans_lt (hN n ((le_max_left _ _).trans h2)))
    exact ⟨_, _, e1, hb'.2, hb'.1⟩

/-- **C145** (the bound on the rate is the right one). With a transmitter and a receiver at the same point (up to the guard) and any larger rate, there is a start from
which the points of the paths alternate for ever between two points of the wall's line. -/
theorem C145_oscillates {Key : Type} (E : Env) (M : Minimizer Key) (lr : ℝ) (hopt : M.optimizer = sgd (F.fin lr))
    (o d c : Pt) (hod : o ≠ d) (sh : Shape) (hsh : Segment o d sh) (foot : ℝ) (hfoot : ∀ s, eucl c (pointAt o d foot) ≤ eucl c (pointAt o d s))
    (h0 : 0 < eucl c (pointAt o d foot)) (hL : 2 < lr * (eucl o d ^ 2 * (1 / eucl c (pointAt o d foot) + 1 / eucl c (pointAt o d foot)))) :
    ∃ u, 0 < u ∧ eucl c (pointAt o d (foot + u)) = lr * eucl o d ^ 2 ∧ ∀ key n, M.uniform key 1 = [F.fin (foot + u)] → 1 ≤ n → ∃ loss,
      FermatPath.differentiated E { M with steps := n } (V2.fin ⟨c.x + E.eps, c.y + E.eps⟩) [sh.obj] (V2.fin ⟨c.x - E.eps, c.y - E.eps⟩) key =
        .ok ⟨[⟨c.x + E.eps, c.y + E.eps⟩, pointAt o d (foot + (-1) ^ n * u), ⟨c.x - E.eps, c.y - E.eps⟩].map V2.fin, loss⟩ := by
  set tx : Pt := ⟨c.x + E.eps, c.y + E.eps⟩ with htx
  set rx : Pt := ⟨c.x - E.eps, c.y - E.eps⟩ with hrx
  obtain ⟨a, ha⟩ := eucl_far c o d hod
  set A := eucl o d ^ 2 with hAd
  have hA : 0 < A := by
    have h1 : A = (d.x - o.x) ^ 2 + (d.y - o.y) ^ 2 := Real.sq_sqrt (by positivity)
    rcases eq_or_ne o.x d.x with e | e
    · have : d.y - o.y ≠ 0 := fun e' => hod (by ext <;> linarith)
      rw [h1]; positivity
    · have : d.x - o.x ≠ 0 := fun e' => e (by linarith)
      rw [h1]; positivity
  set h := eucl c (pointAt o d a) with hh
  have hfa : foot = a := by
    have h1 := hfoot a
    rw [ha foot, ← hh] at h1
    have h2 := OneWall.far_sq (a := a) (h := h) hA.le foot
    have h3 : 0 ≤ OneWall.far A a h foot := Real.sqrt_nonneg _
    have h4 : A * (foot - a) ^ 2 ≤ 0 := by nlinarith
    have h5 : (foot - a) ^ 2 ≤ 0 := by
      by_contra hc
      have := mul_pos hA (not_le.mp hc)
      linarith
    have : foot - a = 0 := by nlinarith [sq_nonneg (foot - a)]
    linarith
  subst hfa
  have hlA : h < lr * A := by
    rw [← add_div, mul_div_assoc'] at hL
    have : 2 * h < lr * (A * (1 + 1)) := by
      have := (lt_div_iff₀ h0).mp (by rw [mul_div_assoc'] at hL; exact hL)
      linarith
    linarith
  have hpos : 0 < ((lr * A) ^ 2 - h ^ 2) / A := by
    apply div_pos _ hA
    nlinarith
  set u := Real.sqrt (((lr * A) ^ 2 - h ^ 2) / A) with hu
  have hu0 : 0 < u := Real.sqrt_pos.mpr hpos
  have hu2 : A * u ^ 2 = (lr * A) ^ 2 - h ^ 2 := by
    rw [hu, Real.sq_sqrt hpos.le]; field_simp
  have hfar : ∀ ε : ℝ, ε ^ 2 = 1 → OneWall.far A foot h (foot + ε * u) = lr * A := by
    intro ε hε
    rw [OneWall.far, show A * (foot + ε * u - foot) ^ 2 + h ^ 2 = (lr * A) ^ 2 by rw [add_sub_cancel_left, mul_pow, hε, one_mul, hu2]; ring]
    exact Real.sqrt_sq (by linarith)
  have hlr : lr ≠ 0 := by
    rintro rfl
    simp at hlA
    linarith
  refine ⟨u, hu0, by rw [ha]; simpa using hfar 1 (by norm_num), fun key n hx hn => ?_⟩
  have h1 : ∀ s, eucl ⟨tx.x - E.eps, tx.y - E.eps⟩ (pointAt o d s) = OneWall.far A foot h s := fun s => by
    rw [← ha]; simp [htx]
  have h2 : ∀ s, eucl ⟨rx.x + E.eps, rx.y + E.eps⟩ (pointAt o d s) = OneWall.far A foot h s := fun s => by
    rw [← ha]; simp [hrx]
  have hgrad := one_gradient E hsh hA.le h0 h0 h1 h2
  set M' := (({ M with steps := n } : Minimizer Key).differentiating (Rev.fermatLoss E ([sh].map (robj ℕ)) (Rev.constV (V2.fin tx)) (Rev.constV (V2.fin rx)))) with hM'
  set f := fermatLoss E (([sh].map Shape.obj).map Obj.interact) (V2.fin tx) (V2.fin rx) with hf
  have hopt' : M'.optimizer = sgd (F.fin lr) := hopt
  obtain ⟨xs, sts, hR, he⟩ := C44_steps M' f [F.fin (foot + u)] hn
  have hrun := sgd_run hopt' (fun t => hgrad t) hR n le_rfl
  have hit : ∀ n : ℕ, (fun t => t - lr * (OneWall.slope A foot h t + OneWall.slope A foot h t))^[n] (foot + u) = foot + (-1) ^ n * u := by
    intro n
    induction n with
    | zero => simp
    | succ n ih =>
      rw [Function.iterate_succ_apply', ih]
      simp only [OneWall.slope]
      rw [hfar _ (by rw [← pow_mul, mul_comm, pow_mul]; norm_num)]
      field_simp
      ring
  rw [hit] at hrun
  have hcount : nUnknowns (([sh].map Shape.obj).map Obj.interact) = 1 := by
    rw [List.map_map]; exact (shapes_count [sh]).trans (by simp [hsh.count])
  have hpt := points_real (ss := [sh]) tx rx (θ := [foot + (-1) ^ n * u]) (by simp [hsh.count])
  rw [hsh.pts] at hpt
  refine ⟨pathLoss 0 (([sh].map Shape.obj).map Obj.interact) ([tx, pointAt o d (foot + (-1) ^ n * u), rx].map V2.fin), ?_⟩
  show FermatPath.differentiated E { M with steps := n } (V2.fin tx) ([sh].map Shape.obj) (V2.fin rx) key = _
  simp only [FermatPath.differentiated, constObjs, FermatPath.fromTxObjectsRx, List.length_map, List.length_singleton, one_ne_zero, if_false, hcount,
    minimizeManyRandomUniform, if_true, minimizeRandomUniform]
  rw [← hM', ← hf, show M'.uniform key 1 = _ from hx, he, show M'.steps = n from rfl, hrun]
  simp only [Bind.bind, Except.bind, Pure.pure, Except.pure]
  rw [← hpt]
  rfl

/-- Non-vacuity: the wall from (0, 0) to (3, 0), the transmitter (0, 1), the receiver (2, 1), the rate 1/10: every random start leads to (1, 0). -/
example (E : Env) (he : E.eps = 0) (M : Minimizer ℕ) (hopt : M.optimizer = sgd (F.fin (1 / 10)))
    (hU : ∀ key, ∃ x : ℝ, 0 ≤ x ∧ x ≤ 1 ∧ M.uniform key 1 = [F.fin x]) (hS : ∀ key n, (M.split key n).length = n) :=
  C145_specular E he M (1 / 10) (by norm_num) hopt hU hS ⟨0, 0⟩ ⟨3, 0⟩ ⟨0, 1⟩ ⟨2, 1⟩ ⟨1, 0⟩ (fun h => by have := congrArg V2.x h; norm_num at this)
    example_specular 1 1 one_pos one_pos
    (fun s => Real.le_sqrt_of_sq_le (by simp [pointAt]; positivity))
    (fun s => Real.le_sqrt_of_sq_le (by simp [pointAt]; positivity))
    (by rw [eucl, Real.sq_sqrt (by positivity)]; norm_num)

/-- Non-vacuity: the wall from (0, 0) to (1, 0), the transmitter and the receiver at (1/2, 3/10), the rate 1/2 (from 9/10, the parameters are
9/10, 1/10, 9/10, ...). -/
example (E : Env) (M : Minimizer ℕ) (hopt : M.optimizer = sgd (F.fin (1 / 2))) :=
  C145_oscillates E M (1 / 2) hopt ⟨0, 0⟩ ⟨1, 0⟩ ⟨1 / 2, 3 / 10⟩ (fun h => by have := congrArg V2.x h; norm_num at this) (.wall ⟨0, 0⟩ ⟨1, 0⟩) (.inl rfl) (1 / 2)
    (fun s => Real.sqrt_le_sqrt (by simp [pointAt]; positivity))
    (Real.sqrt_pos.mpr (by norm_num [pointAt]))
    (by
      have e1 : eucl (⟨1 / 2, 3 / 10⟩ : Pt) (pointAt ⟨0, 0⟩ ⟨1, 0⟩ (1 / 2)) = 3 / 10 := by
        refine (congrArg Real.sqrt ?_).trans (Real.sqrt_sq (by norm_num))
        norm_num [pointAt]
      rw [e1, eucl, Real.sq_sqrt (by positivity)]; norm_num)

end DiffeRT2d.Props
