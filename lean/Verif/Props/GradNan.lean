import Verif.Lemmas.GradNan
import Verif.Props.Grad

/-! # Property C100: when the gradients of hard mode are NaN, and what they are otherwise -/

namespace DiffeRT2d.Props
open Classical Spec Filter Topology

theorem unguarded_ne {p q : Pt} {vs : List RWall} (h : Unguarded p q vs) : ∀ v ∈ vs, v.1 ≠ v.2 := by
  induction vs generalizing p with
  | nil => simp
  | cons v vs ih =>
    intro w hw
    rcases List.mem_cons.mp hw with rfl | hw
    · intro e
      apply h.1
      rw [un_parallel, e]
      simp [Parallel]
    · exact ih h.2 w hw

theorem determined_iff (t r : Pt) (ws : List (Pt × Pt)) : Determined t ws (rpath t r ws) ↔ Unguarded t r ws := by
  constructor
  · rintro ⟨imgs, h1, h2⟩
    exact unguarded_of t r ws imgs h1 h2
  · intro h
    have H : ∀ (ws : List (Pt × Pt)) (p img : Pt), Unguarded img r ws → ∃ imgs, MirrorChain img ws imgs ∧ NoParallelStep ws imgs (p :: rpts img r ws ++ [r]) := by
      intro ws
      induction ws with
      | nil => intro p img _; exact ⟨[], trivial, by intro i w img c hw; simp at hw⟩
      | cons w ws ih =>
        intro p img hu
        obtain ⟨imgs, h1, h2⟩ := ih p (rimg w.1 w.2 img) hu.2
        refine ⟨rimg w.1 w.2 img :: imgs, ⟨mirror_self _ _ _ (unguarded_ne hu w (by simp)), h1⟩, ?_⟩
        intro k v im c hv him hc
        cases k with
        | zero =>
          simp only [List.getElem?_cons_zero, Option.some.injEq] at hv him
          subst hv him
          have : c = (rpts (rimg w.1 w.2 img) r ws).headD r := by
            simp only [rpts] at hc
            cases hr : rpts (rimg w.1 w.2 img) r ws <;> rw [hr] at hc <;> simp at hc <;> simp [← hc]
          rw [this]
          exact fun hp => hu.1 ((un_parallel _ _ _ _).mpr hp)
        | succ k =>
          exact h2 k v im c (by simpa using hv) (by simpa using him) (by simpa [rpts] using hc)
    exact H ws t t h

/-! ### The loop -/

theorem cwalls_valWall {ι : Type} (walls : List (Pt × Pt)) : List.Forall₂ ValWall (cwalls ι walls) walls := by
  induction walls with
  | nil => exact .nil
  | cons w walls ih => exact .cons rfl ih

theorem const_diff {ι X : Type} [NormedAddCommGroup X] [NormedSpace ℝ X] {e : ι → X} {x0 : X} (walls : List (Pt × Pt)) (c : List ℤ)
    (h : ∀ v ∈ wallsAt walls c, v.1 ≠ v.2) :
    List.Forall₂ (DifferentiatesWall e x0) (dwallsAt (cwalls ι walls) c) ((wallsAt walls c).map fun w _ => w) := by
  have e1 : dwallsAt (cwalls ι walls) c = cwalls ι (wallsAt walls c) := by
    unfold dwallsAt cwalls wallsAt
    rw [List.map_filterMap]
    congr 1
    funext k
    rw [List.getElem?_map]
  rw [e1]
  exact cwalls_diff _ h

/-- A path whose reflection points are determined is differentiated rightly. -/
theorem path_frozen {ι X : Type} [NormedAddCommGroup X] [NormedSpace ℝ X] {e : ι → X} {x0 : X} {tx rx : V2 (Rev ι)} {t r : X → Pt}
    (ht : DifferentiatesPt e x0 tx t) (hr : DifferentiatesPt e x0 rx r) (walls : List (Pt × Pt)) (c : List ℤ)
    (hu : Unguarded (t x0) (r x0) (wallsAt walls c)) (f : List (V2 (Rev ι)) → Rev ι) (g : List Pt → ℝ) (Q : List Pt → Prop)
    (hg : DifferentiatesFun Q f g) (hQ : Q (rpath (t x0) (r x0) (wallsAt walls c))) :
    Differentiates e x0 (f (Rev.imagePath tx (dwallsAt (cwalls ι walls) c) rx).xys) fun x => g (rpath (t x) (r x) (wallsAt walls c)) := by
  have hm := dpath_unguarded ht hr (const_diff walls c (unguarded_ne hu)) (by simpa [Function.comp_def] using hu)
  have hmp : ∀ x, (mpath t r ((wallsAt walls c).map fun w (_ : X) => w)).map (· x) = rpath (t x) (r x) (wallsAt walls c) := by
    intro x; rw [mpath_at]; simp [Function.comp_def]
  have := hg X e x0 _ _ (by rw [hm.length_eq, mpath_length]; omega) hm (by rw [hmp]; exact hQ)
  simpa only [hmp] using this

/-- Hard validity, on values. -/
theorem valid_val {ι : Type} {E : Env} {ap : Option Bool} (hh : Hard E ap) {kw : Rev.ActKw ι} {kw' : ActKw} (hk : SameKw kw kw')
    {tx rx : V2 (Rev ι)} {t r : Pt} (ht : Rev.valV tx = V2.fin t) (hr : Rev.valV rx = V2.fin r) (walls : List (Pt × Pt)) {c : List ℤ}
    (hc : IsCandidate walls.length c) (tol patch : ℝ) :
    (Rev.imagePath tx (dwallsAt (cwalls ι walls) c) rx).isValid E (cwalls ι walls) c (dwallsAt (cwalls ι walls) c) (F.fin tol) (F.fin patch) ap kw =
      .ok (.b (decide (HardOk (wallsAt walls c) walls c (rpath t r (wallsAt walls c)) (scores (wallsAt walls c) (rpath t r (wallsAt walls c))).sum tol patch))) := by
  have e1 : dwallsAt (cwalls ι walls) c = cwalls ι (wallsAt walls c) := by
    unfold dwallsAt cwalls wallsAt
    rw [List.map_filterMap]
    congr 1
    funext k
    rw [List.getElem?_map]
  have hv := Rev.val_isValid (E := E) (ap := ap) hk (Rev.imagePath tx (dwallsAt (cwalls ι walls) c) rx) (cwalls ι walls) c (dwallsAt (cwalls ι walls) c) (F.fin tol) (F.fin patch)
  have hp : (Rev.imagePath tx (dwallsAt (cwalls ι walls) c) rx).val = finitePath (rpath t r (wallsAt walls c)) (scores (wallsAt walls c) (rpath t r (wallsAt walls c))).sum := by
    have h1 := Rev.val_imagePath tx (dwallsAt (cwalls ι walls) c) rx
    rw [ht, hr, e1, cwalls_val] at h1
    rw [e1]
    exact Except.ok.inj (h1.symm.trans (traceImage_eq t r (wallsAt walls c)))
  rw [hp, map_interact, map_interact, cwalls_val, e1, cwalls_val] at hv
  rw [e1]
  have hi := isValid_hardOk hh kw' (wallsAt walls c) walls c (rpath t r (wallsAt walls c))
    (scores (wallsAt walls c) (rpath t r (wallsAt walls c))).sum tol patch (by rw [rpath_length, wallsAt_length hc])
  rw [hi] at hv
  cases hx : (Rev.imagePath tx (cwalls ι (wallsAt walls c)) rx).isValid E (cwalls ι walls) c (cwalls ι (wallsAt walls c)) (F.fin tol) (F.fin patch) ap kw with
  | error err => rw [hx] at hv; cases hv
  | ok v =>
    rw [hx] at hv
    rcases v with v | v
    · have := Except.ok.inj hv
      simp only [RevTruthy.val, Truthy.b.injEq] at this
      rw [this]
    · have := Except.ok.inj hv
      simp [RevTruthy.val] at this

/-- The loop with the set of valid paths held fixed. -/
theorem facc_frozen {X : Type} [NormedAddCommGroup X] [NormedSpace ℝ X] {ι : Type} {e : ι → X} {x0 : X} {tx rx : V2 (Rev ι)} {t r : X → Pt}
    (ht : DifferentiatesPt e x0 tx t) (hr : DifferentiatesPt e x0 rx r) (walls : List (Pt × Pt))
    {E : Env} {ap : Option Bool} (hh : Hard E ap) {kw : Rev.ActKw ι} {kw' : ActKw} (hk : SameKw kw kw') (tol patch : ℝ)
    (f : List (V2 (Rev ι)) → Rev ι) (g : List Pt → ℝ) (Q : List Pt → Prop) (hg : DifferentiatesFun Q f g) (cs : List (List ℤ))
    (hc : ∀ c ∈ cs, IsCandidate walls.length c)
    (hu : ∀ c ∈ cs, Unguarded (t x0) (r x0) (wallsAt walls c) ∧ Q (rpath (t x0) (r x0) (wallsAt walls c))) :
    ∃ d, Rev.facc ⟨E, F.fin tol, F.fin patch, ap, kw⟩ (cwalls ι walls) f tx rx (.const 0) cs = .ok d ∧
      Differentiates e x0 d fun x => (cs.map fun c => (if HardOk (wallsAt walls c) walls c (rpath (t x0) (r x0) (wallsAt walls c))
        (scores (wallsAt walls c) (rpath (t x0) (r x0) (wallsAt walls c))).sum tol patch then 1 else 0) * g (rpath (t x) (r x) (wallsAt walls c))).sum := by
  obtain ⟨d, h1, h2⟩ := facc_diff (e := e) (x0 := x0) ⟨E, F.fin tol, F.fin patch, ap, kw⟩ (ws := cwalls ι walls) f
    (fun c _ => if HardOk (wallsAt walls c) walls c (rpath (t x0) (r x0) (wallsAt walls c))
        (scores (wallsAt walls c) (rpath (t x0) (r x0) (wallsAt walls c))).sum tol patch then 1 else 0)
    (fun c x => g (rpath (t x) (r x) (wallsAt walls c))) cs (fun c hc' i hi => by simpa [cwalls] using (hc c hc').1 i hi)
    (fun c hc' => ⟨_, valid_val hh hk ht.val hr.val walls (hc c hc') tol patch, by
      by_cases hok : HardOk (wallsAt walls c) walls c (rpath (t x0) (r x0) (wallsAt walls c)) (scores (wallsAt walls c) (rpath (t x0) (r x0) (wallsAt walls c))).sum tol patch
      · simp only [hok, decide_true, RevTruthy.toF, F.one_eq, if_true]
        exact .const 1
      · simp only [hok, decide_false, RevTruthy.toF, F.zero_eq, if_false]
        exact .const 0, path_frozen ht hr walls c (hu c hc').1 f g Q hg (hu c hc').2⟩) (Differentiates.const (e := e) (x0 := x0) 0)
  refine ⟨d, by rw [F.zero_eq]; exact h1, h2.congr (Eventually.of_forall fun x => by simp)⟩

theorem valV_at (walls : List (Pt × Pt)) (c : List ℤ) {ι : Type} : List.Forall₂ ValWall (dwallsAt (cwalls ι walls) c) (wallsAt walls c) :=
  forall₂_at (cwalls_valWall walls) c

/-- The loop sends NaN back. -/
theorem facc_power_nans {ι : Type} {i : ι} {tx rx : V2 (Rev ι)} {t r : Pt} (ht : Rev.valV tx = V2.fin t) (hr : Rev.valV rx = V2.fin r)
    (hi : PassesPt i tx ∨ PassesPt i rx) (walls : List (Pt × Pt)) (v : Rev.ValidOpts ι) (E : Env) (coef height : F) (cs : List (List ℤ))
    (hc : ∀ c ∈ cs, IsCandidate walls.length c) {d : Rev ι}
    (hd : Rev.facc v (cwalls ι walls) (Rev.receivedPower E coef height) tx rx (.const 0) cs = .ok d) {c : List ℤ} (hcc : c ∈ cs)
    (hbad : ¬ (Unguarded t r (wallsAt walls c) ∧ OffGuard E.eps (rpath t r (wallsAt walls c)))) : Nans i d :=
  facc_nans v _ cs (fun c hc' i hi => by simpa [cwalls] using (hc c hc').1 i hi) hd
    (.inr ⟨c, hcc, imagePath_nans E coef height ht hr (valV_at walls c) hi hbad⟩)

theorem passes_inputs (p : V2 F) (i : Rev.Coord) : PassesPt i (Rev.inputs p) := by
  cases i
  · exact .inl (by simp [Passes, Rev.inputs, Rev.var])
  · exact .inr (by simp [Passes, Rev.inputs, Rev.var])

theorem sum_accepted (cs : List (List ℤ)) (hcd : cs.Nodup) (P : List ℤ → Prop) (h : List ℤ → ℝ) :
    (cs.map fun c => (if P c then 1 else 0) * h c).sum = ∑ c ∈ cs.toFinset.filter P, h c := by
  rw [Finset.sum_filter, List.sum_toFinset _ hcd]
  congr 1
  refine List.map_congr_left fun c _ => ?_
  split <;> simp

/-- **C100.** The gradients of the received power in hard mode, with respect to the receiver, at every position. If, for every path
candidate - accepted or not -, every reflection point is determined and no step is the opposite of the guard of `path_length`, then the gradient
is that of the sum over the accepted paths, the set of accepted paths being held fixed. Otherwise both components are NaN, although the
value is finite. -/
theorem C100_receivers {Key : Type} (G : GraphLib) (hG : GraphContract G) (tx rx : PyDict Pt) (ht : Distinct tx) (walls : List (Pt × Pt))
    (lo hi : ℤ) (hlo : 0 ≤ lo) (hex : ∃ c, InRange walls.length lo hi c) (split : Key → ℕ → List Key) (key : Option Key)
    (E : Env) (ap : Option Bool) (hh : Hard E ap) (tol patch : ℝ) (kw : Rev.ActKw Rev.Coord) (kw' : ActKw) (hk : SameKw kw kw')
    (coef height : ℝ) (hht : 0 < height) :
    ∃ (value : String × Pt → ℝ × ℝ → ℝ) (gradient : String × Pt → ℝ × ℝ → V2 F) (points : Pt → ℝ × ℝ → List ℤ → List Pt)
      (accepted : Pt → ℝ × ℝ → Finset (List ℤ)),
      (∀ r : ℝ × ℝ, (wallScene tx [("rx", ⟨r.1, r.2⟩)] walls).accumulateOverPaths G split (imageMethod Key) { minOrder := lo, maxOrder := hi }
        ⟨E, F.fin tol, F.fin patch, ap, kw'⟩ key (powerFun E coef height) = .ok (tx.map fun t => (t.1, "rx", F.fin (value t r)))) ∧
      (∀ (grad : Bool) (P : Scene.Grid (ℝ × ℝ)),
        Rev.accumulateOnReceiversGrid (wallScene tx rx walls) G { minOrder := lo, maxOrder := hi } ⟨E, F.fin tol, F.fin patch, ap, kw⟩ grad true
          (Rev.receivedPower E (F.fin coef) (F.fin height))
          (gridX P) (gridY P) = .ok (tx.map fun t => (t.1, .both (P.map fun row => row.map fun p => F.fin (value t p)) (P.map fun row => row.map (gradient t)))) ∧
        Rev.accumulateOnReceiversGrid (wallScene tx rx walls) G { minOrder := lo, maxOrder := hi } ⟨E, F.fin tol, F.fin patch, ap, kw⟩ true false
          (Rev.receivedPower E (F.fin coef) (F.fin height))
          (gridX P) (gridY P) = .ok (tx.map fun t => (t.1, .gradient (P.map fun row => row.map (gradient t))))) ∧
      (∀ t r c, ∃ loss, traceImage t (wallsAt walls c) ⟨r.1, r.2⟩ = .ok (finitePath (points t r c) loss)) ∧
      (∀ t r c, c ∈ accepted t r ↔ InRange walls.length lo hi c ∧ ∀ path, traceImage t (wallsAt walls c) ⟨r.1, r.2⟩ = .ok path →
        path.isValid E ((wallsOf walls).map Obj.interact) c ((wallsOf (wallsAt walls c)).map Obj.interact) (F.fin tol) (F.fin patch) ap kw' = .ok (.b true)) ∧
      ∀ t ∈ tx, ∀ r : ℝ × ℝ, value t r = ∑ c ∈ accepted t.2 r, powerAlong E.eps coef height (points t.2 r c) ∧
        ((∀ c, InRange walls.length lo hi c → Determined t.2 (wallsAt walls c) (points t.2 r c) ∧ OffGuard E.eps (points t.2 r c)) →
          GradientAt (fun q => ∑ c ∈ accepted t.2 r, powerAlong E.eps coef height (points t.2 q c)) r (gradient t r)) ∧
        ((∃ c, InRange walls.length lo hi c ∧ ¬ (Determined t.2 (wallsAt walls c) (points t.2 r c) ∧ OffGuard E.eps (points t.2 r c))) →
          gradient t r = ⟨F.nan, F.nan⟩) := by
  obtain ⟨cs, hcs, hcd, hcm, hne⟩ := cands_walls G hG tx rx walls lo hi hlo hex
  have hcs' : ∀ tx rx, (wallScene tx rx walls).allPathCandidates G { minOrder := lo, maxOrder := hi } = .ok cs := by
    intro tx' rx'
    have : (wallScene tx' rx' walls).objects = (wallScene tx rx walls).objects := by rw [wallScene_objects, wallScene_objects]
    rw [← hcs]
    unfold Scene.allPathCandidates
    rw [this]
  let ok : Pt → Pt → List ℤ → Prop := fun t r c => HardOk (wallsAt walls c) walls c (rpath t r (wallsAt walls c)) (scores (wallsAt walls c) (rpath t r (wallsAt walls c))).sum tol patch
  have hV : ∀ t r c, InRange walls.length lo hi c → ∃ valid, (finitePath (rpath t r (wallsAt walls c)) (scores (wallsAt walls c) (rpath t r (wallsAt walls c))).sum).isValid E
      ((wallsOf walls).map Obj.interact) c ((wallsOf (wallsAt walls c)).map Obj.interact) (F.fin tol) (F.fin patch) ap kw' = .ok valid ∧
      valid.toF = F.fin (if ok t r c then 1 else 0) := by
    intro t r c hc
    refine ⟨_, isValid_hardOk hh kw' _ _ c _ _ tol patch (by rw [rpath_length, wallsAt_length hc.1]), ?_⟩
    by_cases hok : ok t r c
    · rw [if_pos hok]; simp [show HardOk _ _ _ _ _ _ _ from hok, Truthy.toF]
    · rw [if_neg hok]; simp [show ¬ HardOk _ _ _ _ _ _ _ from hok, Truthy.toF]
  obtain ⟨-, -, hsf⟩ := C98_parts (ι := Rev.Coord) (F.fin 1) E (F.fin coef) (F.fin height)
  have hR : ∀ (t : String × Pt) (p : ℝ × ℝ), _ := fun t p => facc_value (tx := Rev.constV (V2.fin t.2)) (rx := Rev.inputs ⟨F.fin p.1, F.fin p.2⟩) (t := t.2) (r := ⟨p.1, p.2⟩)
    rfl rfl walls hk hsf (realFun_powerAlong E coef height hht) (fun c => if ok t.2 ⟨p.1, p.2⟩ c then 1 else 0) cs (fun c hc => ((hcm c).mp hc).1)
    fun c hc => hV _ _ c ((hcm c).mp hc)
  choose D hD1 hD2 using hR
  have hgrid := receivers_grid G tx rx ht walls lo hi cs hcs ⟨E, F.fin tol, F.fin patch, ap, kw⟩ _ D hD1
  refine ⟨fun t p => (cs.map fun c => (if ok t.2 ⟨p.1, p.2⟩ c then 1 else 0) * powerAlong E.eps coef height (rpath t.2 ⟨p.1, p.2⟩ (wallsAt walls c))).sum,
    fun t p => ⟨(D t p).grad .x, (D t p).grad .y⟩, fun t p c => rpath t ⟨p.1, p.2⟩ (wallsAt walls c), fun t p => cs.toFinset.filter fun c => ok t ⟨p.1, p.2⟩ c, ?_, ?_, ?_, ?_, ?_⟩
  · intro r
    have := accumulate_walls (Key := Key) G hG tx [("rx", ⟨r.1, r.2⟩)] ht (by simp [Distinct]) walls lo hi hlo cs (hcs' _ _) hcd hcm hne split key
      ⟨E, F.fin tol, F.fin patch, ap, kw'⟩ (powerFun E coef height) _ (realFun_powerAlong E coef height hht) (fun t r c => if ok t r c then 1 else 0)
      fun t _ r _ c hc => hV t.2 r.2 c ((hcm c).mp hc)
    rw [this, product_single, List.map_map]
    rfl
  · intro grad P
    refine ⟨?_, ?_⟩
    · rw [hgrid]
      simp only [gridSel, if_true, hD2]
    · rw [hgrid]
      simp only [gridSel, if_true, Bool.false_eq_true, if_false]
  · exact fun t r c => ⟨_, traceImage_eq t ⟨r.1, r.2⟩ (wallsAt walls c)⟩
  · intro t r c
    simp only [Finset.mem_filter, List.mem_toFinset, hcm c]
    refine and_congr_right fun hc => ?_
    have hi := isValid_hardOk hh kw' (wallsAt walls c) walls c (rpath t ⟨r.1, r.2⟩ (wallsAt walls c))
      (scores (wallsAt walls c) (rpath t ⟨r.1, r.2⟩ (wallsAt walls c))).sum tol patch (by rw [rpath_length, wallsAt_length hc.1])
    rw [traceImage_eq]
    constructor
    · intro hok path hp
      obtain rfl := Except.ok.inj hp
      rw [hi, decide_eq_true hok]
    · intro h
      have := (hi.symm.trans (h _ rfl))
      simpa using this
  · intro t htm r
    refine ⟨sum_accepted cs hcd _ _, fun hgood => ?_, fun hbad => ?_⟩
    · obtain ⟨d, h1, h2⟩ := facc_frozen (.const t.2) (inputs_diff r) walls hh hk tol patch _ _ _ (C99_power E coef height hht) cs (fun c hc => ((hcm c).mp hc).1)
        fun c hc => ⟨(determined_iff _ _ _).mp (hgood c ((hcm c).mp hc)).1, (hgood c ((hcm c).mp hc)).2⟩
      have e1 : D t r = d := Except.ok.inj ((hD1 t r).symm.trans h1)
      obtain ⟨-, v', h4, h5⟩ := h2
      refine ⟨v', ?_, ?_⟩
      · have e2 : (fun q : ℝ × ℝ => ∑ c ∈ cs.toFinset.filter fun c => ok t.2 ⟨r.1, r.2⟩ c, powerAlong E.eps coef height (rpath t.2 ⟨q.1, q.2⟩ (wallsAt walls c))) = _ :=
          funext fun q => (sum_accepted cs hcd (fun c => ok t.2 ⟨r.1, r.2⟩ c) fun c => powerAlong E.eps coef height (rpath t.2 ⟨q.1, q.2⟩ (wallsAt walls c))).symm
        rw [e2]
        exact h4
      · simp only [e1, Rev.grad, F.one_eq, h5, axisOf, one_mul]
        rfl
    · obtain ⟨c, hc, hb⟩ := hbad
      have hn : ∀ i, Nans i (D t r) := fun i => facc_power_nans (t := t.2) (r := ⟨r.1, r.2⟩) rfl rfl (.inr (passes_inputs _ i)) walls _ E _ _ cs (fun c hc => ((hcm c).mp hc).1) (hD1 t r)
        ((hcm c).mpr hc) (by rw [← determined_iff]; exact hb)
      simp only [Rev.grad, hn .x 1, hn .y 1]

/-- **C100.** The same with respect to the transmitter. -/
theorem C100_transmitters {Key : Type} (G : GraphLib) (hG : GraphContract G) (tx rx : PyDict Pt) (hr : Distinct rx) (walls : List (Pt × Pt))
    (lo hi : ℤ) (hlo : 0 ≤ lo) (hex : ∃ c, InRange walls.length lo hi c) (split : Key → ℕ → List Key) (key : Option Key)
    (E : Env) (ap : Option Bool) (hh : Hard E ap) (tol patch : ℝ) (kw : Rev.ActKw Rev.Coord) (kw' : ActKw) (hk : SameKw kw kw')
    (coef height : ℝ) (hht : 0 < height) :
    ∃ (value : String × Pt → ℝ × ℝ → ℝ) (gradient : String × Pt → ℝ × ℝ → V2 F) (points : Pt → ℝ × ℝ → List ℤ → List Pt)
      (accepted : Pt → ℝ × ℝ → Finset (List ℤ)),
      (∀ t : ℝ × ℝ, (wallScene [("tx", ⟨t.1, t.2⟩)] rx walls).accumulateOverPaths G split (imageMethod Key) { minOrder := lo, maxOrder := hi }
        ⟨E, F.fin tol, F.fin patch, ap, kw'⟩ key (powerFun E coef height) = .ok (rx.map fun r => ("tx", r.1, F.fin (value r t)))) ∧
      (∀ (grad : Bool) (P : Scene.Grid (ℝ × ℝ)),
        Rev.accumulateOnTransmittersGrid (wallScene tx rx walls) G { minOrder := lo, maxOrder := hi } ⟨E, F.fin tol, F.fin patch, ap, kw⟩ grad true
          (Rev.receivedPower E (F.fin coef) (F.fin height))
          (gridX P) (gridY P) = .ok (rx.map fun r => (r.1, .both (P.map fun row => row.map fun p => F.fin (value r p)) (P.map fun row => row.map (gradient r)))) ∧
        Rev.accumulateOnTransmittersGrid (wallScene tx rx walls) G { minOrder := lo, maxOrder := hi } ⟨E, F.fin tol, F.fin patch, ap, kw⟩ true false
          (Rev.receivedPower E (F.fin coef) (F.fin height))
          (gridX P) (gridY P) = .ok (rx.map fun r => (r.1, .gradient (P.map fun row => row.map (gradient r))))) ∧
      (∀ r t c, ∃ loss, traceImage ⟨t.1, t.2⟩ (wallsAt walls c) r = .ok (finitePath (points r t c) loss)) ∧
      (∀ r t c, c ∈ accepted r t ↔ InRange walls.length lo hi c ∧ ∀ path, traceImage ⟨t.1, t.2⟩ (wallsAt walls c) r = .ok path →
        path.isValid E ((wallsOf walls).map Obj.interact) c ((wallsOf (wallsAt walls c)).map Obj.interact) (F.fin tol) (F.fin patch) ap kw' = .ok (.b true)) ∧
      ∀ r ∈ rx, ∀ t : ℝ × ℝ, value r t = ∑ c ∈ accepted r.2 t, powerAlong E.eps coef height (points r.2 t c) ∧
        ((∀ c, InRange walls.length lo hi c → Determined ⟨t.1, t.2⟩ (wallsAt walls c) (points r.2 t c) ∧ OffGuard E.eps (points r.2 t c)) →
          GradientAt (fun q => ∑ c ∈ accepted r.2 t, powerAlong E.eps coef height (points r.2 q c)) t (gradient r t)) ∧
        ((∃ c, InRange walls.length lo hi c ∧ ¬ (Determined ⟨t.1, t.2⟩ (wallsAt walls c) (points r.2 t c) ∧ OffGuard E.eps (points r.2 t c))) →
          gradient r t = ⟨F.nan, F.nan⟩) := by
  obtain ⟨cs, hcs, hcd, hcm, hne⟩ := cands_walls G hG tx rx walls lo hi hlo hex
  have hcs' : ∀ tx rx, (wallScene tx rx walls).allPathCandidates G { minOrder := lo, maxOrder := hi } = .ok cs := by
    intro tx' rx'
    have : (wallScene tx' rx' walls).objects = (wallScene tx rx walls).objects := by rw [wallScene_objects, wallScene_objects]
    rw [← hcs]
    unfold Scene.allPathCandidates
    rw [this]
  let ok : Pt → Pt → List ℤ → Prop := fun t r c => HardOk (wallsAt walls c) walls c (rpath t r (wallsAt walls c)) (scores (wallsAt walls c) (rpath t r (wallsAt walls c))).sum tol patch
  have hV : ∀ t r c, InRange walls.length lo hi c → ∃ valid, (finitePath (rpath t r (wallsAt walls c)) (scores (wallsAt walls c) (rpath t r (wallsAt walls c))).sum).isValid E
      ((wallsOf walls).map Obj.interact) c ((wallsOf (wallsAt walls c)).map Obj.interact) (F.fin tol) (F.fin patch) ap kw' = .ok valid ∧
      valid.toF = F.fin (if ok t r c then 1 else 0) := by
    intro t r c hc
    refine ⟨_, isValid_hardOk hh kw' _ _ c _ _ tol patch (by rw [rpath_length, wallsAt_length hc.1]), ?_⟩
    by_cases hok : ok t r c
    · rw [if_pos hok]; simp [show HardOk _ _ _ _ _ _ _ from hok, Truthy.toF]
    · rw [if_neg hok]; simp [show ¬ HardOk _ _ _ _ _ _ _ from hok, Truthy.toF]
  obtain ⟨-, -, hsf⟩ := C98_parts (ι := Rev.Coord) (F.fin 1) E (F.fin coef) (F.fin height)
  have hR : ∀ (r : String × Pt) (p : ℝ × ℝ), _ := fun r p => facc_value (tx := Rev.inputs ⟨F.fin p.1, F.fin p.2⟩) (rx := Rev.constV (V2.fin r.2)) (t := ⟨p.1, p.2⟩) (r := r.2)
    rfl rfl walls hk hsf (realFun_powerAlong E coef height hht) (fun c => if ok ⟨p.1, p.2⟩ r.2 c then 1 else 0) cs (fun c hc => ((hcm c).mp hc).1)
    fun c hc => hV _ _ c ((hcm c).mp hc)
  choose D hD1 hD2 using hR
  have hgrid := transmitters_grid G tx rx hr walls lo hi cs hcs ⟨E, F.fin tol, F.fin patch, ap, kw⟩ _ D hD1
  refine ⟨fun r p => (cs.map fun c => (if ok ⟨p.1, p.2⟩ r.2 c then 1 else 0) * powerAlong E.eps coef height (rpath ⟨p.1, p.2⟩ r.2 (wallsAt walls c))).sum,
    fun r p => ⟨(D r p).grad .x, (D r p).grad .y⟩, fun r p c => rpath ⟨p.1, p.2⟩ r (wallsAt walls c), fun r p => cs.toFinset.filter fun c => ok ⟨p.1, p.2⟩ r c, ?_, ?_, ?_, ?_, ?_⟩
  · intro t
    have := accumulate_walls (Key := Key) G hG [("tx", ⟨t.1, t.2⟩)] rx (by simp [Distinct]) hr walls lo hi hlo cs (hcs' _ _) hcd hcm hne split key
      ⟨E, F.fin tol, F.fin patch, ap, kw'⟩ (powerFun E coef height) _ (realFun_powerAlong E coef height hht) (fun t r c => if ok t r c then 1 else 0)
      fun t _ r _ c hc => hV t.2 r.2 c ((hcm c).mp hc)
    rw [this, single_product, List.map_map]
    rfl
  · intro grad P
    refine ⟨?_, ?_⟩
    · rw [hgrid]
      simp only [gridSel, if_true, hD2]
    · rw [hgrid]
      simp only [gridSel, if_true, Bool.false_eq_true, if_false]
  · exact fun r t c => ⟨_, traceImage_eq ⟨t.1, t.2⟩ r (wallsAt walls c)⟩
  · intro r t c
    simp only [Finset.mem_filter, List.mem_toFinset, hcm c]
    refine and_congr_right fun hc => ?_
    have hi := isValid_hardOk hh kw' (wallsAt walls c) walls c (rpath ⟨t.1, t.2⟩ r (wallsAt walls c))
      (scores (wallsAt walls c) (rpath ⟨t.1, t.2⟩ r (wallsAt walls c))).sum tol patch (by rw [rpath_length, wallsAt_length hc.1])
    rw [traceImage_eq]
    constructor
    · intro hok path hp
      obtain rfl := Except.ok.inj hp
      rw [hi, decide_eq_true hok]
    · intro h
      have := (hi.symm.trans (h _ rfl))
      simpa using this
  · intro r hrm t
    refine ⟨sum_accepted cs hcd _ _, fun hgood => ?_, fun hbad => ?_⟩
    · obtain ⟨d, h1, h2⟩ := facc_frozen (inputs_diff t) (.const r.2) walls hh hk tol patch _ _ _ (C99_power E coef height hht) cs (fun c hc => ((hcm c).mp hc).1)
        fun c hc => ⟨(determined_iff _ _ _).mp (hgood c ((hcm c).mp hc)).1, (hgood c ((hcm c).mp hc)).2⟩
      have e1 : D r t = d := Except.ok.inj ((hD1 r t).symm.trans h1)
      obtain ⟨-, v', h4, h5⟩ := h2
      refine ⟨v', ?_, ?_⟩
      · have e2 : (fun q : ℝ × ℝ => ∑ c ∈ cs.toFinset.filter fun c => ok ⟨t.1, t.2⟩ r.2 c, powerAlong E.eps coef height (rpath ⟨q.1, q.2⟩ r.2 (wallsAt walls c))) = _ :=
          funext fun q => (sum_accepted cs hcd (fun c => ok ⟨t.1, t.2⟩ r.2 c) fun c => powerAlong E.eps coef height (rpath ⟨q.1, q.2⟩ r.2 (wallsAt walls c))).symm
        rw [e2]
        exact h4
      · simp only [e1, Rev.grad, F.one_eq, h5, axisOf, one_mul]
        rfl
    · obtain ⟨c, hc, hb⟩ := hbad
      have hn : ∀ i, Nans i (D r t) := fun i => facc_power_nans (t := ⟨t.1, t.2⟩) (r := r.2) rfl rfl (.inl (passes_inputs _ i)) walls _ E _ _ cs (fun c hc => ((hcm c).mp hc).1) (hD1 r t)
        ((hcm c).mpr hc) (by rw [← determined_iff]; exact hb)
      simp only [Rev.grad, hn .x 1, hn .y 1]

/-! ### Where it happens -/

theorem un_side {o d : Pt} (h : o ≠ d) (p q : Pt) : un o d p q = 0 ↔ side o d p = side o d q := by
  rw [un_parallel]
  unfold Parallel side
  constructor <;> intro e <;> linarith

theorem side_rimg {o d : Pt} (h : o ≠ d) (p : Pt) : side o d (rimg o d p) = -side o d p := by
  obtain ⟨h1, s, hs⟩ := mirror_self o d p h
  have hx := congrArg V2.x hs
  have hy := congrArg V2.y hs
  simp only [Spec.midpoint, pointAt] at hx hy
  unfold side
  linear_combination 2 * (d.x - o.x) * hy - 2 * (d.y - o.y) * hx

/-- A reflection in a perpendicular wall does not change the side. -/
theorem side_rimg_perp {o d o' d' : Pt} (h : o' ≠ d') (hp : Orthogonal o d o' d') (p : Pt) : side o d (rimg o' d' p) = side o d p := by
  obtain ⟨h1, -⟩ := mirror_self o' d' p h
  generalize rimg o' d' p = q at h1 ⊢
  unfold Orthogonal at h1 hp
  have h2 : (d.x - o.x) * (q.y - p.y) - (d.y - o.y) * (q.x - p.x) = 0 := by
    have hne : (d'.x - o'.x) ^ 2 + (d'.y - o'.y) ^ 2 ≠ 0 := by
      intro e
      apply h
      have e1 : d'.x - o'.x = 0 := by nlinarith [sq_nonneg (d'.x - o'.x), sq_nonneg (d'.y - o'.y)]
      have e2 : d'.y - o'.y = 0 := by nlinarith [sq_nonneg (d'.x - o'.x), sq_nonneg (d'.y - o'.y)]
      ext <;> linarith
    have : ((d'.x - o'.x) ^ 2 + (d'.y - o'.y) ^ 2) * ((d.x - o.x) * (q.y - p.y) - (d.y - o.y) * (q.x - p.x)) = 0 := by
      linear_combination ((d'.x - o'.x) * (q.y - p.y) - (d'.y - o'.y) * (q.x - p.x)) * hp + ((d.x - o.x) * (d'.y - o'.y) - (d.y - o.y) * (d'.x - o'.x)) * h1
    exact (mul_eq_zero.mp this).resolve_left hne
  unfold side
  linear_combination h2

/-- **C100.** With one wall, the reflection point is undetermined exactly where the receiver is as far from the wall as the transmitter, on the
other side. -/
theorem C100_one_wall (t r : Pt) (w : Pt × Pt) (hw : w.1 ≠ w.2) (pts : List Pt) (loss : ℝ) (h : traceImage t [w] r = .ok (finitePath pts loss)) :
    Determined t [w] pts ↔ side w.1 w.2 r ≠ -side w.1 w.2 t := by
  obtain ⟨rfl, -⟩ := traceImage_iff h
  rw [determined_iff]
  simp only [Unguarded, rpts, List.headD_nil, and_true, ne_eq]
  rw [un_side hw, side_rimg hw]
  exact not_congr eq_comm

/-- **C100.** In a scene with two perpendicular walls, and paths of order 3, no gradient is returned for the receivers that are as far from one of
these walls as the transmitter, on the same side: in a rectangular room, for all receivers that share a coordinate with the transmitter. -/
theorem C100_right_angle (G : GraphLib) (hG : GraphContract G) (tx rx : PyDict Pt) (ht : Distinct tx) (walls : List (Pt × Pt))
    (i j : ℕ) (hij : i ≠ j) (w w' : Pt × Pt) (hi' : walls[i]? = some w) (hj' : walls[j]? = some w') (hw : w.1 ≠ w.2) (hw' : w'.1 ≠ w'.2)
    (hperp : Orthogonal w.1 w.2 w'.1 w'.2)
    (lo hi : ℤ) (hlo : 0 ≤ lo) (h3 : lo ≤ 3) (h3' : 3 ≤ hi)
    (E : Env) (ap : Option Bool) (hh : Hard E ap) (tol patch : ℝ) (kw : Rev.ActKw Rev.Coord) (kw' : ActKw) (hk : SameKw kw kw')
    (coef height : ℝ) (hht : 0 < height) (r : ℝ × ℝ) (hr : ∀ t ∈ tx, side w.1 w.2 ⟨r.1, r.2⟩ = side w.1 w.2 t.2) :
    Rev.accumulateOnReceiversGrid (wallScene tx rx walls) G { minOrder := lo, maxOrder := hi } ⟨E, F.fin tol, F.fin patch, ap, kw⟩ true false
      (Rev.receivedPower E (F.fin coef) (F.fin height)) [[F.fin r.1]] [[F.fin r.2]] = .ok (tx.map fun t => (t.1, .gradient [[⟨F.nan, F.nan⟩]])) := by
  have hli := (List.getElem?_eq_some_iff.mp hi').1
  have hlj := (List.getElem?_eq_some_iff.mp hj').1
  have hc : InRange walls.length lo hi [(i : ℤ), j, i] := by
    refine ⟨⟨?_, ?_⟩, ?_, ?_⟩
    · intro k hk
      simp only [List.mem_cons, List.not_mem_nil, or_false] at hk
      rcases hk with rfl | rfl | rfl <;> constructor <;> omega
    · intro k a b ha hb
      match k with
      | 0 => simp at ha hb; omega
      | 1 => simp at ha hb; omega
      | k + 2 => simp at hb
    · simpa using h3
    · simpa using h3'
  have hat : wallsAt walls [(i : ℤ), j, i] = [w, w', w] := by simp [wallsAt, hi', hj']
  obtain ⟨value, gradient, points, accepted, -, q2, q3, -, q5⟩ := C100_receivers (Key := Unit) G hG tx rx ht walls lo hi hlo ⟨_, hc⟩ (fun k _ => [k]) none E ap hh tol patch kw kw' hk
    coef height hht
  have hg : ∀ t ∈ tx, gradient t r = ⟨F.nan, F.nan⟩ := by
    intro t htm
    refine (q5 t htm r).2.2 ⟨_, hc, fun h => ?_⟩
    obtain ⟨loss, hl⟩ := q3 t.2 r [(i : ℤ), j, i]
    obtain ⟨e1, -⟩ := traceImage_iff hl
    rw [e1, hat, determined_iff] at h
    obtain ⟨-, -, h3, -⟩ := h.1
    apply h3
    simp only [rpts, List.headD_nil]
    rw [un_side hw, side_rimg hw, side_rimg_perp hw' hperp, side_rimg hw, neg_neg]
    exact (hr t htm).symm
  have := (q2 true [[r]]).2
  simp only [gridX, gridY, List.map_cons, List.map_nil] at this
  rw [this]
  congr 1
  refine List.map_congr_left fun t htm => ?_
  rw [hg t htm]

/-- Non-vacuity of C100: a room with two perpendicular walls; the transmitter is at `(1, 1)` and the receiver at `(1, 2)`. -/
example (E : Env) (a : F) := C100_right_angle refLib refLib_contract [("tx", ⟨1, 1⟩)] [] (by simp [Distinct]) [(⟨0, 0⟩, ⟨0, 4⟩), (⟨0, 0⟩, ⟨4, 0⟩)] 0 1 (by simp)
  (⟨0, 0⟩, ⟨0, 4⟩) (⟨0, 0⟩, ⟨4, 0⟩) rfl rfl (by simp) (by simp) (by simp [Orthogonal]) 0 3 le_rfl (by norm_num) le_rfl E (some false) (.inl rfl) (1 / 100) 0
  (⟨a, Rev.sigmoid⟩ : Rev.ActKw Rev.Coord) ⟨a, sigmoid⟩ (fun _ => rfl) (1 / 2) 1 one_pos (1, 2) (by simp [side])

/-- Non-vacuity of C100: with one wall and the transmitter at `(0, 1)`, the gradient at `(2, 1)` is that of the sum over the accepted paths, and the gradient
at `(2, -1)` is NaN. -/
example (E : Env) (he : 0 < E.eps) (a : F) (rx : PyDict Pt) : ∃ (gradient : ℝ × ℝ → V2 F) (f : ℝ × ℝ → ℝ),
    (∀ P : Scene.Grid (ℝ × ℝ), Rev.accumulateOnReceiversGrid (wallScene [("tx", ⟨0, 1⟩)] rx [(⟨0, 0⟩, ⟨3, 0⟩)]) refLib { minOrder := 0, maxOrder := 1 }
        ⟨E, F.fin (1 / 100), F.fin 0, some false, ⟨a, Rev.sigmoid⟩⟩ true false (Rev.receivedPower E (F.fin (1 / 2)) (F.fin 1)) (gridX P) (gridY P) =
        .ok [("tx", .gradient (P.map fun row => row.map gradient))]) ∧
      GradientAt f (2, 1) (gradient (2, 1)) ∧ gradient (2, -1) = ⟨F.nan, F.nan⟩ := by
  obtain ⟨h1, -, -⟩ := C98_parts (ι := Rev.Coord) a E (F.fin (1 / 2)) (F.fin 1)
  obtain ⟨value, gradient, points, accepted, -, q2, q3, -, q5⟩ := C100_receivers (Key := ℕ) refLib refLib_contract [("tx", ⟨0, 1⟩)] rx (by simp [Distinct]) [(⟨0, 0⟩, ⟨3, 0⟩)]
    0 1 le_rfl ⟨[], by simp [InRange, IsCandidate]⟩ (fun k _ => [k]) none E (some false) (.inl rfl) (1 / 100) 0 _ _ h1 (1 / 2) 1 one_pos
  refine ⟨gradient ("tx", ⟨0, 1⟩), _, fun P => (q2 true P).2, ((q5 _ (by simp) (2, 1)).2.1 fun c hc => ?_), (q5 _ (by simp) (2, -1)).2.2 ⟨[0], by simp [InRange, IsCandidate], fun h => ?_⟩⟩
  · obtain ⟨loss, hl⟩ := q3 ⟨0, 1⟩ (2, 1) c
    obtain ⟨h1, -, h3⟩ := oneWall_regular E he c hc _ _ hl
    refine ⟨?_, h3⟩
    obtain ⟨e1, -⟩ := traceImage_iff hl
    rw [e1, determined_iff]
    by_cases hc0 : c = []
    · subst hc0; trivial
    · have := h1.moves hc0
      rw [e1] at this
      exact unguarded_of_noPause fun i a b ha hb => this (i + 1) a b ha hb
  · obtain ⟨loss, hl⟩ := q3 ⟨0, 1⟩ (2, -1) [0]
    exact (C100_one_wall _ _ (⟨0, 0⟩, ⟨3, 0⟩) (by simp) _ loss hl).mp h.1 (by simp [side])

end DiffeRT2d.Props
