import Verif.Lemmas.GradPaths

/-! # C107: the gradients of the objectives of `FermatPath` and `MinPath` -/

namespace DiffeRT2d.Props
open Classical Spec

/-- Every entry of the gradient belongs to an object. -/
theorem C107_owner (shapes : List Shape) (j : ℕ) (h : j < (shapes.map Shape.count).sum) : ∃! k, Owns shapes k j := by
  induction shapes generalizing j with
  | nil => simp at h
  | cons s ss ih =>
    simp only [List.map_cons, List.sum_cons] at h
    have hc : s.count = 0 ∨ s.count = 1 := by cases s <;> simp [Shape.count]
    rcases Nat.lt_or_ge j s.count with hj | hj
    · have hj0 : j = 0 := by omega
      subst hj0
      refine ⟨0, ⟨s, rfl, by omega, by simp⟩, ?_⟩
      rintro (_ | k) ⟨s', h1, h2, h3⟩
      · rfl
      · simp only [List.take_succ_cons, List.map_cons, List.sum_cons] at h3; omega
    · obtain ⟨k, ⟨s', h1, h2, h3⟩, hu⟩ := ih (j - s.count) (by omega)
      refine ⟨k + 1, ⟨s', by simpa using h1, h2, by simp only [List.take_succ_cons, List.map_cons, List.sum_cons]; omega⟩, ?_⟩
      rintro (_ | k') ⟨s'', g1, g2, g3⟩
      · simp only [List.getElem?_cons_zero, Option.some.injEq] at g1
        subst g1
        simp at g3; omega
      · rw [hu k' ⟨s'', by simpa using g1, g2, by simp only [List.take_succ_cons, List.map_cons, List.sum_cons] at g3; omega⟩]

theorem gradient_get (f : List (Rev ℕ) → Rev ℕ) (θ : List ℝ) {j : ℕ} (hj : j < θ.length) :
    (Rev.gradient f (θ.map F.fin))[j]? = some ((f (vars θ)).pull 1 j) := by
  simp only [Rev.gradient, List.length_map, List.getElem?_map, List.getElem?_range hj, Option.map_some]
  rfl

theorem gradient_length (f : List (Rev ℕ) → Rev ℕ) (x : List F) : (Rev.gradient f x).length = x.length := by simp [Rev.gradient]

/-- From the share of one input to the entry of the gradient. -/
theorem entry_of_diff {f : List (Rev ℕ) → Rev ℕ} {θ : List ℝ} {j : ℕ} {x : ℝ} (hx : θ[j]? = some x) {L : List ℝ → ℝ}
    (h : Differentiates (fun _ : Unit => (1 : ℝ)) x (proj j (f (vars θ))) fun t => L (θ.set j t)) :
    ∃ g : ℝ, (Rev.gradient f (θ.map F.fin))[j]? = some (F.fin g) ∧ PartialAt L θ j g := by
  obtain ⟨f', h1, h2⟩ := h.pulls
  refine ⟨f' 1, ?_, x, hx, h1.hasDerivAt⟩
  rw [gradient_get f θ (List.getElem?_eq_some_iff.mp hx).1]
  have := h2 1 ()
  rw [F.one_eq]
  simpa [proj] using this

/-- From differentiability in all inputs to the gradient. -/
theorem gradient_of_diff {f : List (Rev ℕ) → Rev ℕ} {n : ℕ} {v : Fin n → ℝ} {L : List ℝ → ℝ}
    (h : Differentiates (axis n) v (f (vars (List.ofFn v))) fun v => L (List.ofFn v)) :
    ∃ f' : (Fin n → ℝ) →L[ℝ] ℝ, HasFDerivAt (fun v => L (List.ofFn v)) f' v ∧
      Rev.gradient f ((List.ofFn v).map F.fin) = List.ofFn fun i => F.fin (f' (Pi.single i 1)) := by
  obtain ⟨f', h1, h2⟩ := h.pulls
  refine ⟨f', h1, ?_⟩
  apply List.ext_getElem?
  intro j
  by_cases hj : j < n
  · rw [gradient_get f _ (by simpa using hj), List.getElem?_ofFn, dif_pos hj, F.one_eq, h2, one_mul]
    congr 3
    funext i
    by_cases hi : i = ⟨j, hj⟩
    · subst hi; simp [axis]
    · have : (i : ℕ) ≠ j := fun h => hi (Fin.ext h)
      simp [axis, this, Pi.single_apply, hi]
  · rw [List.getElem?_eq_none (by rw [gradient_length]; simpa using hj), List.getElem?_eq_none (by simpa using hj)]

theorem fermat_real (E : Env) {ss : List Shape} (tx rx : Pt) {θ : List ℝ} (h : θ.length = (ss.map Shape.count).sum) :
    fermatLoss E (ss.map fun s => s.obj.interact) (V2.fin tx) (V2.fin rx) (θ.map F.fin) = F.fin (plen E.eps (ptsAt ss tx rx θ)) := by
  rw [fermatLoss, cartesian_fin ss θ tx rx h, pathLength_fin]; rfl

theorem min_real {ss : List Shape} (tx rx : Pt) {θ : List ℝ} (h : θ.length = (ss.map Shape.count).sum) :
    minLoss (ss.map fun s => s.obj.interact) (V2.fin tx) (V2.fin rx) (θ.map F.fin) = F.fin (rtotal ss (ptsAt ss tx rx θ)) := by
  rw [minLoss, cartesian_fin ss θ tx rx h, F.zero_eq, pathLoss_rtotal _ _ (by simp [place_length]), zero_add]; rfl

/-- **C107** (Fermat). The entry of a wall or RIS in the gradient of the length is NaN if a step that starts or ends at it is the opposite of the
guard, and the partial derivative of the length otherwise. -/
theorem C107_fermat (E : Env) (shapes : List Shape) (tx rx : Pt) (θ : List ℝ) (hθ : θ.length = (shapes.map Shape.count).sum)
    (os : List (Rev.RObj ℕ)) (hos : (shapes.map Shape.obj).mapM Rev.constObj = some os) (pts : List Pt) (hp : PathAt shapes tx rx θ pts)
    (L : List ℝ → ℝ) (hL : ∀ θ', θ'.length = θ.length → fermatLoss E (shapes.map fun s => s.obj.interact) (V2.fin tx) (V2.fin rx) (θ'.map F.fin) = F.fin (L θ'))
    (k j : ℕ) (hk : Owns shapes k j) :
    let g := Rev.gradient (Rev.fermatLoss E os (Rev.constV (V2.fin tx)) (Rev.constV (V2.fin rx))) (θ.map F.fin)
    (GuardStep E.eps pts k ∨ GuardStep E.eps pts (k + 1) → g[j]? = some F.nan) ∧
    (¬ GuardStep E.eps pts k → ¬ GuardStep E.eps pts (k + 1) → ∃ d : ℝ, g[j]? = some (F.fin d) ∧ PartialAt L θ j d) := by
  rw [constObjs] at hos
  cases hos
  have hp := (pathAt_iff hθ).mp hp
  subst hp
  have hj : j < θ.length := by
    obtain ⟨s, hs, hc, rfl⟩ := hk
    rw [hθ]; exact offset_lt hs hc
  have hx : θ[j]? = some θ[j] := List.getElem?_eq_getElem hj
  refine ⟨fun h => ?_, fun h1 h2 => ?_⟩
  · rw [gradient_get _ θ hj]
    congr 1
    rcases h with h | h
    · exact fermat_nan E tx rx hθ hk (.inl rfl) h _
    · exact fermat_nan E tx rx hθ hk (.inr rfl) h _
  · refine entry_of_diff hx ?_
    have hset : θ.set j θ[j] = θ := List.set_getElem_self hj
    have := fermat_diff E shapes tx rx (rs := (vars θ).map (proj j)) (by simp [vars_length, hθ]) (fs := fun t => θ.set j t) (S := (· = j))
      (input_diff θ hx) (input_dead θ j θ[j]) (fun k' j' ho hj' => by
        subst hj'
        have : k' = k := (C107_owner shapes j' (hθ ▸ hj)).unique ho hk
        subst this
        rw [hset]
        exact ⟨h1, h2⟩)
    have e : proj j (Rev.fermatLoss E (shapes.map (robj ℕ)) (Rev.constV (V2.fin tx)) (Rev.constV (V2.fin rx)) (vars θ)) =
        Rev.pathLength E (gpts Unit shapes tx rx ((vars θ).map (proj j))) := by
      rw [← proj_gpts j shapes tx rx _ (by rw [vars_length, hθ]), ← proj_pathLength]; rfl
    rw [e]
    refine this.congr (Filter.Eventually.of_forall fun t => ?_)
    have := (hL (θ.set j t) (by simp)).symm.trans (fermat_real E tx rx (by simpa using hθ))
    exact F.fin.inj this

/-- **C107** (MinPath). The entry of a wall or RIS in the gradient of the total score is NaN if a step that starts or ends at it, and that a score
looks at, has length zero, and the partial derivative of the total score otherwise. -/
theorem C107_min (shapes : List Shape) (tx rx : Pt) (θ : List ℝ) (hθ : θ.length = (shapes.map Shape.count).sum)
    (os : List (Rev.RObj ℕ)) (hos : (shapes.map Shape.obj).mapM Rev.constObj = some os) (pts : List Pt) (hp : PathAt shapes tx rx θ pts)
    (L : List ℝ → ℝ) (hL : ∀ θ', θ'.length = θ.length → minLoss (shapes.map fun s => s.obj.interact) (V2.fin tx) (V2.fin rx) (θ'.map F.fin) = F.fin (L θ'))
    (k j : ℕ) (hk : Owns shapes k j) :
    let g := Rev.gradient (Rev.minLoss os (Rev.constV (V2.fin tx)) (Rev.constV (V2.fin rx))) (θ.map F.fin)
    ((∃ m, (m = k ∨ m = k + 1) ∧ ScoredStep shapes m ∧ NullStep pts m) → g[j]? = some F.nan) ∧
    ((∀ m, m = k ∨ m = k + 1 → ScoredStep shapes m → ¬ NullStep pts m) → ∃ d : ℝ, g[j]? = some (F.fin d) ∧ PartialAt L θ j d) := by
  rw [constObjs] at hos
  cases hos
  have hp := (pathAt_iff hθ).mp hp
  subst hp
  have hj : j < θ.length := by
    obtain ⟨s, hs, hc, rfl⟩ := hk
    rw [hθ]; exact offset_lt hs hc
  have hx : θ[j]? = some θ[j] := List.getElem?_eq_getElem hj
  refine ⟨fun ⟨m, hm, hs, hn⟩ => ?_, fun h1 => ?_⟩
  · rw [gradient_get _ θ hj]
    congr 1
    exact min_nan tx rx hθ hk hm hs hn _
  · refine entry_of_diff hx ?_
    have hset : θ.set j θ[j] = θ := List.set_getElem_self hj
    have := min_diff shapes tx rx (rs := (vars θ).map (proj j)) (by simp [vars_length, hθ]) (fs := fun t => θ.set j t) (S := (· = j))
      (input_diff θ hx) (input_dead θ j θ[j]) (fun k' j' ho hj' => by
        subst hj'
        have : k' = k := (C107_owner shapes j' (hθ ▸ hj)).unique ho hk
        subst this
        rw [hset]
        exact h1)
    have e : proj j (Rev.minLoss (shapes.map (robj ℕ)) (Rev.constV (V2.fin tx)) (Rev.constV (V2.fin rx)) (vars θ)) =
        Rev.totalScore (.const 0) (shapes.map (robj Unit)) (gpts Unit shapes tx rx ((vars θ).map (proj j))) := by
      rw [← proj_gpts j shapes tx rx _ (by rw [vars_length, hθ])]
      exact proj_totalScore j shapes _ _
    rw [e]
    refine this.congr (Filter.Eventually.of_forall fun t => ?_)
    have := (hL (θ.set j t) (by simp)).symm.trans (min_real tx rx (by simpa using hθ))
    exact F.fin.inj this

/-- **C107** (Fermat, whole gradient). Away from the guard, the length is differentiable in all the parameters together and the gradient is its
gradient. -/
theorem C107_fermat_gradient (E : Env) (shapes : List Shape) (tx rx : Pt) (n : ℕ) (hn : n = (shapes.map Shape.count).sum) (v : Fin n → ℝ)
    (os : List (Rev.RObj ℕ)) (hos : (shapes.map Shape.obj).mapM Rev.constObj = some os) (pts : List Pt) (hp : PathAt shapes tx rx (List.ofFn v) pts)
    (L : List ℝ → ℝ) (hL : ∀ θ, θ.length = n → fermatLoss E (shapes.map fun s => s.obj.interact) (V2.fin tx) (V2.fin rx) (θ.map F.fin) = F.fin (L θ))
    (hg : ∀ k j, Owns shapes k j → ¬ GuardStep E.eps pts k ∧ ¬ GuardStep E.eps pts (k + 1)) :
    ∃ f' : (Fin n → ℝ) →L[ℝ] ℝ, HasFDerivAt (fun v => L (List.ofFn v)) f' v ∧
      Rev.gradient (Rev.fermatLoss E os (Rev.constV (V2.fin tx)) (Rev.constV (V2.fin rx))) ((List.ofFn v).map F.fin) =
        List.ofFn fun i => F.fin (f' (Pi.single i 1)) := by
  rw [constObjs] at hos
  cases hos
  have hp := (pathAt_iff (by simpa using hn)).mp hp
  subst hp
  refine gradient_of_diff ?_
  have := fermat_diff E shapes tx rx (rs := vars (List.ofFn v)) (by simp [vars_length, hn]) (fs := fun v : Fin n → ℝ => List.ofFn v) (S := fun _ => True)
    (x0 := v) (axes_diff v) (fun m r _ => .inl trivial) fun k j ho _ => hg k j ho
  refine this.congr (Filter.Eventually.of_forall fun w => ?_)
  exact F.fin.inj ((hL (List.ofFn w) (by simp)).symm.trans (fermat_real E tx rx (by simpa using hn)))

/-- **C107** (MinPath, whole gradient). -/
theorem C107_min_gradient (shapes : List Shape) (tx rx : Pt) (n : ℕ) (hn : n = (shapes.map Shape.count).sum) (v : Fin n → ℝ)
    (os : List (Rev.RObj ℕ)) (hos : (shapes.map Shape.obj).mapM Rev.constObj = some os) (pts : List Pt) (hp : PathAt shapes tx rx (List.ofFn v) pts)
    (L : List ℝ → ℝ) (hL : ∀ θ, θ.length = n → minLoss (shapes.map fun s => s.obj.interact) (V2.fin tx) (V2.fin rx) (θ.map F.fin) = F.fin (L θ))
    (hg : ∀ k j, Owns shapes k j → ∀ m, m = k ∨ m = k + 1 → ScoredStep shapes m → ¬ NullStep pts m) :
    ∃ f' : (Fin n → ℝ) →L[ℝ] ℝ, HasFDerivAt (fun v => L (List.ofFn v)) f' v ∧
      Rev.gradient (Rev.minLoss os (Rev.constV (V2.fin tx)) (Rev.constV (V2.fin rx))) ((List.ofFn v).map F.fin) =
        List.ofFn fun i => F.fin (f' (Pi.single i 1)) := by
  rw [constObjs] at hos
  cases hos
  have hp := (pathAt_iff (by simpa using hn)).mp hp
  subst hp
  refine gradient_of_diff ?_
  have := min_diff shapes tx rx (rs := vars (List.ofFn v)) (by simp [vars_length, hn]) (fs := fun v : Fin n → ℝ => List.ofFn v) (S := fun _ => True)
    (x0 := v) (axes_diff v) (fun m r _ => .inl trivial) fun k j ho _ => hg k j ho
  refine this.congr (Filter.Eventually.of_forall fun w => ?_)
  exact F.fin.inj ((hL (List.ofFn w) (by simp)).symm.trans (min_real tx rx (by simpa using hn)))

/-! ### The values -/

theorem slice_map {α β : Type} (f : α → β) (l : List α) (j n : ℕ) : (dynamicSlice l j n).map f = dynamicSlice (l.map f) j n := by
  simp [dynamicSlice, List.map_take, List.map_drop]

theorem constObj_count {ι : Type} {o : Obj} {r : Rev.RObj ι} (h : Rev.constObj o = some r) : r.paramCount = o.interact.paramCount := by
  cases o <;> simp [Rev.constObj] at h <;> subst h <;> rfl

theorem constObj_toCart {ι : Type} {o : Obj} {r : Rev.RObj ι} (h : Rev.constObj o = some r) (ps : List (Rev ι)) :
    Rev.valV (r.toCart ps) = o.interact.toCart (ps.map Rev.val) := by
  cases o <;> simp [Rev.constObj] at h <;> subst h <;> cases ps <;> rfl

theorem constObj_evaluate {ι : Type} {o : Obj} {r : Rev.RObj ι} (h : Rev.constObj o = some r) (a b c : V2 (Rev ι)) :
    (r.evaluate a b c).val = o.interact.evaluate (Rev.valV a) (Rev.valV b) (Rev.valV c) := by
  cases o <;> simp [Rev.constObj] at h <;> subst h <;> rfl

theorem mapM_constObj {ι : Type} {objects : List Obj} {os : List (Rev.RObj ι)} (h : objects.mapM Rev.constObj = some os) :
    List.Forall₂ (fun o r => Rev.constObj o = some r) objects os := by
  induction objects generalizing os with
  | nil => simp at h; subst h; exact .nil
  | cons o objects ih =>
    simp only [List.mapM_cons, Option.bind_eq_bind, Option.bind_eq_some_iff, Option.pure_def, Option.some.injEq] at h
    obtain ⟨r, h1, rs, h2, rfl⟩ := h
    exact .cons h1 (ih h2)

theorem val_toCartesian {ι : Type} {objects : List Obj} {os : List (Rev.RObj ι)} (h : List.Forall₂ (fun o r => Rev.constObj o = some r) objects os)
    (rs : List (Rev ι)) (j : ℕ) : (Rev.toCartesianFrom rs j os).map Rev.valV = toCartesianFrom (rs.map Rev.val) j (objects.map Obj.interact) := by
  induction h generalizing j with
  | nil => rfl
  | cons h1 h2 ih =>
    simp only [Rev.toCartesianFrom, List.map_cons, toCartesianFrom, constObj_toCart h1, slice_map, constObj_count h1, ih]

theorem val_totalScore {ι : Type} {objects : List Obj} {os : List (Rev.RObj ι)} (h : List.Forall₂ (fun o r => Rev.constObj o = some r) objects os)
    (l : Rev ι) (ps : List (V2 (Rev ι))) : (Rev.totalScore l os ps).val = pathLoss l.val (objects.map Obj.interact) (ps.map Rev.valV) := by
  induction h generalizing l ps with
  | nil => rfl
  | @cons o r _ _ h1 h2 ih =>
    match ps with
    | a :: b :: c :: ps =>
      have := ih (l + r.evaluate a b c) (b :: c :: ps)
      simp only [Rev.totalScore, List.map_cons, pathLoss] at this ⊢
      rw [this, Rev.val_add, constObj_evaluate h1]
    | [] => rfl
    | [_] => rfl
    | [_, _] => rfl

theorem zipIdx_vals (x : List F) : (x.zipIdx.map fun p => (Rev.var p.1 p.2 : Rev ℕ)).map Rev.val = x := by
  rw [List.map_map]
  apply List.ext_getElem?
  intro m
  simp only [List.getElem?_map, List.getElem?_zipIdx]
  cases x[m]? <;> simp [Rev.var]

/-- **C107** (value). The differentiated programs compute the objectives, for all objects of the library and all vectors (NaN included). -/
theorem C107_value (E : Env) (objects : List Obj) (os : List (Rev.RObj ℕ)) (hos : objects.mapM Rev.constObj = some os) (tx rx : V2 F) (x : List F) :
    (Rev.fermatLoss E os (Rev.constV tx) (Rev.constV rx) (x.zipIdx.map fun p => .var p.1 p.2)).val = fermatLoss E (objects.map Obj.interact) tx rx x ∧
    (Rev.minLoss os (Rev.constV tx) (Rev.constV rx) (x.zipIdx.map fun p => .var p.1 p.2)).val = minLoss (objects.map Obj.interact) tx rx x := by
  have h := mapM_constObj hos
  have e : (Rev.parametricToCartesian os (x.zipIdx.map fun p => .var p.1 p.2) (Rev.constV tx) (Rev.constV rx)).map Rev.valV =
      parametricToCartesian (objects.map Obj.interact) x tx rx := by
    simp only [Rev.parametricToCartesian, parametricToCartesian, List.map_cons, List.map_append, val_toCartesian h, zipIdx_vals, List.cons_append, List.map_nil]
    rfl
  refine ⟨?_, ?_⟩
  · rw [Rev.fermatLoss, Rev.val_pathLength, e]; rfl
  · rw [Rev.minLoss, val_totalScore h, e]; rfl

/-- There is a path for every vector of parameters. -/
theorem C107_path (shapes : List Shape) (tx rx : Pt) (θ : List ℝ) (hθ : θ.length = (shapes.map Shape.count).sum) : ∃! pts, PathAt shapes tx rx θ pts :=
  ⟨_, (pathAt_iff hθ).mpr rfl, fun _ h => (pathAt_iff hθ).mp h⟩

/-! ### Examples -/

/-- One wall, at its middle: no step is singular, and the hypotheses hold. -/
example : Owns [.wall ⟨0, 0⟩ ⟨2, 0⟩] 0 0 ∧ PathAt [.wall ⟨0, 0⟩ ⟨2, 0⟩] ⟨0, 1⟩ ⟨2, 3⟩ [1 / 2] [⟨0, 1⟩, ⟨1, 0⟩, ⟨2, 3⟩] ∧
    (∀ k, ¬ NullStep [⟨0, 1⟩, ⟨1, 0⟩, ⟨2, 3⟩] k) ∧ ∀ eps : ℝ, 0 ≤ eps → eps < 1 → ∀ k, ¬ GuardStep eps [⟨0, 1⟩, ⟨1, 0⟩, ⟨2, 3⟩] k := by
  refine ⟨⟨_, rfl, rfl, rfl⟩, ?_, ?_, ?_⟩
  · rw [pathAt_iff (by rfl)]
    simp [ptsAt, place, pointAt]
  · rintro (_ | _ | _ | k) ⟨a, h1, h2⟩ <;> simp at h1 h2
    · subst h1; norm_num at h2
    · subst h1; norm_num at h2
  · rintro eps h0 h (_ | _ | _ | k) ⟨a, b, h1, h2, h3⟩ <;> simp at h1 h2
    · subst h1 h2; have := congrArg V2.x h3; simp at this; linarith
    · subst h1 h2; have := congrArg V2.x h3; simp at this; linarith

/-- Two walls with a common corner, met there both times: the step between them is null, and both scores look at it. -/
example : let ss : List Shape := [.wall ⟨0, 0⟩ ⟨2, 0⟩, .wall ⟨0, 0⟩ ⟨0, 2⟩]
    PathAt ss ⟨1, 1⟩ ⟨2, 3⟩ [0, 0] [⟨1, 1⟩, ⟨0, 0⟩, ⟨0, 0⟩, ⟨2, 3⟩] ∧ Owns ss 1 1 ∧ ScoredStep ss 1 ∧ NullStep [⟨1, 1⟩, ⟨0, 0⟩, ⟨0, 0⟩, ⟨2, 3⟩] 1 := by
  refine ⟨?_, ⟨_, rfl, rfl, rfl⟩, .inl ⟨_, _, rfl⟩, ⟨_, rfl, rfl⟩⟩
  rw [pathAt_iff (by rfl)]
  simp [ptsAt, place, pointAt]

end DiffeRT2d.Props
