import Verif.Lemmas.Objectives
import Verif.Props.ImagePath
import Verif.Props.Tracing
import Verif.Props.Length
import Verif.Props.Optimize

/-! # Properties C41, C42, C71: the objectives of `FermatPath` and `MinPath`, the loss of a path -/

namespace DiffeRT2d.Props
open Classical Spec

/-! ## C41 — the Fermat objective is convex -/

/-- The objective of `FermatPath` as a real function of the parameter vector. -/
noncomputable def fermatReal (E : Env) (shapes : List Shape) (tx rx : Pt) (θ : List ℝ) : ℝ :=
  plen E.eps (tx :: place shapes θ ++ [rx])

theorem fermatLoss_fin (E : Env) (shapes : List Shape) (tx rx : Pt) (θ : List ℝ)
    (h : θ.length = (shapes.map Shape.count).sum) :
    fermatLoss E (shapes.map fun s => s.obj.interact) (V2.fin tx) (V2.fin rx) (θ.map F.fin) =
      F.fin (fermatReal E shapes tx rx θ) := by
  rw [fermatLoss, cartesian_fin _ _ _ _ h, pathLength_fin]; rfl

/-- Convexity: on the parameter vectors of the right size, the objective is finite, and its value at a
convex combination is at most the convex combination of its values. -/
theorem C41_convex (E : Env) (shapes : List Shape) (tx rx : Pt) (θ₁ θ₂ : List ℝ) (t : ℝ)
    (h₁ : θ₁.length = (shapes.map Shape.count).sum) (h₂ : θ₂.length = (shapes.map Shape.count).sum)
    (h0 : 0 ≤ t) (h1 : t ≤ 1) :
    ∃ l₁ l₂ l : ℝ,
      fermatLoss E (shapes.map fun s => s.obj.interact) (V2.fin tx) (V2.fin rx) (θ₁.map F.fin) = F.fin l₁ ∧
      fermatLoss E (shapes.map fun s => s.obj.interact) (V2.fin tx) (V2.fin rx) (θ₂.map F.fin) = F.fin l₂ ∧
      fermatLoss E (shapes.map fun s => s.obj.interact) (V2.fin tx) (V2.fin rx)
        ((mixture t θ₁ θ₂).map F.fin) = F.fin l ∧
      l ≤ (1 - t) * l₁ + t * l₂ := by
  have hm : (mixture t θ₁ θ₂).length = (shapes.map Shape.count).sum := by simp [mixture, h₁, h₂]
  refine ⟨_, _, _, fermatLoss_fin E shapes tx rx θ₁ h₁, fermatLoss_fin E shapes tx rx θ₂ h₂,
    fermatLoss_fin E shapes tx rx _ hm, ?_⟩
  unfold fermatReal
  rw [place_mixture t _ _ _ h₁ h₂]
  have e : tx :: List.zipWith (mixPt t) (place shapes θ₁) (place shapes θ₂) ++ [rx] =
      List.zipWith (mixPt t) (tx :: place shapes θ₁ ++ [rx]) (tx :: place shapes θ₂ ++ [rx]) := by
    have hself : ∀ p : Pt, mixPt t p p = p := by intro p; ext <;> simp only [mixPt] <;> ring
    rw [List.cons_append, List.cons_append, List.cons_append, List.zipWith_cons_cons, hself,
      List.zipWith_append (by simp [place_length])]
    simp [hself]
  rw [e]
  exact plen_convex _ h0 h1 _ _ (by simp [place_length])

/-- Non-vacuity: a wall, a vertex and a wall have two parameters. -/
example (E : Env) (tx rx : Pt) := C41_convex E [.wall ⟨0, 0⟩ ⟨3, 0⟩, .vertex ⟨5, 5⟩, .wall ⟨0, 9⟩ ⟨3, 9⟩] tx rx [0, 1] [1, 7] (1 / 3) rfl rfl
  (by norm_num) (by norm_num)

/-- Every local minimum of the objective is a global minimum. -/
theorem C41_local_global (E : Env) (shapes : List Shape) (tx rx : Pt) (L : List ℝ → ℝ)
    (hL : ∀ θ : List ℝ, θ.length = (shapes.map Shape.count).sum →
      fermatLoss E (shapes.map fun s => s.obj.interact) (V2.fin tx) (V2.fin rx) (θ.map F.fin) = F.fin (L θ))
    (θ : List ℝ) (hθ : θ.length = (shapes.map Shape.count).sum) (ε : ℝ) (hε : 0 < ε)
    (hloc : ∀ θ' : List ℝ, θ'.length = θ.length →
      (∀ (i : ℕ) (a b : ℝ), θ[i]? = some a → θ'[i]? = some b → |b - a| ≤ ε) → L θ ≤ L θ')
    (θ' : List ℝ) (hθ' : θ'.length = θ.length) : L θ ≤ L θ' := by
  -- a bound on the coordinate differences
  obtain ⟨B, hB0, hB⟩ : ∃ B : ℝ, 0 < B ∧ ∀ (i : ℕ) (a b : ℝ), θ[i]? = some a → θ'[i]? = some b → |b - a| ≤ B := by
    clear hloc hL hθ
    induction θ generalizing θ' with
    | nil => exact ⟨1, one_pos, by simp⟩
    | cons x θ ih =>
      cases θ' with
      | nil => simp at hθ'
      | cons y θ' =>
        obtain ⟨B, h1, h2⟩ := ih θ' (by simpa using hθ')
        refine ⟨max B |y - x|, lt_max_of_lt_left h1, ?_⟩
        intro i a b ha hb
        cases i with
        | zero => simp at ha hb; subst ha hb; exact le_max_right _ _
        | succ i => simp at ha hb; exact (h2 i a b ha hb).trans (le_max_left _ _)
  let t : ℝ := min 1 (ε / B)
  have ht0 : 0 < t := lt_min one_pos (div_pos hε hB0)
  have ht1 : t ≤ 1 := min_le_left _ _
  have htB : t * B ≤ ε := by
    calc t * B ≤ ε / B * B := by gcongr; exact min_le_right _ _
      _ = ε := div_mul_cancel₀ _ hB0.ne'
  have hm : (mixture t θ θ').length = θ.length := by simp [mixture, hθ']
  have h1 := hloc (mixture t θ θ') hm (by
    intro i a b ha hb
    simp only [mixture, List.getElem?_zipWith, ha] at hb
    cases hc : θ'[i]? with
    | none => simp [hc] at hb
    | some c =>
      simp only [hc, Option.some.injEq] at hb
      subst hb
      have : (1 - t) * a + t * c - a = t * (c - a) := by ring
      rw [this, abs_mul, abs_of_pos ht0]
      exact (mul_le_mul_of_nonneg_left (hB i a c ha hc) ht0.le).trans htB)
  obtain ⟨l₁, l₂, l, e1, e2, e3, hle⟩ := C41_convex E shapes tx rx θ θ' t hθ (hθ'.trans hθ) ht0.le ht1
  rw [hL _ hθ, F.fin_inj] at e1
  rw [hL _ (hθ'.trans hθ), F.fin_inj] at e2
  rw [hL _ (hm.trans hθ), F.fin_inj] at e3
  subst e1 e2 e3
  nlinarith

/-- Non-vacuity: without unknowns, every vector is a local minimum. -/
example (E : Env) (tx rx v : Pt) : fermatReal E [.vertex v] tx rx [] ≤ fermatReal E [.vertex v] tx rx [] :=
  C41_local_global E [.vertex v] tx rx (fermatReal E [.vertex v] tx rx) (fun θ hθ => fermatLoss_fin E [.vertex v] tx rx θ hθ) [] rfl 1 one_pos
    (fun θ' h _ => by rw [List.length_eq_zero_iff.1 h]) [] rfl

/-- The objective is never below the direct distance, up to the `eps` error. -/
theorem C41_lower_bound (E : Env) (shapes : List Shape) (tx rx : Pt) (θ : List ℝ)
    (h : θ.length = (shapes.map Shape.count).sum) :
    ∃ l : ℝ, fermatLoss E (shapes.map fun s => s.obj.interact) (V2.fin tx) (V2.fin rx) (θ.map F.fin) = F.fin l ∧
      eucl tx rx - (shapes.length + 1) * (Real.sqrt 2 * |E.eps|) ≤ l := by
  obtain ⟨L, h1, h2⟩ := C13_straight E tx (place shapes θ ++ [rx])
  refine ⟨L, ?_, ?_⟩
  · rw [fermatLoss, cartesian_fin _ _ _ _ h]; exact h1
  · simpa [place_length] using h2

/-- Non-vacuity: a path over two walls. -/
example (E : Env) (tx rx : Pt) := C41_lower_bound E [.wall ⟨0, 0⟩ ⟨3, 0⟩, .wall ⟨0, 9⟩ ⟨3, 9⟩] tx rx [1 / 3, 2] rfl

theorem place_walls {ws : List (Pt × Pt)} {inner : List Pt}
    (h : List.Forall₂ (fun w p => OnLine w.1 w.2 p) ws inner) (hnd : ∀ w ∈ ws, w.1 ≠ w.2) :
    place (ws.map fun w => Shape.wall w.1 w.2) (List.zipWith (fun w p => rpar w.1 w.2 p) ws inner) = inner := by
  induction h with
  | nil => rfl
  | @cons w p ws ps hw _ ih =>
    obtain ⟨s, rfl⟩ := hw
    have hne := hnd w (by simp)
    simp only [List.map_cons, List.zipWith_cons_cons, place, List.headD_cons, List.tail_cons,
      rpar_pointAt hne, ih (fun w hw => hnd w (by simp [hw]))]

theorem walls_count (ws : List (Pt × Pt)) :
    ((ws.map fun w => Shape.wall w.1 w.2).map Shape.count).sum = ws.length := by
  induction ws with
  | nil => rfl
  | cons w ws ih => simp only [List.map_cons, List.sum_cons, ih, Shape.count, List.length_cons]; omega

theorem place_on (ws : List (Pt × Pt)) (θ : List ℝ) (h : θ.length = ws.length) :
    List.Forall₂ (fun w p => OnLine w.1 w.2 p) ws (place (ws.map fun w => Shape.wall w.1 w.2) θ) := by
  induction ws generalizing θ with
  | nil => exact .nil
  | cons w ws ih =>
    cases θ with
    | nil => simp at h
    | cons a θ => exact .cons ⟨a, rfl⟩ (ih θ (by simpa using h))

/-- Where the image method finds a proper path (loss below 1), its parameters minimize the Fermat
objective: exactly in exact arithmetic, and up to the `eps` error in general. -/
theorem C41_image_minimizes (E : Env) (tx rx : Pt) (ws : List (Pt × Pt)) (inner : List Pt) (loss : ℝ)
    (h : traceImage tx ws rx = .ok (finitePath (tx :: inner ++ [rx]) loss)) (hnd : ∀ w ∈ ws, w.1 ≠ w.2)
    (hl : loss < 1) :
    ∃ θ₀ : List ℝ, θ₀.length = ws.length ∧
      (∀ (i : ℕ) (w : Pt × Pt) (p : Pt), ws[i]? = some w → inner[i]? = some p → ∃ s, θ₀[i]? = some s ∧ p = pointAt w.1 w.2 s) ∧
      ∀ θ : List ℝ, θ.length = ws.length → ∃ l₀ l : ℝ,
        fermatLoss E ((wallsOf ws).map Obj.interact) (V2.fin tx) (V2.fin rx) (θ₀.map F.fin) = F.fin l₀ ∧
        fermatLoss E ((wallsOf ws).map Obj.interact) (V2.fin tx) (V2.fin rx) (θ.map F.fin) = F.fin l ∧
        l₀ ≤ l + 2 * ((ws.length + 1) * (Real.sqrt 2 * |E.eps|)) := by
  have hon := C30_on_lines tx rx ws inner loss h hnd hl
  obtain ⟨imgs, himgs⟩ := mirrorChain_exists tx ws hnd
  have hmin := (C32_minimal tx rx ws _ imgs loss h hnd himgs hl).2
  have hobj : (wallsOf ws).map Obj.interact =
      (ws.map fun w => Shape.wall w.1 w.2).map fun s => s.obj.interact := by
    simp [wallsOf, Shape.obj]
  have hlen := hon.length_eq
  refine ⟨List.zipWith (fun w p => rpar w.1 w.2 p) ws inner, by simp [hlen], ?_, ?_⟩
  · clear h hmin hlen hobj
    intro i w p hw hp
    obtain ⟨h1, rfl⟩ := List.getElem?_eq_some_iff.mp hw
    obtain ⟨h2, rfl⟩ := List.getElem?_eq_some_iff.mp hp
    obtain ⟨s, hs⟩ := (List.forall₂_iff_get.mp hon).2 i h1 h2
    simp only [List.get_eq_getElem] at hs
    refine ⟨s, ?_, hs⟩
    rw [List.getElem?_eq_getElem (by simp; omega), List.getElem_zipWith, hs, rpar_pointAt (hnd _ (List.getElem_mem h1))]
  · intro θ hθ
    rw [hobj]
    refine ⟨_, _, fermatLoss_fin E _ tx rx _ ?_, fermatLoss_fin E _ tx rx θ ?_, ?_⟩
    · rw [walls_count]; simp [hlen]
    · rw [walls_count, hθ]
    · unfold fermatReal
      rw [place_walls hon hnd]
      have hq := hmin _ (place_on ws θ hθ)
      have a1 := abs_le.mp (plen_approx E.eps (tx :: inner ++ [rx]))
      have a2 := abs_le.mp (plen_approx E.eps (tx :: place (ws.map fun w => Shape.wall w.1 w.2) θ ++ [rx]))
      simp only [List.cons_append, List.length_cons, List.length_append, List.length_nil, Nat.add_sub_cancel,
        place_length, List.length_map, ← hlen, Nat.cast_add, Nat.cast_one, Nat.cast_zero, zero_add] at a1 a2 hq ⊢
      linarith

/-- Non-vacuity: the reflection of `example_reflection`. -/
example : ∃ θ₀ : List ℝ, θ₀.length = 1 := by
  obtain ⟨θ₀, h, -⟩ := C41_image_minimizes ⟨false, 0⟩ ⟨0, 1⟩ ⟨2, 1⟩ [(⟨0, 0⟩, ⟨3, 0⟩)] [⟨1, 0⟩] 0
    example_reflection (by
      intro w hw e
      simp at hw; subst hw
      have := congrArg V2.x e; norm_num at this) (by norm_num)
  exact ⟨θ₀, h⟩

/-! ## C42 — the objective of `MinPath` -/

theorem evaluate_nonneg (s : Shape) (a b c : Pt) :
    ∃ l : ℝ, s.obj.interact.evaluate (V2.fin a) (V2.fin b) (V2.fin c) = F.fin l ∧ 0 ≤ l := by
  cases s with
  | wall o d =>
    refine ⟨_, evaluate_fin o d a b c, ?_⟩
    unfold reval
    simp only [dp]
    nlinarith [mul_self_nonneg ((unit (c - b) - (unit (b - a) - V2.smul (2 * dp (unit (b - a)) (rn o d)) (rn o d))).x),
      mul_self_nonneg ((unit (c - b) - (unit (b - a) - V2.smul (2 * dp (unit (b - a)) (rn o d)) (rn o d))).y)]
  | ris o d φ =>
    simp only [Shape.obj, Obj.interact, RIS.interact, RIS.evaluate, RIS.sq, normal_fin, V2.fin_sub, normalize_fin,
      F.sin, F.cos]
    simp only [V2.cross, V2.dot, V2.neg_x, V2.neg_y, V2.fin, F.fin_neg, F.fin_mul, F.fin_sub, F.fin_add]
    exact ⟨_, rfl, add_nonneg (mul_self_nonneg _) (mul_self_nonneg _)⟩
  | vertex p => exact ⟨0, F.zero_eq, le_rfl⟩

theorem evals_nonneg (ss : List Shape) (pts : List Pt) :
    ∃ l : ℝ, F.sum (evals (ss.map fun s => s.obj.interact) (pts.map V2.fin)) = F.fin l ∧ 0 ≤ l := by
  induction ss generalizing pts with
  | nil => exact ⟨0, by simp [evals, F.sum_nil], le_rfl⟩
  | cons s ss ih =>
    match pts with
    | a :: b :: c :: pts =>
      obtain ⟨l, h1, h2⟩ := ih (b :: c :: pts)
      obtain ⟨m, h3, h4⟩ := evaluate_nonneg s a b c
      simp only [List.map_cons, evals, F.sum_cons] at h1 ⊢
      rw [h1, h3, F.fin_add]
      exact ⟨_, rfl, add_nonneg h4 h2⟩
    | [] => exact ⟨0, rfl, le_rfl⟩
    | [_] => exact ⟨0, rfl, le_rfl⟩
    | [_, _] => exact ⟨0, rfl, le_rfl⟩

/-- The objective of `MinPath` is finite and nonnegative at every finite parameter vector, for any mix of
walls, RISs and vertices. -/
theorem C42_nonneg (shapes : List Shape) (tx rx : Pt) (θ : List ℝ)
    (h : θ.length = (shapes.map Shape.count).sum) :
    ∃ l : ℝ, minLoss (shapes.map fun s => s.obj.interact) (V2.fin tx) (V2.fin rx) (θ.map F.fin) = F.fin l ∧ 0 ≤ l := by
  rw [minLoss, cartesian_fin _ _ _ _ h, pathLoss_eq _ _ _ (by simp [place_length]), F.zero_eq, F.zero_add']
  exact evals_nonneg _ _

/-- Non-vacuity: a path over a wall and a vertex. -/
example (tx rx : Pt) := C42_nonneg [.wall ⟨0, 0⟩ ⟨3, 0⟩, .vertex ⟨0, 9⟩] tx rx [2] rfl

/-- Where the image method finds a proper path (loss below 1), the objective vanishes at the parameters of
the interaction points (so they are a global minimum). -/
theorem C42_zero (tx rx : Pt) (ws : List (Pt × Pt)) (inner : List Pt) (loss : ℝ)
    (h : traceImage tx ws rx = .ok (finitePath (tx :: inner ++ [rx]) loss)) (hnd : ∀ w ∈ ws, w.1 ≠ w.2)
    (hl : loss < 1) :
    minLoss ((wallsOf ws).map Obj.interact) (V2.fin tx) (V2.fin rx)
      (List.zipWith (fun w p => (Wall.ofPts w.1 w.2).toParam (V2.fin p)) ws inner) = 0 := by
  have hon := C30_on_lines tx rx ws inner loss h hnd hl
  have hobj : (wallsOf ws).map Obj.interact =
      (ws.map fun w => Shape.wall w.1 w.2).map fun s => s.obj.interact := by
    simp [wallsOf, Shape.obj]
  have hobj' : (wallsOf ws).map Obj.interact = (mkWalls ws).map Wall.interact := by
    simp [wallsOf, mkWalls, Obj.interact]
  have hlen := hon.length_eq
  have hθ : List.zipWith (fun w p => (Wall.ofPts w.1 w.2).toParam (V2.fin p)) ws inner =
      (List.zipWith (fun w p => rpar w.1 w.2 p) ws inner).map F.fin := by
    rw [List.map_zipWith]
    simp only [toParam_fin]
  rw [minLoss, hθ, hobj, cartesian_fin _ _ _ _ (by rw [walls_count]; simp [hlen]), place_walls hon hnd, ← hobj, hobj',
    F.zero_eq, pathLoss_fin _ _ _ (by simp [hlen])]
  have hl0 := (C31_threshold tx rx ws _ loss 1 h one_pos le_rfl).mp hl
  have h2 := (traceImage_iff h).2
  rw [zero_add, ← h2, hl0]

/-- Non-vacuity: one reflection. -/
example := C42_zero ⟨0, 1⟩ ⟨2, 1⟩ [(⟨0, 0⟩, ⟨3, 0⟩)] [⟨1, 0⟩] 0 example_reflection (by simp) (by norm_num)

/-- Non-vacuity: the reflection of `example_reflection` has the parameter 1/3. -/
theorem example_min : minLoss [(Wall.ofPts ⟨0, 0⟩ ⟨3, 0⟩).interact] (V2.fin ⟨0, 1⟩) (V2.fin ⟨2, 1⟩) [F.fin (1 / 3)] = 0 := by
  have := C42_zero ⟨0, 1⟩ ⟨2, 1⟩ [(⟨0, 0⟩, ⟨3, 0⟩)] [⟨1, 0⟩] 0 example_reflection (by
      intro w hw e
      simp at hw; subst hw
      have := congrArg V2.x e; norm_num at this) (by norm_num)
  simp only [wallsOf, List.map_cons, List.map_nil, Obj.interact, List.zipWith_cons_cons, List.zipWith_nil_right,
    toParam_fin] at this
  have e : rpar ⟨0, 0⟩ ⟨3, 0⟩ ⟨1, 0⟩ = 1 / 3 := by
    have := rpar_pointAt (o := ⟨0, 0⟩) (d := ⟨3, 0⟩) (by
      intro e; have := congrArg V2.x e; norm_num at this) (1 / 3)
    rw [← this]; congr 1; ext <;> norm_num [pointAt]
  rwa [e] at this

/-! ## C71 — the loss of a path is the total score of its own points -/

theorem C71_image (tx rx : V2 F) (objects : List Obj) (p : Path)
    (h : ImagePath.fromTxObjectsRx tx objects rx = .ok p) :
    TotalScore (objects.map Obj.interact) p.xys p.loss := by
  obtain ⟨inner, h1, h2, -⟩ := C28_image tx rx objects p h
  unfold ImagePath.fromTxObjectsRx at h
  cases objects with
  | nil =>
    simp only [Except.ok.injEq] at h; subst h
    exact ⟨[], rfl, by simp [F.sum_nil], by simp⟩
  | cons o os =>
    simp only at h
    split at h
    · split at h
      · simp only [Except.ok.injEq] at h
        have hl : p.loss = pathLoss 0 ((o :: os).map Obj.interact) p.xys := by rw [← h]; rfl
        rw [hl]
        apply totalScore_pathLoss
        rw [h1]; simp [h2]
      · simp at h
    · simp at h

/-- Non-vacuity: one reflection. -/
example := C71_image (V2.fin ⟨0, 1⟩) (V2.fin ⟨2, 1⟩) (wallsOf [(⟨0, 0⟩, ⟨3, 0⟩)]) _ example_reflection

theorem C71_fermat {Key : Type} (E : Env) (M : Minimizer Key) (many : ℕ) (tx rx : V2 F)
    (objects : List Interactable) (key : Key) (p : Path)
    (h : FermatPath.fromTxObjectsRx E M tx objects rx key many = .ok p) :
    TotalScore objects p.xys p.loss := by
  unfold FermatPath.fromTxObjectsRx at h
  split at h
  · rename_i h0
    simp only [Except.ok.injEq] at h; subst h
    rw [List.length_eq_zero_iff.mp h0]
    exact ⟨[], rfl, by simp [F.sum_nil], by simp⟩
  · cases hm : minimizeManyRandomUniform M (fermatLoss E objects tx rx) key (nUnknowns objects) many with
    | error e => rw [hm] at h; simp [bind, Except.bind] at h
    | ok r =>
      rw [hm] at h
      simp only [bind, Except.bind, pure, Except.pure, Except.ok.injEq] at h
      subst h
      apply totalScore_pathLoss
      simp [parametricToCartesian, toCartesianFrom_length]

/-- Non-vacuity: the default optimizer with a given gradient. -/
example (E : Env) (tx rx : V2 F) (w : Wall) : True := by
  obtain ⟨p, s, h, -⟩ := C29_fermat E (exampleMinimizer 100) 10 exampleMinimizer_shaped tx rx [w.interact] ()
  have := C71_fermat E _ _ tx rx _ _ p h
  trivial

/-- For `MinPath` the loss is the total score *one optimizer update earlier*; it is the total score of the
returned points when the last update changed nothing. -/
theorem C71_min_partial {Key : Type} (M : Minimizer Key) (tx rx : V2 F) (objects : List Interactable)
    (key : Key) (hs : 1 ≤ M.steps) (hne : objects ≠ []) (xs : ℕ → List F) (sts : ℕ → M.optimizer.State)
    (hr : Run M (minLoss objects tx rx) (M.uniform key (nUnknowns objects)) M.steps xs sts) :
    ∃ p, MinPath.fromTxObjectsRx M tx objects rx key = .ok p ∧
      p.xys = parametricToCartesian objects (xs M.steps) tx rx ∧
      TotalScore objects (parametricToCartesian objects (xs (M.steps - 1)) tx rx) p.loss ∧
      (xs M.steps = xs (M.steps - 1) → TotalScore objects p.xys p.loss) := by
  obtain ⟨xs', sts', hr', hm⟩ := C44_steps M (minLoss objects tx rx) (M.uniform key (nUnknowns objects)) hs
  have e1 := (C44_deterministic M _ _ _ _ _ _ _ hr hr' M.steps le_rfl).1
  have e2 := (C44_deterministic M _ _ _ _ _ _ _ hr hr' (M.steps - 1) (by omega)).1
  rw [← e1, ← e2] at hm
  have ht : TotalScore objects (parametricToCartesian objects (xs (M.steps - 1)) tx rx)
      (minLoss objects tx rx (xs (M.steps - 1))) :=
    totalScore_pathLoss _ _ (by simp [parametricToCartesian, toCartesianFrom_length])
  refine ⟨⟨_, minLoss objects tx rx (xs (M.steps - 1))⟩, ?_, rfl, ht, ?_⟩
  · unfold MinPath.fromTxObjectsRx
    rw [if_neg (by simpa using hne), C45_single, hm]
    rfl
  · intro e; simp only [e]; exact ht

/-- The claim fails for `MinPath`: a single step of an optimizer that moves every parameter by 1/3, from a
random guess that happens to be the exact reflection point, returns a point of the wall that is not
a reflection point, together with loss 0. -/
theorem C71_min_refuted :
    ∃ (M : Minimizer Unit) (tx rx o d q : Pt), Shaped M 1 ∧
      MinPath.fromTxObjectsRx M (V2.fin tx) [(Wall.ofPts o d).interact] (V2.fin rx) () =
        .ok (finitePath [tx, q, rx] 0) ∧
      OnSegment o d q ∧
      ¬ TotalScore [(Wall.ofPts o d).interact] ([tx, q, rx].map V2.fin) (F.fin 0) := by
  let M : Minimizer Unit := ⟨⟨Unit, fun _ => (), fun g st => (g.map fun _ => F.fin (1 / 3), st)⟩, 1, fun _ x => x,
    fun _ n => List.replicate n (F.fin (1 / 3)), fun _ n => List.replicate n ()⟩
  have hne : (⟨0, 0⟩ : Pt) ≠ ⟨3, 0⟩ := by intro e; have := congrArg V2.x e; norm_num at this
  refine ⟨M, ⟨0, 1⟩, ⟨2, 1⟩, ⟨0, 0⟩, ⟨3, 0⟩, ⟨2, 0⟩, ?_, ?_, ?_, ?_⟩
  · exact ⟨le_rfl, le_rfl, by simp [M], by simp [M], ⟨fun _ _ => True, by simp, by simp [M]⟩, by simp [M]⟩
  · unfold MinPath.fromTxObjectsRx
    rw [if_neg (by simp), C45_single]
    simp only [minimize, M, minimizeScan, vadd, nUnknowns, Wall.interact, List.map_cons, List.map_nil, List.sum_cons,
      List.sum_nil, Nat.add_zero, List.replicate_one, List.zipWith_cons_cons, List.zipWith_nil_right, F.fin_add,
      List.getLast?_singleton, bind, Except.bind, pure, Except.pure]
    have e := example_min
    rw [F.zero_eq] at e
    simp only [Wall.interact] at e
    simp only [e, finitePath, Except.ok.injEq, Path.mk.injEq, and_true]
    have : parametricToCartesian [(Wall.ofPts ⟨0, 0⟩ ⟨3, 0⟩).interact] [F.fin (1 / 3 + 1 / 3)] (V2.fin ⟨0, 1⟩)
        (V2.fin ⟨2, 1⟩) = [V2.fin ⟨0, 1⟩, (Wall.ofPts ⟨0, 0⟩ ⟨3, 0⟩).toCart (F.fin (1 / 3 + 1 / 3)), V2.fin ⟨2, 1⟩] := rfl
    simp only [Wall.interact] at this
    rw [this, toCart_fin]
    simp only [List.map_cons, List.map_nil]
    congr 2
    rw [V2.fin_inj]
    ext <;> norm_num [pointAt]
  · exact ⟨2 / 3, by norm_num, by norm_num, by ext <;> norm_num [pointAt]⟩
  · rintro ⟨ss, h1, h2, h3⟩
    have h4 := h3 0 _ (V2.fin ⟨0, 1⟩) (V2.fin ⟨2, 0⟩) (V2.fin ⟨2, 1⟩) rfl rfl rfl rfl
    obtain ⟨s, rfl⟩ : ∃ s, ss = [s] := List.length_eq_one_iff.mp h1
    simp only [List.getElem?_cons_zero, Option.some.injEq] at h4
    rw [F.sum_cons, F.sum_nil, F.add_zero'] at h2
    rw [← h2] at h4
    have hm := (C22_zero ⟨0, 0⟩ ⟨3, 0⟩ ⟨0, 1⟩ ⟨2, 0⟩ ⟨2, 1⟩ _ _ hne (isDirection_unit _) (isDirection_unit _)).mp h4.symm
    have ho := hm.1
    have e1 := congrArg V2.x (unit_mul ((⟨2, 0⟩ : Pt) - ⟨0, 1⟩))
    have e2 := congrArg V2.x (unit_mul ((⟨2, 1⟩ : Pt) - ⟨2, 0⟩))
    have p1 := len1_pos ((⟨2, 0⟩ : Pt) - ⟨0, 1⟩)
    have p2 := len1_pos ((⟨2, 1⟩ : Pt) - ⟨2, 0⟩)
    simp only [V2.smul_x, V2.sub_x] at e1 e2
    simp only [Orthogonal, V2.sub_x, V2.sub_y] at ho
    have z2 : (unit ((⟨2, 1⟩ : Pt) - ⟨2, 0⟩)).x = 0 := by
      rcases mul_eq_zero.mp (e2.trans (by norm_num)) with h | h
      · exact absurd h p2.ne'
      · exact h
    rw [z2] at ho
    have z1 : (unit ((⟨2, 0⟩ : Pt) - ⟨0, 1⟩)).x = 0 := by linarith
    rw [z1] at e1
    norm_num at e1

end DiffeRT2d.Props
