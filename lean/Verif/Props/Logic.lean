import Verif.Lemmas.Logic

/-! # Properties C01–C06: `differt2d.logic` -/

namespace DiffeRT2d.Props
open Classical Filter Spec

/-! ## C01 — hard mode is ordinary logic -/

theorem C01_connectives (E : Env) (x y : Truthy) :
    (∃ r, logicalOr E (some false) x y = .b r ∧ (r = true ↔ Holds x ∨ Holds y)) ∧
    (∃ r, logicalAnd E (some false) x y = .b r ∧ (r = true ↔ Holds x ∧ Holds y)) ∧
    (∃ r, logicalNot E (some false) x = .b r ∧ (r = true ↔ ¬ Holds x)) := by
  refine ⟨⟨_, rfl, ?_⟩, ⟨_, rfl, ?_⟩, ⟨_, rfl, ?_⟩⟩
  · simp [← Truthy.toBool_iff]
  · simp [← Truthy.toBool_iff]
  · simp [← Truthy.toBool_iff]

theorem C01_all_any (E : Env) (xs : List Truthy) :
    (∃ r, logicalAll E (some false) xs = .ok (.b r) ∧ (r = true ↔ ∀ x ∈ xs, Holds x)) ∧
    (∃ r, logicalAny E (some false) xs = .ok (.b r) ∧ (r = true ↔ ∃ x ∈ xs, Holds x)) := by
  refine ⟨⟨_, rfl, ?_⟩, ⟨_, rfl, ?_⟩⟩
  · simp [← Truthy.toBool_iff]
  · simp [← Truthy.toBool_iff]

theorem C01_comparisons (E : Env) (kw : ActKw) (x y : F) :
    (∃ r, greater E (some false) kw x y = .b r ∧ (r = true ↔ Lt y x)) ∧
    (∃ r, greaterEqual E (some false) kw x y = .b r ∧ (r = true ↔ Le y x)) ∧
    (∃ r, less E (some false) kw x y = .b r ∧ (r = true ↔ Lt x y)) ∧
    (∃ r, lessEqual E (some false) kw x y = .b r ∧ (r = true ↔ Le x y)) :=
  ⟨⟨_, rfl, F.lt_iff _ _⟩, ⟨_, rfl, F.le_iff _ _⟩, ⟨_, rfl, F.lt_iff _ _⟩, ⟨_, rfl, F.le_iff _ _⟩⟩

/-- An explicit `approx` never looks at the global setting, and `approx=None` is the global one. -/
theorem C01_explicit_approx (E E' : Env) (a : Bool) (kw : ActKw) (x y : Truthy) (u v tol : F)
    (xs : List Truthy) :
    (logicalOr E (some a) x y = logicalOr E' (some a) x y ∧
     logicalAnd E (some a) x y = logicalAnd E' (some a) x y ∧
     logicalNot E (some a) x = logicalNot E' (some a) x ∧
     greater E (some a) kw u v = greater E' (some a) kw u v ∧
     greaterEqual E (some a) kw u v = greaterEqual E' (some a) kw u v ∧
     less E (some a) kw u v = less E' (some a) kw u v ∧
     lessEqual E (some a) kw u v = lessEqual E' (some a) kw u v ∧
     logicalAll E (some a) xs = logicalAll E' (some a) xs ∧
     logicalAny E (some a) xs = logicalAny E' (some a) xs ∧
     isTrue E (some a) x tol = isTrue E' (some a) x tol ∧
     isFalse E (some a) x tol = isFalse E' (some a) x tol ∧
     trueValue E (some a) = trueValue E' (some a) ∧
     falseValue E (some a) = falseValue E' (some a)) ∧
    (E.enableApprox = a →
     logicalOr E none x y = logicalOr E (some a) x y ∧
     logicalAnd E none x y = logicalAnd E (some a) x y ∧
     logicalNot E none x = logicalNot E (some a) x ∧
     greater E none kw u v = greater E (some a) kw u v ∧
     greaterEqual E none kw u v = greaterEqual E (some a) kw u v ∧
     less E none kw u v = less E (some a) kw u v ∧
     lessEqual E none kw u v = lessEqual E (some a) kw u v ∧
     logicalAll E none xs = logicalAll E (some a) xs ∧
     logicalAny E none xs = logicalAny E (some a) xs ∧
     isTrue E none x tol = isTrue E (some a) x tol ∧
     isFalse E none x tol = isFalse E (some a) x tol ∧
     trueValue E none = trueValue E (some a) ∧
     falseValue E none = falseValue E (some a)) := by
  refine ⟨⟨rfl, rfl, rfl, rfl, rfl, rfl, rfl, rfl, rfl, rfl, rfl, rfl, rfl⟩, ?_⟩
  rintro rfl
  exact ⟨rfl, rfl, rfl, rfl, rfl, rfl, rfl, rfl, rfl, rfl, rfl, rfl, rfl⟩

/-- Non-vacuity: NaN is true as a truth value, but compares false. -/
example (E : Env) : logicalOr E (some false) (.f .nan) (.b false) = .b true ∧
    greaterEqual E (some false) {} .nan .nan = .b false ∧
    less E (some false) {} (.fin 1) .pinf = .b true := by
  refine ⟨?_, ?_, ?_⟩ <;> simp [logicalOr, resolveApprox, Truthy.toBool, greaterEqual, less, F.lt]

/-! ## C02 — on crisp values the approximate connectives are Boolean logic -/

theorem C02_crisp (E : Env) (x y : Bool) :
    logicalOr E (some true) (crisp x) (crisp y) = crisp (x || y) ∧
    logicalAnd E (some true) (crisp x) (crisp y) = crisp (x && y) ∧
    logicalNot E (some true) (crisp x) = crisp (!x) ∧
    trueValue E (some true) = crisp true ∧ falseValue E (some true) = crisp false ∧
    trueValue E (some false) = .b true ∧ falseValue E (some false) = .b false := by
  cases x <;> cases y <;>
    simp [logicalOr, logicalAnd, logicalNot, trueValue, falseValue, resolveApprox, crisp,
      Truthy.maximum, Truthy.minimum]

theorem degree_crisp (v : Bool) : Degree (crisp v) (if v then 1 else 0) := by
  cases v <;> simp [Degree, crisp]

theorem C02_crisp_all (E : Env) (v : Bool) (vs : List Bool) :
    logicalAll E (some true) ((v :: vs).map crisp) = .ok (crisp ((v :: vs).all id)) ∧
    logicalAny E (some true) ((v :: vs).map crisp) = .ok (crisp ((v :: vs).any id)) := by
  have hmap : ∀ l : List Bool, (l.map crisp).map Truthy.toF = (l.map (fun b : Bool => if b then (1:ℝ) else 0)).map F.fin := by
    intro l; simp [Function.comp_def, crisp]
  have hv : ∀ b : Bool, (crisp b).toF = F.fin (if b then 1 else 0) := fun b => rfl
  have hmin : ∀ (l : List Bool) (b : Bool),
      (l.map (fun b : Bool => if b then (1:ℝ) else 0)).foldl min (if b then 1 else 0) =
        if (b :: l).all id then 1 else 0 := by
    intro l
    induction l with
    | nil => intro b; simp
    | cons c l ih =>
      intro b
      have := ih (b && c)
      cases b <;> cases c <;> simp_all
  have hmax : ∀ (l : List Bool) (b : Bool),
      (l.map (fun b : Bool => if b then (1:ℝ) else 0)).foldl max (if b then 1 else 0) =
        if (b :: l).any id then 1 else 0 := by
    intro l
    induction l with
    | nil => intro b; simp
    | cons c l ih =>
      intro b
      have := ih (b || c)
      cases b <;> cases c <;> simp_all
  have hb : ¬ ((crisp v :: vs.map crisp).all Truthy.isB = true) := by
    simp [crisp, Truthy.isB]
  constructor
  · simp only [logicalAll, resolveApprox, if_true, List.map_cons, jnpMin, if_neg hb,
      hmap, hv, F.minOf_fin, hmin]
    rfl
  · simp only [logicalAny, resolveApprox, if_true, List.map_cons, jnpMax, if_neg hb,
      hmap, hv, F.maxOf_fin, hmax]
    rfl

example (E : Env) : logicalAll E (some true) ([true, false, true].map crisp) = .ok (crisp false) := by
  simpa using (C02_crisp_all E true [false, true]).1

/-! ## C03 — fuzzy algebra -/

theorem degree_or {x y : Truthy} {r s : ℝ} (hx : Degree x r) (hy : Degree y s) :
    Degree (x.maximum y) (max r s) := by
  refine ⟨le_max_of_le_left hx.1, max_le hx.2.1 hy.2.1, ?_⟩
  obtain ⟨_, _, h | ⟨h, hr⟩ | ⟨h, hr⟩⟩ := hx <;> obtain ⟨_, _, h' | ⟨h', hr'⟩ | ⟨h', hr'⟩⟩ := hy <;>
    subst h <;> subst h' <;> simp_all [Truthy.maximum]

theorem degree_and {x y : Truthy} {r s : ℝ} (hx : Degree x r) (hy : Degree y s) :
    Degree (x.minimum y) (min r s) := by
  refine ⟨le_min hx.1 hy.1, min_le_of_left_le hx.2.1, ?_⟩
  obtain ⟨_, _, h | ⟨h, hr⟩ | ⟨h, hr⟩⟩ := hx <;> obtain ⟨_, _, h' | ⟨h', hr'⟩ | ⟨h', hr'⟩⟩ := hy <;>
    subst h <;> subst h' <;> simp_all [Truthy.minimum]

/-- or / and / not of truth degrees are the maximum / minimum / complement of the degrees, so they
stay in `[0,1]`. -/
theorem C03_degrees (E : Env) {x y : Truthy} {r s : ℝ} (hx : Degree x r) (hy : Degree y s) :
    Degree (logicalOr E (some true) x y) (max r s) ∧
    Degree (logicalAnd E (some true) x y) (min r s) ∧
    Degree (logicalNot E (some true) x) (1 - r) := by
  refine ⟨degree_or hx hy, degree_and hx hy, ?_⟩
  have : logicalNot E (some true) x = .f (F.fin (1 - r)) := by
    simp [logicalNot, resolveApprox, hx.toF]
  rw [this]
  exact .of_f (by linarith [hx.2.1]) (by linarith [hx.1])

/-- Non-vacuity: a Boolean and a float, degrees 1 and 1/4. -/
example (E : Env) : Degree (logicalAnd E (some true) (.b true) (.f (.fin (1/4)))) (1/4) := by
  have h := (C03_degrees E (x := .b true) (y := .f (.fin (1/4))) (r := 1) (s := 1/4) (by simp [Degree]) (.of_f (by norm_num) (by norm_num))).2.1
  rwa [min_eq_right (by norm_num)] at h

/-- The laws of the algebra, as laws on the numeric value of the result (`toF` only forgets whether
a crisp value is stored as a Boolean or as 0.0/1.0). Commutativity, associativity need no assumption
(they hold for NaN and infinities as well). -/
theorem C03_laws (E : Env) (x y z : Truthy) :
    let or := logicalOr E (some true)
    let and := logicalAnd E (some true)
    let not := logicalNot E (some true)
    or x y = or y x ∧ and x y = and y x ∧
    (or (or x y) z).toF = (or x (or y z)).toF ∧ (and (and x y) z).toF = (and x (and y z)).toF ∧
    (∀ r s, Degree x r → Degree y s →
      (or x x).toF = x.toF ∧ (and x x).toF = x.toF ∧
      (or x (and x y)).toF = x.toF ∧ (and x (or x y)).toF = x.toF ∧
      (not (not x)).toF = x.toF ∧
      not (or x y) = and (not x) (not y) ∧ not (and x y) = or (not x) (not y)) := by
  simp only [logicalOr, logicalAnd, logicalNot, resolveApprox, if_true]
  refine ⟨?_, ?_, ?_, ?_, ?_⟩
  · cases x <;> cases y <;> simp [Truthy.maximum, Bool.or_comm, F.max_comm']
  · cases x <;> cases y <;> simp [Truthy.minimum, Bool.and_comm, F.min_comm']
  · simp only [Truthy.maximum_toF, F.max_assoc']
  · simp only [Truthy.minimum_toF, F.min_assoc']
  · intro r s hx hy
    have e1 : ∀ a b : F, (Truthy.f a).minimum (Truthy.f b) = .f (F.min a b) := fun _ _ => rfl
    have e2 : ∀ a b : F, (Truthy.f a).maximum (Truthy.f b) = .f (F.max a b) := fun _ _ => rfl
    simp only [e1, e2, Truthy.maximum_toF, Truthy.minimum_toF, hx.toF, hy.toF, Truthy.toF_f,
      F.max_fin, F.min_fin, F.one_eq, F.fin_sub]
    refine ⟨by simp, by simp, by simp, by simp, by simp, ?_, ?_⟩
    · rcases le_total r s with h | h
      · rw [max_eq_right h, min_eq_right (by linarith)]
      · rw [max_eq_left h, min_eq_left (by linarith)]
    · rcases le_total r s with h | h
      · rw [min_eq_left h, max_eq_left (by linarith)]
      · rw [min_eq_right h, max_eq_right (by linarith)]

/-- `logical_all` is the least argument, `logical_any` the greatest; no argument is an error. -/
theorem C03_all_any (E : Env) (xs : List Truthy) (h : ∀ x ∈ xs, ∃ r, Degree x r) :
    (xs = [] → logicalAll E (some true) xs = .error .valueError ∧
      logicalAny E (some true) xs = .error .valueError) ∧
    (xs ≠ [] →
      (∃ v r, logicalAll E (some true) xs = .ok v ∧ Degree v r ∧ (∃ x ∈ xs, Degree x r) ∧
        ∀ x ∈ xs, ∀ s, Degree x s → r ≤ s) ∧
      (∃ v r, logicalAny E (some true) xs = .ok v ∧ Degree v r ∧ (∃ x ∈ xs, Degree x r) ∧
        ∀ x ∈ xs, ∀ s, Degree x s → s ≤ r)) :=
  ⟨fun h => by subst h; exact ⟨rfl, rfl⟩, fun hne => ⟨jnpMin_degree hne h, jnpMax_degree hne h⟩⟩

/-- Non-vacuity: the least of the degrees 1, 1/2, 1/4. -/
example (E : Env) : ∃ v, logicalAll E (some true) [Truthy.b true, .f (.fin (1/2)), .f (.fin (1/4))] = .ok v ∧ ∃ r, r ≤ 1/4 ∧ Degree v r := by
  have h : ∀ x ∈ [Truthy.b true, .f (.fin (1/2)), .f (.fin (1/4))], ∃ r, Degree x r := by
    intro x hx
    simp only [List.mem_cons, List.not_mem_nil, or_false] at hx
    rcases hx with rfl | rfl | rfl
    · exact ⟨1, by simp [Degree]⟩
    · exact ⟨1/2, .of_f (by norm_num) (by norm_num)⟩
    · exact ⟨1/4, .of_f (by norm_num) (by norm_num)⟩
  obtain ⟨v, r, hv, hd, _, hle⟩ := ((C03_all_any E _ h).2 (by simp)).1
  exact ⟨v, hv, r, hle _ (by simp) (1/4) (.of_f (by norm_num) (by norm_num)), hd⟩

/-- Argument order does not matter, in either mode, even with NaN or infinite arguments. -/
theorem C03_order (E : Env) (approx : Option Bool) {xs ys : List Truthy} (h : xs.Perm ys) :
    logicalAll E approx xs = logicalAll E approx ys ∧
    logicalAny E approx xs = logicalAny E approx ys := by
  have hall : ∀ p : Truthy → Bool, xs.all p = ys.all p := by
    intro p; rw [Bool.eq_iff_iff]; simp only [List.all_eq_true]
    exact ⟨fun H z hz => H z (h.mem_iff.mpr hz), fun H z hz => H z (h.mem_iff.mp hz)⟩
  have hany : ∀ p : Truthy → Bool, xs.any p = ys.any p := by
    intro p; rw [Bool.eq_iff_iff]; simp only [List.any_eq_true]
    exact ⟨fun ⟨z, hz, H⟩ => ⟨z, h.mem_iff.mp hz, H⟩, fun ⟨z, hz, H⟩ => ⟨z, h.mem_iff.mpr hz, H⟩⟩
  simp only [logicalAll, logicalAny, hall, hany, jnpMin_perm h, jnpMax_perm h, and_self]

/-- Non-vacuity: a NaN argument moved from the front to the back. -/
example (E : Env) : logicalAll E (some true) [.f .nan, .b true, .f (.fin (1/2))] = logicalAll E (some true) [.b true, .f (.fin (1/2)), .f .nan] :=
  (C03_order E (some true) (List.perm_append_comm (l₁ := [Truthy.f .nan]) (l₂ := [Truthy.b true, .f (.fin (1/2))]))).1

/-- Non-vacuity: three mixed truth degrees. -/
example : ∀ x ∈ [Truthy.b true, .f (.fin (1/2)), .f (.fin (1/4))], ∃ r, Degree x r := by
  intro x hx
  simp only [List.mem_cons, List.not_mem_nil, or_false] at hx
  rcases hx with rfl | rfl | rfl
  · exact ⟨1, by simp [Degree]⟩
  · exact ⟨1/2, .of_f (by norm_num) (by norm_num)⟩
  · exact ⟨1/4, .of_f (by norm_num) (by norm_num)⟩

/-! ## C04 — activation functions -/

theorem C04_soft_steps : SoftStep sigmoid ∧ SoftStep hardSigmoid :=
  ⟨softStep_sigmoid, softStep_hardSigmoid⟩

/-- `hard_sigmoid` is exactly 1 / 0 as soon as `alpha * x` is at least 3 / at most -3, and linear
in between; `sigmoid` is the logistic function and never reaches 0 or 1. -/
theorem C04_values (a x : ℝ) :
    (3 ≤ a * x → hardSigmoid (.fin x) (.fin a) = .fin 1) ∧
    (a * x ≤ -3 → hardSigmoid (.fin x) (.fin a) = .fin 0) ∧
    (-3 ≤ a * x → a * x ≤ 3 → hardSigmoid (.fin x) (.fin a) = .fin ((a * x + 3) / 6)) ∧
    (∃ s, sigmoid (.fin x) (.fin a) = .fin s ∧ s = 1 / (1 + Real.exp (-(a * x))) ∧ 0 < s ∧ s < 1) := by
  refine ⟨?_, ?_, ?_, ?_⟩
  · intro h
    rw [hardSigmoid_fin, max_eq_left (by linarith), min_eq_right (by linarith)]; norm_num
  · intro h
    rw [hardSigmoid_fin, max_eq_right (by linarith), min_eq_left (by linarith)]; norm_num
  · intro h h'
    rw [hardSigmoid_fin, max_eq_left (by linarith), min_eq_left (by linarith)]
  · refine ⟨1 / (1 + Real.exp (-(a * x))), by simp [sigmoid, nnSigmoid], rfl, by positivity, ?_⟩
    rw [div_lt_one (by positivity)]
    have := Real.exp_pos (-(a * x)); linarith

/-- `activation` applies the chosen function with the chosen slope; by default the hard sigmoid
with slope 100. -/
theorem C04_activation (kw : ActKw) (x : F) :
    activation kw x = kw.function x kw.alpha ∧
    activation {} x = hardSigmoid x (.fin 100) ∧ GoodKw {} :=
  ⟨rfl, by simp [activation, DEFAULT_ALPHA], goodKw_default⟩

example : hardSigmoid (.fin 1) (.fin 100) = .fin 1 := (C04_values 100 1).1 (by norm_num)

/-! ## C05 — thresholding an approximate comparison -/

theorem C05_threshold (E : Env) (kw : ActKw) (h : GoodKw kw) (x y : ℝ) :
    (∃ r, isTrue E (some true) (greater E (some true) kw (.fin x) (.fin y)) = .ok r ∧ (r = true ↔ x > y)) ∧
    (∃ r, isTrue E (some true) (less E (some true) kw (.fin x) (.fin y)) = .ok r ∧ (r = true ↔ x < y)) ∧
    greaterEqual E (some true) kw (.fin x) (.fin y) = greater E (some true) kw (.fin x) (.fin y) ∧
    lessEqual E (some true) kw (.fin x) (.fin y) = less E (some true) kw (.fin x) (.fin y) := by
  obtain ⟨s, hs, _, _, _, _, _, _, habove, _⟩ := h.real
  have key : ∀ t : ℝ, (1 : ℝ) - 0.5 < s t ↔ 0 < t := by
    intro t; rw [← habove t]; norm_num
  refine ⟨⟨_, rfl, ?_⟩, ⟨_, rfl, ?_⟩, rfl, rfl⟩
  · simp only [greater, resolveApprox, if_true, Truthy.toF_f, F.fin_sub, hs, F.ofScientific_eq,
      F.one_eq, F.lt_fin, decide_eq_true_eq, key]
    exact sub_pos
  · simp only [less, resolveApprox, if_true, Truthy.toF_f, F.fin_sub, hs, F.ofScientific_eq,
      F.one_eq, F.lt_fin, decide_eq_true_eq, key]
    exact sub_pos

/-- Non-vacuity: the default activation, and a sigmoid of slope 1. -/
example (E : Env) : (∃ r, isTrue E (some true) (greater E (some true) {} (.fin 2) (.fin 1)) = .ok r ∧ (r = true ↔ (2 : ℝ) > 1)) ∧
    ∃ r, isTrue E (some true) (less E (some true) { alpha := .fin 1, function := sigmoid } (.fin 2) (.fin 1)) = .ok r ∧ (r = true ↔ (2 : ℝ) < 1) :=
  ⟨(C05_threshold E {} goodKw_default 2 1).1, (C05_threshold E { alpha := .fin 1, function := sigmoid } ⟨softStep_sigmoid, 1, one_pos, rfl⟩ 2 1).2.1⟩

/-- At a tie, hard `greater_equal`/`less_equal` say true, the thresholded approximation says
not-true (its value is exactly 1/2). -/
theorem C05_tie (E : Env) (kw : ActKw) (h : GoodKw kw) (x : ℝ) :
    greaterEqual E (some false) kw (.fin x) (.fin x) = .b true ∧
    lessEqual E (some false) kw (.fin x) (.fin x) = .b true ∧
    greaterEqual E (some true) kw (.fin x) (.fin x) = .f (.fin (1/2)) ∧
    lessEqual E (some true) kw (.fin x) (.fin x) = .f (.fin (1/2)) ∧
    isTrue E (some true) (greaterEqual E (some true) kw (.fin x) (.fin x)) = .ok false ∧
    isTrue E (some true) (lessEqual E (some true) kw (.fin x) (.fin x)) = .ok false := by
  obtain ⟨s, hs, _, _, _, _, _, h0, _, _⟩ := h.real
  have e : activation kw (F.fin (x - x)) = .fin (1/2) := by simp [hs, h0]
  have n1 : ¬ ((1:ℝ) - 0.5 < 1/2) := by norm_num
  refine ⟨?_, ?_, ?_, ?_, ?_, ?_⟩ <;>
    simp only [greaterEqual, lessEqual, isTrue, resolveApprox, e, if_true, Truthy.toF_f,
      F.ofScientific_eq, F.one_eq, F.lt_fin, F.le_fin, F.fin_sub, n1, le_refl, decide_true,
      decide_false, Bool.false_eq_true, if_false]

/-- Non-vacuity: the default activation. -/
example (E : Env) : greaterEqual E (some true) {} (.fin 3) (.fin 3) = .f (.fin (1/2)) := (C05_tie E {} goodKw_default 3).2.2.1

example : GoodKw {} ∧ GoodKw { alpha := .fin 1, function := sigmoid } :=
  ⟨goodKw_default, softStep_sigmoid, 1, one_pos, rfl⟩

/-! ## C06 — is_true / is_false -/

/-- Approximate mode, on a float `v` (any Boolean is first promoted to 0.0/1.0). -/
theorem C06_approx (E : Env) (x : Truthy) (tol : ℝ) :
    (∃ r, isTrue E (some true) x (.fin tol) = .ok r ∧ (r = true ↔ Lt (.fin (1 - tol)) x.toF)) ∧
    (isFalse E (some true) x (.fin tol) = true ↔ Lt x.toF (.fin tol)) ∧
    -- never both
    (tol ≤ 1/2 → ¬ (isTrue E (some true) x (.fin tol) = .ok true ∧
      isFalse E (some true) x (.fin tol) = true)) ∧
    -- at the default tolerance, neither only for 1/2 and NaN
    (isTrue E (some true) x = .ok false ∧ isFalse E (some true) x = false ↔
      x.toF = .fin (1/2) ∨ x.toF = .nan) ∧
    -- falsehood is truth of the negation
    isTrue E (some true) (logicalNot E (some true) x) (.fin tol)
      = .ok (isFalse E (some true) x (.fin tol)) := by
  refine ⟨⟨_, rfl, ?_⟩, ?_, ?_, ?_, ?_⟩
  · simp [F.lt_iff]
  · simp [isFalse, resolveApprox, F.lt_iff]
  · intro ht
    simp only [isTrue, isFalse, resolveApprox, if_true, Except.ok.injEq]
    generalize x.toF = v
    cases v <;> simp [F.lt]
    intro h; linarith
  · simp only [isTrue, isFalse, resolveApprox, if_true, Except.ok.injEq]
    generalize x.toF = v
    cases v with
    | fin v =>
      simp [F.fin_inj]
      norm_num
      constructor
      · rintro ⟨h1, h2⟩; exact le_antisymm h1 h2
      · rintro rfl; exact ⟨le_rfl, le_rfl⟩
    | _ => simp [F.lt]
  · simp only [isTrue, isFalse, logicalNot, resolveApprox, if_true, Except.ok.injEq, Truthy.toF_f]
    generalize x.toF = v
    cases v with
    | fin v => simp
    | nan => simp
    | pinf => rfl
    | ninf => rfl

/-- Monotone readings: raising a value can only turn true on and false off. -/
theorem C06_monotone (E : Env) (u v tol : F) (huv : Le u v) :
    (isTrue E (some true) (.f u) tol = .ok true → isTrue E (some true) (.f v) tol = .ok true) ∧
    (isFalse E (some true) (.f v) tol = true → isFalse E (some true) (.f u) tol = true) := by
  have key : ∀ a b c : F, F.le b c = true → (F.lt a b = true → F.lt a c = true) ∧
      (F.lt c a = true → F.lt b a = true) := by
    intro a b c
    cases a <;> cases b <;> cases c <;> simp [F.lt, F.le, F.eq] <;>
      (intro h; constructor <;> intro h' <;> first | (rcases h with h | h <;> linarith) | skip)
  have := F.le_iff u v |>.mpr huv
  simp only [isTrue, isFalse, resolveApprox, if_true, Except.ok.injEq, Truthy.toF_f]
  exact ⟨(key _ _ _ this).1, (key _ _ _ this).2⟩

/-- Non-vacuity: raising 3/4 to 9/10. -/
example (E : Env) : isTrue E (some true) (.f (.fin (9/10))) (.fin (1/2)) = .ok true :=
  (C06_monotone E (.fin (3/4)) (.fin (9/10)) (.fin (1/2)) (by rw [← F.le_iff, F.le_fin]; norm_num)).1 (by simp [isTrue, resolveApprox]; norm_num)

/-- Hard mode: `is_true` is the identity on Booleans and a type error on floats; `is_false` is the
negation of the truth of its argument. -/
theorem C06_hard (E : Env) (v : Bool) (x : F) (y : Truthy) (tol : F) :
    isTrue E (some false) (.b v) tol = .ok v ∧
    isTrue E (some false) (.f x) tol = .error .typeCheckError ∧
    (isFalse E (some false) y tol = true ↔ ¬ Holds y) := by
  refine ⟨rfl, rfl, ?_⟩
  simp [isFalse, resolveApprox, ← Truthy.toBool_iff]

example (E : Env) : isTrue E (some true) (.f (.fin (3/4))) = .ok true ∧
    isFalse E (some true) (.f (.fin (3/4))) = false := by
  constructor <;> simp [isTrue, isFalse, resolveApprox] <;> norm_num

end DiffeRT2d.Props
