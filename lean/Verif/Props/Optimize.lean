import Verif.Spec.Optimize
import Verif.Props.Tracing
import Mathlib.Analysis.Calculus.Deriv.Pow

/-! # Properties C43–C46: the optimization toolbox -/

namespace DiffeRT2d.Props
open Classical Spec

/-! ## C44 — exactly `steps` updates -/

theorem scan_run {opt : Optimizer} (grad : List F → List F) (f : List F → F) (n : ℕ)
    (x : List F) (st : opt.State) :
    ∃ (xs : ℕ → List F) (sts : ℕ → opt.State), xs 0 = x ∧ sts 0 = st ∧
      (∀ k < n, xs (k + 1) = List.zipWith (· + ·) (xs k) (opt.update (grad (xs k)) (sts k)).1) ∧
      (∀ k < n, sts (k + 1) = (opt.update (grad (xs k)) (sts k)).2) ∧
      (minimizeScan opt grad f n x st).1 = (xs n, sts n) ∧
      (minimizeScan opt grad f n x st).2 = (List.range n).map fun k => f (xs k) := by
  induction n generalizing x st with
  | zero => exact ⟨fun _ => x, fun _ => st, rfl, rfl, by simp, by simp, rfl, rfl⟩
  | succ n ih =>
    obtain ⟨xs, sts, h1, h2, h3, h4, h5, h6⟩ := ih (vadd x (opt.update (grad x) st).1) (opt.update (grad x) st).2
    refine ⟨fun k => Nat.casesOn k x xs, fun k => Nat.casesOn k st sts, rfl, rfl, ?_, ?_, ?_, ?_⟩
    · intro k hk
      cases k with
      | zero => exact h1
      | succ k => exact h3 k (by omega)
    · intro k hk
      cases k with
      | zero => exact h2
      | succ k => exact h4 k (by omega)
    · simp only [minimizeScan]; exact h5
    · simp only [minimizeScan]
      rw [h6, List.range_succ_eq_map]
      simp [Function.comp_def]

/-- `minimize` returns the iterate after exactly `steps` updates, and the loss recorded by the last step,
which is the objective one update earlier. -/
theorem C44_steps {Key : Type} (M : Minimizer Key) (f : List F → F) (x0 : List F) (hs : 1 ≤ M.steps) :
    ∃ xs sts, Run M f x0 M.steps xs sts ∧
      minimize M f x0 = .ok (xs M.steps, f (xs (M.steps - 1))) := by
  obtain ⟨xs, sts, h1, h2, h3, h4, h5, h6⟩ :=
    scan_run (opt := M.optimizer) (M.grad f) f M.steps x0 (M.optimizer.init x0)
  refine ⟨xs, sts, ⟨h1, h2, h3, h4⟩, ?_⟩
  unfold minimize
  obtain ⟨n, hn⟩ : ∃ n, M.steps = n + 1 := ⟨M.steps - 1, by omega⟩
  simp only [h5, h6]
  rw [hn, List.range_succ]
  simp

/-- A run is determined by its data: two runs agree, so `C44_steps` describes the only possible result. -/
theorem C44_deterministic {Key : Type} (M : Minimizer Key) (f : List F → F) (x0 : List F) (n : ℕ)
    (xs xs' : ℕ → List F) (sts sts' : ℕ → M.optimizer.State)
    (h : Run M f x0 n xs sts) (h' : Run M f x0 n xs' sts') (k : ℕ) (hk : k ≤ n) :
    xs k = xs' k ∧ sts k = sts' k := by
  induction k with
  | zero => exact ⟨h.start.trans h'.start.symm, h.init.trans h'.init.symm⟩
  | succ k ih =>
    obtain ⟨e1, e2⟩ := ih (by omega)
    exact ⟨by rw [h.step k (by omega), h'.step k (by omega), e1, e2],
      by rw [h.state k (by omega), h'.state k (by omega), e1, e2]⟩

/-- Without steps there is no loss to return: an error. -/
theorem C44_no_steps {Key : Type} (M : Minimizer Key) (f : List F → F) (x0 : List F) (hs : M.steps = 0) :
    minimize M f x0 = .error .indexError := by
  unfold minimize; rw [hs]; rfl

theorem adam_zero (lr : ℝ) (n c : ℕ) :
    (adam (F.fin lr)).update (List.replicate n 0) (List.replicate n 0, List.replicate n 0, c) =
      (List.replicate n 0, (List.replicate n 0, List.replicate n 0, c + 1)) := by
  have h1 : ((1:ℝ) - 0.9 ^ (c + 1)) ≠ 0 := by
    have : ((0.9:ℝ)) ^ (c + 1) < 1 := pow_lt_one₀ (by norm_num) (by norm_num) (by omega)
    linarith
  have h2 : ((1:ℝ) - 0.999 ^ (c + 1)) ≠ 0 := by
    have : ((0.999:ℝ)) ^ (c + 1) < 1 := pow_lt_one₀ (by norm_num) (by norm_num) (by omega)
    linarith
  have he : (1e-8 : F) = F.fin 1e-8 := rfl
  have h3 : (1e-8 : ℝ) ≠ 0 := by norm_num
  simp only [adam, List.zipWith_replicate, List.map_replicate, min_self, F.zero_eq, F.fin_mul, F.fin_add,
    mul_zero, add_zero, F.fin_div _ h1, F.fin_div _ h2, zero_div, F.sqrt_fin le_rfl, Real.sqrt_zero, he,
    zero_add, F.fin_div _ h3, F.fin_neg]

/-- A stationary starting point is returned unchanged, with its own loss, by the default optimizer (Adam
with any finite learning rate). -/
theorem C44_stationary {Key : Type} (M : Minimizer Key) (lr : ℝ) (f : List F → F) (x0 : List F)
    (hopt : M.optimizer = adam (F.fin lr)) (hs : 1 ≤ M.steps)
    (hg : M.grad f x0 = List.replicate x0.length 0) :
    minimize M f x0 = .ok (x0, f x0) := by
  obtain ⟨o, steps, grad, uniform, split⟩ := M
  simp only at hopt hs hg
  subst hopt
  obtain ⟨xs, sts, hr, hm⟩ := C44_steps ⟨adam (F.fin lr), steps, grad, uniform, split⟩ f x0 hs
  have hz : ∀ x : List F, List.zipWith (· + ·) x (List.replicate x.length 0) = x := by
    intro x
    induction x with
    | nil => rfl
    | cons a x ih =>
      simp only [List.length_cons, List.replicate_succ, List.zipWith_cons_cons, ih]
      rw [F.zero_eq, F.add_zero']
  have key : ∀ k ≤ steps, xs k = x0 ∧
      sts k = (List.replicate x0.length 0, List.replicate x0.length 0, k) := by
    intro k hk
    induction k with
    | zero =>
      refine ⟨hr.start, ?_⟩
      rw [hr.init]; simp [adam]
    | succ k ih =>
      obtain ⟨e1, e2⟩ := ih (by omega)
      have s1 := hr.step k (by simp; omega)
      have s2 := hr.state k (by simp; omega)
      simp only at s1 s2
      rw [e1, e2, hg, adam_zero] at s1 s2
      exact ⟨by rw [s1, hz], s2⟩
  simp only at hm
  rw [hm, (key steps le_rfl).1, (key (steps - 1) (by omega)).1]

/-- Non-vacuity: `f(x) = (x-1)²` at `x0 = 1` for 100 steps. -/
example : minimize (Key := Unit) ⟨adam, 100, fun _ x => x.map fun t => 2 * (t - 1), fun _ n => List.replicate n 0,
      fun _ n => List.replicate n ()⟩
    (fun x => F.sum (x.map fun t => (t - 1) * (t - 1))) [1] = .ok ([1], 0) := by
  rw [C44_stationary _ 0.1 _ _ rfl (by norm_num)]
  · simp only [List.map_cons, List.map_nil, F.sum, List.foldl, F.one_eq, F.zero_eq, F.fin_sub, F.fin_mul,
      F.fin_add]; norm_num
  · have : (2 : F) = F.fin 2 := by simp [OfNat.ofNat]
    simp only [List.map_cons, List.map_nil, F.one_eq, this, F.fin_sub, F.fin_mul, F.zero_eq]; norm_num

/-! ## C43 — the returned pair does not match -/

/-- The loss returned matches the solution exactly when the last update did not change the objective. -/
theorem C43_iff {Key : Type} (M : Minimizer Key) (f : List F → F) (x0 : List F) (hs : 1 ≤ M.steps)
    (xs : ℕ → List F) (sts : ℕ → M.optimizer.State) (hr : Run M f x0 M.steps xs sts) :
    (∃ x loss, minimize M f x0 = .ok (x, loss) ∧ loss = f x) ↔ f (xs (M.steps - 1)) = f (xs M.steps) := by
  obtain ⟨xs', sts', hr', hm⟩ := C44_steps M f x0 hs
  have e1 := (C44_deterministic M f x0 _ _ _ _ _ hr hr' M.steps le_rfl).1
  have e2 := (C44_deterministic M f x0 _ _ _ _ _ hr hr' (M.steps - 1) (by omega)).1
  rw [hm, e1, e2]
  constructor
  · rintro ⟨x, loss, h, rfl⟩
    simp only [Except.ok.injEq, Prod.mk.injEq] at h
    rw [h.1, h.2]
  · intro h; exact ⟨_, _, rfl, h⟩

/-- In particular it matches when the optimizer has converged exactly (the last update is zero). -/
theorem C43_partial {Key : Type} (M : Minimizer Key) (f : List F → F) (x0 : List F) (hs : 1 ≤ M.steps)
    (xs : ℕ → List F) (sts : ℕ → M.optimizer.State) (hr : Run M f x0 M.steps xs sts)
    (hlast : xs M.steps = xs (M.steps - 1)) :
    ∃ x loss, minimize M f x0 = .ok (x, loss) ∧ loss = f x :=
  (C43_iff M f x0 hs xs sts hr).mpr (by rw [hlast])

/-- The claim is false in general: one step of the default optimizer (Adam, rate 0.1) on `f(x) = x²`, with
its true derivative, from `x0 = 1`, returns a point different from 1 with the loss of 1. -/
theorem C43_refuted :
    ∃ (M : Minimizer Unit) (f : List F → F) (x0 : List F) (x : List F) (loss : F),
      M.optimizer = adam ∧ Shaped M 1 ∧ (∀ t : ℝ, f [F.fin t] = F.fin (t ^ 2)) ∧
      (∀ t : ℝ, ∃ d, M.grad f [F.fin t] = [F.fin d] ∧ HasDerivAt (fun t : ℝ => t ^ 2) d t) ∧
      minimize M f x0 = .ok (x, loss) ∧ loss ≠ f x := by
  have h2 : (2 : F) = F.fin 2 := by simp [OfNat.ofNat]
  let M : Minimizer Unit := ⟨adam, 1, fun _ x => x.map fun t => 2 * t, fun _ n => List.replicate n 0,
      fun _ n => List.replicate n ()⟩
  let f : List F → F := fun x => F.sum (x.map fun t => t * t)
  refine ⟨M, f, [F.fin 1], [F.fin (1 - 0.1 * (2 / (2 + 1e-8)))], F.fin 1, rfl, ?_, ?_, ?_, ?_, ?_⟩
  · exact ⟨le_rfl, le_rfl, by simp [M], by simp [M], adam_shaped 0.1, by simp [M]⟩
  · intro t; simp only [f, List.map_cons, List.map_nil, F.sum, List.foldl, F.fin_mul, F.zero_add', F.fin_inj]; ring
  · intro t
    refine ⟨2 * t, by simp only [M, List.map_cons, List.map_nil, h2, F.fin_mul], ?_⟩
    simpa using hasDerivAt_pow 2 t
  · have hlr : (0.1 : F) = F.fin 0.1 := rfl
    have he : (1e-8 : F) = F.fin 1e-8 := rfl
    have a1 : (1 - 0.9 ^ 1 : ℝ) ≠ 0 := by norm_num
    have a2 : (1 - 0.999 ^ 1 : ℝ) ≠ 0 := by norm_num
    have a3 : (2 + 1e-8 : ℝ) ≠ 0 := by norm_num
    have a4 : Real.sqrt 4 = 2 := by rw [show (4:ℝ) = 2 ^ 2 by norm_num]; exact Real.sqrt_sq (by norm_num)
    have s1 : ((1 - 0.9) * (2 * 1) + 0.9 * 0) / (1 - 0.9 ^ 1) = (2 : ℝ) := by norm_num
    have s2 : ((1 - 0.999) * (2 * 1 * (2 * 1)) + 0.999 * 0) / (1 - 0.999 ^ 1) = (4 : ℝ) := by norm_num
    simp only [minimize, M, f, minimizeScan, vadd, adam, List.map_cons, List.map_nil, List.zipWith_cons_cons,
      List.zipWith_nil_right, h2, F.fin_mul, F.zero_eq, F.fin_add, zero_add, F.fin_div _ a1, F.fin_div _ a2, s1, s2,
      F.sqrt_fin (show (0:ℝ) ≤ 4 by norm_num), a4, he, F.fin_div _ a3, hlr, F.fin_neg, F.sum, List.foldl,
      List.getLast?_singleton]
    norm_num
  · intro h
    simp only [f, List.map_cons, List.map_nil, F.sum, List.foldl, F.fin_mul, F.zero_add', F.fin_inj] at h
    norm_num at h

/-! ## C45 — the best trial -/

theorem notLarger_of {a b : F} (ha : a ≠ F.nan) (hb : b ≠ F.nan) (h : F.lt b a = false) : NotLarger a b := by
  cases a <;> cases b <;> simp_all [NotLarger, F.lt]

theorem smaller_of {a b : F} (h : F.lt a b = true) : Smaller a b := by
  cases a <;> cases b <;> simp_all [Smaller, F.lt]

theorem mapM_inv {α β : Type*} (f : α → Except PyErr β) (xs : List α) (ys : List β)
    (h : List.Forall₂ (fun x y => f x = .ok y) xs ys) : xs.mapM f = .ok ys := by
  induction h with
  | nil => rfl
  | cons h _ ih => rw [List.mapM_cons, h, ih]; rfl

/-- With `many ≥ 2`, the first trial with the least loss is returned, if no trial loss is NaN. -/
theorem C45_best {Key : Type} (M : Minimizer Key) (f : List F → F) (key : Key) (n many : ℕ)
    (hmany : many ≠ 1) (trials : List (List F × F)) (htr : Trials M f key n many trials) (hne : trials ≠ [])
    (hnan : ∀ t ∈ trials, t.2 ≠ F.nan) :
    ∃ (i : ℕ) (best : List F × F), minimizeManyRandomUniform M f key n many = .ok best ∧ trials[i]? = some best ∧
      (∀ t ∈ trials, NotLarger best.2 t.2) ∧
      (∀ j < i, ∀ t : List F × F, trials[j]? = some t → Smaller best.2 t.2) := by
  have hm : (M.split key many).mapM (fun k => minimizeRandomUniform M f k n) = .ok trials := mapM_inv _ _ _ htr
  obtain ⟨i, b, hi, hb, hmin, hfirst⟩ := F.argmin_spec (xs := trials.map Prod.snd) (by simpa using hne)
    (by intro x hx; obtain ⟨t, ht, rfl⟩ := List.mem_map.mp hx; exact hnan t ht)
  rw [List.getElem?_map] at hb
  obtain ⟨best, hbest, rfl⟩ := Option.map_eq_some_iff.mp hb
  refine ⟨i, best, ?_, hbest, ?_, ?_⟩
  · unfold minimizeManyRandomUniform
    rw [if_neg hmany]
    simp only [hm, bind, Except.bind, hi]
    rw [List.getD_eq_getElem?_getD, hbest]; rfl
  · intro t ht
    exact notLarger_of (hnan _ (List.mem_of_getElem? hbest)) (hnan t ht) (hmin _ (List.mem_map.mpr ⟨t, ht, rfl⟩))
  · intro j hj t ht
    exact smaller_of (hfirst j hj t.2 (by rw [List.getElem?_map, ht]; rfl))

/-- With `many = 1`, the given key is used directly for a single trial. -/
theorem C45_single {Key : Type} (M : Minimizer Key) (f : List F → F) (key : Key) (n : ℕ) :
    minimizeManyRandomUniform M f key n 1 = minimize M f (M.uniform key n) := rfl

/-- There are exactly `many` trials, and they all succeed. -/
theorem C45_trials {Key : Type} (M : Minimizer Key) (f : List F → F) (key : Key) (n many : ℕ)
    (hM : Shaped M many) : ∃ trials, Trials M f key n many trials ∧ trials.length = many ∧ trials ≠ [] := by
  have key' : ∀ ks : List Key, ∃ ts, List.Forall₂ (fun k t => minimize M f (M.uniform k n) = .ok t) ks ts := by
    intro ks
    induction ks with
    | nil => exact ⟨[], .nil⟩
    | cons k ks ih =>
      obtain ⟨ts, hts⟩ := ih
      obtain ⟨t, ht, -⟩ := minimize_ok hM f (M.uniform k n)
      exact ⟨t :: ts, .cons ht hts⟩
  obtain ⟨ts, hts⟩ := key' (M.split key many)
  have hl : ts.length = many := by rw [← hts.length_eq, hM.split]
  refine ⟨ts, hts, hl, ?_⟩
  rintro rfl
  have := hM.many
  simp at hl; omega

/-! ## C46 — a NaN trial -/

/-- If some trial ends with a NaN loss, the first such trial is returned, whatever the others found. -/
theorem C46_nan_wins {Key : Type} (M : Minimizer Key) (f : List F → F) (key : Key) (n many : ℕ)
    (hmany : many ≠ 1) (pre post : List (List F × F)) (t : List F × F)
    (htr : Trials M f key n many (pre ++ t :: post)) (ht : t.2 = F.nan) (hpre : ∀ t ∈ pre, t.2 ≠ F.nan) :
    minimizeManyRandomUniform M f key n many = .ok t := by
  have hm : (M.split key many).mapM (fun k => minimizeRandomUniform M f k n) = .ok (pre ++ t :: post) :=
    mapM_inv _ _ _ htr
  have ha := F.argmin_nan (pre.map Prod.snd) (post.map Prod.snd)
    (by intro x hx; obtain ⟨t, ht, rfl⟩ := List.mem_map.mp hx; exact hpre t ht)
  unfold minimizeManyRandomUniform
  rw [if_neg hmany]
  have e : (pre ++ t :: post).map Prod.snd = pre.map Prod.snd ++ F.nan :: post.map Prod.snd := by simp [ht]
  simp only [hm, bind, Except.bind, e, ha]
  simp [List.getD_eq_getElem?_getD]

/-- The claim is false: with the default optimizer and one step, two trials, one starting at 0 where the
objective `sqrt(x - 1/4)` is NaN and one at 1/2 where it is 1/2; the NaN is returned. -/
theorem C46_refuted :
    ∃ (M : Minimizer Bool) (f : List F → F) (x : List F) (t₁ t₂ : List F × F),
      M.optimizer = adam ∧ Shaped M 2 ∧ Trials M f true 1 2 [t₁, t₂] ∧ t₂.2 = F.fin (1 / 2) ∧
      minimizeManyRandomUniform M f true 1 2 = .ok (x, F.nan) := by
  let M : Minimizer Bool := ⟨adam, 1, fun _ x => x, fun k n => List.replicate n (F.fin (if k then 0 else 1 / 2)),
      fun _ n => (List.range n).map (fun i => i == 0)⟩
  let f : List F → F := fun x => F.sqrt (F.sum x - F.fin (1 / 4))
  have hsh : Shaped M 2 :=
    ⟨le_rfl, by norm_num, by simp [M], by simp [M], adam_shaped 0.1, by simp [M]⟩
  obtain ⟨⟨x1, l1⟩, h1, -⟩ := minimize_ok hsh f [F.fin 0]
  obtain ⟨⟨x2, l2⟩, h2, -⟩ := minimize_ok hsh f [F.fin (1 / 2)]
  obtain ⟨xs, sts, hr, hm⟩ := C44_steps M f
    [F.fin 0] le_rfl
  obtain ⟨ys, sts', hr', hm'⟩ := C44_steps M f
    [F.fin (1 / 2)] le_rfl
  have e1 : f (xs 0) = F.nan := by
    rw [hr.start]
    simp only [f, F.sum, List.foldl, F.fin_add, F.fin_sub, F.sqrt]; norm_num
  have e2 : f (ys 0) = F.fin (1 / 2) := by
    rw [hr'.start]
    simp only [f, F.sum, List.foldl, F.fin_add, F.fin_sub]
    rw [show (0 + 1 / 2 - 1 / 4 : ℝ) = (1 / 2) ^ 2 by norm_num, F.sqrt_fin (by positivity), Real.sqrt_sq (by norm_num)]
  rw [hm] at h1
  rw [hm'] at h2
  simp only [Except.ok.injEq, Prod.mk.injEq] at h1 h2
  have htr : Trials M f true 1 2
      [(x1, F.nan), (x2, F.fin (1 / 2))] := by
    refine .cons ?_ (.cons ?_ .nil)
    · have : M.uniform (0 == 0) 1 = [F.fin 0] := rfl
      show minimize _ f (M.uniform (0 == 0) 1) = _
      rw [this, hm, ← h1.1, ← e1]; rfl
    · have : M.uniform (1 == 0) 1 = [F.fin (1 / 2)] := rfl
      show minimize _ f (M.uniform (1 == 0) 1) = _
      rw [this, hm', ← h2.1, ← e2]; rfl
  refine ⟨M, f, x1, (x1, F.nan),
    (x2, F.fin (1 / 2)), rfl, hsh, htr, rfl, ?_⟩
  exact C46_nan_wins _ f true 1 2 (by norm_num) [] _ (x1, F.nan) htr rfl (by simp)

/-- What does hold: a trial that diverges to an infinite loss (and not to a NaN) is not returned when
another one ends with a finite loss. -/
theorem C46_partial {Key : Type} (M : Minimizer Key) (f : List F → F) (key : Key) (n many : ℕ)
    (hmany : many ≠ 1) (trials : List (List F × F)) (htr : Trials M f key n many trials)
    (hnan : ∀ t ∈ trials, t.2 ≠ F.nan) (hconv : ∃ t ∈ trials, ∃ l : ℝ, t.2 = F.fin l) :
    ∃ best, minimizeManyRandomUniform M f key n many = .ok best ∧ best.2 ≠ F.pinf ∧ best.2 ≠ F.nan := by
  obtain ⟨t, ht, l, hl⟩ := hconv
  obtain ⟨i, best, h1, h2, h3, -⟩ := C45_best M f key n many hmany trials htr
    (by rintro rfl; simp at ht) hnan
  refine ⟨best, h1, ?_, hnan _ (List.mem_of_getElem? h2)⟩
  intro e
  have := h3 t ht
  rw [e, hl] at this
  simp [NotLarger] at this

/-- Non-vacuity of C43 and C44: the default optimizer with 100 steps has a run; a minimizer without steps. -/
example (f : List F → F) (x0 : List F) : True := by
  obtain ⟨xs, sts, hr, -⟩ := C44_steps (exampleMinimizer 100) f x0 (by simp [exampleMinimizer])
  have := C43_iff (exampleMinimizer 100) f x0 (by simp [exampleMinimizer]) xs sts hr
  have := C44_deterministic _ f x0 _ xs xs sts sts hr hr 7 (by simp [exampleMinimizer])
  have := C44_no_steps (exampleMinimizer 0) f x0 rfl
  trivial

/-- Non-vacuity of C43: the objective is constant, so the loss matches. -/
example : ∃ x loss, minimize (exampleMinimizer 100) (fun _ => F.fin 1) [F.fin 0] = .ok (x, loss) ∧ loss = F.fin 1 := by
  obtain ⟨xs, sts, hr, -⟩ := C44_steps (exampleMinimizer 100) (fun _ => F.fin 1) [F.fin 0] (by simp [exampleMinimizer])
  exact (C43_iff (exampleMinimizer 100) (fun _ => F.fin 1) [F.fin 0] (by simp [exampleMinimizer]) xs sts hr).2 rfl

/-- Non-vacuity of C45 and C46: ten trials of 100 steps, whose losses are all 1, or all NaN. -/
example : True := by
  obtain ⟨trials, ht, hl, hne⟩ := C45_trials (exampleMinimizer 100) (fun _ => F.fin 1) () 2 10 exampleMinimizer_shaped
  have hloss : ∀ (c : F) (ks : List Unit) (ts : List (List F × F)),
      List.Forall₂ (fun k t => minimize (exampleMinimizer 100) (fun _ => c) ((exampleMinimizer 100).uniform k 2) = .ok t) ks ts →
      ∀ t ∈ ts, t.2 = c := by
    intro c ks ts hts
    induction hts with
    | nil => simp
    | cons hk _ ih =>
      obtain ⟨xs, sts, -, e⟩ := C44_steps (exampleMinimizer 100) (fun _ => c) _ (by simp [exampleMinimizer])
      rw [e] at hk
      injection hk with hk
      simpa [← hk] using ih
  have h1 := hloss _ _ _ ht
  have := C45_best _ _ _ _ _ (by norm_num) trials ht hne (fun t htm => by rw [h1 t htm]; simp)
  have := C46_partial _ _ _ _ _ (by norm_num) trials ht (fun t htm => by rw [h1 t htm]; simp)
    (by obtain ⟨t, rest, rfl⟩ := List.exists_cons_of_ne_nil hne; exact ⟨t, by simp, 1, h1 t (by simp)⟩)
  obtain ⟨trials', ht', hl', hne'⟩ := C45_trials (exampleMinimizer 100) (fun _ => F.nan) () 2 10 exampleMinimizer_shaped
  obtain ⟨t, rest, rfl⟩ := List.exists_cons_of_ne_nil hne'
  have := C46_nan_wins _ _ _ _ _ (by norm_num) [] rest t ht' (hloss _ _ _ ht' t (by simp)) (by simp)
  trivial

end DiffeRT2d.Props
