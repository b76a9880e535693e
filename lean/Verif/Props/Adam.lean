import Verif.Lemmas.Adam
import Verif.Props.Optimize

/-! # Property C106: what the default optimizer can and cannot do -/

namespace DiffeRT2d.Props
open Classical Spec

theorem adam_real_step (lr a m v x : ℝ) (c : ℕ) (hv : 0 ≤ v) :
    F.fin a + (-F.fin lr * ((F.fin (1 - 0.9) * F.fin x + F.fin 0.9 * F.fin m) / F.fin (1 - 0.9 ^ (c + 1)) /
      (F.sqrt ((F.fin (1 - 0.999) * (F.fin x * F.fin x) + F.fin 0.999 * F.fin v) / F.fin (1 - 0.999 ^ (c + 1))) + 1e-8))) =
    F.fin (a + -lr * (((1 - 0.9) * x + 0.9 * m) / (1 - 0.9 ^ (c + 1)) / (Real.sqrt (((1 - 0.999) * (x * x) + 0.999 * v) / (1 - 0.999 ^ (c + 1))) + 1e-8))) := by
  have he : (1e-8 : F) = F.fin 1e-8 := rfl
  have h1 := pow9 c
  have h2 := pow999 c
  have h3 : 0 ≤ ((1 - 0.999) * (x * x) + 0.999 * v) / (1 - 0.999 ^ (c + 1) : ℝ) := by
    apply div_nonneg _ h2.le
    have := mul_self_nonneg x
    nlinarith
  have h4 : Real.sqrt (((1 - 0.999) * (x * x) + 0.999 * v) / (1 - 0.999 ^ (c + 1))) + 1e-8 ≠ 0 := by positivity
  simp only [F.fin_mul, F.fin_add, F.fin_div _ h1.ne', F.fin_div _ h2.ne', F.sqrt_fin h3, he, F.fin_div _ h4, F.fin_neg]

theorem adam_wild_step (lr a m v : ℝ) (x : F) (c : ℕ) (hx : ∀ r : ℝ, x ≠ F.fin r) :
    F.fin a + (-F.fin lr * ((F.fin (1 - 0.9) * x + F.fin 0.9 * F.fin m) / F.fin (1 - 0.9 ^ (c + 1)) /
      (F.sqrt ((F.fin (1 - 0.999) * (x * x) + F.fin 0.999 * F.fin v) / F.fin (1 - 0.999 ^ (c + 1))) + 1e-8))) = F.nan := by
  have he : (1e-8 : F) = F.fin 1e-8 := rfl
  have h1 := pow9 c
  have h2 := pow999 c
  have p1 : (0 : ℝ) < 1 - 0.9 := by norm_num
  have p2 : (0 : ℝ) < 1 - 0.999 := by norm_num
  rw [he]
  cases x with
  | nan => simp
  | fin r => exact absurd rfl (hx r)
  | pinf =>
    have e1 : F.fin (1 - 0.9) * F.pinf = F.pinf := by show F.mul _ _ = _; simp only [F.mul, p1.ne', if_false, p1, if_true]
    have e2 : F.fin (1 - 0.999) * (F.pinf * F.pinf) = F.pinf := by
      show F.mul _ (F.mul _ _) = _; simp only [F.mul, p2.ne', if_false, p2, if_true]
    have e3 : ∀ z : ℝ, F.pinf + F.fin z = F.pinf := fun z => rfl
    have e4 : ∀ z : ℝ, 0 < z → F.pinf / F.fin z = F.pinf := fun z hz => by
      show F.div _ _ = _; simp only [F.div, not_lt.mpr hz.le, if_false]
    rw [e1, e2, F.fin_mul, F.fin_mul, e3, e3, e4 _ h1, e4 _ h2]
    have e5 : F.pinf / (F.sqrt F.pinf + F.fin 1e-8) = F.nan := rfl
    rw [e5]; simp
  | ninf =>
    have e1 : F.fin (1 - 0.9) * F.ninf = F.ninf := by show F.mul _ _ = _; simp only [F.mul, p1.ne', if_false, p1, if_true]
    have e2 : F.fin (1 - 0.999) * (F.ninf * F.ninf) = F.pinf := by
      show F.mul _ (F.mul _ _) = _; simp only [F.mul, p2.ne', if_false, p2, if_true]
    have e3 : ∀ z : ℝ, F.pinf + F.fin z = F.pinf := fun z => rfl
    have e3' : ∀ z : ℝ, F.ninf + F.fin z = F.ninf := fun z => rfl
    have e4 : ∀ z : ℝ, 0 < z → F.pinf / F.fin z = F.pinf := fun z hz => by
      show F.div _ _ = _; simp only [F.div, not_lt.mpr hz.le, if_false]
    have e4' : ∀ z : ℝ, 0 < z → F.ninf / F.fin z = F.ninf := fun z hz => by
      show F.div _ _ = _; simp only [F.div, not_lt.mpr hz.le, if_false]
    rw [e1, e2, F.fin_mul, F.fin_mul, e3, e3', e4' _ h1, e4 _ h2]
    have e5 : F.ninf / (F.sqrt F.pinf + F.fin 1e-8) = F.nan := rfl
    rw [e5]; simp

/-- What is known after `k` steps of coordinate `i`, for real gradients `g` until then. -/
theorem adam_run {Key : Type} {M : Minimizer Key} {lr : ℝ} (hopt : M.optimizer = adam (F.fin lr)) {f : List F → F} {x0 : List ℝ} {n : ℕ}
    {xs : ℕ → List F} {sts : ℕ → M.optimizer.State} (hr : Run M f (x0.map F.fin) n xs sts)
    (hlen : ∀ k < n, (M.grad f (xs k)).length = x0.length) {i : ℕ} {a : ℝ} (ha : x0[i]? = some a) :
    ∃ (mu nu : ℕ → F), ∀ k ≤ n, (xs k).length = x0.length ∧
      (∀ g : ℕ → ℝ, (∀ m < k, (M.grad f (xs m))[i]? = some (F.fin (g m))) → 
        mu k = F.fin (am g k) ∧ nu k = F.fin (av g k) ∧ (xs k)[i]? = some (F.fin (a + ((List.range k).map (au lr g)).sum))) ∧
      ((∃ m < k, ∀ r : ℝ, (M.grad f (xs m))[i]? ≠ some (F.fin r)) → (xs k)[i]? = some F.nan) := by
  obtain ⟨o, steps, grad, uniform, split⟩ := M
  simp only at hopt
  subst hopt
  simp only at hlen ⊢
  have hi : i < x0.length := (List.getElem?_eq_some_iff.mp ha).1
  refine ⟨fun k => ((sts k).1)[i]?.getD F.nan, fun k => ((sts k).2.1)[i]?.getD F.nan, ?_⟩
  -- shapes
  have hsh : ∀ k ≤ n, (xs k).length = x0.length ∧ (sts k).1.length = x0.length ∧ (sts k).2.1.length = x0.length ∧ (sts k).2.2 = k := by
    intro k hk
    induction k with
    | zero => rw [hr.start, hr.init]; simp [adam]
    | succ k ih =>
      obtain ⟨h1, h2, h3, h4⟩ := ih (by omega)
      have hl := hlen k (by omega)
      rw [hr.step k (by omega), hr.state k (by omega)]
      simp [adam, h1, h2, h3, h4, hl]
  have hstep : ∀ k < n, ∃ x m v b : F, (grad f (xs k))[i]? = some x ∧ (sts k).1[i]? = some m ∧ (sts k).2.1[i]? = some v ∧ (xs k)[i]? = some b ∧
      (sts (k + 1)).1[i]? = some (F.fin (1 - 0.9) * x + F.fin 0.9 * m) ∧ (sts (k + 1)).2.1[i]? = some (F.fin (1 - 0.999) * (x * x) + F.fin 0.999 * v) ∧
      (xs (k + 1))[i]? = some (b + (-F.fin lr * ((F.fin (1 - 0.9) * x + F.fin 0.9 * m) / F.fin (1 - 0.9 ^ (k + 1)) /
        (F.sqrt ((F.fin (1 - 0.999) * (x * x) + F.fin 0.999 * v) / F.fin (1 - 0.999 ^ (k + 1))) + 1e-8)))) := by
    intro k hk
    obtain ⟨h1, h2, h3, h4⟩ := hsh k hk.le
    have hl := hlen k hk
    obtain ⟨x, hx⟩ : ∃ x, (grad f (xs k))[i]? = some x := ⟨_, List.getElem?_eq_getElem (by omega)⟩
    obtain ⟨m, hm⟩ : ∃ x, (sts k).1[i]? = some x := ⟨_, List.getElem?_eq_getElem (by omega)⟩
    obtain ⟨v, hv⟩ : ∃ x, (sts k).2.1[i]? = some x := ⟨_, List.getElem?_eq_getElem (by omega)⟩
    obtain ⟨b, hb⟩ : ∃ x, (xs k)[i]? = some x := ⟨_, List.getElem?_eq_getElem (by omega)⟩
    obtain ⟨u1, u2, u3, -⟩ := adam_coord (F.fin lr) (grad f (xs k)) (sts k) hx hm hv
    rw [h4] at u1
    refine ⟨x, m, v, b, hx, hm, hv, hb, ?_, ?_, ?_⟩
    · rw [hr.state k hk]; exact u2
    · rw [hr.state k hk]; exact u3
    · rw [hr.step k hk, List.getElem?_zipWith, hb]
      rw [u1]
  have hreal : ∀ k ≤ n, ∀ g : ℕ → ℝ, (∀ m < k, (grad f (xs m))[i]? = some (F.fin (g m))) →
      (sts k).1[i]? = some (F.fin (am g k)) ∧ (sts k).2.1[i]? = some (F.fin (av g k)) ∧ (xs k)[i]? = some (F.fin (a + ((List.range k).map (au lr g)).sum)) := by
    intro k hk g
    induction k with
    | zero => intro _; rw [hr.start, hr.init]; simp [adam, ha, am, av, F.zero_eq]
    | succ k ih =>
      intro hg
      obtain ⟨e1, e2, e3⟩ := ih (by omega) fun m hm => hg m (by omega)
      obtain ⟨x, m, v, b, hx, hm, hv, hb, s1, s2, s3⟩ := hstep k (by omega)
      rw [hg k (by omega)] at hx
      rw [e1] at hm; rw [e2] at hv; rw [e3] at hb
      cases hx; cases hm; cases hv; cases hb
      refine ⟨by rw [s1]; simp [am], by rw [s2]; simp [av], ?_⟩
      rw [s3, adam_real_step _ _ _ _ _ _ (av_nonneg g k), List.range_succ, List.map_append, List.sum_append]
      simp [au, am, av, add_assoc]
  intro k hk
  refine ⟨(hsh k hk).1, fun g hg => ?_, ?_⟩
  · obtain ⟨e1, e2, e3⟩ := hreal k hk g hg
    exact ⟨by simp [e1], by simp [e2], e3⟩
  · induction k with
    | zero => rintro ⟨m, hm, -⟩; omega
    | succ k ih =>
      rintro ⟨m, hm, hmg⟩
      obtain ⟨x, m', v, b, hx, hm', hv, hb, s1, s2, s3⟩ := hstep k (by omega)
      by_cases hb' : ∃ m < k, ∀ r : ℝ, (grad f (xs m))[i]? ≠ some (F.fin r)
      · have := ih (by omega) hb'
        rw [this] at hb
        cases hb
        rw [s3]; simp
      · push Not at hb'
        have hmk : m = k := by
          by_contra hne
          obtain ⟨r, hr'⟩ := hb' m (by omega)
          exact hmg r hr'
        subst hmk
        choose! g hg using hb'
        obtain ⟨e1, e2, e3⟩ := hreal m (by omega) g hg
        rw [e1] at hm'; rw [e2] at hv; rw [e3] at hb
        cases hm'; cases hv; cases hb
        rw [s3, adam_wild_step _ _ _ _ _ _ fun r hr' => hmg r (by rw [hx, hr'])]

/-- A run of the default optimizer (Adam, any learning rate) from real numbers never meets an infinity: after `k` steps a coordinate is real if all
gradients computed so far were real in this coordinate, and NaN otherwise. -/
theorem C106_real_or_nan {Key : Type} (M : Minimizer Key) (lr : ℝ) (hopt : M.optimizer = adam (F.fin lr)) (f : List F → F) (x0 : List ℝ) (n : ℕ)
    (xs : ℕ → List F) (sts : ℕ → M.optimizer.State) (hr : Run M f (x0.map F.fin) n xs sts)
    (hlen : ∀ k < n, (M.grad f (xs k)).length = x0.length) (k : ℕ) (hk : k ≤ n) (i : ℕ) (hi : i < x0.length) :
    ((∀ m < k, ∃ r : ℝ, (M.grad f (xs m))[i]? = some (F.fin r)) → ∃ r : ℝ, (xs k)[i]? = some (F.fin r)) ∧
    ((∃ m < k, ∀ r : ℝ, (M.grad f (xs m))[i]? ≠ some (F.fin r)) → (xs k)[i]? = some F.nan) := by
  obtain ⟨mu, nu, h⟩ := adam_run hopt hr hlen (List.getElem?_eq_getElem hi)
  refine ⟨fun hg => ?_, (h k hk).2.2⟩
  choose! g hg using hg
  exact ⟨_, ((h k hk).2.1 g hg).2.2⟩

/-- The default optimizer cannot run away: no step moves a coordinate by `√(370/7) ≈ 7.27` learning rates or more, whatever the gradients. -/
theorem C106_step {Key : Type} (M : Minimizer Key) (lr : ℝ) (hlr : 0 < lr) (hopt : M.optimizer = adam (F.fin lr)) (f : List F → F) (x0 : List ℝ) (n : ℕ)
    (xs : ℕ → List F) (sts : ℕ → M.optimizer.State) (hr : Run M f (x0.map F.fin) n xs sts)
    (hlen : ∀ k < n, (M.grad f (xs k)).length = x0.length) (k : ℕ) (hk : k < n) (i : ℕ) (a b : ℝ) (ha : (xs k)[i]? = some (F.fin a))
    (hb : (xs (k + 1))[i]? = some (F.fin b)) : |b - a| < lr * Real.sqrt (370 / 7) := by
  have hl0 : (xs 0).length = x0.length := by rw [hr.start]; simp
  have hi : i < x0.length := by
    by_contra hi
    have : ∀ k ≤ n, (xs k).length ≤ x0.length := by
      intro k hk
      induction k with
      | zero => exact hl0.le
      | succ k ih => rw [hr.step k (by omega), List.length_zipWith]; exact (min_le_left _ _).trans (ih (by omega))
    have h1 := (List.getElem?_eq_some_iff.mp ha).1
    have h2 := this k hk.le
    omega
  obtain ⟨mu, nu, h⟩ := adam_run hopt hr hlen (List.getElem?_eq_getElem hi)
  have hall : ∀ m < k + 1, ∃ r : ℝ, (M.grad f (xs m))[i]? = some (F.fin r) := by
    by_contra hc
    push Not at hc
    have := (h (k + 1) hk).2.2 hc
    rw [this] at hb
    cases hb
  choose! g hg using hall
  have h1 := ((h k hk.le).2.1 g fun m hm => hg m (by omega)).2.2
  have h2 := ((h (k + 1) hk).2.1 g hg).2.2
  rw [h1] at ha
  rw [h2, List.range_succ, List.map_append, List.sum_append] at hb
  simp only [Option.some.injEq, F.fin.injEq] at ha hb
  have e : b - a = au lr g k := by rw [← ha, ← hb]; simp
  rw [e]
  exact abs_au_lt hlr g k

/-- In total: after `k` steps a coordinate has moved by at most `√(370/7) · k` learning rates. -/
theorem C106_total {Key : Type} (M : Minimizer Key) (lr : ℝ) (hlr : 0 < lr) (hopt : M.optimizer = adam (F.fin lr)) (f : List F → F) (x0 : List ℝ) (n : ℕ)
    (xs : ℕ → List F) (sts : ℕ → M.optimizer.State) (hr : Run M f (x0.map F.fin) n xs sts)
    (hlen : ∀ k < n, (M.grad f (xs k)).length = x0.length) (k : ℕ) (hk : k ≤ n) (i : ℕ) (a b : ℝ) (ha : x0[i]? = some a)
    (hb : (xs k)[i]? = some (F.fin b)) : |b - a| ≤ k * (lr * Real.sqrt (370 / 7)) := by
  obtain ⟨mu, nu, h⟩ := adam_run hopt hr hlen ha
  have hall : ∀ m < k, ∃ r : ℝ, (M.grad f (xs m))[i]? = some (F.fin r) := by
    by_contra hc
    push Not at hc
    have := (h k hk).2.2 hc
    rw [this] at hb
    cases hb
  choose! g hg using hall
  have h1 := ((h k hk).2.1 g hg).2.2
  rw [h1] at hb
  simp only [Option.some.injEq, F.fin.injEq] at hb
  have e : b - a = ((List.range k).map (au lr g)).sum := by rw [← hb]; ring
  rw [e]
  clear e hb h1 hg hk
  induction k with
  | zero => simp
  | succ k ih =>
    rw [List.range_succ, List.map_append, List.sum_append]
    have := abs_au lr g k
    rw [abs_of_pos hlr] at this
    push_cast
    refine (abs_add_le _ _).trans ?_
    simp only [List.map_cons, List.map_nil, List.sum_cons, List.sum_nil, add_zero]
    linarith

/-- The first step goes against the sign of the gradient, by (nearly) one learning rate, whatever its size. -/
theorem C106_first {Key : Type} (M : Minimizer Key) (lr : ℝ) (hopt : M.optimizer = adam (F.fin lr)) (f : List F → F) (x0 : List ℝ) (n : ℕ)
    (xs : ℕ → List F) (sts : ℕ → M.optimizer.State) (hr : Run M f (x0.map F.fin) n xs sts)
    (hlen : ∀ k < n, (M.grad f (xs k)).length = x0.length) (hn : 1 ≤ n) (i : ℕ) (a g : ℝ) (ha : x0[i]? = some a)
    (hg : (M.grad f (x0.map F.fin))[i]? = some (F.fin g)) : (xs 1)[i]? = some (F.fin (a - lr * (g / (|g| + 1e-8)))) := by
  obtain ⟨mu, nu, h⟩ := adam_run hopt hr hlen ha
  have := ((h 1 hn).2.1 (fun _ => g) fun m hm => by
    have : m = 0 := by omega
    subst this
    rw [hr.start]; exact hg).2.2
  rw [this]
  simp [au_first, sub_eq_add_neg]

/-- `minimize` with the default optimizer and learning rate: for real gradients, the solution is real and no coordinate is farther than
`0.1 · √(370/7) · steps` (less than one per step) from the initial guess. -/
theorem C106_minimize {Key : Type} (M : Minimizer Key) (hopt : M.optimizer = adam) (hs : 1 ≤ M.steps) (f : List F → F) (x0 : List ℝ)
    (hg : ∀ x : List ℝ, x.length = x0.length → ∃ g : List ℝ, g.length = x0.length ∧ M.grad f (x.map F.fin) = g.map F.fin) :
    ∃ (x : List ℝ) (loss : F), minimize M f (x0.map F.fin) = .ok (x.map F.fin, loss) ∧ x.length = x0.length ∧
      ∀ (i : ℕ) (a b : ℝ), x0[i]? = some a → x[i]? = some b → |b - a| < M.steps := by
  have hopt' : M.optimizer = adam (F.fin 0.1) := hopt
  obtain ⟨xs, sts, hr, hm⟩ := C44_steps M f (x0.map F.fin) hs
  have key : ∀ k ≤ M.steps, ∃ x : List ℝ, x.length = x0.length ∧ xs k = x.map F.fin := by
    intro k
    induction k using Nat.strong_induction_on with
    | _ k ih =>
      intro hk
      rcases Nat.eq_zero_or_pos k with rfl | hk0
      · exact ⟨x0, rfl, hr.start⟩
      · have hlen : ∀ m < k, (M.grad f (xs m)).length = x0.length := by
          intro m hm
          obtain ⟨x, hx, e⟩ := ih m hm (by omega)
          obtain ⟨g, hg1, hg2⟩ := hg x hx
          rw [e, hg2]; simpa using hg1
        have hr' : Run M f (x0.map F.fin) k xs sts := ⟨hr.start, hr.init, fun m hm => hr.step m (by omega), fun m hm => hr.state m (by omega)⟩
        have hreal : ∀ i, i < x0.length → ∃ r : ℝ, (xs k)[i]? = some (F.fin r) := by
          intro i hi
          refine (C106_real_or_nan M 0.1 hopt' f x0 k xs sts hr' hlen k le_rfl i hi).1 fun m hm => ?_
          obtain ⟨x, hx, e⟩ := ih m hm (by omega)
          obtain ⟨g, hg1, hg2⟩ := hg x hx
          rw [e, hg2]
          exact ⟨g[i]'(by omega), by rw [List.getElem?_map, List.getElem?_eq_getElem (by omega)]; rfl⟩
        have hl : (xs k).length = x0.length := by
          obtain ⟨m, rfl⟩ : ∃ m, k = m + 1 := ⟨k - 1, by omega⟩
          rcases Nat.eq_zero_or_pos x0.length with h0 | h0
          · rw [hr.step m (by omega), List.length_zipWith]
            obtain ⟨x, hx, e⟩ := ih m (by omega) (by omega)
            rw [e]; simp [hx, h0]
          · obtain ⟨mu, nu, h⟩ := adam_run hopt' hr' hlen (List.getElem?_eq_getElem h0)
            exact (h _ le_rfl).1
        choose! r hr'' using hreal
        refine ⟨(List.range x0.length).map r, by simp, ?_⟩
        apply List.ext_getElem?
        intro i
        rcases lt_or_ge i x0.length with hi | hi
        · rw [hr'' i hi]; simp [hi]
        · rw [List.getElem?_eq_none (by omega), List.getElem?_eq_none (by simpa using hi)]
  obtain ⟨x, hx, e⟩ := key M.steps le_rfl
  refine ⟨x, _, by rw [hm, e], hx, fun i a b ha hb => ?_⟩
  have hlen : ∀ m < M.steps, (M.grad f (xs m)).length = x0.length := by
    intro m hm
    obtain ⟨x, hx, e⟩ := key m hm.le
    obtain ⟨g, hg1, hg2⟩ := hg x hx
    rw [e, hg2]; simpa using hg1
  have := C106_total M 0.1 (by norm_num) hopt' f x0 M.steps xs sts hr hlen M.steps le_rfl i a b ha (by rw [e, List.getElem?_map, hb]; rfl)
  refine this.trans_lt ?_
  have h1 : Real.sqrt (370 / 7) < 10 := by
    rw [Real.sqrt_lt' (by norm_num)]; norm_num
  have h2 : (0 : ℝ) < M.steps := by exact_mod_cast hs
  nlinarith

/-- Non-vacuity: the default call on a quadratic function, 100 steps. -/
example : ∃ (x : List ℝ) (loss : F), minimize (Key := Unit) ⟨adam, 100, fun _ x => x.map fun t => 2 * t, fun _ n => List.replicate n 0, fun _ n => List.replicate n ()⟩
    (fun x => F.sum (x.map fun t => t * t)) ([5, -3].map F.fin) = .ok (x.map F.fin, loss) ∧ x.length = 2 ∧
      ∀ (i : ℕ) (a b : ℝ), [5, -3][i]? = some a → x[i]? = some b → |b - a| < (100 : ℕ) := by
  refine C106_minimize _ rfl (by norm_num) _ [5, -3] fun x hx => ⟨x.map fun t => 2 * t, by simpa using hx, ?_⟩
  have : (2 : F) = F.fin 2 := by simp [OfNat.ofNat]
  simp only [List.map_map]
  refine List.map_congr_left fun t _ => ?_
  simp [this]

end DiffeRT2d.Props
