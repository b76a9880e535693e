import Verif.Lemmas.RoundedPaths

/-! # Properties C87 to C91: floating point arithmetic

`A : FloatOps` is any arithmetic that satisfies `FloatContract`; the formats of the library are instances. -/

namespace DiffeRT2d.Props
open Classical Spec

variable {A : FloatOps} {E E' : Env} {ap ap' : Option Bool} {kw kw' : ActKw}

/-! ## C87 — truth values in floating point -/

theorem exact_contract : FloatContract FloatOps.exact :=
  ⟨fun _ => by simp [FloatOps.exact], fun _ _ h => Spec.Le.fin.mpr h, fun _ => rfl, fun _ _ => rfl, rfl, fun _ h => nnSigmoid_range h,
   fun _ _ h => nnSigmoid_mono h, by simp [FloatOps.exact, nnSigmoid]; norm_num⟩

/-- `float32`, `float64`, and every IEEE binary format with at least 4 bits of precision, satisfy the contract; so does exact
arithmetic. -/
theorem C87_formats : FloatContract float32 ∧ FloatContract float64 ∧ FloatContract FloatOps.exact ∧
    ∀ (p : ℕ) (emin emax : ℤ), 4 ≤ p → emin ≤ 0 → 3 ≤ emax → FloatContract (ieee p emin emax) :=
  ⟨ieee_contract (by norm_num) (by norm_num) (by norm_num), ieee_contract (by norm_num) (by norm_num) (by norm_num), exact_contract,
   fun _ _ _ h1 h2 h3 => ieee_contract h1 h2 h3⟩

/-- Both activation functions of the library stay soft steps, for every positive slope. -/
theorem C87_steps (hA : FloatContract A) (a : ℝ) (ha : 0 < a) : FloatStep ⟨F.fin a, A.sigmoid⟩ ∧ FloatStep ⟨F.fin a, A.hardSigmoid⟩ :=
  ⟨floatStep_sigmoid hA ha, floatStep_hardSigmoid hA ha⟩

theorem degree_of {x : F} (h : DegNan x) : DegreeOrNan (.f x) := by
  rcases h with rfl | ⟨r, rfl, h0, h1⟩
  · exact .inl rfl
  · exact .inr ⟨r, .of_f h0 h1⟩

/-- In approximate mode every comparison returns a truth degree (or NaN), and negation maps truth degrees to truth degrees. -/
theorem C87_range (hA : FloatContract A) (hk : FloatStep kw) (hs : Soft E ap) :
    (∀ x y, DegreeOrNan (A.greater E ap kw x y) ∧ DegreeOrNan (A.greaterEqual E ap kw x y) ∧ DegreeOrNan (A.less E ap kw x y) ∧
      DegreeOrNan (A.lessEqual E ap kw x y)) ∧
    (∀ x r, Degree x r → ∃ s, Degree (A.logicalNot E ap x) s) := by
  refine ⟨fun x y => ?_, fun x r h => ?_⟩
  · simp only [FloatOps.greater, FloatOps.greaterEqual, FloatOps.less, FloatOps.lessEqual, hs.eq, if_true]
    exact ⟨degree_of (hk.degNan _), degree_of (hk.degNan _), degree_of (hk.degNan _), degree_of (hk.degNan _)⟩
  · simp only [FloatOps.logicalNot, hs.eq, if_true]
    rcases degree_of ((DegNan.rsub hA (x := x.toF)) (.inr ⟨r, h.toF, h.1, h.2.1⟩)) with e | e
    · exfalso
      rw [Truthy.f.injEq, FloatOps.sub, round_eq_nan hA, h.toF] at e
      simp at e
    · exact e

/-- De Morgan's laws survive rounding. -/
theorem C87_de_morgan (hA : FloatContract A) (hs : Soft E ap) (x y : Truthy) (r s : ℝ) (hx : Degree x r) (hy : Degree y s) :
    (A.logicalNot E ap (logicalAnd E ap x y)).toF = (logicalOr E ap (A.logicalNot E ap x) (A.logicalNot E ap y)).toF ∧
    (A.logicalNot E ap (logicalOr E ap x y)).toF = (logicalAnd E ap (A.logicalNot E ap x) (A.logicalNot E ap y)).toF := by
  have hand : (logicalAnd E ap x y).toF = F.fin (min r s) := by
    have : (logicalAnd E ap x y).toF = F.min x.toF y.toF := by
      simp only [logicalAnd, hs.eq, if_true]
      cases x with
      | f x => rfl
      | b x => cases y with
        | f y => rfl
        | b y => cases x <;> cases y <;> simp [Truthy.minimum, Truthy.toF]
    rw [this, hx.toF, hy.toF, F.min_fin]
  have hor : (logicalOr E ap x y).toF = F.fin (max r s) := by
    have : (logicalOr E ap x y).toF = F.max x.toF y.toF := by
      simp only [logicalOr, hs.eq, if_true]
      cases x with
      | f x => rfl
      | b x => cases y with
        | f y => rfl
        | b y => cases x <;> cases y <;> simp [Truthy.maximum, Truthy.toF]
    rw [this, hx.toF, hy.toF, F.max_fin]
  have hnot : ∀ (z : Truthy) (t : ℝ), z.toF = F.fin t → A.logicalNot E ap z = .f (A.rnd (1 - t)) := by
    intro z t hz
    simp [FloatOps.logicalNot, hs.eq, hz, FloatOps.sub]
  have hnum : ∀ t : ℝ, 0 ≤ t → t ≤ 1 → ∃ u, A.rnd (1 - t) = F.fin u := by
    intro t h0 h1
    have := DegNan.rsub hA (x := F.fin t) (.of_fin h0 h1)
    have e : A.sub 1 (F.fin t) = A.rnd (1 - t) := by simp [FloatOps.sub]
    rw [e] at this
    rcases this with h | ⟨u, h, -⟩
    · exact absurd h (hA.number _)
    · exact ⟨u, h⟩
  obtain ⟨u, hu⟩ := hnum r hx.1 hx.2.1
  obtain ⟨v, hv⟩ := hnum s hy.1 hy.2.1
  have mono : ∀ a b : ℝ, a ≤ b → ∀ u v, A.rnd (1 - a) = F.fin u → A.rnd (1 - b) = F.fin v → v ≤ u := by
    intro a b hab u v h1 h2
    have := hA.mono (1 - b) (1 - a) (by linarith)
    rwa [h1, h2, Spec.Le.fin] at this
  rw [hnot _ _ hand, hnot _ _ hor, hnot _ _ hx.toF, hnot _ _ hy.toF, hu, hv]
  simp only [logicalAnd, logicalOr, hs.eq, if_true, Truthy.maximum, Truthy.minimum, Truthy.toF, F.max_fin, F.min_fin]
  rcases le_total r s with h | h
  · have := mono r s h u v hu hv
    rw [min_eq_left h, max_eq_right h, hu, hv, max_eq_left this, min_eq_right this]; exact ⟨rfl, rfl⟩
  · have := mono s r h v u hv hu
    rw [min_eq_right h, max_eq_left h, hu, hv, max_eq_right this, min_eq_left this]; exact ⟨rfl, rfl⟩

/-! ## C88 — comparisons in floating point -/

theorem half_lit : (0.5 : F) = F.fin (1 / 2) := by rw [F.ofScientific_eq]; congr 1; norm_num

theorem rounded_isTrue (hA : FloatContract A) (hs : Soft E ap) (v : F) : A.isTrue E ap (.f v) = .ok true ↔ Lt (F.fin (1 / 2)) v := by
  have : A.sub 1 (0.5 : F) = F.fin (1 / 2) := by
    rw [half_lit, F.one_eq, FloatOps.sub, F.fin_sub, round_fin, show (1 : ℝ) - 1 / 2 = 1 / 2 by norm_num, hA.lit (1 / 2) 1 (by norm_num) (by norm_num)]
  simp only [FloatOps.isTrue, hs.eq, if_true, this, Truthy.toF, Except.ok.injEq, F.lt_iff]
theorem soft_isFalse (hs : Soft E ap) (v : F) : isFalse E ap (.f v) = true ↔ Lt v (F.fin (1 / 2)) := by
  simp only [isFalse, hs.eq, if_true, half_lit, Truthy.toF, F.lt_iff]

/-- **C88.** In floating point, `is_true` of an approximate comparison never claims more than the strict comparison, and
`is_false` never less than the reverse one. -/
theorem C88_sound (hA : FloatContract A) (hk : FloatStep kw) (hs : Soft E ap) (x y : F) :
    (A.isTrue E ap (A.greater E ap kw x y) = .ok true → Lt y x) ∧ (isFalse E ap (A.greater E ap kw x y) = true → Lt x y) ∧
    (A.isTrue E ap (A.greaterEqual E ap kw x y) = .ok true → Lt y x) ∧ (isFalse E ap (A.greaterEqual E ap kw x y) = true → Lt x y) ∧
    (A.isTrue E ap (A.less E ap kw x y) = .ok true → Lt x y) ∧ (isFalse E ap (A.less E ap kw x y) = true → Lt y x) ∧
    (A.isTrue E ap (A.lessEqual E ap kw x y) = .ok true → Lt x y) ∧ (isFalse E ap (A.lessEqual E ap kw x y) = true → Lt y x) := by
  have h1 : ∀ x y, A.isTrue E ap (.f (activation kw (A.sub x y))) = .ok true → Lt y x := fun x y h => sub_above hA hk ((rounded_isTrue hA hs _).mp h)
  have h2 : ∀ x y, isFalse E ap (.f (activation kw (A.sub x y))) = true → Lt x y := fun x y h => sub_below hA hk ((soft_isFalse hs _).mp h)
  simp only [FloatOps.greater, FloatOps.greaterEqual, FloatOps.less, FloatOps.lessEqual, hs.eq, if_true]
  exact ⟨h1 x y, h2 x y, h1 x y, h2 x y, h1 y x, h2 y x, h1 y x, h2 y x⟩

/-- The degree of `greater` increases with its first argument and decreases with its second one. -/
theorem C88_monotone (hA : FloatContract A) (hk : FloatStep kw) (hs : Soft E ap) (x x' y y' : ℝ) (hx : x ≤ x') (hy : y' ≤ y) :
    Le (A.greater E ap kw (F.fin x) (F.fin y)).toF (A.greater E ap kw (F.fin x') (F.fin y')).toF := by
  simp only [FloatOps.greater, hs.eq, if_true, Truthy.toF, FloatOps.sub, F.fin_sub, round_fin]
  exact hk.mono _ _ (hA.mono _ _ (by linarith))

theorem contract32 : FloatContract float32 := C87_formats.1

theorem f32_pow (k : ℤ) (h : -126 ≤ k) (h' : k ≤ 127) : float32.rnd (2 ^ k) = F.fin (2 ^ k) := by
  have hp := two_zpow_pos k
  refine float32_exact k (2 ^ 23) (by rw [abs_of_pos hp]) ?_ h h' ?_
  · rw [abs_of_pos hp]; exact zpow_lt_zpow_right₀ (by norm_num) (by omega)
  · rw [zpow_sub₀ (by norm_num)]; push_cast; norm_num; ring

/-- The converse is false: in `float32` with the default activation, `2 ** -40 > 0` is neither true nor false (its degree is
exactly 1/2). -/
theorem C88_undecided : ∃ x y : ℝ, float32.rnd x = F.fin x ∧ float32.rnd y = F.fin y ∧ y < x ∧
    ∀ (E : Env) (ap : Option Bool), Soft E ap →
      float32.greater E ap ⟨DEFAULT_ALPHA, float32.hardSigmoid⟩ (F.fin x) (F.fin y) = .f (F.fin (1 / 2)) := by
  refine ⟨2 ^ (-40 : ℤ), 0, f32_pow _ (by norm_num) (by norm_num), contract32.zero, two_zpow_pos _, fun E ap hs => ?_⟩
  have hA := contract32
  have h3 : float32.rnd 3 = F.fin 3 := hA.lit 3 6 (by norm_num) (by norm_num)
  have hα : DEFAULT_ALPHA = F.fin 100 := by simp [DEFAULT_ALPHA]
  -- the product is at most 2^-33
  obtain ⟨m, hm, m0, m1⟩ : ∃ m, float32.rnd (100 * 2 ^ (-40 : ℤ)) = F.fin m ∧ 0 ≤ m ∧ m ≤ 2 ^ (-33 : ℤ) := by
    have l0 := hA.mono 0 (100 * 2 ^ (-40 : ℤ)) (by positivity)
    have l1 := hA.mono (100 * 2 ^ (-40 : ℤ)) (2 ^ (-33 : ℤ)) (by norm_num)
    rw [hA.zero] at l0; rw [f32_pow _ (by norm_num) (by norm_num)] at l1
    cases e : float32.rnd (100 * 2 ^ (-40 : ℤ)) with
    | fin s => rw [e] at l0 l1; exact ⟨s, rfl, Spec.Le.fin.mp l0, Spec.Le.fin.mp l1⟩
    | nan => exact absurd e (hA.number _)
    | pinf => rw [e, ← F.le_iff] at l1; simp [F.le, F.lt, F.eq] at l1
    | ninf => rw [e, ← F.le_iff] at l0; simp [F.le, F.lt, F.eq] at l0
  -- which is absorbed by the addition of 3
  have hbig : float32.rnd (3 + 2 ^ (-33 : ℤ)) = F.fin 3 := by
    have hl : Int.log 2 |(3 + 2 ^ (-33 : ℤ) : ℝ)| = 1 := by
      rw [abs_of_pos (by positivity)]; exact log_eq (by norm_num) (by norm_num)
    have hu : ulpExp 24 (-126) (3 + 2 ^ (-33 : ℤ)) = -22 := by
      unfold ulpExp; rw [hl]; norm_num
    have hn : nearest 24 (-126) (3 + 2 ^ (-33 : ℤ)) = 3 := by
      unfold nearest
      rw [hu]
      have hx : ((3 : ℝ) + 2 ^ (-33 : ℤ)) / 2 ^ (-22 : ℤ) = 12582912 + 1 / 2048 := by norm_num
      have hf : ⌊((3 : ℝ) + 2 ^ (-33 : ℤ)) / 2 ^ (-22 : ℤ)⌋ = 12582912 := by
        rw [hx, Int.floor_eq_iff]; norm_num
      have hr : roundEven ((3 + 2 ^ (-33 : ℤ)) / 2 ^ (-22 : ℤ)) = 12582912 := by
        unfold roundEven
        rw [if_pos, hf]
        left
        rw [Int.fract, hf, hx]; norm_num
      rw [hr]; norm_num
    unfold float32
    rw [ieee_rnd_of_lt, hn]
    rw [hn]; norm_num
  have hsum : float32.rnd (m + 3) = F.fin 3 := by
    have l0 := hA.mono 3 (m + 3) (by linarith)
    have l1 := hA.mono (m + 3) (3 + 2 ^ (-33 : ℤ)) (by linarith)
    rw [h3] at l0; rw [hbig] at l1
    exact l1.antisymm l0
  have hrelu : nnRelu6 (F.fin 3) = F.fin 3 := by
    simp only [nnRelu6, F.zero_eq, F.ofNat_eq, F.max_fin, F.min_fin]; norm_num
  have hdiv : float32.div (F.fin 3) (F.fin 6) = F.fin (1 / 2) := by
    rw [FloatOps.div, F.fin_div _ (by norm_num), round_fin, show (3 : ℝ) / 6 = 1 / 2 by norm_num, hA.lit (1 / 2) 1 (by norm_num) (by norm_num)]
  simp only [FloatOps.greater, hs.eq, if_true, activation, FloatOps.hardSigmoid, FloatOps.sub, FloatOps.mul, FloatOps.add, hα]
  rw [F.fin_sub, sub_zero, round_fin, f32_pow _ (by norm_num) (by norm_num), F.fin_mul, round_fin, hm, F.ofNat_eq, F.fin_add, round_fin, hsum, hrelu,
    F.ofNat_eq, hdiv]

/-- **C88.** In `float32`, with `hard_sigmoid` and a slope of at least 64 (the default is 100), numbers that differ by at least
`2 ** -27` are told apart. -/
theorem C88_decided (a : ℝ) (ha : 64 ≤ a) (E : Env) (ap : Option Bool) (hs : Soft E ap) (x y : ℝ) :
    (2 ^ (-27 : ℤ) ≤ x - y → float32.isTrue E ap (float32.greater E ap ⟨F.fin a, float32.hardSigmoid⟩ (F.fin x) (F.fin y)) = .ok true) ∧
    (2 ^ (-27 : ℤ) ≤ y - x → isFalse E ap (float32.greater E ap ⟨F.fin a, float32.hardSigmoid⟩ (F.fin x) (F.fin y)) = true) := by
  have hA := contract32
  have hpos : 0 < a := by linarith
  have h27 := f32_pow (-27) (by norm_num) (by norm_num)
  have h21 := f32_pow (-21) (by norm_num) (by norm_num)
  have hup : float32.rnd (3 + 2 ^ (-21 : ℤ)) = F.fin (3 + 2 ^ (-21 : ℤ)) :=
    float32_exact 1 (3 * 2 ^ 22 + 2) (by rw [abs_of_pos (by positivity)]; norm_num) (by rw [abs_of_pos (by positivity)]; norm_num) (by norm_num) (by norm_num) (by norm_num)
  have hdn : float32.rnd (3 - 2 ^ (-21 : ℤ)) = F.fin (3 - 2 ^ (-21 : ℤ)) :=
    float32_exact 1 (3 * 2 ^ 22 - 2) (by rw [abs_of_pos (by norm_num)]; norm_num) (by rw [abs_of_pos (by norm_num)]; norm_num) (by norm_num) (by norm_num) (by norm_num)
  have hup2 : float32.rnd (1 / 2 + 2 ^ (-24 : ℤ)) = F.fin (1 / 2 + 2 ^ (-24 : ℤ)) :=
    float32_exact (-1) (2 ^ 23 + 1) (by rw [abs_of_pos (by positivity)]; norm_num) (by rw [abs_of_pos (by positivity)]; norm_num) (by norm_num) (by norm_num) (by norm_num)
  have hdn2 : float32.rnd (1 / 2 - 2 ^ (-24 : ℤ)) = F.fin (1 / 2 - 2 ^ (-24 : ℤ)) :=
    float32_exact (-2) (2 ^ 24 - 2) (by rw [abs_of_pos (by norm_num)]; norm_num) (by rw [abs_of_pos (by norm_num)]; norm_num) (by norm_num) (by norm_num) (by norm_num)
  have key : ∀ z : F, float32.hardSigmoid z (F.fin a) = float32.div (nnRelu6 (float32.round (float32.round (F.fin a * z) + F.fin 3))) (F.fin 6) := by
    intro z; simp [FloatOps.hardSigmoid, FloatOps.mul, FloatOps.add]
  have hval : ∀ r : ℝ, 0 ≤ r → r ≤ 6 → nnRelu6 (F.fin r) = F.fin r := by
    intro r h0 h6
    simp only [nnRelu6, F.zero_eq, F.ofNat_eq, F.max_fin, F.min_fin, max_eq_left h0, min_eq_left h6]
  have hdiv : ∀ r : ℝ, float32.div (F.fin r) (F.fin 6) = float32.rnd (r / 6) := by
    intro r; rw [FloatOps.div, F.fin_div _ (by norm_num)]; rfl
  simp only [FloatOps.greater, hs.eq, if_true, activation, FloatOps.sub, F.fin_sub, round_fin]
  constructor
  · intro h
    rw [rounded_isTrue hA hs, key]
    have l1 := hA.mono _ _ h
    rw [h27] at l1
    have l2 : Le (F.fin (2 ^ (-21 : ℤ))) (F.fin a * float32.rnd (x - y)) := by
      refine Spec.Le.trans ?_ (l1.mul_pos hpos)
      rw [F.fin_mul, Spec.Le.fin]
      have : (64 : ℝ) * 2 ^ (-27 : ℤ) = 2 ^ (-21 : ℤ) := by norm_num
      rw [← this]; gcongr
    have l3 := l2.round hA
    rw [round_fin, h21] at l3
    have l4 := (l3.add_const 3).round hA
    rw [F.fin_add, round_fin, add_comm, hup] at l4
    have l5 := relu6_mono l4
    rw [hval _ (by positivity) (by norm_num)] at l5
    obtain ⟨r, hr, -, -⟩ := relu6_range l4.right
    rw [hr, Spec.Le.fin] at l5
    rw [hr, hdiv]
    have l6 := hA.mono (1 / 2 + 2 ^ (-24 : ℤ)) (r / 6) (by norm_num at l5 ⊢; linarith)
    rw [hup2] at l6
    obtain ⟨u, v, e1, e2, e3⟩ := l6
    refine ⟨_, v, rfl, e2, lt_of_lt_of_le ?_ e3⟩
    simp only [toEReal, Option.some.injEq] at e1
    rw [← e1]
    exact_mod_cast (by norm_num : (1 / 2 : ℝ) < 1 / 2 + 2 ^ (-24 : ℤ))
  · intro h
    rw [soft_isFalse hs, key]
    have l1 := hA.mono (x - y) (-(2 ^ (-27 : ℤ))) (by linarith)
    rw [hA.odd, h27, F.neg_fin'] at l1
    have l2 : Le (F.fin a * float32.rnd (x - y)) (F.fin (-(2 ^ (-21 : ℤ)))) := by
      refine (l1.mul_pos hpos).trans ?_
      rw [F.fin_mul, Spec.Le.fin]
      have : (64 : ℝ) * 2 ^ (-27 : ℤ) = 2 ^ (-21 : ℤ) := by norm_num
      rw [← this, mul_neg]
      gcongr
    have l3 := l2.round hA
    rw [round_fin, hA.odd, h21, F.neg_fin'] at l3
    have l4 := (l3.add_const 3).round hA
    rw [F.fin_add, round_fin, show -(2 ^ (-21 : ℤ)) + 3 = (3 : ℝ) - 2 ^ (-21 : ℤ) by ring, hdn] at l4
    have l5 := relu6_mono l4
    rw [hval _ (by norm_num) (by norm_num)] at l5
    obtain ⟨r, hr, -, -⟩ := relu6_range l4.left
    rw [hr, Spec.Le.fin] at l5
    rw [hr, hdiv]
    have l6 := hA.mono (r / 6) (1 / 2 - 2 ^ (-24 : ℤ)) (by norm_num at l5 ⊢; linarith)
    rw [hdn2] at l6
    obtain ⟨u, v, e1, e2, e3⟩ := l6
    refine ⟨u, _, e1, rfl, lt_of_le_of_lt e3 ?_⟩
    simp only [toEReal, Option.some.injEq] at e2
    rw [← e2]
    exact_mod_cast (by norm_num : (1 / 2 - 2 ^ (-24 : ℤ) : ℝ) < 1 / 2)

/-! ## C89 — validity in floating point -/

theorem fuzzy_builtin (hk : FloatStep kw) (hs : Soft E ap) (o : Obj) (ho : BuiltIn o) : FuzzyObject E ap kw (A.interact o) := by
  have hand : ∀ x y : F, DegNan x → DegNan y → logicalAnd E ap (.f x) (.f y) = .f (F.min x y) ∧ DegNan (F.min x y) :=
    fun x y hx hy => ⟨by simp [logicalAnd, hs.eq, Truthy.minimum, Truthy.toF], hx.min hy⟩
  have hw : ∀ w : Wall, FuzzyObject E ap kw (A.wallInteract w) := by
    intro w
    constructor
    · intro q
      simp only [FloatOps.wallInteract, FloatOps.wallContains, FloatOps.greaterEqual, FloatOps.lessEqual, hs.eq, if_true]
      obtain ⟨e, hd⟩ := hand _ _ (hk.degNan (A.sub (A.wallToParam w q) 0)) (hk.degNan (A.sub 1 (A.wallToParam w q)))
      simp only [List.headD_cons]
      rw [e]; exact degree_of hd
    · intro patch a b
      have hseg : ∀ x y : F, ∃ z, A.segTest E A.SEG_TOL ap kw x y = .f z ∧ DegNan z := by
        intro x y
        simp only [FloatOps.segTest, FloatOps.greaterEqual, FloatOps.lessEqual, hs.eq, if_true]
        obtain ⟨e, hd⟩ := hand _ _ (hk.degNan _) (hk.degNan _)
        exact ⟨_, e, hd⟩
      simp only [FloatOps.wallInteract, FloatOps.wallIntersects, FloatOps.segmentsIntersect]
      generalize hx : A.segTest E A.SEG_TOL ap kw _ _ = u
      generalize hy : A.segTest E A.SEG_TOL ap kw _ _ = v
      obtain ⟨z, hz, hz'⟩ := hseg _ _
      obtain ⟨z2, hz2, hz2'⟩ := hseg _ _
      rw [← hx, ← hy, hz, hz2, (hand _ _ hz' hz2').1]
      exact degree_of (hz'.min hz2')
  cases o with
  | wall w => exact hw w
  | ris r => exact ⟨(hw r.toWall).1, (hw r.toWall).2⟩
  | vertex v =>
    refine ⟨fun q => ?_, fun patch a b => ?_⟩
    · simp only [FloatOps.interact, Vertex.interact, trueValue, hs.eq, if_true, F.one_eq]
      exact .inr ⟨1, .of_f zero_le_one le_rfl⟩
    · simp only [FloatOps.interact, Vertex.interact, falseValue, hs.eq, if_true, F.zero_eq]
      exact .inr ⟨0, .of_f le_rfl zero_le_one⟩
  | user c i b => exact absurd rfl (ho c i b)

/-- **C89.** In floating point and approximate mode, `is_valid` always returns a number in `[0, 1]`, never a NaN, for every path
(infinite and NaN coordinates included) and all objects whose tests are truth degrees or NaN; the built-in ones are. -/
theorem C89_range (hA : FloatContract A) (hk : FloatStep kw) (hs : Soft E ap) (p : Path) (objects inter : List Interactable) (candidate : List ℤ) (tol patch : F)
    (hlen : p.xys.length ≤ candidate.length + 2) (ho : ∀ o ∈ objects, FuzzyObject E ap kw o) (hi : ∀ o ∈ inter, FuzzyObject E ap kw o) :
    ∃ r, A.isValid p E objects candidate inter tol patch ap kw = .ok (.f (F.fin r)) ∧ 0 ≤ r ∧ r ≤ 1 := by
  rw [rounded_isValid_soft p hs _ _ _ _ _ _ hlen]
  have h1 : DegNan (F.minOf 1 ((onVals p E inter ap kw).map Truthy.toF)) := by
    apply DegNan.minOf (by rw [F.one_eq]; exact .of_fin zero_le_one le_rfl)
    intro x hx
    simp only [onVals, List.map_map, List.mem_map] at hx
    obtain ⟨⟨o, i⟩, hm, rfl⟩ := hx
    have : o ∈ inter := by
      rw [List.mem_zipIdx_iff_getElem?] at hm; exact List.mem_of_getElem? hm
    exact degNan_of ((hi o this).1 _)
  have h2 : DegNan (F.maxOf 0 ((hitVals p E objects candidate patch ap kw).map Truthy.toF)) := by
    apply DegNan.maxOf (by rw [F.zero_eq]; exact .of_fin le_rfl zero_le_one)
    intro x hx
    simp only [List.mem_map] at hx
    obtain ⟨v, hv, rfl⟩ := hx
    obtain ⟨i, j, o, a, b, -, -, hj, -, -, rfl⟩ := (mem_hitVals hlen).mp hv
    exact degNan_of ((ho o (List.mem_of_getElem? hj)).2 _ _ _)
  have h3 : DegNan (F.minOf (F.minOf 1 ((onVals p E inter ap kw).map Truthy.toF))
      [A.sub 1 (F.maxOf 0 ((hitVals p E objects candidate patch ap kw).map Truthy.toF)), activation kw (A.sub tol p.loss)]) := by
    refine DegNan.minOf h1 ?_
    intro x hx
    simp only [List.mem_cons, List.not_mem_nil, or_false] at hx
    rcases hx with rfl | rfl
    · exact DegNan.rsub hA h2
    · exact hk.degNan _
  rcases h3 with e | ⟨r, e, r0, r1⟩
  · exact ⟨0, by rw [e]; rfl, le_rfl, zero_le_one⟩
  · exact ⟨r, by rw [e]; rfl, r0, r1⟩

theorem C89_builtin (hk : FloatStep kw) (hs : Soft E ap) (o : Obj) (ho : BuiltIn o) : FuzzyObject E ap kw (A.interact o) := fuzzy_builtin hk hs o ho

/-- **C89.** In floating point, for every path (NaN and infinities included), every scene of built-in objects, and every slope: a path
that `is_true` accepts in approximate mode is valid in exact mode. -/
theorem C89_accepts (hA : FloatContract A) (hk : FloatStep kw) (hs : Soft E ap) (hh : Hard E' ap') (p : Path) (objects inter : List Obj)
    (ho : ∀ o ∈ objects, BuiltIn o) (hi : ∀ o ∈ inter, BuiltIn o) (candidate : List ℤ) (tol patch : F)
    (hlen : p.xys.length ≤ candidate.length + 2) (v : Truthy)
    (hv : A.isValid p E (objects.map A.interact) candidate (inter.map A.interact) tol patch ap kw = .ok v) (ht : A.isTrue E ap v = .ok true) :
    A.isValid p E' (objects.map A.interact) candidate (inter.map A.interact) tol patch ap' kw' = .ok (.b true) := by
  rw [rounded_isValid_soft p hs _ _ _ _ _ _ hlen] at hv
  obtain rfl := Except.ok.inj hv
  rw [rounded_isTrue hA hs] at ht
  rw [rounded_isValid_hard p hh _ _ _ _ _ _ hlen]
  have hlt : Lt (F.fin (1 / 2)) (F.minOf (F.minOf 1 ((onVals p E (inter.map A.interact) ap kw).map Truthy.toF))
      [A.sub 1 (F.maxOf 0 ((hitVals p E (objects.map A.interact) candidate patch ap kw).map Truthy.toF)), activation kw (A.sub tol p.loss)]) := by
    revert ht
    generalize F.minOf (F.minOf 1 _) _ = z
    cases z with
    | nan => intro h; exfalso; rw [F.nanToNum_nan, Spec.Lt.fin] at h; norm_num at h
    | fin x => exact id
    | pinf => intro _; rw [← F.lt_iff]; rfl
    | ninf =>
      intro h; exfalso
      rw [F.nanToNum, Spec.Lt.fin, F.maxFinite] at h
      have : (0 : ℝ) < (2 - 2 ^ (-23 : ℤ)) * 2 ^ 127 := by norm_num
      linarith
  rw [lt_minOf] at hlt
  obtain ⟨h1, h2⟩ := hlt
  have h3 := h2 _ (List.mem_cons_self)
  have h4 := h2 _ (List.mem_cons_of_mem _ (List.mem_cons_self))
  rw [lt_minOf] at h1
  have h5 := maxOf_lt.mp (not_above hA h3)
  have e1 : (onVals p E' (inter.map A.interact) ap' kw').all Truthy.toBool = true := by
    rw [List.all_eq_true]
    intro u hu
    obtain ⟨⟨o, i⟩, hm, rfl⟩ := List.mem_map.mp hu
    have ho' : o ∈ inter.map A.interact := by
      rw [List.mem_zipIdx_iff_getElem?] at hm; exact List.mem_of_getElem? hm
    obtain ⟨o', ho'', rfl⟩ := List.mem_map.mp ho'
    have ha := (objAgree (kw' := kw') hA hk hs hh o' (hi o' ho'')).contains (nth p.xys (i + 1))
    have := ha.above (h1.2 _ (List.mem_map.mpr ⟨_, List.mem_map.mpr ⟨_, hm, rfl⟩, rfl⟩))
    show Truthy.toBool ((A.interact o').contains E' ap' kw' _) = true
    rw [this]; rfl
  have e2 : (hitVals p E' (objects.map A.interact) candidate patch ap' kw').any Truthy.toBool = false := by
    rw [List.any_eq_false]
    intro u hu
    obtain ⟨i, j, o, a, b, ha, hb, hj, hn1, hn2, rfl⟩ := (mem_hitVals hlen).mp hu
    obtain ⟨o', ho'', rfl⟩ := List.mem_map.mp (List.mem_of_getElem? hj)
    have hag := (objAgree (kw' := kw') hA hk hs hh o' (ho o' ho'')).intersects patch a b
    have := hag.below (h5.2 _ (List.mem_map.mpr ⟨_, (mem_hitVals hlen).mpr ⟨i, j, _, a, b, ha, hb, hj, hn1, hn2, rfl⟩, rfl⟩))
    rw [this]; simp [Truthy.toBool]
  rw [e1, e2, (F.lt_iff _ _).mpr (sub_above hA hk h4)]; rfl

/-- **C89.** And a path whose approximate degree is below 1/2 is invalid in exact mode, if none of the tests is a NaN. -/
theorem C89_rejects (hA : FloatContract A) (hk : FloatStep kw) (hs : Soft E ap) (hh : Hard E' ap') (p : Path) (objects inter : List Obj)
    (ho : ∀ o ∈ objects, BuiltIn o) (hi : ∀ o ∈ inter, BuiltIn o) (candidate : List ℤ) (tol patch : F)
    (hlen : p.xys.length ≤ candidate.length + 2)
    (hn1 : (p.onObjects E (inter.map A.interact) ap kw).toF ≠ F.nan)
    (hn2 : ∀ u, p.intersectsWithObjects E (objects.map A.interact) candidate patch ap kw = .ok u → u.toF ≠ F.nan)
    (hn3 : (A.less E ap kw p.loss tol).toF ≠ F.nan) (v : Truthy)
    (hv : A.isValid p E (objects.map A.interact) candidate (inter.map A.interact) tol patch ap kw = .ok v) (ht : isFalse E ap v = true) :
    A.isValid p E' (objects.map A.interact) candidate (inter.map A.interact) tol patch ap' kw' = .ok (.b false) := by
  rw [rounded_isValid_soft p hs _ _ _ _ _ _ hlen] at hv
  obtain rfl := Except.ok.inj hv
  rw [soft_isFalse hs] at ht
  rw [rounded_isValid_hard p hh _ _ _ _ _ _ hlen]
  rw [onObjects_eq, show trueValue E ap = .f 1 by simp [trueValue, hs.eq], foldl_and_soft hs] at hn1
  have hn2' := hn2 _ (intersects_eq _ _ _ _ _ _ _ hlen)
  rw [show falseValue E ap = .f 0 by simp [falseValue, hs.eq], foldl_or_soft hs] at hn2'
  simp only [FloatOps.less, hs.eq, if_true, Truthy.toF] at hn1 hn2' hn3
  have hnum : F.minOf (F.minOf 1 ((onVals p E (inter.map A.interact) ap kw).map Truthy.toF))
      [A.sub 1 (F.maxOf 0 ((hitVals p E (objects.map A.interact) candidate patch ap kw).map Truthy.toF)), activation kw (A.sub tol p.loss)] ≠ F.nan := by
    have hmin : ∀ a b : F, a ≠ F.nan → b ≠ F.nan → F.min a b ≠ F.nan := by
      intro a b h1 h2
      unfold F.min
      split_ifs with h
      · exfalso; cases a <;> cases b <;> simp_all [F.isNan]
      · exact h2
      · exact h1
    refine hmin _ _ (hmin _ _ hn1 ?_) hn3
    refine hA.round_ne ?_
    generalize F.maxOf 0 _ = z at hn2'
    rw [F.one_eq]
    show F.add (F.fin 1) (F.neg z) ≠ _
    cases z <;> simp_all [F.add, F.neg]
  have hlt : Lt (F.minOf (F.minOf 1 ((onVals p E (inter.map A.interact) ap kw).map Truthy.toF))
      [A.sub 1 (F.maxOf 0 ((hitVals p E (objects.map A.interact) candidate patch ap kw).map Truthy.toF)), activation kw (A.sub tol p.loss)]) (F.fin (1 / 2)) := by
    revert ht hnum
    generalize F.minOf (F.minOf 1 _) _ = z
    cases z with
    | nan => intro _ h; exact absurd rfl h
    | fin x => exact fun h _ => h
    | ninf => intro _ _; rw [← F.lt_iff]; rfl
    | pinf =>
      intro h _; exfalso
      rw [F.nanToNum, Spec.Lt.fin, F.maxFinite] at h
      have : (1 : ℝ) < (2 - 2 ^ (-23 : ℤ)) * 2 ^ 127 := by norm_num
      linarith
  congr 2
  rcases minOf_lt hlt with h | ⟨x, hx, h⟩
  · rcases minOf_lt h with h | ⟨x, hx, h⟩
    · exfalso; rw [F.one_eq, Spec.Lt.fin] at h; norm_num at h
    · obtain ⟨u, hu, rfl⟩ := List.mem_map.mp hx
      obtain ⟨⟨o, i⟩, hm, rfl⟩ := List.mem_map.mp hu
      have ho' : o ∈ inter.map A.interact := by
        rw [List.mem_zipIdx_iff_getElem?] at hm; exact List.mem_of_getElem? hm
      obtain ⟨o', ho'', rfl⟩ := List.mem_map.mp ho'
      have ha := (objAgree (kw' := kw') hA hk hs hh o' (hi o' ho'')).contains (nth p.xys (i + 1))
      have hb := ha.below h
      have : (onVals p E' (inter.map A.interact) ap' kw').all Truthy.toBool = false := by
        rw [List.all_eq_false]
        refine ⟨_, List.mem_map.mpr ⟨_, hm, rfl⟩, ?_⟩
        show ¬ Truthy.toBool ((A.interact o').contains E' ap' kw' _) = true
        rw [hb]; simp [Truthy.toBool]
      rw [this]; rfl
  · simp only [List.mem_cons, List.not_mem_nil, or_false] at hx
    rcases hx with rfl | rfl
    · rcases lt_maxOf (not_below hA h) with h | ⟨x, hx, h⟩
      · exfalso; rw [F.zero_eq, Spec.Lt.fin] at h; norm_num at h
      · obtain ⟨u, hu, rfl⟩ := List.mem_map.mp hx
        obtain ⟨i, j, o, a, b, ha, hb, hj, hm1, hm2, rfl⟩ := (mem_hitVals hlen).mp hu
        obtain ⟨o', ho'', rfl⟩ := List.mem_map.mp (List.mem_of_getElem? hj)
        have hag := (objAgree (kw' := kw') hA hk hs hh o' (ho o' ho'')).intersects patch a b
        have hb' := hag.above h
        have : (hitVals p E' (objects.map A.interact) candidate patch ap' kw').any Truthy.toBool = true := by
          rw [List.any_eq_true]
          exact ⟨_, (mem_hitVals hlen).mpr ⟨i, j, _, a, b, ha, hb, hj, hm1, hm2, rfl⟩, by rw [hb']; rfl⟩
        rw [this]; simp
    · have hl := sub_below hA hk h
      have : F.lt p.loss tol = false := by
        rw [← Bool.not_eq_true, F.lt_iff]
        rintro ⟨a, b, h1, h2, h3⟩
        obtain ⟨c, d, h4, h5, h6⟩ := hl
        rw [h1] at h5; rw [h2] at h4
        obtain rfl := Option.some.inj h4; obtain rfl := Option.some.inj h5
        exact absurd h3 h6.not_gt
      rw [this]; simp

/-! ## C90 — symmetries of `segments_intersect` that survive rounding -/

theorem segTest_neg (hA : FloatContract A) (tol num den : F) : A.segTest E tol ap kw (-num) (-den) = A.segTest E tol ap kw num den := by
  unfold FloatOps.segTest
  have hz : F.eq (-den) 0 = F.eq den 0 := by
    rw [F.zero_eq]; cases den <;> first | rfl | simp
  rw [hz]
  cases h : F.eq den 0 with
  | true => rfl
  | false =>
    have : (-num) / (-den) = num / den := by
      show F.div (F.neg num) (F.neg den) = F.div num den
      rw [F.zero_eq] at h
      have h0 : ∀ y, den = F.fin y → y ≠ 0 := by rintro y rfl; simpa using h
      clear h hz
      cases num <;> cases den <;> simp [F.neg, F.div]
      all_goals (rename_i y; rcases lt_or_gt_of_ne (h0 y rfl) with h' | h')
      all_goals simp [h', h'.le, h'.not_gt, h'.ne, h'.ne']
    simp only [F.where_false, FloatOps.div, this]

theorem and_comm_of_mode {x y x' y' : Truthy} (_ : x = x') (_ : y = y') : logicalAnd E ap x y = logicalAnd E ap y' x' := by
  subst_vars
  unfold logicalAnd
  split_ifs
  · have hm : ∀ a b : F, F.min a b = F.min b a := by
      intro a b
      cases a <;> cases b <;> simp [F.min, F.isNan, F.lt]
      split_ifs <;> first | rfl | (exfalso; linarith) | (congr 1; linarith)
    cases x' <;> cases y' <;> simp [Truthy.minimum, hm, Bool.and_comm]
  · rw [Bool.and_comm]

theorem rsub_neg (hA : FloatContract A) (a b : F) : A.sub b a = -A.sub a b := by
  rw [FloatOps.sub, FloatOps.sub, ← round_neg hA, F.neg_sub']
theorem F.sub_neg_neg (a b : F) : -a - -b = -(a - b) := by
  cases a <;> cases b <;> first | rfl | skip
  simp; ring
theorem rsub_negs (hA : FloatContract A) (a b : F) : A.sub (-a) (-b) = -A.sub a b := by
  rw [FloatOps.sub, FloatOps.sub, ← round_neg hA, F.sub_neg_neg]
theorem rmul_neg (hA : FloatContract A) (a b : F) : A.mul a (-b) = -A.mul a b := by
  rw [FloatOps.mul, FloatOps.mul, ← round_neg hA, F.mul_neg']
theorem rneg_mul (hA : FloatContract A) (a b : F) : A.mul (-a) b = -A.mul a b := by
  rw [FloatOps.mul, FloatOps.mul, ← round_neg hA, F.neg_mul']
theorem rmul_comm (a b : F) : A.mul a b = A.mul b a := by rw [FloatOps.mul, FloatOps.mul, F.mul_comm']

/-- **C90.** In floating point, in both modes and for all coordinates (NaN and infinities included): exchanging the two segments,
exchanging the axes, and mirroring an axis do not change the result of `segments_intersect` at all. -/
theorem C90_symmetry (hA : FloatContract A) (E : Env) (ap : Option Bool) (kw : ActKw) (P1 P2 P3 P4 : V2 F) (tol : F) :
    A.segmentsIntersect E P3 P4 P1 P2 tol ap kw = A.segmentsIntersect E P1 P2 P3 P4 tol ap kw ∧
    A.segmentsIntersect E ⟨P1.y, P1.x⟩ ⟨P2.y, P2.x⟩ ⟨P3.y, P3.x⟩ ⟨P4.y, P4.x⟩ tol ap kw = A.segmentsIntersect E P1 P2 P3 P4 tol ap kw ∧
    A.segmentsIntersect E ⟨-P1.x, P1.y⟩ ⟨-P2.x, P2.y⟩ ⟨-P3.x, P3.y⟩ ⟨-P4.x, P4.y⟩ tol ap kw = A.segmentsIntersect E P1 P2 P3 P4 tol ap kw ∧
    A.segmentsIntersect E ⟨P1.x, -P1.y⟩ ⟨P2.x, -P2.y⟩ ⟨P3.x, -P3.y⟩ ⟨P4.x, -P4.y⟩ tol ap kw = A.segmentsIntersect E P1 P2 P3 P4 tol ap kw := by
  refine ⟨?_, ?_, ?_, ?_⟩
  · simp only [FloatOps.segmentsIntersect, FloatOps.vsub]
    rw [rsub_neg hA P3.x P4.x, rsub_neg hA P3.y P4.y, rsub_neg hA P2.x P1.x, rsub_neg hA P2.y P1.y, rsub_neg hA P1.x P3.x, rsub_neg hA P1.y P3.y]
    simp only [rneg_mul hA, rmul_neg hA, F.neg_neg']
    set ax := A.sub P2.x P1.x
    set ay := A.sub P2.y P1.y
    set bx := A.sub P3.x P4.x
    set by' := A.sub P3.y P4.y
    set cx := A.sub P1.x P3.x
    set cy := A.sub P1.y P3.y
    have hd : A.sub (A.mul by' ax) (A.mul bx ay) = -A.sub (A.mul ay bx) (A.mul ax by') := by
      rw [rmul_comm by' ax, rmul_comm bx ay, rsub_neg hA]
    have ha : A.sub (A.mul ay cx) (A.mul ax cy) = -A.sub (A.mul ax cy) (A.mul ay cx) := rsub_neg hA _ _
    have hb : A.sub (A.mul bx cy) (A.mul by' cx) = -A.sub (A.mul by' cx) (A.mul bx cy) := rsub_neg hA _ _
    rw [hd, ha, hb, segTest_neg hA, segTest_neg hA]
    exact and_comm_of_mode rfl rfl
  · simp only [FloatOps.segmentsIntersect, FloatOps.vsub]
    set ax := A.sub P2.x P1.x
    set ay := A.sub P2.y P1.y
    set bx := A.sub P3.x P4.x
    set by' := A.sub P3.y P4.y
    set cx := A.sub P1.x P3.x
    set cy := A.sub P1.y P3.y
    rw [rsub_neg hA (A.mul by' cx) (A.mul bx cy), rsub_neg hA (A.mul ax cy) (A.mul ay cx), rsub_neg hA (A.mul ay bx) (A.mul ax by'),
      segTest_neg hA, segTest_neg hA]
  · simp only [FloatOps.segmentsIntersect, FloatOps.vsub, rsub_negs hA, rneg_mul hA, rmul_neg hA, segTest_neg hA]
  · simp only [FloatOps.segmentsIntersect, FloatOps.vsub, rsub_negs hA, rneg_mul hA, rmul_neg hA, segTest_neg hA]

theorem rnd_small (hA : FloatContract A) : A.rnd (-1 / 2) = F.fin (-1 / 2) ∧ A.rnd 0 = F.fin 0 ∧ A.rnd (1 / 2) = F.fin (1 / 2) ∧ A.rnd 1 = F.fin 1 ∧ A.rnd 2 = F.fin 2 ∧
    A.rnd 3 = F.fin 3 ∧ A.rnd 4 = F.fin 4 ∧ A.rnd 6 = F.fin 6 ∧ A.rnd (-3) = F.fin (-3) := by
  have h := fun k hk => hA.halves k hk
  refine ⟨?_, ?_, ?_, ?_, ?_, ?_, ?_, ?_, ?_⟩
  · simpa using h (-1) (by norm_num)
  · simpa using h 0 (by norm_num)
  · simpa using h 1 (by norm_num)
  · simpa using h 2 (by norm_num)
  · have := h 4 (by norm_num); norm_num at this; exact this
  · have := h 6 (by norm_num); norm_num at this; exact this
  · have := h 8 (by norm_num); norm_num at this; exact this
  · have := h 12 (by norm_num); norm_num at this; exact this
  · have := h (-6) (by norm_num); norm_num at this; exact this

/-- A reflection on the wall from (0,0) to (2,0). -/
def exWall : Wall := ⟨V2.fin ⟨0, 0⟩, V2.fin ⟨2, 0⟩⟩
def exPath (loss : ℝ) : Path := ⟨[V2.fin ⟨0, 1⟩, V2.fin ⟨1, 0⟩, V2.fin ⟨2, 1⟩], F.fin loss⟩

theorem ex_step (hA : FloatContract A) : A.hardSigmoid (F.fin (1 / 2)) (F.fin 6) = F.fin 1 ∧ A.hardSigmoid (F.fin (-1 / 2)) (F.fin 6) = F.fin 0 := by
  obtain ⟨h1, h2, h3, h4, h5, h6, h7, h8, h9⟩ := rnd_small hA
  have e1 : (6 : ℝ) * (1 / 2) = 3 := by norm_num
  have e2 : (3 : ℝ) + 3 = 6 := by norm_num
  have e3 : (6 : ℝ) * (-1 / 2) = -3 := by norm_num
  have e4 : (-3 : ℝ) + 3 = 0 := by norm_num
  simp only [FloatOps.hardSigmoid, FloatOps.mul, FloatOps.add, FloatOps.div, F.fin_mul, F.fin_add, round_fin, F.ofNat_eq, nnRelu6, F.zero_eq, F.max_fin, F.min_fin,
    e1, e2, e3, e4, h6, h8, h9, h2]
  constructor
  · rw [max_eq_left (by norm_num), min_eq_left (by norm_num), F.fin_div _ (by norm_num)]; simp [h4]
  · rw [max_eq_left (by norm_num), min_eq_left (by norm_num), F.fin_div _ (by norm_num)]; simp [h2]

theorem ex_valid (hA : FloatContract A) (hs : Soft E ap) (loss : ℝ) (hl : loss = 0 ∨ loss = 1) :
    A.isValid (exPath loss) E ([.wall exWall].map A.interact) [0] ([.wall exWall].map A.interact) (F.fin (1 / 2)) (F.fin 0) ap ⟨F.fin 6, A.hardSigmoid⟩ =
      .ok (.f (F.fin (1 - loss))) := by
  obtain ⟨h1, h2, h3, h4, h5, h6, h7, h8, h9⟩ := rnd_small hA
  obtain ⟨s1, s2⟩ := ex_step hA
  rw [rounded_isValid_soft _ hs _ _ _ _ _ _ (by simp [exPath])]
  have hp : A.wallToParam exWall (V2.fin ⟨1, 0⟩) = F.fin (1 / 2) := by
    simp only [FloatOps.wallToParam, FloatOps.wallT, FloatOps.vdot, FloatOps.vsub, exWall, V2.fin, FloatOps.sub, FloatOps.add, FloatOps.mul, FloatOps.div, F.fin_sub, round_fin,
      sub_zero, h2, h5, h4, F.fin_mul, F.fin_add]
    norm_num
    simp only [h2, h5, h7, F.fin_add, round_fin]
    norm_num
    simp only [h2, h5, h7, F.fin_add, round_fin]
    norm_num
    simp only [h2, h5, h7, F.fin_add, round_fin, F.where_, F.eq]
    norm_num
    rw [F.fin_div _ (by norm_num), round_fin, show (2 : ℝ) / 4 = 1 / 2 by norm_num, h3]
  have hon : onVals (exPath loss) E ([.wall exWall].map A.interact) ap ⟨F.fin 6, A.hardSigmoid⟩ = [.f (F.fin 1)] := by
    simp only [onVals, List.map_cons, List.map_nil, List.zipIdx_cons, List.zipIdx_nil]
    congr 1
    show A.wallContains E ap _ (A.wallToParam exWall (nth (exPath loss).xys 1)) = _
    rw [show nth (exPath loss).xys 1 = V2.fin ⟨1, 0⟩ from rfl, hp]
    simp only [FloatOps.wallContains, FloatOps.greaterEqual, FloatOps.lessEqual, hs.eq, if_true, activation, FloatOps.sub, F.zero_eq, F.one_eq, F.fin_sub, round_fin, sub_zero,
      h3, s1, logicalAnd, Truthy.minimum, Truthy.toF]
    norm_num
    simp [h3, s1, -one_div]
  have hhit : hitVals (exPath loss) E ([.wall exWall].map A.interact) [0] (F.fin 0) ap ⟨F.fin 6, A.hardSigmoid⟩ = [] := by
    simp [hitVals, exPath, List.range_succ]
  rw [hon, hhit]
  rcases hl with rfl | rfl
  · simp only [exPath, FloatOps.sub, F.fin_sub, round_fin, sub_zero, h3, activation, s1, F.maxOf, F.minOf, List.map_nil, List.foldl_nil, List.map_cons, List.foldl_cons,
      F.one_eq, F.zero_eq, Truthy.toF, h4, F.min_fin, min_self, F.nanToNum]
  · have : (1 / 2 - 1 : ℝ) = -1 / 2 := by norm_num
    simp only [exPath, FloatOps.sub, F.fin_sub, round_fin, sub_zero, this, h1, activation, s2, F.maxOf, F.minOf, List.map_nil, List.foldl_nil, List.map_cons, List.foldl_cons,
      F.one_eq, F.zero_eq, Truthy.toF, h4, F.min_fin, min_self, F.nanToNum]
    norm_num

/-- Non-vacuity of `C89_accepts` and `C89_rejects`, in any arithmetic: a reflection on a wall is accepted in approximate mode
when its loss is 0, and rejected when its loss is 1. -/
example (hA : FloatContract A) (hs : Soft E ap) : FloatStep ⟨F.fin 6, A.hardSigmoid⟩ ∧ BuiltIn (.wall exWall) ∧
    (∃ v, A.isValid (exPath 0) E ([.wall exWall].map A.interact) [0] ([.wall exWall].map A.interact) (F.fin (1 / 2)) (F.fin 0) ap ⟨F.fin 6, A.hardSigmoid⟩ = .ok v ∧
      A.isTrue E ap v = .ok true) ∧
    ∃ v, A.isValid (exPath 1) E ([.wall exWall].map A.interact) [0] ([.wall exWall].map A.interact) (F.fin (1 / 2)) (F.fin 0) ap ⟨F.fin 6, A.hardSigmoid⟩ = .ok v ∧
      isFalse E ap v = true := by
  refine ⟨(C87_steps hA 6 (by norm_num)).2, fun _ _ _ h => by simp at h, ⟨_, ex_valid hA hs 0 (.inl rfl), ?_⟩, ⟨_, ex_valid hA hs 1 (.inr rfl), ?_⟩⟩
  · rw [rounded_isTrue hA hs]; simp only [Truthy.toF, sub_zero, Spec.Lt.fin]; norm_num
  · simp [isFalse, hs.eq, Truthy.toF]; norm_num

end DiffeRT2d.Props
