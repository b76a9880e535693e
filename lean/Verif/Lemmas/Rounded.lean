import Verif.Lemmas.Validity
import Verif.Spec.Rounded

/-! # Lemmas about rounded arithmetic -/

namespace DiffeRT2d
open Classical Spec

/-! ## Order on floats -/

theorem Spec.Le.fin {x y : ℝ} : Le (F.fin x) (F.fin y) ↔ x ≤ y := by rw [← F.le_iff]; simp
theorem Spec.Le.rfl' {a : F} (h : a ≠ F.nan) : Le a a := by
  rw [← F.le_iff]; cases a <;> simp_all [F.le, F.lt, F.eq]
theorem Spec.Le.trans {a b c : F} (h : Le a b) (h' : Le b c) : Le a c := by
  obtain ⟨x, y, h1, h2, h3⟩ := h
  obtain ⟨y', z, h4, h5, h6⟩ := h'
  rw [h2] at h4; obtain rfl := Option.some.inj h4
  exact ⟨x, z, h1, h5, h3.trans h6⟩
theorem Spec.Le.left {a b : F} (h : Le a b) : a ≠ F.nan := by rintro rfl; obtain ⟨x, y, h1, -⟩ := h; simp [toEReal] at h1
theorem Spec.Le.right {a b : F} (h : Le a b) : b ≠ F.nan := by rintro rfl; obtain ⟨x, y, -, h1, -⟩ := h; simp [toEReal] at h1
theorem Spec.Le.antisymm {a b : F} (h : Le a b) (h' : Le b a) : a = b := by
  rw [← F.le_iff] at h h'
  cases a <;> cases b <;> simp_all [F.le, F.lt, F.eq]
  exact _root_.le_antisymm (by rcases h with h | h <;> linarith) (by rcases h' with h | h <;> linarith)
theorem Spec.Le.total' {a b : F} (ha : a ≠ F.nan) (hb : b ≠ F.nan) : Le a b ∨ Le b a := by
  rw [← F.le_iff, ← F.le_iff]
  cases a <;> cases b <;> simp_all [F.le, F.lt, F.eq]
  rename_i x y
  rcases lt_trichotomy x y with h | h | h <;> simp [h]
theorem Spec.Le.of_not_lt {a b : F} (ha : a ≠ F.nan) (hb : b ≠ F.nan) (h : ¬ Lt a b) : Le b a := by
  rw [← F.lt_iff] at h; rw [← F.le_iff]
  cases a <;> cases b <;> simp_all [F.le, F.lt, F.eq]
  rename_i x y
  rcases h.lt_or_eq with h | h <;> simp [h]
theorem Spec.Lt.not_le {a b : F} (h : Lt a b) : ¬ Le b a := by
  obtain ⟨x, y, h1, h2, h3⟩ := h
  rintro ⟨y', x', h4, h5, h6⟩
  rw [h1] at h5; rw [h2] at h4
  obtain rfl := Option.some.inj h5; obtain rfl := Option.some.inj h4
  exact absurd h3 (not_lt.mpr h6)
theorem Spec.Lt.fin {x y : ℝ} : Lt (F.fin x) (F.fin y) ↔ x < y := by rw [← F.lt_iff]; simp
theorem Spec.Lt.left {a b : F} (h : Lt a b) : a ≠ F.nan := by rintro rfl; obtain ⟨x, y, h1, -⟩ := h; simp [toEReal] at h1
theorem Spec.Lt.right {a b : F} (h : Lt a b) : b ≠ F.nan := by rintro rfl; obtain ⟨x, y, -, h1, -⟩ := h; simp [toEReal] at h1
theorem Spec.Le.neg {a b : F} (h : Le a b) : Le (-b) (-a) := by
  rw [← F.le_iff] at *
  change F.le (F.neg b) (F.neg a) = true
  cases a <;> cases b <;> simp_all [F.le, F.lt, F.eq, F.neg]
  rcases h with h | h <;> simp [h]
theorem Spec.Le.pinf {a : F} (h : a ≠ F.nan) : Le a F.pinf := by
  rw [← F.le_iff]; cases a <;> simp_all [F.le, F.lt, F.eq]
theorem Spec.Le.ninf {a : F} (h : a ≠ F.nan) : Le F.ninf a := by
  rw [← F.le_iff]; cases a <;> simp_all [F.le, F.lt, F.eq]
theorem F.neg_fin' (x : ℝ) : -F.fin x = F.fin (-x) := rfl
theorem F.neg_neg' (a : F) : - -a = a := by
  cases a <;> first | rfl | (rename_i x; show F.fin (- -x) = _; rw [_root_.neg_neg])
theorem F.neg_ne_nan {a : F} : -a ≠ F.nan ↔ a ≠ F.nan := by
  cases a <;> simp [show (-F.pinf : F) = F.ninf from rfl, show (-F.ninf : F) = F.pinf from rfl]
theorem F.neg_sub' (a b : F) : -(a - b) = b - a := by
  cases a <;> cases b <;> first | rfl | skip
  rename_i x y
  simp
theorem F.neg_mul' (a b : F) : (-a) * b = -(a * b) := by
  show F.mul (F.neg a) b = F.neg (F.mul a b)
  have key : ∀ (x : ℝ) (u v : F), F.neg u = v → F.neg v = u →
      (if -x = 0 then F.nan else if 0 < -x then u else v) = F.neg (if x = 0 then F.nan else if 0 < x then u else v) := by
    intro x u v h1 h2
    rcases lt_trichotomy x 0 with h | h | h
    · rw [if_neg (by linarith), if_pos (by linarith), if_neg h.ne, if_neg h.not_gt, h2]
    · subst h; simp [F.neg]
    · rw [if_neg (by linarith), if_neg (by linarith), if_neg h.ne', if_pos h, h1]
  cases a <;> cases b <;> simp only [F.neg, F.mul] <;> first
    | rfl
    | exact key _ _ _ rfl rfl
    | (split_ifs <;> rfl; done)
    | (rw [_root_.neg_mul]; done)
theorem F.mul_comm' (a b : F) : a * b = b * a := by
  show F.mul a b = F.mul b a
  cases a <;> cases b <;> simp only [F.mul]
  rw [_root_.mul_comm]
theorem F.mul_neg' (a b : F) : a * (-b) = -(a * b) := by rw [F.mul_comm', F.neg_mul', F.mul_comm']
theorem F.sub_le_zero {a b : F} (h : Le a b) : a - b = F.nan ∨ Le (a - b) (F.fin 0) := by
  rw [← F.le_iff] at *
  change F.add a (F.neg b) = F.nan ∨ F.le (F.add a (F.neg b)) _ = true
  cases a <;> cases b <;> simp_all [F.le, F.lt, F.eq, F.neg, F.add]
  rename_i x y
  rcases h with h | h
  · left; linarith
  · right; linarith
theorem F.zero_le_sub {a b : F} (h : Le b a) : a - b = F.nan ∨ Le (F.fin 0) (a - b) := by
  rcases F.sub_le_zero h with e | e
  · left; rw [← F.neg_sub', e]; rfl
  · right
    have := e.neg
    rwa [F.neg_sub', F.neg_fin', _root_.neg_zero] at this
theorem Spec.Le.mul_pos {a : ℝ} (ha : 0 < a) {x y : F} (h : Le x y) : Le (F.fin a * x) (F.fin a * y) := by
  rw [← F.le_iff] at *
  change F.le (F.mul _ x) (F.mul _ y) = true
  cases x <;> cases y <;> simp_all [F.le, F.lt, F.eq, F.mul, ha.ne']
theorem Spec.Le.add_const {x y : F} (h : Le x y) (c : ℝ) : Le (x + F.fin c) (y + F.fin c) := by
  rw [← F.le_iff] at *
  change F.le (F.add x _) (F.add y _) = true
  cases x <;> cases y <;> simp_all [F.le, F.lt, F.eq, F.add]
theorem Spec.Le.max_const {x y : F} (h : Le x y) (c : ℝ) : Le (F.max x (F.fin c)) (F.max y (F.fin c)) := by
  rw [← F.le_iff] at *
  cases x <;> cases y <;> simp_all [F.le, F.lt, F.eq, F.max]
  all_goals (split_ifs <;> simp_all <;> (try grind))
theorem Spec.Le.min_const {x y : F} (h : Le x y) (c : ℝ) : Le (F.min x (F.fin c)) (F.min y (F.fin c)) := by
  rw [← F.le_iff] at *
  cases x <;> cases y <;> simp_all [F.le, F.lt, F.eq, F.min]
  all_goals (split_ifs <;> simp_all <;> (try grind))

/-! ## Rounding -/

variable {A : FloatOps}

@[simp] theorem round_fin (x : ℝ) : A.round (F.fin x) = A.rnd x := rfl
@[simp] theorem round_nan : A.round F.nan = F.nan := rfl
@[simp] theorem round_pinf : A.round F.pinf = F.pinf := rfl
@[simp] theorem round_ninf : A.round F.ninf = F.ninf := rfl

theorem Spec.FloatContract.lit (hA : FloatContract A) (x : ℝ) (k : ℤ) (hx : x = k / 2) (hk : |k| ≤ 12) : A.rnd x = F.fin x := by
  rw [hx]; exact hA.halves k hk
theorem Spec.FloatContract.zero (hA : FloatContract A) : A.rnd 0 = F.fin 0 := hA.lit 0 0 (by norm_num) (by norm_num)

theorem Spec.FloatContract.round_ne (hA : FloatContract A) {x : F} (h : x ≠ F.nan) : A.round x ≠ F.nan := by
  cases x <;> simp_all [hA.number]
theorem round_eq_nan (hA : FloatContract A) {x : F} : A.round x = F.nan ↔ x = F.nan := by
  constructor
  · intro h; by_contra h'; exact hA.round_ne h' h
  · rintro rfl; rfl
theorem Spec.Le.round (hA : FloatContract A) {x y : F} (h : Le x y) : Le (A.round x) (A.round y) := by
  have hx := hA.round_ne h.left
  have hy := hA.round_ne h.right
  have hxy : ∀ a b : ℝ, x = F.fin a → y = F.fin b → a ≤ b := by rintro a b rfl rfl; exact Spec.Le.fin.mp h
  rw [← F.le_iff] at h
  cases x <;> cases y <;> first
    | exact hA.mono _ _ (hxy _ _ rfl rfl)
    | exact .pinf hx
    | exact .ninf hy
    | (exfalso; simp [F.le, F.lt, F.eq] at h; done)
theorem round_neg (hA : FloatContract A) (x : F) : A.round (-x) = -A.round x := by
  cases x <;> first | rfl | exact hA.odd _

/-! ## Activations -/

theorem Spec.FloatStep.low {kw : ActKw} (h : FloatStep kw) {x : F} (hx : Le x (F.fin 0)) : Le (activation kw x) (F.fin (1 / 2)) := by
  rw [← h.half]; exact h.mono _ _ hx
theorem Spec.FloatStep.high {kw : ActKw} (h : FloatStep kw) {x : F} (hx : Le (F.fin 0) x) : Le (F.fin (1 / 2)) (activation kw x) := by
  rw [← h.half]; exact h.mono _ _ hx
theorem Spec.FloatStep.degNan {kw : ActKw} (h : FloatStep kw) (x : F) : DegNan (activation kw x) := by
  by_cases e : x = F.nan
  · subst e; exact .inl h.nan
  · exact .inr (h.range x e)

theorem mul_ne_nan {a : ℝ} (ha : 0 < a) {x : F} (h : x ≠ F.nan) : F.fin a * x ≠ F.nan := by
  have := (Spec.Le.rfl' h).mul_pos ha
  exact this.left
theorem mul_zero_fin (a : ℝ) : F.fin a * F.fin 0 = F.fin 0 := by simp

theorem floatStep_sigmoid (hA : FloatContract A) {a : ℝ} (ha : 0 < a) : FloatStep ⟨F.fin a, A.sigmoid⟩ := by
  refine ⟨?_, ?_, ?_, ?_⟩
  · simp [activation, FloatOps.sigmoid, FloatOps.mul, hA.logistic_nan]
  · intro x hx
    exact hA.logistic_range _ (hA.round_ne (mul_ne_nan ha hx))
  · intro x y h
    exact hA.logistic_mono _ _ ((h.mul_pos ha).round hA)
  · simp only [activation, FloatOps.sigmoid, FloatOps.mul, mul_zero_fin, round_fin, hA.zero, hA.logistic_zero]

theorem relu6_mono {x y : F} (h : Le x y) : Le (nnRelu6 x) (nnRelu6 y) := by
  unfold nnRelu6
  simp only [F.zero_eq, F.ofNat_eq]
  exact (h.max_const 0).min_const 6

theorem relu6_range {x : F} (h : x ≠ F.nan) : ∃ r, nnRelu6 x = F.fin r ∧ 0 ≤ r ∧ r ≤ 6 := by
  unfold nnRelu6
  simp only [F.zero_eq, F.ofNat_eq]
  cases x with
  | nan => exact absurd rfl h
  | pinf => exact ⟨6, by simp [F.max, F.min, F.lt, F.isNan], by norm_num, le_rfl⟩
  | ninf => exact ⟨0, by simp [F.max, F.min, F.lt, F.isNan], le_rfl, by norm_num⟩
  | fin x => exact ⟨_, by rw [F.max_fin, F.min_fin], le_min (le_max_right _ _) (by norm_num), min_le_right _ _⟩

theorem floatStep_hardSigmoid (hA : FloatContract A) {a : ℝ} (ha : 0 < a) : FloatStep ⟨F.fin a, A.hardSigmoid⟩ := by
  have h0 : A.rnd 0 = F.fin 0 := hA.zero
  have h1 : A.rnd 1 = F.fin 1 := hA.lit 1 2 (by norm_num) (by norm_num)
  have h3 : A.rnd 3 = F.fin 3 := hA.lit 3 6 (by norm_num) (by norm_num)
  have hh : A.rnd (1 / 2) = F.fin (1 / 2) := hA.lit (1 / 2) 1 (by norm_num) (by norm_num)
  have key : ∀ x : F, A.hardSigmoid x (F.fin a) = A.div (nnRelu6 (A.round (A.round (F.fin a * x) + F.fin 3))) (F.fin 6) := by
    intro x; simp [FloatOps.hardSigmoid, FloatOps.mul, FloatOps.add]
  have hsum : ∀ {x y : F}, Le x y → Le (A.round (A.round (F.fin a * x) + F.fin 3)) (A.round (A.round (F.fin a * y) + F.fin 3)) :=
    fun h => (((h.mul_pos ha).round hA).add_const 3).round hA
  have hdiv : ∀ r : ℝ, A.div (F.fin r) (F.fin 6) = A.rnd (r / 6) := by
    intro r; unfold FloatOps.div; rw [F.fin_div _ (by norm_num)]; rfl
  refine ⟨?_, ?_, ?_, ?_⟩
  · show A.hardSigmoid F.nan (F.fin a) = _
    rw [key]; simp [nnRelu6, FloatOps.div]
  · intro x hx
    show ∃ r, A.hardSigmoid x (F.fin a) = _ ∧ _
    obtain ⟨r, hr, r0, r6⟩ := relu6_range (hsum (.rfl' hx)).left
    rw [key, hr, hdiv]
    have l0 := hA.mono 0 (r / 6) (by positivity)
    have l1 := hA.mono (r / 6) 1 (by linarith)
    rw [h0] at l0; rw [h1] at l1
    cases e : A.rnd (r / 6) with
    | fin s =>
      rw [e] at l0 l1
      exact ⟨s, rfl, Spec.Le.fin.mp l0, Spec.Le.fin.mp l1⟩
    | nan => exact absurd e (hA.number _)
    | pinf => rw [e, ← F.le_iff] at l1; simp [F.le, F.lt, F.eq] at l1
    | ninf => rw [e, ← F.le_iff] at l0; simp [F.le, F.lt, F.eq] at l0
  · intro x y h
    show Le (A.hardSigmoid x (F.fin a)) (A.hardSigmoid y (F.fin a))
    have hm := relu6_mono (hsum h)
    obtain ⟨r, hr, -, -⟩ := relu6_range (hsum (.rfl' h.left)).left
    obtain ⟨s, hs, -, -⟩ := relu6_range (hsum (.rfl' h.right)).left
    rw [key, key, hr, hs, hdiv, hdiv]
    rw [hr, hs] at hm
    have := Spec.Le.fin.mp hm
    exact hA.mono _ _ (by linarith)
  · show A.hardSigmoid (F.fin 0) (F.fin a) = _
    rw [key, mul_zero_fin, round_fin, h0, F.fin_add, round_fin, zero_add, h3]
    have : nnRelu6 (F.fin 3) = F.fin 3 := by
      simp only [nnRelu6, F.zero_eq, F.ofNat_eq, F.max_fin, F.min_fin]; norm_num
    rw [this, hdiv, show (3 : ℝ) / 6 = 1 / 2 by norm_num, hh]

end DiffeRT2d
