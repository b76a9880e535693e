import Verif.Lemmas.Float
import Verif.Spec.Logic
import Mathlib.Analysis.SpecialFunctions.Exp

/-! Lemmas about the model of `logic.py`. -/

namespace DiffeRT2d
open Classical Filter Spec

theorem F.lt_iff (a b : F) : F.lt a b = true ↔ Lt a b := by
  cases a <;> cases b <;> simp [F.lt, Lt, toEReal]

theorem F.le_iff (a b : F) : F.le a b = true ↔ Le a b := by
  cases a <;> cases b <;> simp [F.le, F.lt, F.eq, Le, toEReal, le_iff_lt_or_eq]

namespace Truthy

theorem toBool_iff (x : Truthy) : x.toBool = true ↔ Holds x := by
  cases x with
  | b v => simp [toBool, Holds]
  | f x => cases x <;> simp [toBool, Holds, F.eq]

@[simp] theorem toF_b_true : (Truthy.b true).toF = F.fin 1 := by simp [toF]
@[simp] theorem toF_b_false : (Truthy.b false).toF = F.fin 0 := by simp [toF]
@[simp] theorem toF_f (x : F) : (Truthy.f x).toF = x := rfl

theorem maximum_toF (x y : Truthy) : (x.maximum y).toF = F.max x.toF y.toF := by
  cases x with
  | b u => cases y with
    | b v => cases u <;> cases v <;> simp [maximum]
    | f v => rfl
  | f u => cases y <;> rfl

theorem minimum_toF (x y : Truthy) : (x.minimum y).toF = F.min x.toF y.toF := by
  cases x with
  | b u => cases y with
    | b v => cases u <;> cases v <;> simp [minimum]
    | f v => rfl
  | f u => cases y <;> rfl

end Truthy

theorem Spec.Degree.toF {x : Truthy} {r : ℝ} (h : Degree x r) : x.toF = F.fin r := by
  obtain ⟨_, _, h | ⟨h, hr⟩ | ⟨h, hr⟩⟩ := h <;> subst h <;> simp_all

theorem Spec.Degree.of_f {r : ℝ} (h0 : 0 ≤ r) (h1 : r ≤ 1) : Degree (.f (F.fin r)) r :=
  ⟨h0, h1, Or.inl rfl⟩

theorem Spec.Degree.unique {x : Truthy} {r s : ℝ} (h : Degree x r) (h' : Degree x s) : r = s := by
  have := h.toF.symm.trans h'.toF
  exact F.fin_inj.mp this

namespace F
theorem minOf_fin (r : ℝ) (rs : List ℝ) :
    minOf (fin r) (rs.map fin) = fin (rs.foldl Min.min r) := by
  unfold minOf
  induction rs generalizing r with
  | nil => rfl
  | cons s rs ih => simp [ih]

theorem maxOf_fin (r : ℝ) (rs : List ℝ) :
    maxOf (fin r) (rs.map fin) = fin (rs.foldl Max.max r) := by
  unfold maxOf
  induction rs generalizing r with
  | nil => rfl
  | cons s rs ih => simp [ih]
end F

theorem foldl_min_spec (r : ℝ) (rs : List ℝ) :
    rs.foldl min r ∈ r :: rs ∧ ∀ s ∈ r :: rs, rs.foldl min r ≤ s := by
  induction rs generalizing r with
  | nil => simp
  | cons t rs ih =>
    obtain ⟨h1, h2⟩ := ih (min r t)
    simp only [List.foldl_cons]
    refine ⟨?_, ?_⟩
    · rcases List.mem_cons.mp h1 with h | h
      · rcases min_choice r t with h' | h' <;> rw [h, h'] <;> simp
      · simp [h]
    · intro s hs
      have hm := h2 (min r t) (by simp)
      simp only [List.mem_cons] at hs
      rcases hs with rfl | rfl | hs
      · exact hm.trans (min_le_left _ _)
      · exact hm.trans (min_le_right _ _)
      · exact h2 s (by simp [hs])

theorem foldl_max_spec (r : ℝ) (rs : List ℝ) :
    rs.foldl max r ∈ r :: rs ∧ ∀ s ∈ r :: rs, s ≤ rs.foldl max r := by
  induction rs generalizing r with
  | nil => simp
  | cons t rs ih =>
    obtain ⟨h1, h2⟩ := ih (max r t)
    simp only [List.foldl_cons]
    refine ⟨?_, ?_⟩
    · rcases List.mem_cons.mp h1 with h | h
      · rcases max_choice r t with h' | h' <;> rw [h, h'] <;> simp
      · simp [h]
    · intro s hs
      have hm := h2 (max r t) (by simp)
      simp only [List.mem_cons] at hs
      rcases hs with rfl | rfl | hs
      · exact (le_max_left _ _).trans hm
      · exact (le_max_right _ _).trans hm
      · exact h2 s (by simp [hs])

/-! Soft steps -/

theorem softStep_sigmoid : SoftStep sigmoid := by
  refine ⟨fun a x => 1 / (1 + Real.exp (-(a * x))), ?_, ?_, ?_⟩
  · have hpos : ∀ t : ℝ, 0 < 1 + Real.exp t := fun t => by positivity
    have half_lt : ∀ t : ℝ, 1 / 2 < 1 / (1 + Real.exp (-t)) ↔ 0 < t := by
      intro t
      rw [div_lt_div_iff₀ (by norm_num) (hpos _)]
      constructor
      · intro h
        have : Real.exp (-t) < 1 := by linarith
        rw [Real.exp_lt_one_iff] at this; linarith
      · intro h
        have : Real.exp (-t) < 1 := by rw [Real.exp_lt_one_iff]; linarith
        linarith
    have odd' : ∀ t : ℝ, 1 / (1 + Real.exp t) = 1 - 1 / (1 + Real.exp (-t)) := by
      intro t
      rw [Real.exp_neg]
      have := Real.exp_pos t
      field_simp
      ring
    have mono' : ∀ t u : ℝ, t ≤ u → 1 / (1 + Real.exp (-t)) ≤ 1 / (1 + Real.exp (-u)) := by
      intro t u h
      apply one_div_le_one_div_of_le (hpos _)
      have : Real.exp (-u) ≤ Real.exp (-t) := Real.exp_le_exp.mpr (by linarith)
      linarith
    have half0 : (1 : ℝ) / (1 + Real.exp (-0)) = 1 / 2 := by norm_num
    have lim : ∀ x : ℝ, 0 < x →
        Tendsto (fun a : ℝ => 1 / (1 + Real.exp (-(a * x)))) atTop (nhds 1) := by
      intro x hx
      have h1 : Tendsto (fun a : ℝ => Real.exp (-(a * x))) atTop (nhds 0) := by
        apply Real.tendsto_exp_neg_atTop_nhds_zero.comp
        exact tendsto_id.atTop_mul_const hx
      have h2 : Tendsto (fun a : ℝ => 1 / (1 + Real.exp (-(a * x)))) atTop
          (nhds (1 / (1 + 0))) := by
        apply Tendsto.div tendsto_const_nhds (tendsto_const_nhds.add h1) (by norm_num)
      simpa using h2
    refine ⟨?_, ?_, ?_, ?_, ?_, ?_, ?_, ?_⟩
    · intro a x _
      refine ⟨by positivity, ?_⟩
      rw [div_le_one (hpos _)]
      have := Real.exp_pos (-(a * x)); linarith
    · intro a ha x y hxy
      exact mono' _ _ (mul_le_mul_of_nonneg_left hxy ha.le)
    · intro a _; norm_num
    · intro a x ha
      rw [half_lt]
      exact ⟨fun h => pos_of_mul_pos_right h ha.le |> fun h => h, fun h => mul_pos ha h⟩
    · intro a x _
      have := odd' (a * x)
      simpa using this
    · intro a b x ha hab
      rcases le_total 0 x with hx | hx
      · have h1 := mono' 0 (a * x) (by positivity)
        have h2 := mono' (a * x) (b * x) (mul_le_mul_of_nonneg_right hab hx)
        rw [half0] at h1
        rw [abs_of_nonneg (by linarith), abs_of_nonneg (by linarith)]; linarith
      · have h1 := mono' (a * x) 0 (mul_nonpos_of_nonneg_of_nonpos ha.le hx)
        have h2 := mono' (b * x) (a * x) (mul_le_mul_of_nonpos_right hab hx)
        rw [half0] at h1
        rw [abs_of_nonpos (by linarith), abs_of_nonpos (by linarith)]; linarith
    · exact lim
    · intro x hx
      have h := (lim (-x) (by linarith)).const_sub 1
      simp only [sub_self] at h
      refine h.congr fun a => ?_
      have := odd' (-(a * x))
      rw [neg_neg] at this
      rw [this]; congr 3; ring_nf
  · intro a x _
    simp [sigmoid, nnSigmoid]
  · intro a ha
    have h1 : F.fin a * F.pinf = F.pinf := by
      show F.mul _ _ = _; simp [F.mul, ha.ne', ha]
    have h2 : F.fin a * F.ninf = F.ninf := by
      show F.mul _ _ = _; simp [F.mul, ha.ne', ha]
    simp [sigmoid, nnSigmoid, h1, h2]

theorem hardSigmoid_fin (a x : ℝ) :
    hardSigmoid (F.fin x) (F.fin a) = F.fin (min (max (a * x + 3) 0) 6 / 6) := by
  simp [hardSigmoid, nnHardSigmoid, nnRelu6, F.fin_div]

theorem softStep_hardSigmoid : SoftStep hardSigmoid := by
  refine ⟨fun a x => min (max (a * x + 3) 0) 6 / 6, ?_, ?_, ?_⟩
  · have mono' : ∀ t u : ℝ, t ≤ u → min (max (t + 3) 0) 6 / 6 ≤ min (max (u + 3) 0) 6 / 6 := by
      intro t u h
      have : min (max (t + 3) 0) 6 ≤ min (max (u + 3) 0) 6 :=
        min_le_min (max_le_max (by linarith) le_rfl) le_rfl
      linarith
    have half0 : min (max ((0:ℝ) + 3) 0) 6 / 6 = 1 / 2 := by norm_num
    have sat : ∀ t : ℝ, 3 ≤ t → min (max (t + 3) 0) 6 / 6 = 1 := by
      intro t h
      rw [max_eq_left (by linarith), min_eq_right (by linarith)]; norm_num
    have sat' : ∀ t : ℝ, t ≤ -3 → min (max (t + 3) 0) 6 / 6 = 0 := by
      intro t h
      rw [max_eq_right (by linarith), min_eq_left (by linarith)]; norm_num
    refine ⟨?_, ?_, ?_, ?_, ?_, ?_, ?_, ?_⟩
    · intro a x _
      have h1 : (0:ℝ) ≤ min (max (a * x + 3) 0) 6 := le_min (le_max_right _ _) (by norm_num)
      have h2 : min (max (a * x + 3) 0) 6 ≤ 6 := min_le_right _ _
      constructor <;> linarith
    · intro a ha x y hxy
      exact mono' _ _ (mul_le_mul_of_nonneg_left hxy ha.le)
    · intro a _; norm_num
    · intro a x ha
      constructor
      · intro h
        by_contra hx
        have := mono' (a * x) 0 (mul_nonpos_of_nonneg_of_nonpos ha.le (not_lt.mp hx))
        rw [half0] at this; linarith
      · intro hx
        have : 0 < a * x := mul_pos ha hx
        have h3 : (3:ℝ) < min (max (a * x + 3) 0) 6 :=
          lt_min (lt_max_of_lt_left (by linarith)) (by norm_num)
        linarith
    · intro a x _
      have : a * -x = -(a * x) := by ring
      rw [this]
      generalize a * x = t
      rcases le_total t (-3) with h | h
      · rw [sat' t h, sat (-t) (by linarith)]; norm_num
      · rcases le_total 3 t with h' | h'
        · rw [sat t h', sat' (-t) (by linarith)]; norm_num
        · rw [max_eq_left (by linarith), min_eq_left (by linarith), max_eq_left (by linarith),
            min_eq_left (by linarith)]; ring
    · intro a b x ha hab
      rcases le_total 0 x with hx | hx
      · have h1 := mono' 0 (a * x) (by positivity)
        have h2 := mono' (a * x) (b * x) (mul_le_mul_of_nonneg_right hab hx)
        rw [half0] at h1
        rw [abs_of_nonneg (by linarith), abs_of_nonneg (by linarith)]; linarith
      · have h1 := mono' (a * x) 0 (mul_nonpos_of_nonneg_of_nonpos ha.le hx)
        have h2 := mono' (b * x) (a * x) (mul_le_mul_of_nonpos_right hab hx)
        rw [half0] at h1
        rw [abs_of_nonpos (by linarith), abs_of_nonpos (by linarith)]; linarith
    · intro x hx
      apply tendsto_const_nhds.congr'
      filter_upwards [eventually_ge_atTop (3 / x)] with a ha
      rw [div_le_iff₀ hx] at ha
      exact (sat _ ha).symm
    · intro x hx
      apply tendsto_const_nhds.congr'
      filter_upwards [eventually_ge_atTop (3 / -x)] with a ha
      rw [div_le_iff₀ (by linarith)] at ha
      exact (sat' _ (by linarith)).symm
  · intro a x _
    exact hardSigmoid_fin a x
  · intro a ha
    have h1 : F.fin a * F.pinf = F.pinf := by
      show F.mul _ _ = _; simp [F.mul, ha.ne', ha]
    have h2 : F.fin a * F.ninf = F.ninf := by
      show F.mul _ _ = _; simp [F.mul, ha.ne', ha]
    have h3 : F.pinf + F.fin 3 = F.pinf := rfl
    have h4 : F.ninf + F.fin 3 = F.ninf := rfl
    simp [hardSigmoid, nnHardSigmoid, nnRelu6, h1, h2, h3, h4, F.max, F.min, F.lt, F.fin_div, not_lt.mpr (show (0:ℝ) ≤ 6 by norm_num)]

theorem goodKw_default : GoodKw {} :=
  ⟨softStep_hardSigmoid, 100, by norm_num, by simp [DEFAULT_ALPHA]⟩

/-- The real function computed by a good activation. -/
theorem Spec.GoodKw.real {kw : ActKw} (h : GoodKw kw) :
    ∃ s : ℝ → ℝ, (∀ x : ℝ, activation kw (F.fin x) = F.fin (s x)) ∧
      activation kw F.pinf = F.fin 1 ∧ activation kw F.ninf = F.fin 0 ∧
      activation kw F.nan = F.nan ∧ (∀ x, 0 ≤ s x ∧ s x ≤ 1) ∧ Monotone s ∧ s 0 = 1 / 2 ∧
      (∀ x, 1 / 2 < s x ↔ 0 < x) ∧ (∀ x, s (-x) = 1 - s x) := by
  obtain ⟨⟨s, hs, hfin, hinf⟩, a, ha, hal⟩ := h
  refine ⟨s a, ?_, ?_, ?_, ?_, fun x => hs.range a x ha, hs.mono a ha, hs.half a ha,
    fun x => hs.above a x ha, fun x => hs.odd a x ha⟩
  · intro x; simp [activation, hal, hfin a x ha]
  · simp [activation, hal, (hinf a ha).1]
  · simp [activation, hal, (hinf a ha).2.1]
  · simp [activation, hal, (hinf a ha).2.2]

end DiffeRT2d

namespace DiffeRT2d
open Classical Filter Spec
namespace F

theorem min_comm' (a b : F) : min a b = min b a := by
  cases a <;> cases b <;> first | rfl | simp [min_comm] | skip
theorem min_assoc' (a b c : F) : min (min a b) c = min a (min b c) := by
  cases a <;> cases b <;> cases c <;>
    first | (simp only [min_fin]; rw [min_assoc]) | rfl | simp [min, lt] | skip
  all_goals (rename_i x y; rcases lt_or_ge y x with h | h <;> simp [min, lt, h, not_lt.mpr])
theorem max_comm' (a b : F) : max a b = max b a := by
  cases a <;> cases b <;> first | rfl | simp [max_comm] | skip
theorem max_assoc' (a b c : F) : max (max a b) c = max a (max b c) := by
  cases a <;> cases b <;> cases c <;>
    first | (simp only [max_fin]; rw [max_assoc]) | rfl | simp [max, lt] | skip
  all_goals (rename_i x y; rcases lt_or_ge x y with h | h <;> simp [max, lt, h, not_lt.mpr])
theorem min_pinf (a : F) : min pinf a = a := by cases a <;> simp [min, lt]
theorem max_ninf (a : F) : max ninf a = a := by cases a <;> simp [max, lt]

theorem minOf_eq (x : F) (xs : List F) : minOf x xs = (x :: xs).foldl min pinf := by
  simp [minOf, min_pinf]
theorem maxOf_eq (x : F) (xs : List F) : maxOf x xs = (x :: xs).foldl max ninf := by
  simp [maxOf, max_ninf]

theorem foldl_min_perm {xs ys : List F} (h : xs.Perm ys) (a : F) :
    xs.foldl min a = ys.foldl min a := by
  haveI : RightCommutative (min : F → F → F) :=
    ⟨fun a b c => by rw [min_assoc', min_comm' b c, ← min_assoc']⟩
  exact h.foldl_eq a
theorem foldl_max_perm {xs ys : List F} (h : xs.Perm ys) (a : F) :
    xs.foldl max a = ys.foldl max a := by
  haveI : RightCommutative (max : F → F → F) :=
    ⟨fun a b c => by rw [max_assoc', max_comm' b c, ← max_assoc']⟩
  exact h.foldl_eq a
end F

theorem jnpMin_perm {xs ys : List Truthy} (h : xs.Perm ys) : jnpMin xs = jnpMin ys := by
  cases xs with
  | nil => have := h.length_eq; cases ys <;> simp_all
  | cons x xs =>
    cases ys with
    | nil => have := h.length_eq; simp at this
    | cons y ys =>
      have hall : ∀ p : Truthy → Bool, (x :: xs).all p = (y :: ys).all p := by
        intro p; rw [Bool.eq_iff_iff]; simp only [List.all_eq_true]
        exact ⟨fun H z hz => H z (h.mem_iff.mpr hz), fun H z hz => H z (h.mem_iff.mp hz)⟩
      have hm := F.foldl_min_perm (h.map Truthy.toF) F.pinf
      simp only [List.map_cons, ← F.minOf_eq] at hm
      simp only [jnpMin, hall, hm]

theorem jnpMax_perm {xs ys : List Truthy} (h : xs.Perm ys) : jnpMax xs = jnpMax ys := by
  cases xs with
  | nil => have := h.length_eq; cases ys <;> simp_all
  | cons x xs =>
    cases ys with
    | nil => have := h.length_eq; simp at this
    | cons y ys =>
      have hall : ∀ p : Truthy → Bool, (x :: xs).all p = (y :: ys).all p := by
        intro p; rw [Bool.eq_iff_iff]; simp only [List.all_eq_true]
        exact ⟨fun H z hz => H z (h.mem_iff.mpr hz), fun H z hz => H z (h.mem_iff.mp hz)⟩
      have hany : ∀ p : Truthy → Bool, (x :: xs).any p = (y :: ys).any p := by
        intro p; rw [Bool.eq_iff_iff]; simp only [List.any_eq_true]
        exact ⟨fun ⟨z, hz, H⟩ => ⟨z, h.mem_iff.mp hz, H⟩, fun ⟨z, hz, H⟩ => ⟨z, h.mem_iff.mpr hz, H⟩⟩
      have hm := F.foldl_max_perm (h.map Truthy.toF) F.ninf
      simp only [List.map_cons, ← F.maxOf_eq] at hm
      simp only [jnpMax, hall, hany, hm]

theorem exists_degrees {xs : List Truthy} (h : ∀ x ∈ xs, ∃ r, Degree x r) :
    ∃ rs : List ℝ, List.Forall₂ Degree xs rs ∧ xs.map Truthy.toF = rs.map F.fin := by
  induction xs with
  | nil => exact ⟨[], .nil, rfl⟩
  | cons x xs ih =>
    obtain ⟨r, hr⟩ := h x (by simp)
    obtain ⟨rs, h1, h2⟩ := ih (fun y hy => h y (by simp [hy]))
    exact ⟨r :: rs, .cons hr h1, by simp [h2, hr.toF]⟩

theorem forall₂_mem_left {α β} {R : α → β → Prop} {xs : List α} {ys : List β}
    (h : List.Forall₂ R xs ys) {y : β} (hy : y ∈ ys) : ∃ x ∈ xs, R x y := by
  induction h with
  | nil => simp at hy
  | cons h1 _ ih =>
    rcases List.mem_cons.mp hy with rfl | hy
    · exact ⟨_, by simp, h1⟩
    · obtain ⟨x, hx, hr⟩ := ih hy; exact ⟨x, by simp [hx], hr⟩

theorem forall₂_mem_right {α β} {R : α → β → Prop} {xs : List α} {ys : List β}
    (h : List.Forall₂ R xs ys) {x : α} (hx : x ∈ xs) : ∃ y ∈ ys, R x y := by
  induction h with
  | nil => simp at hx
  | cons h1 _ ih =>
    rcases List.mem_cons.mp hx with rfl | hx
    · exact ⟨_, by simp, h1⟩
    · obtain ⟨y, hy, hr⟩ := ih hx; exact ⟨y, by simp [hy], hr⟩

theorem degree_b (v : Bool) : Degree (.b v) (if v then 1 else 0) := by
  cases v <;> simp [Degree]

/-- `jnp.min` of truth degrees is their least element. -/
theorem jnpMin_degree {xs : List Truthy} (hne : xs ≠ []) (h : ∀ x ∈ xs, ∃ r, Degree x r) :
    ∃ v r, jnpMin xs = .ok v ∧ Degree v r ∧ (∃ x ∈ xs, Degree x r) ∧
      ∀ x ∈ xs, ∀ s, Degree x s → r ≤ s := by
  obtain ⟨rs, h1, h2⟩ := exists_degrees h
  cases h1 with
  | nil => exact absurd rfl hne
  | @cons x r xs rs hx hxs =>
    simp only [List.map_cons, List.cons.injEq] at h2
    obtain ⟨hm1, hm2⟩ := foldl_min_spec r rs
    have hF := List.Forall₂.cons hx hxs
    obtain ⟨y, hy, hyr⟩ := forall₂_mem_left hF hm1
    have least : ∀ z ∈ x :: xs, ∀ s, Degree z s → rs.foldl min r ≤ s := by
      intro z hz s hs
      obtain ⟨t, ht, hzt⟩ := forall₂_mem_right hF hz
      rw [hs.unique hzt]; exact hm2 t ht
    by_cases hb : (x :: xs).all Truthy.isB = true
    · refine ⟨.b ((x :: xs).all Truthy.toBool), rs.foldl min r, by rw [jnpMin, if_pos hb], ?_,
        ⟨y, hy, hyr⟩, least⟩
      have hd := degree_b ((x :: xs).all Truthy.toBool)
      suffices hh : (if (x :: xs).all Truthy.toBool then (1:ℝ) else 0) = rs.foldl min r by
        rwa [hh] at hd
      split
      · rename_i hall
        have hyb := List.all_eq_true.mp hb y hy
        have hyt := List.all_eq_true.mp hall y hy
        cases y with
        | f y => simp [Truthy.isB] at hyb
        | b v => simp only [Truthy.toBool] at hyt; subst hyt
                 exact (degree_b true).unique hyr |>.symm ▸ by simp
      · rename_i hall
        simp only [List.all_eq_true, not_forall] at hall
        obtain ⟨z, hz, hzf⟩ := hall
        have hzb := List.all_eq_true.mp hb z hz
        cases z with
        | f z => simp [Truthy.isB] at hzb
        | b v =>
          simp only [Truthy.toBool, Bool.not_eq_true] at hzf; subst hzf
          have := least _ hz 0 (by simpa using degree_b false)
          exact le_antisymm hyr.1 this
    · refine ⟨.f (F.fin (rs.foldl min r)), rs.foldl min r, ?_, .of_f hyr.1 hyr.2.1, ⟨y, hy, hyr⟩, least⟩
      rw [jnpMin, if_neg hb, h2.1, h2.2, F.minOf_fin]

/-- `jnp.max` of truth degrees is their greatest element. -/
theorem jnpMax_degree {xs : List Truthy} (hne : xs ≠ []) (h : ∀ x ∈ xs, ∃ r, Degree x r) :
    ∃ v r, jnpMax xs = .ok v ∧ Degree v r ∧ (∃ x ∈ xs, Degree x r) ∧
      ∀ x ∈ xs, ∀ s, Degree x s → s ≤ r := by
  obtain ⟨rs, h1, h2⟩ := exists_degrees h
  cases h1 with
  | nil => exact absurd rfl hne
  | @cons x r xs rs hx hxs =>
    simp only [List.map_cons, List.cons.injEq] at h2
    obtain ⟨hm1, hm2⟩ := foldl_max_spec r rs
    have hF := List.Forall₂.cons hx hxs
    obtain ⟨y, hy, hyr⟩ := forall₂_mem_left hF hm1
    have most : ∀ z ∈ x :: xs, ∀ s, Degree z s → s ≤ rs.foldl max r := by
      intro z hz s hs
      obtain ⟨t, ht, hzt⟩ := forall₂_mem_right hF hz
      rw [hs.unique hzt]; exact hm2 t ht
    by_cases hb : (x :: xs).all Truthy.isB = true
    · refine ⟨.b ((x :: xs).any Truthy.toBool), rs.foldl max r, by rw [jnpMax, if_pos hb], ?_,
        ⟨y, hy, hyr⟩, most⟩
      have hd := degree_b ((x :: xs).any Truthy.toBool)
      suffices hh : (if (x :: xs).any Truthy.toBool then (1:ℝ) else 0) = rs.foldl max r by
        rwa [hh] at hd
      split
      · rename_i hany
        obtain ⟨z, hz, hzf⟩ := List.any_eq_true.mp hany
        have hzb := List.all_eq_true.mp hb z hz
        cases z with
        | f z => simp [Truthy.isB] at hzb
        | b v =>
          simp only [Truthy.toBool] at hzf; subst hzf
          have := most _ hz 1 (by simpa using degree_b true)
          exact le_antisymm this hyr.2.1
      · rename_i hany
        have hyb := List.all_eq_true.mp hb y hy
        cases y with
        | f y => simp [Truthy.isB] at hyb
        | b v =>
          cases v with
          | true => exact absurd (List.any_eq_true.mpr ⟨_, hy, rfl⟩) hany
          | false => exact ((degree_b false).unique hyr |>.symm ▸ by simp)
    · refine ⟨.f (F.fin (rs.foldl max r)), rs.foldl max r, ?_, .of_f hyr.1 hyr.2.1, ⟨y, hy, hyr⟩, most⟩
      rw [jnpMax, if_neg hb, h2.1, h2.2, F.maxOf_fin]

end DiffeRT2d

namespace DiffeRT2d
open Classical Spec

theorem Spec.Hard.eq {E : Env} {ap : Option Bool} (h : Hard E ap) : resolveApprox E ap = false := by
  rcases h with rfl | ⟨rfl, h⟩ <;> simp [resolveApprox, *]
theorem Spec.Soft.eq {E : Env} {ap : Option Bool} (h : Soft E ap) : resolveApprox E ap = true := by
  rcases h with rfl | ⟨rfl, h⟩ <;> simp [resolveApprox, *]
theorem hard_or_soft (E : Env) (ap : Option Bool) : Hard E ap ∨ Soft E ap := by
  rcases ap with _ | (_ | _) <;> rcases h : E.enableApprox <;> simp [Hard, Soft, h]

end DiffeRT2d
