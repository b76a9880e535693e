import Verif.Model.Geometry
import Verif.Spec.Geometry
import Verif.Spec.Objects
import Verif.Lemmas.Logic
import Mathlib.Tactic.FieldSimp
import Mathlib.Tactic.LinearCombination
import Mathlib.Tactic.Positivity

/-! Real-valued forms of the geometry functions on finite inputs. -/

namespace DiffeRT2d
open Spec Classical

namespace V2
theorem fin_zero : (⟨0, 0⟩ : V2 F) = fin ⟨0, 0⟩ := by ext <;> simp
theorem eq_zero_iff (v : Pt) : v = ⟨0, 0⟩ ↔ v.x * v.x + v.y * v.y = 0 := by
  constructor
  · rintro rfl; simp
  · intro h
    have hx := mul_self_nonneg v.x
    have hy := mul_self_nonneg v.y
    ext
    · exact mul_self_eq_zero.mp (by linarith)
    · exact mul_self_eq_zero.mp (by linarith)
end V2

/-! ### Segment intersection -/

/-- Line parameters of the crossing point (numerators `a`, `b` and determinant `d`). -/
noncomputable def segA (p1 _p2 p3 p4 : Pt) : ℝ :=
  (p3.y - p4.y) * (p1.x - p3.x) - (p3.x - p4.x) * (p1.y - p3.y)
noncomputable def segB (p1 p2 p3 _p4 : Pt) : ℝ :=
  (p2.x - p1.x) * (p1.y - p3.y) - (p2.y - p1.y) * (p1.x - p3.x)
noncomputable def segD (p1 p2 p3 p4 : Pt) : ℝ :=
  (p2.y - p1.y) * (p3.x - p4.x) - (p2.x - p1.x) * (p3.y - p4.y)

theorem segmentsIntersect_fin (E : Env) (p1 p2 p3 p4 : Pt) (tol : F) (ap kw) :
    segmentsIntersect E (V2.fin p1) (V2.fin p2) (V2.fin p3) (V2.fin p4) tol ap kw =
      logicalAnd E ap (segTest E tol ap kw (F.fin (segA p1 p2 p3 p4)) (F.fin (segD p1 p2 p3 p4)))
        (segTest E tol ap kw (F.fin (segB p1 p2 p3 p4)) (F.fin (segD p1 p2 p3 p4))) := by
  simp [segmentsIntersect, segA, segB, segD]

theorem segD_eq_zero (p1 p2 p3 p4 : Pt) : segD p1 p2 p3 p4 = 0 ↔ Parallel p1 p2 p3 p4 := by
  unfold segD Parallel; constructor <;> intro h <;> linarith

theorem cross_iff {p1 p2 p3 p4 : Pt} (h : segD p1 p2 p3 p4 ≠ 0) (s t : ℝ) :
    pointAt p1 p2 s = pointAt p3 p4 t ↔
      s = segA p1 p2 p3 p4 / segD p1 p2 p3 p4 ∧ t = segB p1 p2 p3 p4 / segD p1 p2 p3 p4 := by
  rw [eq_div_iff h, eq_div_iff h]
  constructor
  · intro e
    have ex := congrArg V2.x e
    have ey := congrArg V2.y e
    simp only [pointAt] at ex ey
    unfold segA segB segD
    constructor
    · linear_combination (p3.y - p4.y) * (-ex) + (p3.x - p4.x) * ey
    · linear_combination (p2.y - p1.y) * (ex) - (p2.x - p1.x) * ey
  · rintro ⟨hs, ht⟩
    unfold segA segD at hs
    unfold segB segD at ht
    ext
    · apply mul_right_cancel₀ h
      simp only [pointAt]; unfold segD
      linear_combination (p2.x - p1.x) * hs - (p4.x - p3.x) * ht
    · apply mul_right_cancel₀ h
      simp only [pointAt]; unfold segD
      linear_combination (p2.y - p1.y) * hs - (p4.y - p3.y) * ht

theorem segTest_ne (E : Env) (tol : F) (ap kw) (x y : ℝ) (h : y ≠ 0) :
    segTest E tol ap kw (F.fin x) (F.fin y) =
      logicalAnd E ap (greaterEqual E ap kw (F.fin (x / y)) (-tol))
        (lessEqual E ap kw (F.fin (x / y)) (1 + tol)) := by
  simp [segTest, h, F.fin_div x h]

theorem segTest_zero (E : Env) (tol : F) (ap kw) (x : ℝ) :
    segTest E tol ap kw (F.fin x) (F.fin 0) =
      logicalAnd E ap (greaterEqual E ap kw F.pinf (-tol)) (lessEqual E ap kw F.pinf (1 + tol)) := by
  simp [segTest]

end DiffeRT2d

namespace DiffeRT2d
open Spec Classical

/-- Hard-mode interval test. -/
theorem interval_hard {E : Env} {ap : Option Bool} (h : Hard E ap) (kw : ActKw) (t lo hi : ℝ) :
    logicalAnd E ap (greaterEqual E ap kw (F.fin t) (F.fin lo)) (lessEqual E ap kw (F.fin t) (F.fin hi)) =
      .b (decide (lo ≤ t ∧ t ≤ hi)) := by
  simp [logicalAnd, greaterEqual, lessEqual, h.eq, Truthy.toBool]

/-- Approximate interval test. -/
theorem interval_soft {E : Env} {ap : Option Bool} (h : Soft E ap) {kw : ActKw} {s : ℝ → ℝ}
    (hs : ∀ x : ℝ, activation kw (F.fin x) = F.fin (s x)) (t lo hi : ℝ) :
    logicalAnd E ap (greaterEqual E ap kw (F.fin t) (F.fin lo)) (lessEqual E ap kw (F.fin t) (F.fin hi)) =
      .f (F.fin (min (s (t - lo)) (s (hi - t)))) := by
  simp [logicalAnd, greaterEqual, lessEqual, h.eq, Truthy.minimum, Truthy.toF, hs]

theorem segTest_hard {E : Env} {ap : Option Bool} (h : Hard E ap) (kw : ActKw) (tol x y : ℝ) :
    segTest E (F.fin tol) ap kw (F.fin x) (F.fin y) =
      .b (decide (y ≠ 0 ∧ -tol ≤ x / y ∧ x / y ≤ 1 + tol)) := by
  by_cases hy : y = 0
  · subst hy
    rw [segTest_zero]
    simp [logicalAnd, greaterEqual, lessEqual, h.eq, Truthy.toBool, F.le, F.lt, F.eq]
  · rw [segTest_ne _ _ _ _ _ _ hy]
    simp only [F.fin_neg, F.one_eq, F.fin_add]
    rw [interval_hard h]; simp [hy]

theorem segTest_soft {E : Env} {ap : Option Bool} (h : Soft E ap) {kw : ActKw} {s : ℝ → ℝ}
    (hs : ∀ x : ℝ, activation kw (F.fin x) = F.fin (s x)) (hp : activation kw F.pinf = F.fin 1)
    (hn : activation kw F.ninf = F.fin 0) (tol x y : ℝ) :
    segTest E (F.fin tol) ap kw (F.fin x) (F.fin y) =
      .f (F.fin (if y = 0 then 0 else min (s (x / y + tol)) (s (1 + tol - x / y)))) := by
  by_cases hy : y = 0
  · subst hy
    rw [segTest_zero]
    have h1 : F.pinf - F.fin (-tol) = F.pinf := rfl
    have h2 : F.fin (1 + tol) - F.pinf = F.ninf := rfl
    simp [logicalAnd, greaterEqual, lessEqual, h.eq, Truthy.minimum, Truthy.toF, h1, h2, hp, hn]
  · rw [segTest_ne _ _ _ _ _ _ hy]
    simp only [F.fin_neg, F.one_eq, F.fin_add]
    rw [interval_soft h hs]; simp [hy]

/-- The outcome of `segments_intersect` depends only on the two line parameters (none if parallel). -/
noncomputable def segParams (p1 p2 p3 p4 : Pt) : Option (ℝ × ℝ) :=
  if segD p1 p2 p3 p4 = 0 then none
  else some (segA p1 p2 p3 p4 / segD p1 p2 p3 p4, segB p1 p2 p3 p4 / segD p1 p2 p3 p4)

noncomputable def intervalTest (E : Env) (tol : F) (ap : Option Bool) (kw : ActKw) (t : F) : Truthy :=
  logicalAnd E ap (greaterEqual E ap kw t (-tol)) (lessEqual E ap kw t (1 + tol))

noncomputable def segOutcome (E : Env) (tol : F) (ap : Option Bool) (kw : ActKw) :
    Option (ℝ × ℝ) → Truthy
  | none => logicalAnd E ap (intervalTest E tol ap kw F.pinf) (intervalTest E tol ap kw F.pinf)
  | some (a, b) =>
    logicalAnd E ap (intervalTest E tol ap kw (F.fin a)) (intervalTest E tol ap kw (F.fin b))

theorem segmentsIntersect_params (E : Env) (p1 p2 p3 p4 : Pt) (tol : F) (ap kw) :
    segmentsIntersect E (V2.fin p1) (V2.fin p2) (V2.fin p3) (V2.fin p4) tol ap kw =
      segOutcome E tol ap kw (segParams p1 p2 p3 p4) := by
  rw [segmentsIntersect_fin]
  by_cases h : segD p1 p2 p3 p4 = 0
  · simp [segParams, h, segTest_zero, segOutcome, intervalTest]
  · simp [segParams, h, segTest_ne _ _ _ _ _ _ h, segOutcome, intervalTest]

theorem logicalAnd_comm (E : Env) (ap : Option Bool) (x y : Truthy) :
    logicalAnd E ap x y = logicalAnd E ap y x := by
  rcases hard_or_soft E ap with h | h
  · simp [logicalAnd, h.eq, Bool.and_comm]
  · simp only [logicalAnd, h.eq, if_true]
    cases x <;> cases y <;> simp [Truthy.minimum, Bool.and_comm, F.min_comm']

theorem intervalTest_flip (E : Env) (tol : ℝ) (ap kw) (t : ℝ) :
    intervalTest E (F.fin tol) ap kw (F.fin (1 - t)) = intervalTest E (F.fin tol) ap kw (F.fin t) := by
  unfold intervalTest
  rw [logicalAnd_comm]
  rcases hard_or_soft E ap with h | h
  · simp only [greaterEqual, lessEqual, h.eq, F.fin_neg, F.one_eq, F.fin_add, F.le_fin,
      Bool.false_eq_true, if_false]
    congr 2
    · rw [decide_eq_decide]; constructor <;> intro _ <;> linarith
    · rw [decide_eq_decide]; constructor <;> intro _ <;> linarith
  · simp only [greaterEqual, lessEqual, h.eq, F.fin_neg, F.one_eq, F.fin_add, F.fin_sub, if_true]
    congr 4 <;> ring

end DiffeRT2d
