import Verif.Spec.TruthGradient
import Verif.Lemmas.GradTame

/-! Values and gradients of the parts of a truth value. -/

namespace DiffeRT2d
open Classical Spec
variable {ι : Type}

theorem gives_var (x : ℝ) (i : ι) : Gives (Rev.var (F.fin x) i) x fun j => if j = i then 1 else 0 :=
  ⟨rfl, fun c j => by simp only [Rev.var]; split_ifs <;> simp⟩

theorem gives_const (x : ℝ) : Gives (Rev.const (F.fin x) : Rev ι) x fun _ => 0 := ⟨rfl, fun c i => by simp [Rev.const]⟩

theorem Spec.Gives.grad {a : Rev ι} {v : ℝ} {g : ι → ℝ} (h : Gives a v g) (i : ι) : Rev.grad a i = F.fin (g i) := by
  unfold Rev.grad; rw [F.one_eq, h.2, one_mul]

theorem Spec.Gives.unique {a : Rev ι} {v v' : ℝ} {g g' : ι → ℝ} (h : Gives a v g) (h' : Gives a v' g') : v = v' ∧ g = g' := by
  refine ⟨F.fin.inj (h.1.symm.trans h'.1), funext fun i => F.fin.inj ((h.grad i).symm.trans (h'.grad i))⟩

theorem balanced_max (v w : ℝ) : Rev.balancedEq (F.fin v) (F.max (F.fin v) (F.fin w)) (F.fin w) = F.fin (share v w) := by
  unfold Rev.balancedEq share
  rw [F.max_fin, F.eq_fin, F.eq_fin]
  rcases lt_trichotomy w v with h | rfl | h
  · rw [max_eq_left h.le, if_pos h, decide_eq_true rfl, decide_eq_false h.ne]
    simp only [F.where_, if_true, Bool.false_eq_true, if_false, F.one_eq]
    exact (F.fin_div 1 one_ne_zero).trans (by simp)
  · simp only [max_self, min_self, decide_true, F.where_, if_true, F.one_eq, lt_irrefl, if_false]
    exact F.fin_div 1 two_ne_zero
  · rw [max_eq_right h.le, if_neg (not_lt.mpr h.le), if_pos h, decide_eq_true rfl, decide_eq_false h.ne]
    simp only [F.where_, if_true, Bool.false_eq_true, if_false, F.zero_eq]
    exact (F.fin_div 0 (two_ne_zero)).trans (by simp)

theorem balanced_min (v w : ℝ) : Rev.balancedEq (F.fin v) (F.min (F.fin v) (F.fin w)) (F.fin w) = F.fin (share w v) := by
  unfold Rev.balancedEq share
  rw [F.min_fin, F.eq_fin, F.eq_fin]
  rcases lt_trichotomy v w with h | rfl | h
  · rw [min_eq_left h.le, if_pos h, decide_eq_true rfl, decide_eq_false h.ne']
    simp only [F.where_, if_true, Bool.false_eq_true, if_false, F.one_eq]
    exact (F.fin_div 1 one_ne_zero).trans (by simp)
  · simp only [max_self, min_self, decide_true, F.where_, if_true, F.one_eq, lt_irrefl, if_false]
    exact F.fin_div 1 two_ne_zero
  · rw [min_eq_right h.le, if_neg (not_lt.mpr h.le), if_pos h, decide_eq_true rfl, decide_eq_false h.ne']
    simp only [F.where_, if_true, Bool.false_eq_true, if_false, F.zero_eq]
    exact (F.fin_div 0 (two_ne_zero)).trans (by simp)

namespace Spec.Gives
variable {a b : Rev ι} {v w : ℝ} {g k : ι → ℝ}

theorem congr (h : Gives a v g) (hv : v = w) (hg : ∀ i, g i = k i) : Gives a w k := by subst hv; rw [show k = g from funext fun i => (hg i).symm]; exact h

theorem add (ha : Gives a v g) (hb : Gives b w k) : Gives (a + b) (v + w) fun i => g i + k i := by
  refine ⟨by simp [ha.1, hb.1], fun c i => ?_⟩
  show a.pull _ i + b.pull _ i = _
  rw [ha.2, hb.2, F.fin_add, mul_add]

theorem sub (ha : Gives a v g) (hb : Gives b w k) : Gives (a - b) (v - w) fun i => g i - k i := by
  refine ⟨by simp [ha.1, hb.1], fun c i => ?_⟩
  show a.pull _ i + b.pull (-F.fin c) i = _
  rw [F.fin_neg, ha.2, hb.2, F.fin_add]; congr 1; ring

theorem scale (x : ℝ) (ha : Gives a v g) : Gives (Rev.const (F.fin x) * a) (x * v) fun i => x * g i := by
  refine ⟨by show F.fin x * a.val = _; rw [ha.1, F.fin_mul], fun c i => ?_⟩
  show (0 : F) + a.pull (F.fin c * F.fin x) i = _
  rw [F.fin_mul, ha.2, F.zero_eq, F.fin_add]; congr 1; ring

theorem div_const (ha : Gives a v g) {x : ℝ} (hx : x ≠ 0) : Gives (a / Rev.const (F.fin x)) (v / x) fun i => g i / x := by
  refine ⟨by rw [Rev.val_div, ha.1]; exact F.fin_div _ hx, fun c i => ?_⟩
  show a.pull (F.fin c / F.fin x) i + 0 = _
  rw [F.fin_div _ hx, ha.2, F.zero_eq, F.fin_add]; congr 1; ring

theorem max (ha : Gives a v g) (hb : Gives b w k) : Gives (Rev.max a b) (Max.max v w) fun i => share v w * g i + share w v * k i := by
  refine ⟨by simp [ha.1, hb.1], fun c i => ?_⟩
  show a.pull (F.fin c * Rev.balancedEq a.val (F.max a.val b.val) b.val) i + b.pull (F.fin c * Rev.balancedEq b.val (F.max a.val b.val) a.val) i = _
  rw [ha.1, hb.1, balanced_max, show F.max (F.fin v) (F.fin w) = F.max (F.fin w) (F.fin v) by rw [F.max_fin, F.max_fin, max_comm], balanced_max, F.fin_mul, F.fin_mul, ha.2, hb.2, F.fin_add]
  congr 1; ring

theorem min (ha : Gives a v g) (hb : Gives b w k) : Gives (Rev.min a b) (Min.min v w) fun i => share w v * g i + share v w * k i := by
  refine ⟨by simp [ha.1, hb.1], fun c i => ?_⟩
  show a.pull (F.fin c * Rev.balancedEq a.val (F.min a.val b.val) b.val) i + b.pull (F.fin c * Rev.balancedEq b.val (F.min a.val b.val) a.val) i = _
  rw [ha.1, hb.1, balanced_min, show F.min (F.fin v) (F.fin w) = F.min (F.fin w) (F.fin v) by rw [F.min_fin, F.min_fin, min_comm], balanced_min, F.fin_mul, F.fin_mul, ha.2, hb.2, F.fin_add]
  congr 1; ring

end Spec.Gives

end DiffeRT2d
