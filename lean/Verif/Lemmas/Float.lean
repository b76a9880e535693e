import Verif.Model.Float
import Mathlib.Tactic.Ring
import Mathlib.Tactic.Linarith
import Mathlib.Tactic.NormNum

/-! Computation rules for `F` on finite operands, and basic facts on NaN. -/

namespace DiffeRT2d
open Classical
namespace F

theorem fin_inj {x y : ℝ} : fin x = fin y ↔ x = y := by constructor <;> intro h <;> simp_all

@[simp] theorem fin_add (x y : ℝ) : fin x + fin y = fin (x + y) := rfl
@[simp] theorem fin_neg (x : ℝ) : -fin x = fin (-x) := rfl
@[simp] theorem fin_sub (x y : ℝ) : fin x - fin y = fin (x - y) := by
  show fin (x + -y) = _; rw [sub_eq_add_neg]
@[simp] theorem fin_mul (x y : ℝ) : fin x * fin y = fin (x * y) := rfl
theorem fin_div (x : ℝ) {y : ℝ} (h : y ≠ 0) : fin x / fin y = fin (x / y) := by
  show div _ _ = _; simp [div, h]

@[simp] theorem ofNat_eq (n : ℕ) [n.AtLeastTwo] : (OfNat.ofNat n : F) = fin (OfNat.ofNat n) := by
  show fin ((OfNat.ofNat n : ℕ) : ℝ) = _; simp
@[simp] theorem zero_eq : (0 : F) = fin 0 := by show fin ((0 : ℕ) : ℝ) = _; simp
@[simp] theorem one_eq : (1 : F) = fin 1 := by show fin ((1 : ℕ) : ℝ) = _; simp
@[simp] theorem ofScientific_eq (m : ℕ) (s : Bool) (e : ℕ) :
    (OfScientific.ofScientific m s e : F) = fin (OfScientific.ofScientific m s e) := rfl

@[simp] theorem lt_fin (x y : ℝ) : lt (fin x) (fin y) = decide (x < y) := rfl
@[simp] theorem eq_fin (x y : ℝ) : eq (fin x) (fin y) = decide (x = y) := rfl
@[simp] theorem le_fin (x y : ℝ) : le (fin x) (fin y) = decide (x ≤ y) := by
  simp [le, le_iff_lt_or_eq]
@[simp] theorem isNan_fin (x : ℝ) : isNan (fin x) = false := rfl
@[simp] theorem isNan_nan : isNan nan = true := rfl
@[simp] theorem isNan_pinf : isNan pinf = false := rfl
@[simp] theorem isNan_ninf : isNan ninf = false := rfl
@[simp] theorem isFinite_fin (x : ℝ) : isFinite (fin x) = true := rfl
@[simp] theorem max_fin (x y : ℝ) : max (fin x) (fin y) = fin (Max.max x y) := by
  unfold max; rcases lt_or_ge x y with h | h
  · simp [h, max_eq_right h.le]
  · simp [not_lt.mpr h, max_eq_left h]
@[simp] theorem min_fin (x y : ℝ) : min (fin x) (fin y) = fin (Min.min x y) := by
  unfold min; rcases lt_or_ge y x with h | h
  · simp [h, min_eq_right h.le]
  · simp [not_lt.mpr h, min_eq_left h]
theorem sqrt_fin {x : ℝ} (h : 0 ≤ x) : sqrt (fin x) = fin (Real.sqrt x) := by
  simp [sqrt, not_lt.mpr h]
@[simp] theorem sin_fin (x : ℝ) : sin (fin x) = fin (Real.sin x) := rfl
@[simp] theorem cos_fin (x : ℝ) : cos (fin x) = fin (Real.cos x) := rfl
@[simp] theorem nanToNum_fin (x : ℝ) : nanToNum (fin x) = fin x := rfl
@[simp] theorem nanToNum_nan : nanToNum nan = fin 0 := rfl
@[simp] theorem where_true {α : Type*} (a b : α) : where_ true a b = a := rfl
@[simp] theorem where_false {α : Type*} (a b : α) : where_ false a b = b := rfl

/-! NaN propagation -/
@[simp] theorem nan_add (a : F) : nan + a = nan := rfl
@[simp] theorem add_nan (a : F) : a + nan = nan := by cases a <;> rfl
@[simp] theorem neg_nan : -nan = nan := rfl
@[simp] theorem nan_sub (a : F) : nan - a = nan := rfl
@[simp] theorem sub_nan (a : F) : a - nan = nan := by cases a <;> rfl
@[simp] theorem nan_mul (a : F) : nan * a = nan := rfl
@[simp] theorem mul_nan (a : F) : a * nan = nan := by cases a <;> rfl
@[simp] theorem nan_div (a : F) : nan / a = nan := rfl
@[simp] theorem div_nan (a : F) : a / nan = nan := by cases a <;> rfl
@[simp] theorem lt_nan_left (a : F) : lt nan a = false := rfl
@[simp] theorem lt_nan_right (a : F) : lt a nan = false := by cases a <;> rfl
@[simp] theorem eq_nan_left (a : F) : eq nan a = false := by cases a <;> rfl
@[simp] theorem eq_nan_right (a : F) : eq a nan = false := by cases a <;> rfl
@[simp] theorem le_nan_left (a : F) : le nan a = false := by simp [le]
@[simp] theorem le_nan_right (a : F) : le a nan = false := by simp [le]
@[simp] theorem max_nan_left (a : F) : max nan a = nan := by simp [max]
@[simp] theorem max_nan_right (a : F) : max a nan = nan := by simp [max]
@[simp] theorem min_nan_left (a : F) : min nan a = nan := by simp [min]
@[simp] theorem min_nan_right (a : F) : min a nan = nan := by simp [min]

/-- Exact `F` addition is a commutative monoid (so the order of a `jnp.sum` is irrelevant). -/
theorem add_comm' (a b : F) : a + b = b + a := by
  cases a <;> cases b <;> first | rfl | (simp only [fin_add]; rw [add_comm])
theorem add_assoc' (a b c : F) : a + b + c = a + (b + c) := by
  cases a <;> cases b <;> cases c <;> first | rfl | (simp only [fin_add]; rw [add_assoc])
theorem zero_add' (a : F) : fin 0 + a = a := by
  cases a <;> first | rfl | simp
theorem add_zero' (a : F) : a + fin 0 = a := by
  cases a <;> first | rfl | simp

end F

namespace V2
@[simp] theorem add_x {α} [Add α] (a b : V2 α) : (a + b).x = a.x + b.x := rfl
@[simp] theorem add_y {α} [Add α] (a b : V2 α) : (a + b).y = a.y + b.y := rfl
@[simp] theorem sub_x {α} [Sub α] (a b : V2 α) : (a - b).x = a.x - b.x := rfl
@[simp] theorem sub_y {α} [Sub α] (a b : V2 α) : (a - b).y = a.y - b.y := rfl
@[simp] theorem neg_x {α} [Neg α] (a : V2 α) : (-a).x = -a.x := rfl
@[simp] theorem neg_y {α} [Neg α] (a : V2 α) : (-a).y = -a.y := rfl
@[simp] theorem smul_x {α} [Mul α] (c : α) (a : V2 α) : (smul c a).x = c * a.x := rfl
@[simp] theorem smul_y {α} [Mul α] (c : α) (a : V2 α) : (smul c a).y = c * a.y := rfl
@[simp] theorem fin_x (a : V2 ℝ) : (fin a).x = F.fin a.x := rfl
@[simp] theorem fin_y (a : V2 ℝ) : (fin a).y = F.fin a.y := rfl

theorem fin_inj {a b : V2 ℝ} : fin a = fin b ↔ a = b := by
  constructor
  · intro h
    have hx := congrArg V2.x h
    have hy := congrArg V2.y h
    simp only [fin_x, fin_y, F.fin_inj] at hx hy
    exact V2.ext hx hy
  · rintro rfl; rfl

@[simp] theorem fin_add (a b : V2 ℝ) : fin a + fin b = fin (a + b) := by
  ext <;> simp
@[simp] theorem fin_sub (a b : V2 ℝ) : fin a - fin b = fin (a - b) := by
  ext <;> simp
@[simp] theorem fin_neg (a : V2 ℝ) : -fin a = fin (-a) := by
  ext <;> simp
@[simp] theorem fin_smul (c : ℝ) (a : V2 ℝ) : smul (F.fin c) (fin a) = fin (smul c a) := by
  ext <;> simp
@[simp] theorem fin_dot (a b : V2 ℝ) : dot (fin a) (fin b) = F.fin (dot a b) := by
  simp [dot]
@[simp] theorem fin_cross (a b : V2 ℝ) : cross (fin a) (fin b) = F.fin (cross a b) := by
  simp [cross]
theorem fin_sdiv (a : V2 ℝ) {c : ℝ} (h : c ≠ 0) : sdiv (fin a) (F.fin c) = fin (sdiv a c) := by
  simp [sdiv, fin, F.fin_div _ h]
@[simp] theorem fin_norm (a : V2 ℝ) : norm (fin a) = F.fin (Real.sqrt (a.x * a.x + a.y * a.y)) := by
  simp only [norm, fin_x, fin_y, F.fin_mul, F.fin_add]
  exact F.sqrt_fin (by nlinarith [mul_self_nonneg a.x, mul_self_nonneg a.y])

end V2
end DiffeRT2d
