import Verif.Spec.RoundedPower
import Verif.Props.RoundedImage
import Verif.Props.Rounded

/-! Non-negative values in rounded arithmetic; idempotence of rounding to nearest. -/

namespace DiffeRT2d
open Classical Spec

/-! ### Rounding twice -/

/-- Powers of two of the format. -/
theorem nearest_two_zpow {p : ℕ} {emin j : ℤ} (hp : 1 ≤ p) (hj : emin ≤ j) : nearest p emin ((2 : ℝ) ^ j) = 2 ^ j := by
  have hl : Int.log 2 |(2 : ℝ) ^ j| = j := by
    rw [abs_of_pos (two_zpow_pos j)]
    exact_mod_cast Int.log_zpow (R := ℝ) (b := 2) (by norm_num) j
  refine nearest_of_int _ (2 ^ (p - 1)) ?_
  have : ulpExp p emin ((2 : ℝ) ^ j) = j - (p - 1) := by rw [ulpExp, hl, max_eq_left hj]
  rw [this]
  push_cast
  rw [← zpow_natCast, ← zpow_add₀ (by norm_num)]
  congr 1
  push_cast [hp]
  ring

theorem nearest_idem {p : ℕ} {emin : ℤ} (hp : 1 ≤ p) (x : ℝ) : nearest p emin (nearest p emin x) = nearest p emin x := by
  set y := nearest p emin x with hy
  by_cases hy0 : y = 0
  · rw [hy0, nearest_zero]
  by_cases he : ulpExp p emin y ≤ ulpExp p emin x
  · obtain ⟨d, hd⟩ := Int.le.dest he
    refine nearest_of_int _ (roundEven (x / 2 ^ ulpExp p emin x) * 2 ^ d) ?_
    push_cast
    rw [mul_assoc, ← zpow_natCast, ← zpow_add₀ (by norm_num), show (d : ℤ) + ulpExp p emin y = ulpExp p emin x by omega]
    rfl
  · rw [not_le] at he
    set M := max (Int.log 2 |x|) emin with hM
    have h1 : M < max (Int.log 2 |y|) emin := by unfold ulpExp at he; omega
    have h2 : M + 1 ≤ Int.log 2 |y| := by
      rcases max_choice (Int.log 2 |y|) emin with h | h
      · rw [h] at h1; omega
      · rw [h] at h1; exact absurd (le_max_right (Int.log 2 |x|) emin) (by rw [← hM]; omega)
    have h3 : (2 : ℝ) ^ (M + 1) ≤ |y| := by
      have := (Int.zpow_le_iff_le_log (b := 2) (r := |y|) (x := M + 1) (by norm_num) (abs_pos.mpr hy0)).mpr h2
      exact_mod_cast this
    have h4 : |x| ≤ 2 ^ (M + 1) := by
      have := Int.lt_zpow_succ_log_self (R := ℝ) (b := 2) (by norm_num) |x|
      have h5 : |x| < 2 ^ (Int.log 2 |x| + 1) := by exact_mod_cast this
      exact h5.le.trans (zpow_le_zpow_right₀ (by norm_num) (by have := le_max_left (Int.log 2 |x|) emin; omega))
    have hMe : emin ≤ M + 1 := by have := le_max_right (Int.log 2 |x|) emin; omega
    have hpow := nearest_two_zpow (p := p) hp hMe
    rw [abs_le] at h4
    have h6 := nearest_mono (p := p) (emin := emin) hp h4.2
    have h7 := nearest_mono (p := p) (emin := emin) hp h4.1
    rw [nearest_neg, hpow] at h7
    rw [hpow] at h6
    rcases le_or_gt 0 y with hs | hs
    · rw [abs_of_nonneg hs] at h3
      have : y = 2 ^ (M + 1) := le_antisymm h6 h3
      rw [this, hpow]
    · rw [abs_of_neg hs] at h3
      have : y = -2 ^ (M + 1) := by linarith
      rw [this, nearest_neg, hpow]

theorem ieee_idem {p : ℕ} {emin emax : ℤ} (hp : 1 ≤ p) : Idempotent (ieee p emin emax) := by
  intro x r h
  have hr : r = nearest p emin x ∧ ¬ nearest p emin x ≥ 2 ^ (emax + 1) ∧ ¬ nearest p emin x ≤ -2 ^ (emax + 1) := by
    simp only [ieee] at h
    split_ifs at h with h1 h2
    exact ⟨(F.fin.inj h).symm, h1, h2⟩
  obtain ⟨rfl, h1, h2⟩ := hr
  simp only [ieee, nearest_idem hp, h1, h2, if_false]

/-! ### Order -/

variable {A : FloatOps} {E : Env} {ap : Option Bool} {kw : ActKw}

theorem nonneg_cases {a : F} (h : Le (F.fin 0) a) : (∃ x : ℝ, a = F.fin x ∧ 0 ≤ x) ∨ a = F.pinf := by
  cases a with
  | fin x => exact .inl ⟨x, rfl, Le.fin.mp h⟩
  | nan => exact absurd rfl h.right
  | pinf => exact .inr rfl
  | ninf => rw [← F.le_iff] at h; simp [F.le, F.lt, F.eq] at h

/-- Sums of non-negative values are monotone. -/
theorem add_mono' (hA : FloatContract A) {a b c d : F} (ha : Le (F.fin 0) a) (hc : Le (F.fin 0) c) (h1 : Le a b) (h2 : Le c d) : Le (A.add a c) (A.add b d) := by
  refine Le.round hA ?_
  rcases nonneg_cases ha with ⟨x, rfl, hx⟩ | rfl <;> rcases nonneg_cases (ha.trans h1) with ⟨y, rfl, hy⟩ | rfl <;>
    rcases nonneg_cases hc with ⟨z, rfl, hz⟩ | rfl <;> rcases nonneg_cases (hc.trans h2) with ⟨w, rfl, hw⟩ | rfl <;>
    rw [← F.le_iff] at * <;> change F.le (F.add _ _) (F.add _ _) = true <;> simp_all [F.le, F.lt, F.eq, F.add]
  rcases h1 with h1 | h1 <;> rcases h2 with h2 | h2
  · exact .inl (by linarith)
  · exact .inl (by linarith)
  · exact .inl (by linarith)
  · exact .inr (by rw [h1, h2])

theorem sq_mono' (hA : FloatContract A) {a b : F} (ha : Le (F.fin 0) a) (h1 : Le a b) : Le (A.mul a a) (A.mul b b) := by
  refine Le.round hA ?_
  rcases nonneg_cases ha with ⟨x, rfl, hx⟩ | rfl <;> rcases nonneg_cases (ha.trans h1) with ⟨y, rfl, hy⟩ | rfl
  · rw [Le.fin] at h1
    show Le (F.fin (x * x)) (F.fin (y * y))
    rw [Le.fin]; nlinarith
  · exact ⟨_, _, rfl, rfl, by simp⟩
  · rw [← F.le_iff] at h1; simp [F.le, F.lt, F.eq] at h1
  · exact ⟨_, _, rfl, rfl, by simp⟩

theorem power_range (hA : FloatContract A) {c : ℝ} (h0 : 0 ≤ c) (h1 : c ≤ 1) (k : ℕ) : ∃ x : ℝ, A.power (F.fin c) k = F.fin x ∧ 0 ≤ x ∧ x ≤ 1 := by
  induction k with
  | zero => exact ⟨1, by rw [FloatOps.power, F.one_eq], zero_le_one, le_rfl⟩
  | succ k ih =>
    obtain ⟨x, e, hx0, hx1⟩ := ih
    rw [FloatOps.power, e]
    show ∃ y, A.rnd (x * c) = F.fin y ∧ _
    have l1 := hA.mono 0 (x * c) (mul_nonneg hx0 h0)
    have l2 := hA.mono (x * c) 1 (by nlinarith)
    rw [hA.zero] at l1
    rw [hA.lit 1 2 (by norm_num) (by norm_num)] at l2
    rcases nonneg_cases l1 with ⟨y, e', hy⟩ | e'
    · rw [e', Le.fin] at l2; exact ⟨y, e', hy, l2⟩
    · rw [e'] at l2; rw [← F.le_iff] at l2; simp [F.le, F.lt, F.eq] at l2

theorem power_anti (hA : FloatContract A) (hi : Idempotent A) {c : ℝ} (h0 : 0 ≤ c) (h1 : c ≤ 1) (k : ℕ) : Le (A.power (F.fin c) (k + 1)) (A.power (F.fin c) k) := by
  obtain ⟨x, e, hx0, hx1⟩ := power_range hA h0 h1 k
  have hx : A.rnd x = F.fin x := by
    cases k with
    | zero =>
      rw [FloatOps.power, F.one_eq] at e
      rw [← F.fin.inj e]; exact hA.lit 1 2 (by norm_num) (by norm_num)
    | succ k =>
      obtain ⟨y, e', -⟩ := power_range hA h0 h1 k
      rw [FloatOps.power, e'] at e
      exact hi _ _ e
  rw [FloatOps.power, e]
  show Le (A.rnd (x * c)) (F.fin x)
  rw [← hx]
  exact hA.mono _ _ (by nlinarith)

theorem power_anti' (hA : FloatContract A) (hi : Idempotent A) {c : ℝ} (h0 : 0 ≤ c) (h1 : c ≤ 1) {j k : ℕ} (h : j ≤ k) : Le (A.power (F.fin c) k) (A.power (F.fin c) j) := by
  induction h with
  | refl => obtain ⟨x, e, -⟩ := power_range hA h0 h1 j; rw [e]; exact Le.rfl' (by simp)
  | step _ ih => exact (power_anti hA hi h0 h1 _).trans ih

/-- A quotient of values in `[0, 1]` by values in `[H, ∞]`. -/
theorem div_anti (hA : FloatContract A) {x y : ℝ} {D D' : F} (hx : 0 ≤ x) (hxy : x ≤ y) {H : ℝ} (hH : 0 < H) (hD : Le (F.fin H) D) (h : Le D D') :
    Le (A.div (F.fin x) D') (A.div (F.fin y) D) := by
  refine Le.round hA ?_
  have H0 : Le (F.fin 0) (F.fin H) := Le.fin.mpr hH.le
  have dinf : ∀ z : ℝ, F.fin z / F.pinf = F.fin 0 := fun z => rfl
  rcases nonneg_cases (H0.trans (hD.trans h)) with ⟨d', rfl, -⟩ | rfl
  · rcases nonneg_cases (H0.trans hD) with ⟨d, rfl, -⟩ | rfl
    · rw [Le.fin] at hD h
      have : 0 < d := hH.trans_le hD
      rw [F.fin_div _ (this.trans_le h).ne', F.fin_div _ this.ne', Le.fin]
      exact div_le_div₀ (hx.trans hxy) hxy this h
    · rw [← F.le_iff] at h; simp [F.le, F.lt, F.eq] at h
  · rw [dinf]
    rcases nonneg_cases (H0.trans hD) with ⟨d, rfl, hd⟩ | rfl
    · rw [Le.fin] at hD
      rw [F.fin_div _ (hH.trans_le hD).ne', Le.fin]
      exact div_nonneg (hx.trans hxy) hd
    · rw [dinf]; exact Le.fin.mpr le_rfl

theorem length_nonneg' (hA : FloatContract A) (E : Env) (pts : List Pt) : Le (F.fin 0) (A.pathLength E (pts.map V2.fin)) := by
  obtain ⟨r, e, h⟩ := Props.C91_length hA E pts
  exact ⟨_, _, rfl, e, by simpa using h⟩

/-- The denominator of the power. -/
theorem denom_ge (hA : FloatContract A) (hi : Idempotent A) {h H : ℝ} (hH : A.rnd (h * h) = F.fin H) (H0 : 0 < H) {r : F} (hr : Le (F.fin 0) r) :
    Le (F.fin H) (A.add (A.mul (F.fin h) (F.fin h)) (A.mul r r)) := by
  have e : A.mul (F.fin h) (F.fin h) = F.fin H := hH
  rw [e]
  have h0 : Le (F.fin 0) (A.mul r r) := Props.sq_nonneg' hA hr.right
  have := add_mono' hA (Le.fin.mpr H0.le) (Le.fin.mpr le_rfl) (Le.fin.mpr (le_refl H)) h0
  have e2 : A.add (F.fin H) (F.fin 0) = F.fin H := by
    show A.rnd (H + 0) = _
    rw [add_zero]; exact hi _ _ hH
  rwa [e2] at this

end DiffeRT2d
