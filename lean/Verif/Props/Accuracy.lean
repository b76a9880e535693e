import Verif.Lemmas.Accuracy

/-! # Property C117: how accurate `path_length` is -/

namespace DiffeRT2d.Props
open Classical Spec

variable {A : FloatOps} {u η : ℝ}

/-- IEEE formats err by half a unit in the last place: `2 ^ -p` relatively, and `2 ^ (emin - p)` absolutely in case of underflow. -/
theorem C117_formats (p : ℕ) (emin emax : ℤ) (hp : 3 ≤ p) (he : emin ≤ 0) : Accurate (ieee p emin emax) (2 ^ (-(p : ℤ))) (2 ^ (emin - p)) :=
  ieee_accurate hp he

/-- **C117.** The length that `path_length` computes for a path of `n` segments overflows to plus infinity, or is the length of the
path up to a relative error of about `(n + 4) u` and an absolute error of about `3 eps` for each segment (the guard that the code
adds to the differences, and underflow). -/
theorem C117_length (hA : FloatContract A) (h : Accurate A u η) (E : Env) (hε : 0 ≤ E.eps) (pts : List Pt) :
    A.pathLength E (pts.map V2.fin) = F.pinf ∨
    ∃ L : ℝ, A.pathLength E (pts.map V2.fin) = F.fin L ∧
      (1 - u) ^ (pts.length - 1 + 4) * polyLength pts - (pts.length - 1 : ℕ) * (3 * E.eps + 11 * Real.sqrt η) ≤ L ∧
      L ≤ (1 + u) ^ (pts.length - 1 + 4) * (polyLength pts + (pts.length - 1 : ℕ) * (3 * E.eps + 11 * Real.sqrt η)) := by
  obtain ⟨u0, u1⟩ := h.unit
  obtain ⟨e0, e1⟩ := h.under
  cases pts with
  | nil => exact .inr ⟨0, by simp [FloatOps.pathLength], by simp [polyLength], by simp [polyLength]⟩
  | cons p ps =>
    rcases sum_error hA h hε ps p 0 (.inr ⟨0, F.zero_eq, le_rfl⟩) with e | ⟨a, S, ea, eS, l1, l2⟩
    · exact .inl e
    · right
      rw [F.zero_eq] at ea
      obtain rfl := F.fin.inj ea
      simp only [List.length_cons, Nat.add_sub_cancel]
      refine ⟨S, eS, ?_, ?_⟩
      · refine le_trans (le_of_eq ?_) l1
        rw [zero_add, pow_add, mul_assoc]
      · refine l2.trans ?_
        rw [zero_add, pow_add, mul_assoc]
        refine mul_le_mul_of_nonneg_left ?_ (pow_nonneg (by linarith) _)
        rw [mul_add]
        have k4 : 1 ≤ (1 + u) ^ 4 := one_le_pow₀ (by linarith)
        have θ0 : 0 ≤ (ps.length : ℝ) * (3 * E.eps + 11 * Real.sqrt η) := by positivity
        have := le_mul_of_one_le_left θ0 k4
        linarith

/-- **C117.** In `float32`, with its machine epsilon as the guard: for a path of at most 1000 segments, the error is at most
`7 * 10⁻⁵` of the length plus `4 * 10⁻⁷` for each segment. -/
theorem C117_float32 (b : Bool) (pts : List Pt) (hn : pts.length ≤ 1001) :
    float32.pathLength ⟨b, 2 ^ (-23 : ℤ)⟩ (pts.map V2.fin) = F.pinf ∨
    ∃ L : ℝ, float32.pathLength ⟨b, 2 ^ (-23 : ℤ)⟩ (pts.map V2.fin) = F.fin L ∧
      |L - polyLength pts| ≤ 7 / 100000 * polyLength pts + (pts.length - 1 : ℕ) * (4 / 10000000) := by
  have h := C117_formats 24 (-126) 127 (by norm_num) (by norm_num)
  have hA : FloatContract float32 := ieee_contract (by norm_num) (by norm_num) (by norm_num)
  rcases C117_length hA h ⟨b, 2 ^ (-23 : ℤ)⟩ (two_zpow_pos _).le pts with e | ⟨L, e, l1, l2⟩
  · exact .inl e
  right
  refine ⟨L, e, ?_⟩
  set n := pts.length - 1 with hnn
  have hn' : n + 4 ≤ 1004 := by omega
  have P0 := polyLength_nonneg pts
  set P := polyLength pts
  have hr : Real.sqrt ((2 : ℝ) ^ (-126 - (24 : ℕ) : ℤ)) = 2 ^ (-75 : ℤ) := by
    rw [show ((2 : ℝ) ^ (-126 - (24 : ℕ) : ℤ)) = (2 ^ (-75 : ℤ)) ^ 2 by rw [← zpow_natCast, ← zpow_mul]; norm_num]
    exact Real.sqrt_sq (two_zpow_pos _).le
  have hθ : 3 * (2 : ℝ) ^ (-23 : ℤ) + 11 * Real.sqrt ((2 : ℝ) ^ (-126 - (24 : ℕ) : ℤ)) ≤ 36 / 100000000 := by
    rw [hr]; norm_num [zpow_neg]
  have hθ0 : 0 ≤ 3 * (2 : ℝ) ^ (-23 : ℤ) + 11 * Real.sqrt ((2 : ℝ) ^ (-126 - (24 : ℕ) : ℤ)) := by positivity
  set θ := 3 * (2 : ℝ) ^ (-23 : ℤ) + 11 * Real.sqrt ((2 : ℝ) ^ (-126 - (24 : ℕ) : ℤ))
  have hu : (2 : ℝ) ^ (-((24 : ℕ) : ℤ)) = 1 / 16777216 := by norm_num [zpow_neg]
  rw [hu] at l1 l2
  have low : 1 - 7 / 100000 ≤ (1 - 1 / 16777216 : ℝ) ^ (n + 4) := by
    have := one_add_mul_le_pow (a := (-1 / 16777216 : ℝ)) (by norm_num) (n + 4)
    have h2 : ((n + 4 : ℕ) : ℝ) ≤ 1004 := by exact_mod_cast hn'
    have e2 : (1 + -1 / 16777216 : ℝ) = 1 - 1 / 16777216 := by norm_num
    rw [e2] at this
    refine le_trans ?_ this
    nlinarith
  have hN0 : (0 : ℝ) ≤ (n : ℝ) := Nat.cast_nonneg n
  have up : (1 + 1 / 16777216 : ℝ) ^ (n + 4) ≤ 1 + 7 / 100000 := by
    have h1 : (1 + 1 / 16777216 : ℝ) * (1 - 1 / 16777216) ≤ 1 := by norm_num
    have h2 : (1 + 1 / 16777216 : ℝ) ^ (n + 4) * (1 - 1 / 16777216) ^ (n + 4) ≤ 1 := by
      rw [← mul_pow]; exact pow_le_one₀ (by norm_num) h1
    have h3 : (1 - 1 / 16777216 : ℝ) ^ (n + 4) ≥ 1 - 1004 / 16777216 := by
      have := one_add_mul_le_pow (a := (-1 / 16777216 : ℝ)) (by norm_num) (n + 4)
      have h2 : ((n + 4 : ℕ) : ℝ) ≤ 1004 := by exact_mod_cast hn'
      have e2 : (1 + -1 / 16777216 : ℝ) = 1 - 1 / 16777216 := by norm_num
      rw [e2] at this
      refine le_trans ?_ this
      nlinarith
    have h4 : 0 < (1 + 1 / 16777216 : ℝ) ^ (n + 4) := by positivity
    nlinarith
  have nθ : 0 ≤ (n : ℝ) * θ := mul_nonneg hN0 hθ0
  have nθ' : (n : ℝ) * θ ≤ n * (36 / 100000000) := mul_le_mul_of_nonneg_left hθ hN0
  rw [abs_le]
  constructor
  · have := mul_le_mul_of_nonneg_right low P0
    linarith
  · have := mul_le_mul_of_nonneg_right up (add_nonneg P0 nθ)
    linarith

/-- The hypotheses hold of `float32` and `float64`. -/
example : FloatContract float32 ∧ Accurate float32 (2 ^ (-((24 : ℕ) : ℤ))) (2 ^ (-126 - ((24 : ℕ) : ℤ))) ∧ Accurate float64 (2 ^ (-((53 : ℕ) : ℤ))) (2 ^ (-1022 - ((53 : ℕ) : ℤ))) :=
  ⟨ieee_contract (by norm_num) (by norm_num) (by norm_num), C117_formats 24 _ _ (by norm_num) (by norm_num), C117_formats 53 _ _ (by norm_num) (by norm_num)⟩

end DiffeRT2d.Props
