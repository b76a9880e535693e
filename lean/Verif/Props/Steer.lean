import Verif.Lemmas.Steer
import Verif.Spec.Steer
import Verif.Props.RIS
import Verif.Props.Sgd
import Verif.Props.Optimize

/-! # C147: pointing a RIS by gradient descent -/

namespace DiffeRT2d.Props
open Classical Spec

theorem normal_unit {o d n : Pt} (hod : o ≠ d) (hn : (Wall.ofPts o d).normal = V2.fin n) : dp n n = 1 := by
  rw [normal_eq hn]; exact rn_sq hod

/-- **C147** (best angles). The objective is a real number at every angle, and the angles that minimize it are those at which the beam of the RIS points along
the sum of the unit vectors of the outgoing steps. -/
theorem C147_best (o d n : Pt) (hod : o ≠ d) (hn : (Wall.ofPts o d).normal = V2.fin n) (paths : List (Pt × Pt × Pt)) :
    ∃ L : ℝ → ℝ, (∀ φ, steering (V2.fin o) (V2.fin d) (finPaths paths) [F.fin φ] = F.fin (L φ)) ∧
      (∀ φ, (∀ ψ, L φ ≤ L ψ) ↔ Aims 1 n φ (resultant paths)) ∧ ∃ φ, Aims 1 n φ (resultant paths) := by
  have hu := normal_unit hod hn
  obtain rfl := normal_eq hn
  refine ⟨aim (rn o d) paths, fun φ => steering_aim hod paths φ, fun φ => ?_, exists_aim hu _⟩
  obtain ⟨best, hb⟩ := exists_aim hu (resultant paths)
  have hm := magnitude_nonneg (resultant paths)
  rw [(aims_iff hu hb φ).1]
  simp only [aim_cos hu paths hb]
  constructor
  · intro h
    have := h best
    rw [sub_self, Real.cos_zero] at this
    have := mul_le_of_le_one_right hm (Real.cos_le_one (φ - best))
    linarith
  · intro h ψ
    have := mul_le_of_le_one_right hm (Real.cos_le_one (ψ - best))
    linarith

/-- **C147** (gradient). The gradient of the objective is always its derivative, which vanishes exactly when the beam points along the sum of the
unit vectors or away from it. -/
theorem C147_gradient (o d n : Pt) (hod : o ≠ d) (hn : (Wall.ofPts o d).normal = V2.fin n) (paths : List (Pt × Pt × Pt)) (φ : ℝ) :
    ∃ L : ℝ → ℝ, ∃ g, (∀ φ, steering (V2.fin o) (V2.fin d) (finPaths paths) [F.fin φ] = F.fin (L φ)) ∧ HasDerivAt L g φ ∧
      Rev.gradient (Rev.steering (V2.fin o) (V2.fin d) (finPaths paths)) [F.fin φ] = [F.fin g] ∧
      (g = 0 ↔ Aims 1 n φ (resultant paths) ∨ Aims (-1) n φ (resultant paths)) := by
  have hu := normal_unit hod hn
  obtain rfl := normal_eq hn
  obtain ⟨best, hb⟩ := exists_aim hu (resultant paths)
  have hd := aim_deriv hu paths hb φ
  refine ⟨_, _, fun φ => steering_aim hod paths φ, hd, steering_gradient hod paths φ hd, ?_⟩
  obtain ⟨a1, a2⟩ := aims_iff hu hb φ
  rw [a1, a2]
  have hs := Real.sin_sq_add_cos_sq (φ - best)
  set m := magnitude (resultant paths)
  constructor
  · intro h
    have h1 : m * Real.sin (φ - best) = 0 := by linarith
    have h2 : (m * Real.cos (φ - best) - m) * (m * Real.cos (φ - best) + m) = 0 := by
      linear_combination m ^ 2 * hs - m * Real.sin (φ - best) * h1
    rcases mul_eq_zero.mp h2 with h | h
    · left; linarith
    · right; linarith
  · intro h
    have h2 : (m * Real.sin (φ - best)) ^ 2 = 0 := by
      rcases h with h | h
      · linear_combination m ^ 2 * hs - (m * Real.cos (φ - best) + m) * h
      · linear_combination m ^ 2 * hs - (m * Real.cos (φ - best) - m) * h
    have := sq_eq_zero_iff.mp h2
    linarith

/-- The run of the descent. -/
theorem steer_run {Key : Type} (M : Minimizer Key) (lr : ℝ) (hopt : M.optimizer = sgd (F.fin lr)) {o d : Pt} (hod : o ≠ d) (paths : List (Pt × Pt × Pt)) {best : ℝ}
    (hb : Aims 1 (rn o d) best (resultant paths)) (φ0 : ℝ) (n : ℕ) (hn : 1 ≤ n) :
    ∃ x : ℕ → ℝ, (∀ k, x k = best + (fun δ => δ - 2 * lr * magnitude (resultant paths) * Real.sin δ)^[k] (φ0 - best)) ∧
      steer { M with steps := n } (V2.fin o) (V2.fin d) (finPaths paths) (F.fin φ0) = .ok ([F.fin (x n)], F.fin (aim (rn o d) paths (x (n - 1)))) := by
  have hu := rn_sq hod
  set M' := ({ M with steps := n } : Minimizer Key).differentiating (Rev.steering (V2.fin o) (V2.fin d) (finPaths paths)) with hM'
  obtain ⟨xs, sts, hR, he⟩ := C44_steps M' (steering (V2.fin o) (V2.fin d) (finPaths paths)) [F.fin φ0] hn
  have hrun := sgd_run (M := M') (lr := lr) hopt (f := steering (V2.fin o) (V2.fin d) (finPaths paths))
    (fun t => steering_gradient hod paths t (aim_deriv hu paths hb t)) hR
  refine ⟨fun k => (fun t => t - lr * (2 * (magnitude (resultant paths) * Real.sin (t - best))))^[k] φ0, fun k => ?_, ?_⟩
  · induction k with
    | zero => simp
    | succ k ih =>
      simp only [Function.iterate_succ_apply'] at ih ⊢
      rw [ih]
      simp only [add_sub_cancel_left]
      ring
  · rw [steer, he, show M'.steps = n from rfl, hrun n le_rfl, hrun (n - 1) (Nat.sub_le _ _), steering_aim hod]

/-- The best angle next to another one. -/
theorem near_aim {n : Pt} (hu : dp n n = 1) (v : Pt) (φ : ℝ) (hφ : ¬Aims (-1) n φ v) : ∃ best, Aims 1 n best v ∧ |φ - best| < Real.pi := by
  obtain ⟨θ, hθ⟩ := exists_aim hu v
  have hp : (0 : ℝ) < 2 * Real.pi := by linarith [Real.pi_pos]
  set k := toIocDiv hp (φ - Real.pi) θ with hk
  have hm := toIocMod_mem_Ioc hp (φ - Real.pi) θ
  have he : toIocMod hp (φ - Real.pi) θ = θ - k * (2 * Real.pi) := by rw [hk, toIocMod, zsmul_eq_mul]
  set best := toIocMod hp (φ - Real.pi) θ with hbest
  have hb : Aims 1 n best v := by
    have : beam n best = beam n θ := by
      rw [he, show θ - k * (2 * Real.pi) = θ + ((-k : ℤ) : ℝ) * (2 * Real.pi) by push_cast; ring, beam_turn]
    rw [Aims, this]; exact hθ
  refine ⟨best, hb, ?_⟩
  obtain ⟨h1, h2⟩ := hm
  rw [abs_lt]
  refine ⟨?_, by linarith⟩
  rcases h2.lt_or_eq with h | h
  · linarith
  · exfalso
    apply hφ
    rw [(aims_iff hu hb φ).2, show φ - best = -Real.pi by rw [h]; ring, Real.cos_neg, Real.cos_pi]
    ring

/-- **C147.** From any angle whose beam does not point exactly away from the sum of the unit vectors, plain gradient descent with a small enough rate
converges geometrically to a best angle, less than half a turn from the start; the loss tends to its minimum. -/
theorem C147_converges {Key : Type} (M : Minimizer Key) (lr : ℝ) (hlr : 0 < lr) (hopt : M.optimizer = sgd (F.fin lr))
    (o d n : Pt) (hod : o ≠ d) (hn : (Wall.ofPts o d).normal = V2.fin n) (paths : List (Pt × Pt × Pt)) (hU : resultant paths ≠ ⟨0, 0⟩)
    (hL : lr * magnitude (resultant paths) < 1) (φ0 : ℝ) (hφ : ¬Aims (-1) n φ0 (resultant paths)) :
    ∃ best q : ℝ, 0 ≤ q ∧ q < 1 ∧ Aims 1 n best (resultant paths) ∧ |φ0 - best| < Real.pi ∧
      ∀ steps, 1 ≤ steps → ∃ φ loss minimum, steer { M with steps := steps } (V2.fin o) (V2.fin d) (finPaths paths) (F.fin φ0) = .ok ([F.fin φ], F.fin loss) ∧
        steering (V2.fin o) (V2.fin d) (finPaths paths) [F.fin best] = F.fin minimum ∧
        |φ - best| ≤ q ^ steps * |φ0 - best| ∧ minimum ≤ loss ∧ loss - minimum ≤ magnitude (resultant paths) * (q ^ (steps - 1) * |φ0 - best|) ^ 2 := by
  have hu := normal_unit hod hn
  obtain rfl := normal_eq hn
  obtain ⟨best, hb, hlt⟩ := near_aim hu (resultant paths) φ0 hφ
  have hm : 0 < magnitude (resultant paths) := by
    refine lt_of_le_of_ne (magnitude_nonneg _) fun h => hU ?_
    have := magnitude_sq (resultant paths)
    rw [← h] at this
    ext
    · show (resultant paths).x = 0; nlinarith [sq_nonneg (resultant paths).x, sq_nonneg (resultant paths).y]
    · show (resultant paths).y = 0; nlinarith [sq_nonneg (resultant paths).x, sq_nonneg (resultant paths).y]
  set m := magnitude (resultant paths) with hmdef
  set D := max |φ0 - best| 1 with hD
  have hD0 : 0 < D := lt_of_lt_of_le one_pos (le_max_right _ _)
  have hDp : D < Real.pi := max_lt hlt (by linarith [Real.two_le_pi])
  obtain ⟨q, hq0, hq1, hq⟩ := Steer.turn (κ := 2 * lr * m) (by positivity) (by nlinarith) hD0 hDp
  refine ⟨best, q, hq0, hq1, hb, hlt, fun steps hs => ?_⟩
  obtain ⟨x, hx, he⟩ := steer_run M lr hopt hod paths hb φ0 steps hs
  have hc : ∀ k, |x k - best| ≤ q ^ k * |φ0 - best| := fun k => by
    rw [hx, add_sub_cancel_left]
    exact Steer.turn_iterate hq0 hq1 hq _ (le_max_left _ _) k
  refine ⟨x steps, _, _, he, steering_aim hod paths best, hc steps, ?_, ?_⟩
  · rw [aim_cos hu paths hb, aim_cos hu paths hb, sub_self, Real.cos_zero]
    have := mul_le_of_le_one_right hm.le (Real.cos_le_one (x (steps - 1) - best))
    linarith
  · rw [aim_cos hu paths hb, aim_cos hu paths hb, sub_self, Real.cos_zero]
    have h1 := Real.one_sub_sq_div_two_le_cos (x := x (steps - 1) - best)
    have h2 : (x (steps - 1) - best) ^ 2 ≤ (q ^ (steps - 1) * |φ0 - best|) ^ 2 := by
      rw [← sq_abs (x (steps - 1) - best)]
      exact pow_le_pow_left₀ (abs_nonneg _) (hc _) 2
    have h3 := mul_le_mul_of_nonneg_left h1 hm.le
    have h4 := mul_le_mul_of_nonneg_left h2 hm.le
    linarith

/-- **C147** (served). For one path with a non-degenerate step from the RIS, whatever the positive tolerance, the RIS accepts the path at the returned angle
after enough steps, unless it started by pointing exactly away. -/
theorem C147_served {Key : Type} (M : Minimizer Key) (lr : ℝ) (hlr : 0 < lr) (hlr1 : lr < 1) (hopt : M.optimizer = sgd (F.fin lr))
    (o d n : Pt) (hod : o ≠ d) (hn : (Wall.ofPts o d).normal = V2.fin n) (a b c : Pt) (hbc : b ≠ c) (φ0 : ℝ)
    (hφ : ¬Aims (-1) n φ0 (heading b c)) (tol : ℝ) (htol : 0 < tol) :
    ∃ N, ∀ steps, N ≤ steps → ∃ φ loss, steer { M with steps := steps } (V2.fin o) (V2.fin d) [(V2.fin a, V2.fin b, V2.fin c)] (F.fin φ0) = .ok ([φ], loss) ∧
      Lt loss (F.fin tol) ∧ Lt ((RIS.mk (Wall.ofPts o d) φ).evaluate (V2.fin a) (V2.fin b) (V2.fin c)) (F.fin tol) := by
  have hr : resultant [(a, b, c)] = heading b c := by simp [resultant]
  have hp := eucl_pos' hbc
  have hsq : (heading b c).x ^ 2 + (heading b c).y ^ 2 = 1 := by
    have : eucl b c ^ 2 = (c.x - b.x) ^ 2 + (c.y - b.y) ^ 2 := Real.sq_sqrt (by positivity)
    simp only [heading]
    field_simp
    exact this.symm
  have hm : magnitude (heading b c) = 1 := by
    have := magnitude_sq (heading b c)
    rw [hsq] at this
    exact (pow_eq_one_iff_of_nonneg (magnitude_nonneg _) two_ne_zero).mp this
  obtain ⟨best, q, q0, q1, hb, hlt, hrun⟩ := C147_converges M lr hlr hopt o d n hod hn [(a, b, c)]
    (by rw [hr]; intro h; rw [h] at hsq; norm_num at hsq) (by rw [hr, hm]; linarith) φ0 (by rwa [hr])
  rw [hr] at hb
  simp only [hr, hm] at hrun
  have hu := normal_unit hod hn
  obtain rfl := normal_eq hn
  -- the score
  have hsc : ∀ φ, aim (rn o d) [(a, b, c)] φ = 2 - 2 * Real.cos (φ - best) := by
    intro φ
    rw [aim_cos hu _ (by rw [hr]; exact hb), hr, hm]
    simp only [bulk, List.map_cons, List.map_nil, List.sum_cons, List.sum_nil]
    linarith
  have hst : ∀ φ, steering (V2.fin o) (V2.fin d) (finPaths [(a, b, c)]) [F.fin φ] = F.fin (2 - 2 * Real.cos (φ - best)) := fun φ => by
    rw [steering_aim hod, hsc]
  have hev : ∀ φ, (RIS.mk (Wall.ofPts o d) (F.fin φ)).evaluate (V2.fin a) (V2.fin b) (V2.fin c) = F.fin (2 - 2 * Real.cos (φ - best)) := fun φ => by
    rw [ris_beam hod, ← hsc, F.fin_inj]
    simp only [aim, List.map_cons, List.map_nil, List.sum_cons, List.sum_nil, add_zero, heading_unit]
  have hlim : Filter.Tendsto (fun k => (q ^ k * |φ0 - best|) ^ 2) Filter.atTop (nhds 0) := by
    have := ((tendsto_pow_atTop_nhds_zero_of_lt_one q0 q1).mul_const |φ0 - best|).pow 2
    simpa using this
  obtain ⟨N, hN⟩ := Filter.eventually_atTop.mp (hlim.eventually (gt_mem_nhds htol))
  refine ⟨N + 1, fun steps hs => ?_⟩
  obtain ⟨φ, loss, mn, e1, e2, e3, e4, e5⟩ := hrun steps (by omega)
  rw [hst, sub_self, Real.cos_zero, F.fin_inj] at e2
  refine ⟨F.fin φ, F.fin loss, e1, ?_, ?_⟩
  · rw [← F.lt_iff]
    have := hN (steps - 1) (by omega)
    simp only [F.lt_fin, decide_eq_true_eq]
    linarith
  · rw [hev, ← F.lt_iff]
    have := hN steps (by omega)
    simp only [F.lt_fin, decide_eq_true_eq]
    have h1 := Real.one_sub_sq_div_two_le_cos (x := φ - best)
    have h2 : (φ - best) ^ 2 ≤ (q ^ steps * |φ0 - best|) ^ 2 := by
      rw [← sq_abs (φ - best)]
      exact pow_le_pow_left₀ (abs_nonneg _) e3 2
    linarith

/-- **C147** (stuck). A start that points exactly along the sum of the unit vectors, or exactly away from it, is returned as it is. -/
theorem C147_stuck {Key : Type} (M : Minimizer Key) (lr : ℝ) (hopt : M.optimizer = sgd (F.fin lr))
    (o d n : Pt) (hod : o ≠ d) (hn : (Wall.ofPts o d).normal = V2.fin n) (paths : List (Pt × Pt × Pt)) (φ0 : ℝ)
    (hφ : Aims 1 n φ0 (resultant paths) ∨ Aims (-1) n φ0 (resultant paths)) (steps : ℕ) (hs : 1 ≤ steps) :
    steer { M with steps := steps } (V2.fin o) (V2.fin d) (finPaths paths) (F.fin φ0) =
      .ok ([F.fin φ0], steering (V2.fin o) (V2.fin d) (finPaths paths) [F.fin φ0]) := by
  have hu := normal_unit hod hn
  have hg : ∀ best, Aims 1 n best (resultant paths) → magnitude (resultant paths) * Real.sin (φ0 - best) = 0 := by
    intro best hb
    obtain ⟨L, g, h1, h2, h3, h4⟩ := C147_gradient o d n hod hn paths φ0
    have h5 := h4.mpr hφ
    obtain rfl := normal_eq hn
    have e : L = aim (rn o d) paths := funext fun φ => by have := (h1 φ).symm.trans (steering_aim hod paths φ); exact F.fin_inj.mp this
    rw [e] at h2
    have := h2.unique (aim_deriv hu paths hb φ0)
    linarith
  obtain ⟨best, hb⟩ := exists_aim hu (resultant paths)
  have hz := hg best hb
  obtain rfl := normal_eq hn
  obtain ⟨x, hx, he⟩ := steer_run M lr hopt hod paths hb φ0 steps hs
  have hfix : ∀ k, x k = φ0 := by
    intro k
    have : (fun δ => δ - 2 * lr * magnitude (resultant paths) * Real.sin δ)^[k] (φ0 - best) = φ0 - best := by
      apply Function.iterate_fixed
      linear_combination -2 * lr * hz
    rw [hx, this]; ring
  rw [he, hfix, hfix, steering_aim hod]

/-- **C147** (a rate too large). Above the bound, some start is reflected across the best angle at every step, for ever. -/
theorem C147_oscillates {Key : Type} (M : Minimizer Key) (lr : ℝ) (hopt : M.optimizer = sgd (F.fin lr))
    (o d n : Pt) (hod : o ≠ d) (hn : (Wall.ofPts o d).normal = V2.fin n) (paths : List (Pt × Pt × Pt))
    (hL : 1 < lr * magnitude (resultant paths)) :
    ∃ best δ : ℝ, Aims 1 n best (resultant paths) ∧ 0 < δ ∧ δ < Real.pi ∧ ∀ steps, 1 ≤ steps → ∃ loss,
      steer { M with steps := steps } (V2.fin o) (V2.fin d) (finPaths paths) (F.fin (best + δ)) = .ok ([F.fin (best + (-1) ^ steps * δ)], loss) := by
  have hu := normal_unit hod hn
  obtain rfl := normal_eq hn
  obtain ⟨best, hb⟩ := exists_aim hu (resultant paths)
  obtain ⟨δ, h0, h1, h2⟩ := Steer.swing (κ := 2 * lr * magnitude (resultant paths)) (by linarith)
  refine ⟨best, δ, hb, h0, h1, fun steps hs => ?_⟩
  obtain ⟨x, hx, he⟩ := steer_run M lr hopt hod paths hb (best + δ) steps hs
  have hit : ∀ k : ℕ, (fun δ => δ - 2 * lr * magnitude (resultant paths) * Real.sin δ)^[k] δ = (-1) ^ k * δ := by
    intro k
    induction k with
    | zero => simp
    | succ k ih =>
      rw [Function.iterate_succ_apply', ih]
      rcases neg_one_pow_eq_or ℝ k with e | e
      · rw [e, pow_succ, e]; simp only [one_mul]; linarith
      · rw [e, pow_succ, e]; simp only [neg_mul, one_mul, Real.sin_neg]; linarith
  refine ⟨_, by rw [he, hx, add_sub_cancel_left, hit]⟩

/-- Plain gradient descent at rate one half. -/
noncomputable def halfSgd : Minimizer Unit :=
  ⟨sgd (F.fin (1 / 2)), 100, fun _ x => x, fun _ n => List.replicate n (F.fin (1 / 2)), fun _ n => List.replicate n ()⟩

theorem up_heading : heading ⟨0.5, 0.5⟩ ⟨0.5, 0.9⟩ = ⟨0, 1⟩ := by
  have : eucl ⟨0.5, 0.5⟩ ⟨0.5, 0.9⟩ = 0.4 := by
    rw [eucl, show ((0.5 : ℝ) - 0.5) ^ 2 + (0.9 - 0.5) ^ 2 = 0.4 ^ 2 by norm_num, Real.sqrt_sq (by norm_num)]
  simp only [heading, this]
  ext <;> norm_num

/-- The RIS starts by facing left, and is to serve a receiver above it. -/
theorem up_start : ¬Aims (-1) ⟨1, 0⟩ 0 (heading ⟨0.5, 0.5⟩ ⟨0.5, 0.9⟩) := by
  rw [up_heading]
  rintro ⟨-, h⟩
  simp [beam] at h

example := C147_served halfSgd (1 / 2) (by norm_num) (by norm_num) rfl _ _ _ example_ends example_normal ⟨0.1, 0.4⟩ ⟨0.5, 0.5⟩ ⟨0.5, 0.9⟩
  (by intro h; have := congrArg V2.y h; norm_num at this) 0 up_start (1 / 100) (by norm_num)

/-- The sum of two unit vectors. -/
theorem two_resultant : resultant [(⟨0, 0⟩, ⟨0.5, 0.5⟩, ⟨0.5, 0.9⟩), (⟨1, 1⟩, ⟨0.5, 0.5⟩, ⟨0.5, 0.9⟩)] = ⟨0, 2⟩ := by
  simp only [resultant, List.map_cons, List.map_nil, List.sum_cons, List.sum_nil, up_heading]
  ext <;> norm_num

theorem two_magnitude : magnitude ⟨0, 2⟩ = 2 := by
  rw [magnitude, eucl, show ((0 : ℝ) - 0) ^ 2 + (2 - 0) ^ 2 = 2 ^ 2 by norm_num, Real.sqrt_sq (by norm_num)]

example := C147_converges (Key := Unit) { halfSgd with optimizer := sgd (F.fin (1 / 4)) } (1 / 4) (by norm_num) rfl _ _ _ example_ends example_normal
  [(⟨0, 0⟩, ⟨0.5, 0.5⟩, ⟨0.5, 0.9⟩), (⟨1, 1⟩, ⟨0.5, 0.5⟩, ⟨0.5, 0.9⟩)] (by rw [two_resultant]; intro h; have := congrArg V2.y h; norm_num at this)
  (by rw [two_resultant, two_magnitude]; norm_num) 0 (by rw [two_resultant]; rintro ⟨-, h⟩; simp [beam] at h)

example := C147_oscillates (Key := Unit) { halfSgd with optimizer := sgd (F.fin 1) } 1 rfl _ _ _ example_ends example_normal
  [(⟨0, 0⟩, ⟨0.5, 0.5⟩, ⟨0.5, 0.9⟩), (⟨1, 1⟩, ⟨0.5, 0.5⟩, ⟨0.5, 0.9⟩)] (by rw [two_resultant, two_magnitude]; norm_num)

end DiffeRT2d.Props
