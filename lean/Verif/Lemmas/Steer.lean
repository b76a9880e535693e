import Verif.Model.Steer
import Verif.Spec.Steer
import Verif.Lemmas.RIS
import Verif.Lemmas.GradPaths
import Mathlib.Analysis.Convex.SpecificFunctions.Deriv
import Mathlib.Analysis.SpecialFunctions.Trigonometric.Bounds
import Mathlib.Analysis.SpecialFunctions.Complex.Arg
import Mathlib.Algebra.Order.ToIntervalMod

/-! # Gradient descent on the angle of a RIS -/

namespace DiffeRT2d
open Classical Spec

namespace Steer

/-! ### The angle to the best direction -/

theorem chord {D δ : ℝ} (hD0 : 0 < D) (hD : D < Real.pi) (h0 : 0 ≤ δ) (h1 : δ ≤ D) : δ * (Real.sin D / D) ≤ Real.sin δ := by
  have hc := strictConcaveOn_sin_Icc.concaveOn.2
  have h := @hc 0 ⟨le_rfl, Real.pi_pos.le⟩ D ⟨hD0.le, hD.le⟩ (1 - δ / D) (δ / D)
    (by rw [sub_nonneg, div_le_one hD0]; exact h1) (by positivity) (by ring)
  simp only [smul_eq_mul, mul_zero, Real.sin_zero, zero_add] at h
  rw [div_mul_cancel₀ _ hD0.ne'] at h
  calc δ * (Real.sin D / D) = δ / D * Real.sin D := by ring
    _ ≤ _ := h

theorem turn {κ D : ℝ} (hκ : 0 < κ) (hκ2 : κ < 2) (hD0 : 0 < D) (hD : D < Real.pi) :
    ∃ q, 0 ≤ q ∧ q < 1 ∧ ∀ δ, |δ| ≤ D → |δ - κ * Real.sin δ| ≤ q * |δ| := by
  have hs : 0 < Real.sin D / D := div_pos (Real.sin_pos_of_pos_of_lt_pi hD0 hD) hD0
  refine ⟨max (1 - κ * (Real.sin D / D)) (max (κ - 1) 0), by simp, ?_, ?_⟩
  · simp only [max_lt_iff]
    refine ⟨by nlinarith [mul_pos hκ hs], by linarith, by norm_num⟩
  have pos : ∀ δ, 0 ≤ δ → δ ≤ D → |δ - κ * Real.sin δ| ≤ max (1 - κ * (Real.sin D / D)) (max (κ - 1) 0) * δ := by
    intro δ h0 h1
    have l1 := chord hD0 hD h0 h1
    have l2 : Real.sin δ ≤ δ := by
      rcases h0.eq_or_lt with h | h
      · rw [← h, Real.sin_zero]
      · exact (Real.sin_lt h).le
    rw [abs_le]
    constructor
    · have : (κ - 1) * δ ≤ max (1 - κ * (Real.sin D / D)) (max (κ - 1) 0) * δ := mul_le_mul_of_nonneg_right (by simp) h0
      nlinarith
    · have : (1 - κ * (Real.sin D / D)) * δ ≤ max (1 - κ * (Real.sin D / D)) (max (κ - 1) 0) * δ := mul_le_mul_of_nonneg_right (by simp) h0
      nlinarith
  intro δ hδ
  rcases le_total 0 δ with h | h
  · rw [abs_of_nonneg h] at hδ ⊢
    exact pos δ h hδ
  · rw [abs_of_nonpos h] at hδ ⊢
    have := pos (-δ) (by linarith) hδ
    rw [Real.sin_neg] at this
    rw [← abs_neg]
    convert this using 2
    ring

theorem turn_iterate {κ D q : ℝ} (hq0 : 0 ≤ q) (hq1 : q < 1) (h : ∀ δ, |δ| ≤ D → |δ - κ * Real.sin δ| ≤ q * |δ|) (δ : ℝ) (hδ : |δ| ≤ D) (n : ℕ) :
    |(fun δ => δ - κ * Real.sin δ)^[n] δ| ≤ q ^ n * |δ| := by
  induction n with
  | zero => simp
  | succ n ih =>
    rw [Function.iterate_succ_apply']
    have hp : q ^ n ≤ 1 := pow_le_one₀ hq0 hq1.le
    have h1 : |(fun δ => δ - κ * Real.sin δ)^[n] δ| ≤ D := ih.trans ((mul_le_of_le_one_left (abs_nonneg _) hp).trans hδ)
    refine (h _ h1).trans ?_
    rw [pow_succ', mul_assoc]
    exact mul_le_mul_of_nonneg_left ih hq0

/-- For a larger rate, an angle that changes sign at each step. -/
theorem swing {κ : ℝ} (hκ : 2 < κ) : ∃ δ, 0 < δ ∧ δ < Real.pi ∧ κ * Real.sin δ = 2 * δ := by
  have hc : ContinuousOn (fun δ => κ * Real.sin δ - 2 * δ) (Set.Icc 0 Real.pi) := by fun_prop
  -- a small angle
  have hd : HasDerivAt (fun δ => κ * Real.sin δ - 2 * δ) (κ * Real.cos 0 - 2 * 1) 0 := ((Real.hasDerivAt_sin 0).const_mul κ).sub ((hasDerivAt_id 0).const_mul 2)
  rw [Real.cos_zero] at hd
  have hpos : ∀ᶠ δ in nhdsWithin (0 : ℝ) (Set.Ioi 0), 0 < κ * Real.sin δ - 2 * δ := by
    have := hd.hasDerivWithinAt (s := Set.Ioi 0)
    have h2 := hasDerivWithinAt_iff_tendsto_slope.mp this
    have h3 := h2.eventually_const_lt (u := 0) (by linarith)
    rw [Set.sdiff_singleton_eq_self (by simp)] at h3
    filter_upwards [h3, self_mem_nhdsWithin] with δ h4 h5
    have h5' : 0 < δ := h5
    rw [slope_def_field] at h4
    simp only [Real.sin_zero, mul_zero, sub_zero] at h4
    have := mul_pos h4 h5'
    rwa [div_mul_cancel₀ _ h5'.ne'] at this
  have hlt : ∀ᶠ δ in nhdsWithin (0 : ℝ) (Set.Ioi 0), δ < Real.pi := (Filter.Eventually.filter_mono nhdsWithin_le_nhds (eventually_lt_nhds Real.pi_pos))
  obtain ⟨a, ha, ⟨ha1, ha2⟩⟩ := ((hpos.and hlt).and self_mem_nhdsWithin).exists.imp fun a h => (⟨h.2, h.1⟩ : a ∈ Set.Ioi (0:ℝ) ∧ _)
  have ha' : 0 < a := ha
  have hiv := intermediate_value_Icc' ha2.le (hc.mono (Set.Icc_subset_Icc ha'.le le_rfl))
  obtain ⟨δ, ⟨h1, h2⟩, h3⟩ := hiv (show (0 : ℝ) ∈ Set.Icc (κ * Real.sin Real.pi - 2 * Real.pi) (κ * Real.sin a - 2 * a) from
    ⟨by rw [Real.sin_pi]; linarith [Real.pi_pos], ha1.le⟩)
  refine ⟨δ, ha'.trans_le h1, lt_of_le_of_ne h2 ?_, by simpa [sub_eq_zero] using h3⟩
  rintro rfl
  simp only [Real.sin_pi, mul_zero, zero_sub, neg_eq_zero] at h3
  linarith [Real.pi_pos]

end Steer

/-! ### The objective -/

theorem heading_unit (b c : Pt) : heading b c = unit (c - b) := by
  have e : nrm (c - b) = eucl b c := eucl_sub b c
  rcases eq_or_ne (eucl b c) 0 with h | h
  · have h' : c - b = ⟨0, 0⟩ := (nrm_eq_zero _).mp (e.trans h)
    rw [heading, h, h', unit]
    simp
  · simp [heading, unit, len1, e, h]

/-- The objective, in real numbers. -/
noncomputable def aim (n : Pt) (paths : List (Pt × Pt × Pt)) (φ : ℝ) : ℝ :=
  (paths.map fun p => ((heading p.2.1 p.2.2).x - (beam n φ).x) ^ 2 + ((heading p.2.1 p.2.2).y - (beam n φ).y) ^ 2).sum

theorem steering_aim {o d : Pt} (hod : o ≠ d) (paths : List (Pt × Pt × Pt)) (φ : ℝ) :
    steering (V2.fin o) (V2.fin d) (finPaths paths) [F.fin φ] = F.fin (aim (rn o d) paths φ) := by
  have : (finPaths paths).map (fun p => (RIS.mk ⟨V2.fin o, V2.fin d⟩ (F.fin φ)).evaluate p.1 p.2.1 p.2.2) =
      (paths.map fun p => ((heading p.2.1 p.2.2).x - (beam (rn o d) φ).x) ^ 2 + ((heading p.2.1 p.2.2).y - (beam (rn o d) φ).y) ^ 2).map F.fin := by
    rw [finPaths, List.map_map, List.map_map]
    apply List.map_congr_left
    intro p _
    simp only [Function.comp_apply]
    rw [heading_unit]
    exact ris_beam hod φ _ _ _
  rw [steering]
  simp only [List.headD_cons]
  rw [this, F.sum_fin, aim]

/-- The constant part. -/
noncomputable def bulk (paths : List (Pt × Pt × Pt)) : ℝ := (paths.map fun p => (heading p.2.1 p.2.2).x ^ 2 + (heading p.2.1 p.2.2).y ^ 2 + 1).sum

theorem aim_eq {n : Pt} (hn : dp n n = 1) (paths : List (Pt × Pt × Pt)) (φ : ℝ) :
    aim n paths φ = bulk paths - 2 * ((resultant paths).x * (beam n φ).x + (resultant paths).y * (beam n φ).y) := by
  have h := along_sq hn φ
  induction paths with
  | nil => simp [aim, bulk, resultant]
  | cons p ps ih =>
    simp only [aim, bulk, resultant, List.map_cons, List.sum_cons] at ih ⊢
    rw [ih]
    linear_combination h

theorem magnitude_sq (v : Pt) : magnitude v ^ 2 = v.x ^ 2 + v.y ^ 2 := by
  rw [magnitude, eucl, Real.sq_sqrt (by positivity)]; simp

theorem magnitude_nonneg (v : Pt) : 0 ≤ magnitude v := Real.sqrt_nonneg _

theorem beam_dot {n : Pt} (hn : dp n n = 1) (φ ψ : ℝ) : (beam n φ).x * (beam n ψ).x + (beam n φ).y * (beam n ψ).y = Real.cos (ψ - φ) := by
  rw [Real.cos_sub]
  simp only [dp] at hn
  simp only [beam]
  linear_combination (Real.cos ψ * Real.cos φ + Real.sin ψ * Real.sin φ) * hn

theorem beam_turn (n : Pt) (φ : ℝ) (k : ℤ) : beam n (φ + k * (2 * Real.pi)) = beam n φ := by
  simp only [beam, Real.cos_add_int_mul_two_pi, Real.sin_add_int_mul_two_pi]

theorem beam_half (n : Pt) (φ : ℝ) : beam n (φ + Real.pi) = -beam n φ := by
  ext <;> simp [beam, Real.cos_add_pi, Real.sin_add_pi] <;> ring

/-- Some angle aims along any vector. -/
theorem exists_aim {n : Pt} (hn : dp n n = 1) (v : Pt) : ∃ θ, Aims 1 n θ v := by
  set z : ℂ := ⟨-(v.x * n.x + v.y * n.y), -(v.x * n.y - v.y * n.x)⟩ with hz
  have hm : ‖z‖ = magnitude v := by
    rw [← sq_eq_sq₀ (norm_nonneg _) (magnitude_nonneg _), magnitude_sq, Complex.sq_norm, Complex.normSq_apply, hz]
    simp only [dp] at hn
    simp only
    linear_combination (v.x ^ 2 + v.y ^ 2) * hn
  have h1 := Complex.norm_mul_cos_arg z
  have h2 := Complex.norm_mul_sin_arg z
  rw [hm] at h1 h2
  simp only [hz] at h1 h2
  simp only [dp] at hn
  refine ⟨Complex.arg z, ?_, ?_⟩
  · simp only [beam]
    rw [← hz] at h1 h2
    linear_combination n.x * h1 + n.y * h2 - v.x * hn
  · simp only [beam]
    rw [← hz] at h1 h2
    linear_combination n.y * h1 - n.x * h2 - v.y * hn

/-- The objective in terms of a best angle. -/
theorem aim_cos {n : Pt} (hn : dp n n = 1) (paths : List (Pt × Pt × Pt)) {best : ℝ} (hb : Aims 1 n best (resultant paths)) (φ : ℝ) :
    aim n paths φ = bulk paths - 2 * (magnitude (resultant paths) * Real.cos (φ - best)) := by
  rw [aim_eq hn, hb.1, hb.2, ← beam_dot hn]
  ring

theorem aims_iff {n : Pt} (hn : dp n n = 1) {v : Pt} {best : ℝ} (hb : Aims 1 n best v) (φ : ℝ) :
    (Aims 1 n φ v ↔ magnitude v * Real.cos (φ - best) = magnitude v) ∧ (Aims (-1) n φ v ↔ magnitude v * Real.cos (φ - best) = -magnitude v) := by
  have h1 := beam_dot hn best φ
  have h2 := along_sq hn φ
  have h3 := magnitude_sq v
  set e := beam n φ
  have hv : v.x * e.x + v.y * e.y = magnitude v * Real.cos (φ - best) := by rw [hb.1, hb.2, ← h1]; ring
  rw [← hv]
  constructor
  · constructor
    · rintro ⟨a, b⟩
      rw [one_mul] at a b
      linear_combination e.x * a + e.y * b + magnitude v * h2
    · intro h
      have hs : (v.x - magnitude v * e.x) ^ 2 + (v.y - magnitude v * e.y) ^ 2 = 0 := by
        linear_combination magnitude v ^ 2 * h2 - h3 - 2 * magnitude v * h
      constructor
      · nlinarith [sq_nonneg (v.x - magnitude v * e.x), sq_nonneg (v.y - magnitude v * e.y), sq_eq_zero_iff.mp (show (v.x - magnitude v * e.x) ^ 2 = 0 by nlinarith [sq_nonneg (v.x - magnitude v * e.x), sq_nonneg (v.y - magnitude v * e.y)])]
      · nlinarith [sq_nonneg (v.x - magnitude v * e.x), sq_nonneg (v.y - magnitude v * e.y), sq_eq_zero_iff.mp (show (v.y - magnitude v * e.y) ^ 2 = 0 by nlinarith [sq_nonneg (v.x - magnitude v * e.x), sq_nonneg (v.y - magnitude v * e.y)])]
  · constructor
    · rintro ⟨a, b⟩
      linear_combination e.x * a + e.y * b - magnitude v * h2
    · intro h
      have hs : (v.x + magnitude v * e.x) ^ 2 + (v.y + magnitude v * e.y) ^ 2 = 0 := by
        linear_combination magnitude v ^ 2 * h2 - h3 + 2 * magnitude v * h
      have e1 := sq_eq_zero_iff.mp (show (v.x + magnitude v * e.x) ^ 2 = 0 by nlinarith [sq_nonneg (v.x + magnitude v * e.x), sq_nonneg (v.y + magnitude v * e.y)])
      have e2 := sq_eq_zero_iff.mp (show (v.y + magnitude v * e.y) ^ 2 = 0 by nlinarith [sq_nonneg (v.x + magnitude v * e.x), sq_nonneg (v.y + magnitude v * e.y)])
      constructor <;> linarith

theorem aim_deriv {n : Pt} (hn : dp n n = 1) (paths : List (Pt × Pt × Pt)) {best : ℝ} (hb : Aims 1 n best (resultant paths)) (φ : ℝ) :
    HasDerivAt (aim n paths) (2 * (magnitude (resultant paths) * Real.sin (φ - best))) φ := by
  have h1 : HasDerivAt (fun φ => bulk paths - 2 * (magnitude (resultant paths) * Real.cos (φ - best)))
      (-(2 * (magnitude (resultant paths) * (-Real.sin (φ - best) * 1)))) φ :=
    ((((hasDerivAt_id φ).sub_const best).cos.const_mul _).const_mul 2).const_sub _
  have : aim n paths = fun φ => bulk paths - 2 * (magnitude (resultant paths) * Real.cos (φ - best)) := funext fun φ => aim_cos hn paths hb φ
  rw [this]
  convert h1 using 1
  ring

/-! ### The gradient -/

namespace Spec.Differentiates
variable {ι X : Type} [NormedAddCommGroup X] [NormedSpace ℝ X] {e : ι → X} {x0 : X} {a : Rev ι} {f : X → ℝ}

theorem sin (ha : Differentiates e x0 a f) : Differentiates e x0 (Rev.sin a) fun x => Real.sin (f x) := by
  obtain ⟨a1, f', a2, a3⟩ := ha
  refine ⟨by simp [Rev.sin, a1, F.sin], Real.cos (f x0) • f', (Real.hasDerivAt_sin _).comp_hasFDerivAt x0 a2, fun c i => ?_⟩
  show a.pull (F.fin c * F.cos a.val) i = _
  rw [a1, F.cos, F.fin_mul, a3]; simp; ring

theorem cos (ha : Differentiates e x0 a f) : Differentiates e x0 (Rev.cos a) fun x => Real.cos (f x) := by
  obtain ⟨a1, f', a2, a3⟩ := ha
  refine ⟨by simp [Rev.cos, a1, F.cos], -Real.sin (f x0) • f', (Real.hasDerivAt_cos _).comp_hasFDerivAt x0 a2, fun c i => ?_⟩
  show a.pull (-(F.fin c * F.sin a.val)) i = _
  rw [a1, F.sin, F.fin_mul, F.fin_neg, a3]; simp; ring
end Spec.Differentiates

theorem const_unit_diff {ι X : Type} [NormedAddCommGroup X] [NormedSpace ℝ X] {e : ι → X} {x0 : X} (b c : Pt) :
    DifferentiatesPt e x0 (Rev.normalize (Rev.constV (V2.fin c) - Rev.constV (V2.fin b))).1 fun _ => unit (c - b) := by
  have hv : Rev.valV (Rev.normalize (Rev.constV (V2.fin c) - Rev.constV (V2.fin b) : V2 (Rev ι))).1 = V2.fin (unit (c - b)) := by
    rw [Rev.val_normalize, show Rev.valV (Rev.constV (V2.fin c) - Rev.constV (V2.fin b) : V2 (Rev ι)) = V2.fin (c - b) from V2.fin_sub c b, normalize_fin]
  obtain ⟨d1, d2⟩ := Dead.normalize (v := (Rev.constV (V2.fin c) - Rev.constV (V2.fin b) : V2 (Rev ι))) ((Dead.const _).sub (.const _)) ((Dead.const _).sub (.const _))
  exact ⟨d1.differentiates (congrArg V2.x hv) fun _ => rfl, d2.differentiates (congrArg V2.y hv) fun _ => rfl⟩

theorem risEvaluate_diff {ι X : Type} [NormedAddCommGroup X] [NormedSpace ℝ X] {e : ι → X} {x0 : X} {o d : Pt} (hod : o ≠ d) {phi : Rev ι} {f : X → ℝ}
    (hphi : Differentiates e x0 phi f) (b c : Pt) :
    Differentiates e x0 (Rev.risEvaluate ⟨Rev.constV (V2.fin o), Rev.constV (V2.fin d)⟩ phi (Rev.constV (V2.fin b)) (Rev.constV (V2.fin c))) fun x =>
      ((heading b c).x - (beam (rn o d) (f x)).x) ^ 2 + ((heading b c).y - (beam (rn o d) (f x)).y) ^ 2 := by
  have hn := const_normal_diff (e := e) (x0 := x0) o d
  have hr := const_unit_diff (e := e) (x0 := x0) b c
  have a1 := ((hr.1.neg.mul hn.2).sub (hr.2.neg.mul hn.1)).sub hphi.sin
  have a2 := ((hr.1.neg.mul hn.1).add (hr.2.neg.mul hn.2)).sub hphi.cos
  refine ((a1.mul a1).add (a2.mul a2)).congr (Filter.Eventually.of_forall fun x => ?_)
  have hs := rn_sq hod
  have h := Real.sin_sq_add_cos_sq (f x)
  rw [heading_unit]
  set n := rn o d
  set r := unit (c - b)
  simp only [dp] at hs ⊢
  simp only [beam]
  linear_combination -(r.x ^ 2 + r.y ^ 2) * hs - (1 - (n.x * n.x + n.y * n.y)) * h + hs

theorem steering_gradient {o d : Pt} (hod : o ≠ d) (paths : List (Pt × Pt × Pt)) (φ : ℝ) {g : ℝ} (hg : HasDerivAt (aim (rn o d) paths) g φ) :
    Rev.gradient (Rev.steering (V2.fin o) (V2.fin d) (finPaths paths)) [F.fin φ] = [F.fin g] := by
  set e : ℕ → ℝ := fun j => if j = 0 then 1 else 0 with he
  have hphi : Differentiates e φ (Rev.var (F.fin φ) 0) id := by
    refine ⟨rfl, ContinuousLinearMap.id ℝ ℝ, hasFDerivAt_id _, fun c i => ?_⟩
    by_cases h : i = 0 <;> simp [Rev.var, he, h, F.zero_eq]
  have hl : List.Forall₂ (Differentiates e φ)
      ((finPaths paths).map fun p => Rev.risEvaluate ⟨Rev.constV (V2.fin o), Rev.constV (V2.fin d)⟩ (Rev.var (F.fin φ) 0) (Rev.constV p.2.1) (Rev.constV p.2.2))
      (paths.map fun p => fun φ => ((heading p.2.1 p.2.2).x - (beam (rn o d) φ).x) ^ 2 + ((heading p.2.1 p.2.2).y - (beam (rn o d) φ).y) ^ 2) := by
    rw [finPaths, List.map_map, List.forall₂_map_left_iff, List.forall₂_map_right_iff]
    exact List.forall₂_same.mpr fun p _ => risEvaluate_diff hod hphi _ _
  have hz : Differentiates e φ (Rev.const (0 : F)) fun _ => (0 : ℝ) := by rw [F.zero_eq]; exact .const 0
  obtain ⟨-, f', h1, h2⟩ := sum_diff hl hz
  have hf : (fun φ => 0 + ((paths.map fun p => fun φ => ((heading p.2.1 p.2.2).x - (beam (rn o d) φ).x) ^ 2 + ((heading p.2.1 p.2.2).y - (beam (rn o d) φ).y) ^ 2).map (· φ)).sum) =
      aim (rn o d) paths := by
    funext φ
    rw [zero_add, List.map_map, aim]
    rfl
  rw [hf] at h1
  have hgf : f' 1 = g := h1.hasDerivAt.unique hg
  simp only [Rev.gradient, List.zipIdx_cons, List.zipIdx_nil, List.map_cons, List.map_nil, List.length_singleton, List.range_one]
  congr 1
  have := h2 1 0
  simp only [he, if_true, hgf, one_mul] at this
  rw [← this, Rev.grad, F.one_eq]
  rfl

end DiffeRT2d
