import Mathlib.Analysis.Analytic.Uniqueness
import Mathlib.Analysis.Calculus.MeanValue
import Mathlib.Analysis.SpecialFunctions.ExpDeriv
import Mathlib.Analysis.SpecialFunctions.Exp
import Verif.Lemmas.Analytic

/-! Functions that are analytic on pieces, and whose gradient vanishes almost nowhere. -/

namespace DiffeRT2d
open MeasureTheory Filter Topology Metric Set

/-- Almost everywhere, `f` is analytic and its derivative is not zero. -/
def NonFlat (f : ℝ × ℝ → ℝ) : Prop := ∀ᵐ t : ℝ × ℝ, AnalyticAt ℝ f t ∧ fderiv ℝ f t ≠ 0

/-- A function that is analytic and not constant on a convex open set has a null set of critical points there. -/
theorem ae_convex {S : Set (ℝ × ℝ)} (hS : IsOpen S) (hc : Convex ℝ S) {f : ℝ × ℝ → ℝ} (hf : AnalyticOnNhd ℝ f S) {p q : ℝ × ℝ} (hp : p ∈ S) (hq : q ∈ S) (hne : f p ≠ f q) :
    ∀ᵐ t : ℝ × ℝ, t ∈ S → fderiv ℝ f t ≠ 0 := by
  haveI : (volume : Measure (ℝ × ℝ)).IsAddHaarMeasure := by rw [Measure.volume_eq_prod]; infer_instance
  have hd := hf.fderiv
  have hev : ∀ v : ℝ × ℝ, AnalyticOnNhd ℝ (fun t => fderiv ℝ f t v) S := fun v t ht =>
    ((ContinuousLinearMap.apply ℝ ℝ v).analyticAt _).comp (hd t ht)
  filter_upwards [zeros_analytic volume fun t => fderiv ℝ f t (1, 0), zeros_analytic volume fun t => fderiv ℝ f t (0, 1)] with t h1 h2 ht h0
  have z1 := h1 (hev _ t ht) (by rw [h0]; rfl)
  have z2 := h2 (hev _ t ht) (by rw [h0]; rfl)
  have z : ∀ᶠ y in 𝓝 t, fderiv ℝ f y = 0 := by
    filter_upwards [z1, z2] with y y1 y2
    ext
    · simpa using y1
    · simpa using y2
  have hz : EqOn (fderiv ℝ f) 0 S := hd.eqOn_zero_of_preconnected_of_eventuallyEq_zero hc.isPreconnected ht z
  exact hne (hS.is_const_of_fderiv_eq_zero hc.isPreconnected (fun x hx => (hf x hx).differentiableAt.differentiableWithinAt) hz hp hq)

/-- A function that agrees near almost every point with one of finitely many non-flat functions. -/
theorem nonFlat_of_pieces {f : ℝ × ℝ → ℝ} (L : List (ℝ × ℝ → ℝ)) (hL : ∀ g ∈ L, NonFlat g) (hm : ∀ᵐ t : ℝ × ℝ, ∀ᶠ y in 𝓝 t, ∃ g ∈ L, f y = g y)
    (hc : ∀ᵐ t : ℝ × ℝ, ContinuousAt f t) : NonFlat f := by
  haveI : (volume : Measure (ℝ × ℝ)).IsAddHaarMeasure := by rw [Measure.volume_eq_prod]; infer_instance
  have h1 : ∀ᵐ t : ℝ × ℝ, ∀ g ∈ {g | g ∈ L}, AnalyticAt ℝ g t ∧ fderiv ℝ g t ≠ 0 := (ae_ball_iff (List.finite_toSet L).countable).mpr hL
  have h2 : ∀ᵐ t : ℝ × ℝ, ∀ g ∈ {g | g ∈ L}, ∀ h ∈ {g | g ∈ L}, AnalyticAt ℝ (fun y => g y - h y) t → g t - h t = 0 → ∀ᶠ y in 𝓝 t, g y - h y = 0 :=
    (ae_ball_iff (List.finite_toSet L).countable).mpr fun g _ => (ae_ball_iff (List.finite_toSet L).countable).mpr fun h _ => zeros_analytic volume fun y => g y - h y
  filter_upwards [h1, h2, hm, hc] with t h1 h2 hm hc
  obtain ⟨g, hg, e⟩ := hm.self_of_nhds
  have hnear : ∀ᶠ y in 𝓝 t, f y = g y := by
    have : ∀ᶠ y in 𝓝 t, ∀ h ∈ {g | g ∈ L}, f y = h y → f y = g y := by
      refine (Set.Finite.eventually_all (List.finite_toSet L)).mpr fun h hh => ?_
      by_cases e' : h t = g t
      · have := h2 h hh g hg ((h1 h hh).1.sub (h1 g hg).1) (by linarith)
        filter_upwards [this] with y hy hfy
        linarith
      · have : ∀ᶠ y in 𝓝 t, h y - f y ≠ 0 := ((h1 h hh).1.continuousAt.sub hc).eventually_ne (by show h t - f t ≠ 0; rw [e]; exact sub_ne_zero.mpr e')
        filter_upwards [this] with y hy hfy
        exact absurd (by linarith) hy
    filter_upwards [hm, this] with y ⟨h, hh, ey⟩ k
    exact k h hh ey
  have he : f =ᶠ[𝓝 t] g := hnear
  exact ⟨(h1 g hg).1.congr he.symm, by rw [he.fderiv_eq]; exact (h1 g hg).2⟩

/-- The logistic function. -/
noncomputable def lgs (x : ℝ) : ℝ := 1 / (1 + Real.exp (-x))

theorem lgs_pos (x : ℝ) : 0 < lgs x := by unfold lgs; positivity
theorem lgs_lt_one (x : ℝ) : lgs x < 1 := by
  unfold lgs
  rw [div_lt_one (by positivity)]
  linarith [Real.exp_pos (-x)]
theorem one_sub_lgs (x : ℝ) : 1 - lgs x = lgs (-x) := by
  unfold lgs
  rw [neg_neg]
  have h1 := Real.exp_pos x
  have h2 := Real.exp_pos (-x)
  have h3 : Real.exp x * Real.exp (-x) = 1 := by rw [← Real.exp_add]; simp
  rw [eq_div_iff (by positivity)]
  field_simp
  nlinarith
theorem lgs_analytic (x : ℝ) : AnalyticAt ℝ lgs x := by
  unfold lgs
  have h1 : AnalyticAt ℝ (fun x : ℝ => Real.exp (-x)) x := analyticAt_rexp.comp analyticAt_id.neg
  exact analyticAt_const.div (analyticAt_const.add h1) (by positivity)

/-- What a line of sight to the point `(a, b)` carries. -/
noncomputable def los (h a b : ℝ) (t : ℝ × ℝ) : ℝ := 1 / (h ^ 2 + ((t.1 - a) ^ 2 + (t.2 - b) ^ 2))

theorem los_pos {h : ℝ} (hh : 0 < h) (a b : ℝ) (t : ℝ × ℝ) : 0 < los h a b t := by unfold los; positivity

theorem los_analytic {h : ℝ} (hh : 0 < h) (a b : ℝ) (t : ℝ × ℝ) : AnalyticAt ℝ (los h a b) t := by
  unfold los
  exact analyticAt_const.div (analyticAt_const.add (((analyticAt_fst.sub analyticAt_const).pow 2).add ((analyticAt_snd.sub analyticAt_const).pow 2))) (by positivity)

/-- It goes to zero in every direction. -/
theorem los_small (h a b : ℝ) (p n : ℝ × ℝ) (hn : n ≠ 0) {c : ℝ} (hc : 0 < c) : ∃ s : ℝ, 0 ≤ s ∧ los h a b (p.1 + s * n.1, p.2 + s * n.2) < c := by
  have hN : 0 < n.1 ^ 2 + n.2 ^ 2 := by
    by_contra hc
    apply hn
    have h1 : n.1 ^ 2 = 0 := le_antisymm (by nlinarith [sq_nonneg n.2]) (sq_nonneg _)
    have h2 : n.2 ^ 2 = 0 := le_antisymm (by nlinarith [sq_nonneg n.1]) (sq_nonneg _)
    exact Prod.ext (pow_eq_zero_iff (two_ne_zero) |>.mp h1) (pow_eq_zero_iff (two_ne_zero) |>.mp h2)
  have key : Tendsto (fun s : ℝ => h ^ 2 + ((p.1 + s * n.1 - a) ^ 2 + (p.2 + s * n.2 - b) ^ 2)) atTop atTop := by
    have e : (fun s : ℝ => h ^ 2 + ((p.1 + s * n.1 - a) ^ 2 + (p.2 + s * n.2 - b) ^ 2)) =
        fun s => (h ^ 2 + (p.1 - a) ^ 2 + (p.2 - b) ^ 2) + s * ((n.1 ^ 2 + n.2 ^ 2) * s + 2 * ((p.1 - a) * n.1 + (p.2 - b) * n.2)) := by funext s; ring
    rw [e]
    refine tendsto_atTop_add_const_left _ _ (tendsto_id.atTop_mul_atTop₀ (tendsto_atTop_add_const_right _ _ (tendsto_id.const_mul_atTop hN)))
  obtain ⟨s, h1, h2⟩ := ((key.eventually_gt_atTop (1 / c)).and (eventually_ge_atTop 0)).exists
  refine ⟨s, h2, ?_⟩
  unfold los
  have : 0 < 1 / c := by positivity
  rw [div_lt_iff₀ (this.trans h1)]
  rw [div_lt_iff₀ hc] at h1
  linarith

/-- A degree between zero and one times a line of sight is not constant on a set that goes to infinity. -/
theorem ae_ray {S : Set (ℝ × ℝ)} (hS : IsOpen S) (hc : Convex ℝ S) {h : ℝ} (hh : 0 < h) (a b : ℝ) {g : ℝ × ℝ → ℝ} (hg : AnalyticOnNhd ℝ g S) (h0 : ∀ t ∈ S, 0 < g t ∧ g t < 1)
    (n : ℝ × ℝ) (hn : n ≠ 0) (hr : ∀ p ∈ S, ∀ s : ℝ, 0 ≤ s → (p.1 + s * n.1, p.2 + s * n.2) ∈ S) : ∀ᵐ t : ℝ × ℝ, t ∈ S → fderiv ℝ (fun t => g t * los h a b t) t ≠ 0 := by
  by_cases he : S.Nonempty
  · obtain ⟨p, hp⟩ := he
    obtain ⟨s, hs, hlt⟩ := los_small h a b p n hn (mul_pos (h0 p hp).1 (los_pos hh a b p))
    have hq := hr p hp s hs
    refine ae_convex hS hc (fun t ht => (hg t ht).mul (los_analytic hh a b t)) hp hq (ne_of_gt (lt_of_lt_of_le' hlt ?_))
    exact (mul_le_of_le_one_left (los_pos hh a b _).le (h0 _ hq).2.le)
  · exact .of_forall fun t ht => absurd ⟨t, ht⟩ he

theorem affine_analytic (u v w : ℝ) (t : ℝ × ℝ) : AnalyticAt ℝ (fun t : ℝ × ℝ => u * t.1 + v * t.2 + w) t :=
  ((analyticAt_const.mul analyticAt_fst).add (analyticAt_const.mul analyticAt_snd)).add analyticAt_const

/-- A constant degree. -/
theorem nonFlat_const {h : ℝ} (hh : 0 < h) (a b : ℝ) {c : ℝ} (h0 : 0 < c) (h1 : c < 1) : NonFlat fun t => c * los h a b t := by
  filter_upwards [ae_ray isOpen_univ convex_univ hh a b (g := fun _ => c) (fun _ _ => analyticAt_const) (fun _ _ => ⟨h0, h1⟩) (1, 0) (by simp) fun _ _ _ _ => mem_univ _] with t ht
  exact ⟨analyticAt_const.mul (los_analytic hh a b t), ht (mem_univ _)⟩

/-- An affine function that is not constant is zero almost nowhere. -/
theorem affine_ae (u v w : ℝ) (huv : ¬(u = 0 ∧ v = 0)) : ∀ᵐ t : ℝ × ℝ, u * t.1 + v * t.2 + w ≠ 0 := by
  haveI : (volume : Measure (ℝ × ℝ)).IsAddHaarMeasure := by rw [Measure.volume_eq_prod]; infer_instance
  filter_upwards [zeros_analytic volume fun t : ℝ × ℝ => u * t.1 + v * t.2 + w] with t ht h0
  have hD : AnalyticAt ℝ (fun t : ℝ × ℝ => u * t.1 + v * t.2 + w) t := affine_analytic u v w t
  have hev := ht hD h0
  have h1 : Tendsto (fun s : ℝ => (t.1 + s * u, t.2 + s * v)) (𝓝[≠] 0) (𝓝 t) := by
    refine tendsto_nhdsWithin_of_tendsto_nhds ?_
    have : Continuous fun s : ℝ => (t.1 + s * u, t.2 + s * v) := by fun_prop
    simpa using this.tendsto 0
  obtain ⟨s, hs, hs0⟩ := ((h1.eventually hev).and self_mem_nhdsWithin).exists
  have hs0 : s ≠ 0 := hs0
  have e : s * (u ^ 2 + v ^ 2) = 0 := by
    have : u * (t.1 + s * u) + v * (t.2 + s * v) + w = 0 := hs
    nlinarith
  have e2 : u ^ 2 + v ^ 2 = 0 := (mul_eq_zero.mp e).resolve_left hs0
  apply huv
  constructor
  · nlinarith [sq_nonneg u, sq_nonneg v]
  · nlinarith [sq_nonneg u, sq_nonneg v]

/-- A degree that is a logistic function of a quotient, with a denominator that is an affine function. -/
theorem nonFlat_quotient {h : ℝ} (hh : 0 < h) (a b : ℝ) {N : ℝ × ℝ → ℝ} (hN : ∀ t, AnalyticAt ℝ N t) (u v w : ℝ) (huv : ¬(u = 0 ∧ v = 0)) (x y : ℝ) :
    NonFlat fun t => lgs (x * (N t / (u * t.1 + v * t.2 + w)) + y) * los h a b t := by
  have hpos : ∀ e : ℝ, e ≠ 0 → ∀ᵐ t : ℝ × ℝ, 0 < e * (u * t.1 + v * t.2 + w) → fderiv ℝ (fun t : ℝ × ℝ => lgs (x * (N t / (u * t.1 + v * t.2 + w)) + y) * los h a b t) t ≠ 0 := by
    intro e he
    refine ae_ray (S := {t : ℝ × ℝ | 0 < e * (u * t.1 + v * t.2 + w)}) (isOpen_lt continuous_const (by fun_prop)) ?_ hh a b ?_ (fun t _ => ⟨lgs_pos _, lgs_lt_one _⟩) (e * u, e * v) ?_ ?_
    · intro p hp q hq α β hα hβ hαβ
      have hp' : 0 < e * (u * p.1 + v * p.2 + w) := hp
      have hq' : 0 < e * (u * q.1 + v * q.2 + w) := hq
      show 0 < e * (u * (α * p.1 + β * q.1) + v * (α * p.2 + β * q.2) + w)
      have : e * (u * (α * p.1 + β * q.1) + v * (α * p.2 + β * q.2) + w) = α * (e * (u * p.1 + v * p.2 + w)) + β * (e * (u * q.1 + v * q.2 + w)) := by
        rw [show w = (α + β) * w by rw [hαβ, one_mul]]
        simp only [hαβ, one_mul]
        rw [show e * (u * (α * p.1 + β * q.1) + v * (α * p.2 + β * q.2) + w) = e * (u * (α * p.1 + β * q.1) + v * (α * p.2 + β * q.2) + (α + β) * w) by rw [hαβ, one_mul]]
        ring
      rw [this]
      rcases hα.eq_or_lt with rfl | hα
      · have : β = 1 := by linarith
        subst this
        linarith
      · have := mul_pos hα hp'
        have := mul_nonneg hβ hq'.le
        linarith
    · intro t ht
      have hne : u * t.1 + v * t.2 + w ≠ 0 := by
        intro h0
        have ht' : 0 < e * (u * t.1 + v * t.2 + w) := ht
        rw [h0, mul_zero] at ht'
        exact lt_irrefl _ ht'
      have hD : AnalyticAt ℝ (fun t : ℝ × ℝ => u * t.1 + v * t.2 + w) t := affine_analytic u v w t
      exact (lgs_analytic _).comp ((analyticAt_const.mul ((hN t).div hD hne)).add analyticAt_const)
    · intro h0
      simp only [Prod.mk_eq_zero, mul_eq_zero, he, false_or] at h0
      exact huv h0
    · intro p hp s hs
      have hp' : 0 < e * (u * p.1 + v * p.2 + w) := hp
      show 0 < e * (u * (p.1 + s * (e * u)) + v * (p.2 + s * (e * v)) + w)
      have : e * (u * (p.1 + s * (e * u)) + v * (p.2 + s * (e * v)) + w) = e * (u * p.1 + v * p.2 + w) + s * ((e * u) ^ 2 + (e * v) ^ 2) := by ring
      rw [this]
      have : 0 ≤ s * ((e * u) ^ 2 + (e * v) ^ 2) := by positivity
      linarith
  have hz := affine_ae u v w huv
  filter_upwards [hpos 1 one_ne_zero, hpos (-1) (by norm_num), hz] with t h1 h2 h3
  have hD : AnalyticAt ℝ (fun t : ℝ × ℝ => u * t.1 + v * t.2 + w) t := affine_analytic u v w t
  refine ⟨((lgs_analytic _).comp ((analyticAt_const.mul ((hN t).div hD h3)).add analyticAt_const)).mul (los_analytic hh a b t), ?_⟩
  rcases lt_or_gt_of_ne h3 with h | h
  · exact h2 (by linarith)
  · exact h1 (by linarith)

end DiffeRT2d
