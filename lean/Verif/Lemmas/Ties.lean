import Mathlib.MeasureTheory.Covering.Besicovitch
import Mathlib.MeasureTheory.Covering.BesicovitchVectorSpace
import Mathlib.MeasureTheory.Measure.Lebesgue.EqHaar
import Mathlib.Analysis.Calculus.FDeriv.Add

/-! Two functions that agree on a set have the same derivative almost everywhere on this set. -/

namespace DiffeRT2d
open MeasureTheory Filter Topology Metric Set
open scoped Pointwise

variable {X : Type} [NormedAddCommGroup X] [NormedSpace ℝ X] [FiniteDimensional ℝ X] [MeasurableSpace X] [BorelSpace X] (μ : Measure X) [μ.IsAddHaarMeasure]

/-- At a density point of the zeros of `h`, a derivative of `h` is zero. -/
theorem zeros_deriv {Y : Type*} [NormedAddCommGroup Y] [NormedSpace ℝ Y] (h : X → Y) : ∀ᵐ x ∂μ, h x = 0 → ∀ h' : X →L[ℝ] Y, HasFDerivAt h h' x → h' = 0 := by
  have key : ∀ᵐ x ∂μ.restrict {x | h x = 0}, h x = 0 → ∀ h' : X →L[ℝ] Y, HasFDerivAt h h' x → h' = 0 := by
    filter_upwards [Besicovitch.ae_tendsto_measure_inter_div μ {x | h x = 0}] with x hx h0 h' hd
    ext z
    by_contra hz
    have hz : h' z ≠ 0 := hz
    -- a ball around `z` where `|h'| ≥ ‖h' z‖ / 2`
    obtain ⟨ε, hε, hball⟩ : ∃ ε > 0, ∀ a ∈ closedBall z ε, ‖h' z‖ / 2 ≤ ‖h' a‖ := by
      have hc : ContinuousAt (fun a => ‖h' a‖) z := by fun_prop
      have hev : ∀ᶠ a in 𝓝 z, ‖h' z‖ / 2 < ‖h' a‖ := hc.eventually (lt_mem_nhds (by have := norm_pos_iff.mpr hz; linarith))
      obtain ⟨ε, hε, hb⟩ := Metric.nhds_basis_closedBall.eventually_iff.mp hev
      exact ⟨ε, hε, fun a ha => (hb ha).le⟩
    have B1 : ∀ᶠ r in 𝓝[>] (0 : ℝ), ({x | h x = 0} ∩ ({x} + r • closedBall z ε)).Nonempty :=
      Measure.eventually_nonempty_inter_smul_of_density_one μ _ x hx _ measurableSet_closedBall (measure_closedBall_pos μ z hε).ne'
    set k : ℝ := ‖h' z‖ / (4 * (‖z‖ + ε)) with hk
    have hpos : 0 < ‖z‖ + ε := by have := norm_nonneg z; linarith
    have hkpos : 0 < k := div_pos (norm_pos_iff.mpr hz) (by linarith)
    obtain ⟨ρ, hρ, hin⟩ := Metric.eventually_nhds_iff_ball.mp (hd.isLittleO.def hkpos)
    have B2 : ∀ᶠ r in 𝓝[>] (0 : ℝ), {x} + r • closedBall z ε ⊆ ball x ρ := by
      apply nhdsWithin_le_nhds
      exact eventually_singleton_add_smul_subset isBounded_closedBall (ball_mem_nhds x hρ)
    obtain ⟨r, ⟨y, ys, hy⟩, hr, hr0⟩ := (B1.and (B2.and self_mem_nhdsWithin)).exists
    have hr0 : 0 < r := hr0
    obtain ⟨a, ha, rfl⟩ : ∃ a, a ∈ closedBall z ε ∧ y = x + r • a := by
      simp only [mem_smul_set, image_add_left, mem_preimage, singleton_add] at hy
      rcases hy with ⟨a, az, ha⟩
      exact ⟨a, az, by simp only [ha, add_neg_cancel_left]⟩
    have h1 := hin _ (hr hy)
    have ys : h (x + r • a) = 0 := ys
    rw [ys, h0, add_sub_cancel_left, map_smul, sub_zero, zero_sub, norm_neg, norm_smul, norm_smul] at h1
    have hna : ‖a‖ ≤ ‖z‖ + ε := by
      calc ‖a‖ = ‖z + (a - z)‖ := by simp
        _ ≤ ‖z‖ + ‖a - z‖ := norm_add_le _ _
        _ ≤ ‖z‖ + ε := by gcongr; exact mem_closedBall_iff_norm.mp ha
    have h2 := hball a ha
    have hrn : 0 < ‖r‖ := norm_pos_iff.mpr hr0.ne'
    have h3 : ‖h' a‖ ≤ k * ‖a‖ := by
      have : ‖r‖ * ‖h' a‖ ≤ ‖r‖ * (k * ‖a‖) := by linarith
      exact le_of_mul_le_mul_left this hrn
    have h4 : k * ‖a‖ ≤ k * (‖z‖ + ε) := by gcongr
    have h5 : k * (‖z‖ + ε) = ‖h' z‖ / 4 := by rw [hk]; field_simp
    have := norm_pos_iff.mpr hz
    linarith
  filter_upwards [ae_imp_of_ae_restrict key] with x hx h0
  exact hx h0 h0

/-- Two functions that are equal at `x` have the same derivative there, for almost every `x`. -/
theorem ties_deriv (f g : X → ℝ) : ∀ᵐ x ∂μ, f x = g x → ∀ f' g' : X →L[ℝ] ℝ, HasFDerivAt f f' x → HasFDerivAt g g' x → f' = g' := by
  filter_upwards [zeros_deriv μ fun x => f x - g x] with x hx he f' g' hf hg
  exact sub_eq_zero.mp (hx (sub_eq_zero.mpr he) _ (hf.sub hg))

end DiffeRT2d
