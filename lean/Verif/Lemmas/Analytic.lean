import Mathlib.Analysis.Calculus.FDeriv.Analytic
import Mathlib.Analysis.Calculus.ContDiff.FTaylorSeries
import Mathlib.Analysis.Normed.Module.Multilinear.Basic
import Verif.Lemmas.Ties

/-! Almost every zero of a real analytic function has a neighbourhood of zeros. -/

namespace DiffeRT2d
open MeasureTheory Filter Topology Metric Set
open scoped Nat

variable {X : Type} [NormedAddCommGroup X] [NormedSpace ℝ X] [FiniteDimensional ℝ X] [MeasurableSpace X] [BorelSpace X] (μ : Measure X) [μ.IsAddHaarMeasure]

/-- A function with no derivatives at a point where it is analytic is zero near this point. -/
theorem flat_eventually_zero {h : X → ℝ} {x : X} (ha : AnalyticAt ℝ h x) (h0 : ∀ n, iteratedFDeriv ℝ n h x = 0) : ∀ᶠ y in 𝓝 x, h y = 0 := by
  obtain ⟨p, r, hp⟩ := ha
  have hs : ∀ y ∈ Metric.eball (0 : X) r, h (x + y) = 0 := by
    intro y hy
    refine (hp.hasSum hy).unique ?_
    have : (fun n => p n fun _ => y) = fun _ => 0 := by
      funext n
      have := hp.factorial_smul (y := y) n
      rw [h0 n] at this
      simpa [Nat.factorial_ne_zero] using this
    rw [this]
    exact hasSum_zero
  filter_upwards [Metric.eball_mem_nhds x hp.r_pos] with y hy
  have := hs (y - x) (by simpa [edist_eq_enorm_sub] using hy)
  rwa [add_sub_cancel] at this

/-- Almost every zero of `h` where `h` is analytic has a neighbourhood of zeros. -/
theorem zeros_analytic (h : X → ℝ) : ∀ᵐ x ∂μ, AnalyticAt ℝ h x → h x = 0 → ∀ᶠ y in 𝓝 x, h y = 0 := by
  have key : ∀ᵐ x ∂μ, ∀ n, AnalyticAt ℝ h x → iteratedFDeriv ℝ n h x = 0 → iteratedFDeriv ℝ (n + 1) h x = 0 := by
    rw [ae_all_iff]
    intro n
    filter_upwards [zeros_deriv μ (iteratedFDeriv ℝ n h)] with x hx ha h0
    have hd : DifferentiableAt ℝ (iteratedFDeriv ℝ n h) x := by
      obtain ⟨s, hs, hss⟩ := ha.exists_mem_nhds_analyticOnNhd
      exact ((hss.mono interior_subset).iteratedFDeriv n x (mem_interior_iff_mem_nhds.mpr hs)).differentiableAt
    have h1 : fderiv ℝ (iteratedFDeriv ℝ n h) x = 0 := hx h0 _ hd.hasFDerivAt
    ext m
    rw [iteratedFDeriv_succ_apply_left, h1]
    rfl
  filter_upwards [key] with x hx ha h0
  refine flat_eventually_zero ha fun n => ?_
  induction n with
  | zero => ext m; simp [h0]
  | succ n ih => exact hx n ha ih

end DiffeRT2d
