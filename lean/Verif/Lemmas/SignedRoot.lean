import Mathlib.Analysis.Meromorphic.Order
import Mathlib.Analysis.SpecialFunctions.Sqrt
import Mathlib.Analysis.SpecialFunctions.Pow.Real
import Mathlib.Analysis.Analytic.Polynomial
import Mathlib.Analysis.Calculus.ContDiff.Basic
import Mathlib.Algebra.Polynomial.FieldDivision
import Mathlib.Topology.Algebra.Polynomial

/-! Square roots of polynomials without negative values; meromorphic functions on the line that are constant somewhere. -/

namespace DiffeRT2d
open Filter Topology Polynomial

/-- The square root is analytic away from zero. -/
theorem sqrt_analyticAt {x : ℝ} (h : 0 < x) : AnalyticAt ℝ Real.sqrt x := by
  exact (Real.contDiffAt_sqrt h.ne' (n := ⊤)).analyticAt

theorem poly_analyticAt (q : ℝ[X]) (s : ℝ) : AnalyticAt ℝ (fun s => q.eval s) s := by
  have := AnalyticAt.aeval_polynomial (A := ℝ) (f := id) (analyticAt_id (𝕜 := ℝ) (z := s)) q
  simpa only [id, coe_aeval_eq_eval] using this

/-- A polynomial without negative values has a square root that is analytic on the whole line (it changes sign at zeros). -/
theorem exists_root (q : ℝ[X]) (h : ∀ s : ℝ, 0 ≤ q.eval s) : ∃ ρ : ℝ → ℝ, (∀ s, AnalyticAt ℝ ρ s) ∧ ∀ s, ρ s ^ 2 = q.eval s := by
  induction hn : q.natDegree using Nat.strong_induction_on generalizing q with
  | _ n ih =>
    by_cases hz : ∃ a, q.eval a = 0
    · obtain ⟨a, ha⟩ := hz
      by_cases h0 : q = 0
      · exact ⟨fun _ => 0, fun _ => analyticAt_const, fun s => by simp [h0]⟩
      · obtain ⟨q1, rfl⟩ := dvd_iff_isRoot.mpr ha
        have h1 : ∀ s, q1.eval s * (s - a) ≥ 0 := fun s => by
          have := h s
          simp only [eval_mul, eval_sub, eval_X, eval_C] at this
          linarith
        have hc : Continuous fun s => q1.eval s := q1.continuous
        have hq1 : q1.eval a = 0 := by
          by_contra hne
          rcases lt_or_gt_of_ne hne with hlt | hgt
          · have : ∀ᶠ s in 𝓝 a, q1.eval s < 0 := hc.continuousAt.eventually_lt_const hlt
            obtain ⟨ε, he, hb⟩ := Metric.eventually_nhds_iff.mp this
            have h2 := hb (y := a + ε / 2) (by rw [Real.dist_eq]; rw [abs_of_pos] <;> linarith)
            have h3 := h1 (a + ε / 2)
            nlinarith
          · have : ∀ᶠ s in 𝓝 a, 0 < q1.eval s := hc.continuousAt.eventually_const_lt hgt
            obtain ⟨ε, he, hb⟩ := Metric.eventually_nhds_iff.mp this
            have h2 := hb (y := a - ε / 2) (by rw [Real.dist_eq, abs_of_neg] <;> linarith)
            have h3 := h1 (a - ε / 2)
            nlinarith
        obtain ⟨q2, rfl⟩ := dvd_iff_isRoot.mpr hq1
        have hq2 : q2 ≠ 0 := by rintro rfl; simp at h0
        have hX : (X - C a : ℝ[X]) ≠ 0 := X_sub_C_ne_zero a
        have hnn : ∀ s, s ≠ a → 0 ≤ q2.eval s := fun s hs => by
          have := h1 s
          simp only [eval_mul, eval_sub, eval_X, eval_C] at this
          by_contra hlt
          push Not at hlt
          have hp : 0 < (s - a) ^ 2 := by have := sub_ne_zero.mpr hs; positivity
          nlinarith
        have hnn' : ∀ s, 0 ≤ q2.eval s := fun s => by
          by_cases hs : s = a
          · by_contra hlt
            push Not at hlt
            have : ∀ᶠ s in 𝓝 s, q2.eval s < 0 := q2.continuous.continuousAt.eventually_lt_const hlt
            obtain ⟨ε, he, hb⟩ := Metric.eventually_nhds_iff.mp this
            have h2 := hb (y := s + ε / 2) (by rw [Real.dist_eq]; rw [abs_of_pos] <;> linarith)
            have := hnn (s + ε / 2) (by rw [hs]; intro e; linarith)
            linarith
          · exact hnn s hs
        obtain ⟨ρ, r1, r2⟩ := ih q2.natDegree (by
          rw [← hn, natDegree_mul hX (mul_ne_zero hX hq2), natDegree_mul hX hq2, natDegree_X_sub_C]
          omega) q2 hnn' rfl
        refine ⟨fun s => (s - a) * ρ s, fun s => (analyticAt_id.sub analyticAt_const).mul (r1 s), fun s => ?_⟩
        simp only [eval_mul, eval_sub, eval_X, eval_C, ← r2]
        ring
    · push Not at hz
      refine ⟨fun s => Real.sqrt (q.eval s), fun s => ?_, fun s => Real.sq_sqrt (h s)⟩
      have hp : 0 < q.eval s := lt_of_le_of_ne (h s) (Ne.symm (hz s))
      exact AnalyticAt.comp' (g := Real.sqrt) (f := fun s => q.eval s) (sqrt_analyticAt hp) (poly_analyticAt q s)

/-- A meromorphic function on the line that is constant near one point and goes to zero at infinity is zero near that point. -/
theorem const_eq_zero {f : ℝ → ℝ} (hf : ∀ s, MeromorphicAt f s) {C : ℝ} (h0 : ∀ᶠ s in 𝓝 0, f s = C) (hl : Tendsto f atTop (𝓝 0)) : C = 0 := by
  by_contra hC
  have hm : MeromorphicOn (fun s => f s - C) Set.univ := fun s _ => (hf s).sub (.const _ _)
  have htop : meromorphicOrderAt (fun s => f s - C) 0 = ⊤ := by
    rw [meromorphicOrderAt_eq_top_iff]
    filter_upwards [h0.filter_mono nhdsWithin_le_nhds] with s hs
    rw [hs, sub_self]
  have hall : ∀ s, meromorphicOrderAt (fun s => f s - C) s = ⊤ := by
    intro s
    by_contra hne
    exact hm.meromorphicOrderAt_ne_top_of_isPreconnected (x := s) (y := 0) isPreconnected_univ (Set.mem_univ _) (Set.mem_univ _) hne htop
  have hsmall : ∀ᶠ s in atTop, f s ≠ C := hl.eventually_ne (Ne.symm hC)
  obtain ⟨S, hS⟩ := eventually_atTop.mp hsmall
  have h1 := meromorphicOrderAt_eq_top_iff.mp (hall (S + 1))
  have h2 : ∀ᶠ s in 𝓝[≠] (S + 1), S < s := (eventually_gt_nhds (by linarith)).filter_mono nhdsWithin_le_nhds
  obtain ⟨s, hs1, hs2⟩ := (h1.and h2).exists
  exact hS s hs2.le (by linarith)

end DiffeRT2d
