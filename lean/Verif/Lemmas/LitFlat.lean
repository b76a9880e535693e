import Verif.Lemmas.LitLength
import Verif.Lemmas.NonFlatHard
import Verif.Spec.Analytic

/-! Sums of received powers have no flat place but where they are zero; the reverse path. -/

namespace DiffeRT2d
open Filter Topology Spec MeasureTheory

/-- A sum over a set that changes almost nowhere, whose parts are analytic almost everywhere and whose constant pieces are zero. -/
theorem flatAtZero_of_accepted {ι : Type} (A : ℝ × ℝ → Finset ι) (cs : Finset ι) (hA : ∀ q, A q ⊆ cs) (hA' : AlmostConstant volume A) (P : ι → ℝ × ℝ → ℝ)
    (hP : ∀ i ∈ cs, ∀ᵐ y : ℝ × ℝ, AnalyticAt ℝ (P i) y) (hz : ∀ᵐ y : ℝ × ℝ, ∀ B ⊆ cs, ∀ c : ℝ, (∀ᶠ q in 𝓝 y, ∑ i ∈ B, P i q = c) → c = 0)
    {v : ℝ × ℝ → ℝ} (hv : ∀ q, v q = ∑ i ∈ A q, P i q) : FlatAtZero v := by
  haveI : (volume : Measure (ℝ × ℝ)).IsAddHaarMeasure := by rw [Measure.volume_eq_prod]; infer_instance
  have hP' : ∀ᵐ y : ℝ × ℝ, ∀ i ∈ cs, AnalyticAt ℝ (P i) y := (ae_ball_iff cs.countable_toSet).mpr hP
  have hd : ∀ᵐ y : ℝ × ℝ, ∀ B ∈ cs.powerset, ∀ u ∈ ({(1, 0), (0, 1)} : Finset (ℝ × ℝ)), AnalyticAt ℝ (fun q => fderiv ℝ (fun q => ∑ i ∈ B, P i q) q u) y →
      fderiv ℝ (fun q => ∑ i ∈ B, P i q) y u = 0 → ∀ᶠ q in 𝓝 y, fderiv ℝ (fun q => ∑ i ∈ B, P i q) q u = 0 :=
    (ae_ball_iff cs.powerset.countable_toSet).mpr fun B _ => (ae_ball_iff (Finset.countable_toSet _)).mpr fun u _ => zeros_analytic volume _
  filter_upwards [hA', hP', hd, hz] with y hAy hPy hdy hzy
  have hnear : v =ᶠ[𝓝 y] fun q => ∑ i ∈ A y, P i q := by
    filter_upwards [hAy] with q hq
    rw [hv, hq]
  have han : AnalyticAt ℝ (fun q => ∑ i ∈ A y, P i q) y := Finset.analyticAt_fun_sum _ fun i hi => hPy i (hA y hi)
  refine ⟨han.congr hnear.symm, fun hne h0 => hne ?_⟩
  rw [hnear.fderiv_eq] at h0
  have hev : ∀ u : ℝ × ℝ, AnalyticAt ℝ (fun q => fderiv ℝ (fun q => ∑ i ∈ A y, P i q) q u) y := fun u =>
    ((ContinuousLinearMap.apply ℝ ℝ u).analyticAt _).comp han.fderiv
  have z1 := hdy (A y) (Finset.mem_powerset.mpr (hA y)) (1, 0) (by simp) (hev _) (by rw [h0]; rfl)
  have z2 := hdy (A y) (Finset.mem_powerset.mpr (hA y)) (0, 1) (by simp) (hev _) (by rw [h0]; rfl)
  have z : ∀ᶠ q in 𝓝 y, fderiv ℝ (fun q => ∑ i ∈ A y, P i q) q = 0 := by
    filter_upwards [z1, z2] with q y1 y2
    ext
    · simpa using y1
    · simpa using y2
  obtain ⟨ε, he, hb⟩ := Metric.eventually_nhds_iff_ball.mp (z.and han.eventually_analyticAt)
  refine hzy (A y) (hA y) (v y) ?_
  filter_upwards [Metric.ball_mem_nhds y he] with q hq
  rw [hnear.self_of_nhds]
  exact Metric.isOpen_ball.is_const_of_fderiv_eq_zero (convex_ball y ε).isPreconnected (fun x hx => (hb x hx).2.differentiableAt.differentiableWithinAt)
    (fun x hx => (hb x hx).1) hq (Metric.mem_ball_self he)

/-- The length of a path in the other direction. -/
theorem guardedLength_snoc (eps : ℝ) (l : List Pt) (a b : Pt) : guardedLength eps (l ++ [a, b]) = guardedLength eps (l ++ [a]) + eucl a ⟨b.x + eps, b.y + eps⟩ := by
  induction l with
  | nil => simp [guardedLength]
  | cons x l ih =>
    cases l with
    | nil => simp [guardedLength]
    | cons y l =>
      simp only [List.cons_append, guardedLength] at ih ⊢
      rw [ih]; ring

theorem guardedLength_reverse (eps : ℝ) (l : List Pt) : guardedLength eps l.reverse = guardedLength (-eps) l := by
  induction l with
  | nil => rfl
  | cons a l ih =>
    cases l with
    | nil => rfl
    | cons b l =>
      simp only [List.reverse_cons, List.append_assoc, List.singleton_append, List.cons_append, List.nil_append] at ih ⊢
      rw [guardedLength_snoc, ih, guardedLength, add_comm]
      congr 1
      simp only [eucl]
      congr 1
      ring

theorem powerAlong_reverse (eps coef height : ℝ) (l : List Pt) : powerAlong eps coef height l.reverse = powerAlong (-eps) coef height l := by
  rw [powerAlong, powerAlong, List.length_reverse, guardedLength_reverse]

theorem powerAlong_nonneg (eps : ℝ) {coef height : ℝ} (hc : 0 ≤ coef) (l : List Pt) : 0 ≤ powerAlong eps coef height l := by
  unfold powerAlong
  positivity

end DiffeRT2d
