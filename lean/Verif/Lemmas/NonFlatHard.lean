import Verif.Lemmas.NonFlatSight

/-! Piecewise affine activations: the gradient vanishes almost only where the value does. -/

namespace DiffeRT2d
open MeasureTheory Filter Topology Metric Set Spec

/-- Almost everywhere, `f` is analytic and its derivative is not zero where `f` is not zero. -/
def FlatAtZero (f : ℝ × ℝ → ℝ) : Prop := ∀ᵐ t : ℝ × ℝ, AnalyticAt ℝ f t ∧ (f t ≠ 0 → fderiv ℝ f t ≠ 0)

theorem NonFlat.flatAtZero {f : ℝ × ℝ → ℝ} (h : NonFlat f) : FlatAtZero f := h.mono fun _ ht => ⟨ht.1, fun _ => ht.2⟩

/-- A function that agrees near almost every point with one of finitely many such functions. -/
theorem flatAtZero_of_pieces {f : ℝ × ℝ → ℝ} (L : List (ℝ × ℝ → ℝ)) (hL : ∀ g ∈ L, FlatAtZero g) (hm : ∀ᵐ t : ℝ × ℝ, ∀ᶠ y in 𝓝 t, ∃ g ∈ L, f y = g y)
    (hc : ∀ᵐ t : ℝ × ℝ, ContinuousAt f t) : FlatAtZero f := by
  haveI : (volume : Measure (ℝ × ℝ)).IsAddHaarMeasure := by rw [Measure.volume_eq_prod]; infer_instance
  have h1 : ∀ᵐ t : ℝ × ℝ, ∀ g ∈ {g | g ∈ L}, AnalyticAt ℝ g t ∧ (g t ≠ 0 → fderiv ℝ g t ≠ 0) := (ae_ball_iff (List.finite_toSet L).countable).mpr hL
  have h2 : ∀ᵐ t : ℝ × ℝ, ∀ g ∈ {g | g ∈ L}, ∀ h ∈ {g | g ∈ L}, AnalyticAt ℝ (fun y => g y - h y) t → g t - h t = 0 → ∀ᶠ y in 𝓝 t, g y - h y = 0 :=
    (ae_ball_iff (List.finite_toSet L).countable).mpr fun g _ => (ae_ball_iff (List.finite_toSet L).countable).mpr fun h _ => zeros_analytic volume fun y => g y - h y
  filter_upwards [h1, h2, hm, hc] with t h1 h2 hm hc
  obtain ⟨g, hg, e⟩ := hm.self_of_nhds
  have hnear : ∀ᶠ y in 𝓝 t, f y = g y := by
    have : ∀ᶠ y in 𝓝 t, ∀ h ∈ {g | g ∈ L}, f y = h y → f y = g y := by
      refine (Set.Finite.eventually_all (List.finite_toSet L)).mpr fun h hh => ?_
      by_cases e' : h t = g t
      · have := h2 h hh g hg ((h1 h hh).1.sub (h1 g hg).1) (by linarith)
        filter_upwards [this] with y hy hfy
        linarith
      · have : ∀ᶠ y in 𝓝 t, h y - f y ≠ 0 := ((h1 h hh).1.continuousAt.sub hc).eventually_ne (by show h t - f t ≠ 0; rw [e]; exact sub_ne_zero.mpr e')
        filter_upwards [this] with y hy hfy
        exact absurd (by linarith) hy
    filter_upwards [hm, this] with y ⟨h, hh, ey⟩ k
    exact k h hh ey
  have he : f =ᶠ[𝓝 t] g := hnear
  exact ⟨(h1 g hg).1.congr he.symm, by rw [he.fderiv_eq, e]; exact (h1 g hg).2⟩

/-- A bounded degree times a line of sight is constant only if it is zero, on a set that goes to infinity. -/
theorem ae_ray_zero {S : Set (ℝ × ℝ)} (hS : IsOpen S) (hc : Convex ℝ S) {h : ℝ} (hh : 0 < h) (a b : ℝ) {g : ℝ × ℝ → ℝ} (hg : AnalyticOnNhd ℝ g S)
    (n : ℝ × ℝ) (hn : n ≠ 0) (hr : ∀ p ∈ S, ∀ s : ℝ, 0 ≤ s → (p.1 + s * n.1, p.2 + s * n.2) ∈ S)
    (hb : ∀ p ∈ S, ∃ K : ℝ, 0 < K ∧ ∀ s : ℝ, 0 ≤ s → |g (p.1 + s * n.1, p.2 + s * n.2)| ≤ K) :
    ∀ᵐ t : ℝ × ℝ, t ∈ S → g t * los h a b t ≠ 0 → fderiv ℝ (fun t => g t * los h a b t) t ≠ 0 := by
  by_cases he : ∃ p ∈ S, g p * los h a b p ≠ 0
  · obtain ⟨p, hp, h0⟩ := he
    obtain ⟨K, hK, hb⟩ := hb p hp
    obtain ⟨s, hs, hlt⟩ := los_small h a b p n hn (c := |g p * los h a b p| / K) (div_pos (abs_pos.mpr h0) hK)
    have hq := hr p hp s hs
    refine (ae_convex hS hc (fun t ht => (hg t ht).mul (los_analytic hh a b t)) hp hq ?_).mono fun t ht hts _ => ht hts
    intro e
    rw [lt_div_iff₀ hK] at hlt
    have h1 := los_pos hh a b (p.1 + s * n.1, p.2 + s * n.2)
    have h2 : |g p * los h a b p| = |g (p.1 + s * n.1, p.2 + s * n.2)| * los h a b (p.1 + s * n.1, p.2 + s * n.2) := by
      have e' : g p * los h a b p = g (p.1 + s * n.1, p.2 + s * n.2) * los h a b (p.1 + s * n.1, p.2 + s * n.2) := e
      rw [e', abs_mul, abs_of_pos h1]
    rw [h2] at hlt
    have := mul_le_mul_of_nonneg_right (hb s hs) h1.le
    linarith
  · push Not at he
    exact .of_forall fun t ht h0 => absurd (he t ht) h0

/-- A constant degree. -/
theorem flatAtZero_const {h : ℝ} (hh : 0 < h) (a b c : ℝ) : FlatAtZero fun t => c * los h a b t := by
  filter_upwards [ae_ray_zero isOpen_univ convex_univ hh a b (g := fun _ => c) (fun _ _ => analyticAt_const) (1, 0) (by simp) (fun _ _ _ _ => mem_univ _)
    fun _ _ => ⟨|c| + 1, by positivity, fun _ _ => by linarith⟩] with t ht
  exact ⟨analyticAt_const.mul (los_analytic hh a b t), ht (mem_univ _)⟩

/-- A degree that is affine in the quotient of two affine functions. -/
theorem flatAtZero_quotient {h : ℝ} (hh : 0 < h) (a b : ℝ) (u' v' w' u v w : ℝ) (huv : ¬(u = 0 ∧ v = 0)) (x y : ℝ) :
    FlatAtZero fun t => (x * ((u' * t.1 + v' * t.2 + w') / (u * t.1 + v * t.2 + w)) + y) * los h a b t := by
  have hpos : ∀ e : ℝ, e ≠ 0 → ∀ᵐ t : ℝ × ℝ, 0 < e * (u * t.1 + v * t.2 + w) → (x * ((u' * t.1 + v' * t.2 + w') / (u * t.1 + v * t.2 + w)) + y) * los h a b t ≠ 0 →
      fderiv ℝ (fun t : ℝ × ℝ => (x * ((u' * t.1 + v' * t.2 + w') / (u * t.1 + v * t.2 + w)) + y) * los h a b t) t ≠ 0 := by
    intro e he
    have hgrow : ∀ (p : ℝ × ℝ) (s : ℝ), e * (u * (p.1 + s * (e * u)) + v * (p.2 + s * (e * v)) + w) = e * (u * p.1 + v * p.2 + w) + s * ((e * u) ^ 2 + (e * v) ^ 2) := by
      intro p s; ring
    have hnorm : 0 < (e * u) ^ 2 + (e * v) ^ 2 := by
      by_contra hcon
      apply huv
      have h1 : (e * u) ^ 2 = 0 := le_antisymm (by nlinarith [sq_nonneg (e * v)]) (sq_nonneg _)
      have h2 : (e * v) ^ 2 = 0 := le_antisymm (by nlinarith [sq_nonneg (e * u)]) (sq_nonneg _)
      exact ⟨(mul_eq_zero.mp (pow_eq_zero_iff two_ne_zero |>.mp h1)).resolve_left he, (mul_eq_zero.mp (pow_eq_zero_iff two_ne_zero |>.mp h2)).resolve_left he⟩
    refine ae_ray_zero (S := {t : ℝ × ℝ | 0 < e * (u * t.1 + v * t.2 + w)}) (g := fun t => x * ((u' * t.1 + v' * t.2 + w') / (u * t.1 + v * t.2 + w)) + y)
      (isOpen_lt continuous_const (by fun_prop)) ?_ hh a b ?_ (e * u, e * v) ?_ ?_ ?_
    · intro p hp q hq α β hα hβ hαβ
      have hp' : 0 < e * (u * p.1 + v * p.2 + w) := hp
      have hq' : 0 < e * (u * q.1 + v * q.2 + w) := hq
      show 0 < e * (u * (α * p.1 + β * q.1) + v * (α * p.2 + β * q.2) + w)
      have : e * (u * (α * p.1 + β * q.1) + v * (α * p.2 + β * q.2) + w) = α * (e * (u * p.1 + v * p.2 + w)) + β * (e * (u * q.1 + v * q.2 + w)) := by
        have hβ' : β = 1 - α := by linarith
        subst hβ'
        ring
      rw [this]
      rcases hα.eq_or_lt with rfl | hα
      · have : β = 1 := by linarith
        subst this
        linarith
      · have := mul_pos hα hp'
        have := mul_nonneg hβ hq'.le
        linarith
    · intro t ht
      have hne : u * t.1 + v * t.2 + w ≠ 0 := by
        intro h0
        have ht' : 0 < e * (u * t.1 + v * t.2 + w) := ht
        rw [h0, mul_zero] at ht'
        exact lt_irrefl _ ht'
      exact (analyticAt_const.mul ((affine_analytic u' v' w' t).div (affine_analytic u v w t) hne)).add analyticAt_const
    · intro h0
      simp only [Prod.mk_eq_zero, mul_eq_zero, he, false_or] at h0
      exact huv h0
    · intro p hp s hs
      have hp' : 0 < e * (u * p.1 + v * p.2 + w) := hp
      show 0 < e * (u * (p.1 + s * (e * u)) + v * (p.2 + s * (e * v)) + w)
      rw [hgrow]
      have : 0 ≤ s * ((e * u) ^ 2 + (e * v) ^ 2) := by positivity
      linarith
    · intro p hp
      have hp' : 0 < e * (u * p.1 + v * p.2 + w) := hp
      set D0 := e * (u * p.1 + v * p.2 + w) with hD0
      set D1 := (e * u) ^ 2 + (e * v) ^ 2 with hD1
      set N0 := e * (u' * p.1 + v' * p.2 + w') with hN0
      set N1 := e * (u' * (e * u) + v' * (e * v)) with hN1
      refine ⟨|x| * (|N0| / D0 + |N1| / D1) + |y| + 1, by positivity, fun s hs => ?_⟩
      have hden : 0 < D0 + s * D1 := by positivity
      have e1 : (u' * (p.1 + s * (e * u)) + v' * (p.2 + s * (e * v)) + w') / (u * (p.1 + s * (e * u)) + v * (p.2 + s * (e * v)) + w) = (N0 + s * N1) / (D0 + s * D1) := by
        rw [← hgrow, show N0 + s * N1 = e * (u' * (p.1 + s * (e * u)) + v' * (p.2 + s * (e * v)) + w') by rw [hN0, hN1]; ring, mul_div_mul_left _ _ he]
      have e2 : |(N0 + s * N1) / (D0 + s * D1)| ≤ |N0| / D0 + |N1| / D1 := by
        rw [abs_div, abs_of_pos hden, div_le_iff₀ hden]
        have h1 : |N0 + s * N1| ≤ |N0| + s * |N1| := by
          refine (abs_add_le _ _).trans ?_
          rw [abs_mul s N1, abs_of_nonneg hs]
        have h2 : (|N0| / D0 + |N1| / D1) * (D0 + s * D1) = |N0| + s * |N1| + (|N0| / D0 * (s * D1) + |N1| / D1 * D0) := by
          field_simp
          ring
        have h3 : 0 ≤ |N0| / D0 * (s * D1) + |N1| / D1 * D0 := by positivity
        linarith
      show |x * ((u' * (p.1 + s * (e * u)) + v' * (p.2 + s * (e * v)) + w') / (u * (p.1 + s * (e * u)) + v * (p.2 + s * (e * v)) + w)) + y| ≤ _
      rw [e1]
      refine (abs_add_le _ _).trans ?_
      rw [abs_mul]
      have := mul_le_mul_of_nonneg_left e2 (abs_nonneg x)
      linarith
  have hz := affine_ae u v w huv
  filter_upwards [hpos 1 one_ne_zero, hpos (-1) (by norm_num), hz] with t h1 h2 h3
  refine ⟨((analyticAt_const.mul ((affine_analytic u' v' w' t).div (affine_analytic u v w t) h3)).add analyticAt_const).mul (los_analytic hh a b t), ?_⟩
  rcases lt_or_gt_of_ne h3 with h | h
  · exact h2 (by linarith)
  · exact h1 (by linarith)

/-- The piecewise affine step. -/
noncomputable def hst (x : ℝ) : ℝ := min (max (x + 3) 0) 6 / 6

theorem hst_range (x : ℝ) : 0 ≤ hst x ∧ hst x ≤ 1 := by
  unfold hst
  constructor
  · have : 0 ≤ min (max (x + 3) 0) 6 := le_min (le_max_right _ _) (by norm_num)
    positivity
  · have : min (max (x + 3) 0) 6 ≤ 6 := min_le_right _ _
    linarith

theorem hst_cases (x : ℝ) : hst x = 0 ∨ hst x = 1 ∨ hst x = (x + 3) / 6 := by
  unfold hst
  rcases le_total (max (x + 3) 0) 6 with h | h
  · rw [min_eq_left h]
    rcases le_total (x + 3) 0 with h' | h'
    · rw [max_eq_right h']; simp
    · rw [max_eq_left h']; simp
  · rw [min_eq_right h]; norm_num

theorem hst_eq_one {x : ℝ} : hst x = 1 ↔ 3 ≤ x := by
  unfold hst
  constructor
  · intro h
    by_contra hc
    have : min (max (x + 3) 0) 6 < 6 := lt_of_le_of_lt (min_le_left _ _) (max_lt (by linarith) (by norm_num))
    linarith
  · intro h
    rw [max_eq_left (by linarith), min_eq_right (by linarith)]
    norm_num

theorem hst_eq_zero {x : ℝ} : hst x = 0 ↔ x ≤ -3 := by
  unfold hst
  constructor
  · intro h
    by_contra hc
    have : 0 < min (max (x + 3) 0) 6 := lt_min (lt_max_of_lt_left (by linarith)) (by norm_num)
    linarith
  · intro h
    rw [max_eq_right (by linarith)]
    norm_num

/-- The pieces of the approximate power of a line of sight, with the piecewise affine step. -/
theorem sight_flatAtZero {a : ℝ} (walls : List (Pt × Pt)) (tol patch : ℝ) {h : ℝ} (hh : 0 < h) (t r : ℝ × ℝ → Pt) (A B : ℝ)
    (hD : ∀ w ∈ walls, ∃ u v k : ℝ, ¬(u = 0 ∧ v = 0) ∧ ∀ x, segD (pointAt w.1 w.2 (-patch)) (pointAt w.1 w.2 (1 + patch)) (t x) (r x) = u * x.1 + v * x.2 + k)
    (hA : ∀ w ∈ walls, ∃ u v k : ℝ, ∀ x, segA (pointAt w.1 w.2 (-patch)) (pointAt w.1 w.2 (1 + patch)) (t x) (r x) = u * x.1 + v * x.2 + k)
    (hB : ∀ w ∈ walls, ∃ u v k : ℝ, ∀ x, segB (pointAt w.1 w.2 (-patch)) (pointAt w.1 w.2 (1 + patch)) (t x) (r x) = u * x.1 + v * x.2 + k)
    (hc : ∀ᵐ x : ℝ × ℝ, ContinuousAt (fun x => (fmValid [] walls [] [t x, r x] 0 tol patch).eval (fun y => hst (a * y)) * los h A B x) x) :
    FlatAtZero fun x => (fmValid [] walls [] [t x, r x] 0 tol patch).eval (fun y => hst (a * y)) * los h A B x := by
  choose! u v k huv hD using hD
  choose! uA vA kA hA using hA
  choose! uB vB kB hB using hB
  let N : Bool → Pt × Pt → ℝ × ℝ → ℝ := fun b w x => if b then uA w * x.1 + vA w * x.2 + kA w else uB w * x.1 + vB w * x.2 + kB w
  let Q : Bool → Pt × Pt → ℝ → ℝ → ℝ × ℝ → ℝ := fun b w p q x => (p * (N b w x / (u w * x.1 + v w * x.2 + k w)) + q) * los h A B x
  let W : Pt × Pt → List (ℝ × ℝ → ℝ) := fun w => [Q true w (-(a / 6)) (1 / 2 - a / 1200), Q true w (a / 6) (1 / 2 - a * (201 / 200) / 6),
    Q false w (-(a / 6)) (1 / 2 - a / 1200), Q false w (a / 6) (1 / 2 - a * (201 / 200) / 6)]
  let L : List (ℝ × ℝ → ℝ) := (fun x => hst (a * tol) * los h A B x) :: (fun x => 0 * los h A B x) :: (fun x => 1 * los h A B x) :: walls.flatMap W
  refine flatAtZero_of_pieces L ?_ ?_ hc
  · intro g hg
    simp only [L, List.mem_cons] at hg
    rcases hg with rfl | rfl | rfl | hg
    · exact flatAtZero_const hh A B _
    · exact flatAtZero_const hh A B _
    · exact flatAtZero_const hh A B _
    · obtain ⟨w, hw, hg⟩ := List.mem_flatMap.mp hg
      simp only [W, List.mem_cons, List.not_mem_nil, or_false] at hg
      rcases hg with rfl | rfl | rfl | rfl
      · exact flatAtZero_quotient hh A B (uA w) (vA w) (kA w) _ _ _ (huv w hw) _ _
      · exact flatAtZero_quotient hh A B (uA w) (vA w) (kA w) _ _ _ (huv w hw) _ _
      · exact flatAtZero_quotient hh A B (uB w) (vB w) (kB w) _ _ _ (huv w hw) _ _
      · exact flatAtZero_quotient hh A B (uB w) (vB w) (kB w) _ _ _ (huv w hw) _ _
  · have hz : ∀ᵐ x : ℝ × ℝ, ∀ w ∈ {w | w ∈ walls}, u w * x.1 + v w * x.2 + k w ≠ 0 :=
      (ae_ball_iff (List.finite_toSet walls).countable).mpr fun w hw => affine_ae _ _ _ (huv w hw)
    filter_upwards [hz] with x hx
    have hx' : ∀ᶠ y in 𝓝 x, ∀ w ∈ {w | w ∈ walls}, u w * y.1 + v w * y.2 + k w ≠ 0 :=
      (Set.Finite.eventually_all (List.finite_toSet walls)).mpr fun w hw => (affine_analytic (u w) (v w) (k w) x).continuousAt.eventually_ne (hx w hw)
    filter_upwards [hx'] with y hy
    have hzero : ∃ g ∈ L, 0 * los h A B y = g y := ⟨_, List.mem_cons_of_mem _ List.mem_cons_self, rfl⟩
    have hone : ∃ g ∈ L, 1 * los h A B y = g y := ⟨_, List.mem_cons_of_mem _ (List.mem_cons_of_mem _ List.mem_cons_self), rfl⟩
    rw [sight_eval]
    generalize hM : (walls.map (crossing (fun y => hst (a * y)) patch (t y) (r y))).foldl max 0 = M
    have hM0 : 0 ≤ M := by rw [← hM]; exact (le_foldl_max _ _).1
    rw [min_eq_right (by linarith : (1 : ℝ) - M ≤ 1)]
    rcases min_choice (1 - M) (hst (a * tol)) with e | e
    · rw [e]
      rcases foldl_max_cases (walls.map (crossing (fun y => hst (a * y)) patch (t y) (r y))) 0 with hm | hm
      · rw [hM] at hm
        rw [hm, sub_zero]
        exact hone
      · rw [hM] at hm
        obtain ⟨w, hw, ew⟩ := List.mem_map.mp hm
        have hne : segD (pointAt w.1 w.2 (-patch)) (pointAt w.1 w.2 (1 + patch)) (t y) (r y) ≠ 0 := by rw [hD w hw]; exact hy w hw
        rw [crossing, fmSeg_eval_of_ne _ _ hne, hD w hw, hA w hw, hB w hw] at ew
        have low : ∀ b, Q b w (-(a / 6)) (1 / 2 - a / 1200) ∈ W w → M = hst (a * (N b w y / (u w * y.1 + v w * y.2 + k w) + 1 / 200)) → ∃ g ∈ L, (1 - M) * los h A B y = g y := by
          intro b hb hm
          rcases hst_cases (a * (N b w y / (u w * y.1 + v w * y.2 + k w) + 1 / 200)) with e' | e' | e' <;> rw [e'] at hm
          · rw [hm, sub_zero]; exact hone
          · rw [hm, sub_self]; exact hzero
          · refine ⟨_, List.mem_cons_of_mem _ (List.mem_cons_of_mem _ (List.mem_cons_of_mem _ (List.mem_flatMap.mpr ⟨w, hw, hb⟩))), ?_⟩
            simp only [Q]
            rw [hm]
            congr 1
            ring
        have high : ∀ b, Q b w (a / 6) (1 / 2 - a * (201 / 200) / 6) ∈ W w → M = hst (a * (1 + 1 / 200 - N b w y / (u w * y.1 + v w * y.2 + k w))) → ∃ g ∈ L, (1 - M) * los h A B y = g y := by
          intro b hb hm
          rcases hst_cases (a * (1 + 1 / 200 - N b w y / (u w * y.1 + v w * y.2 + k w))) with e' | e' | e' <;> rw [e'] at hm
          · rw [hm, sub_zero]; exact hone
          · rw [hm, sub_self]; exact hzero
          · refine ⟨_, List.mem_cons_of_mem _ (List.mem_cons_of_mem _ (List.mem_cons_of_mem _ (List.mem_flatMap.mpr ⟨w, hw, hb⟩))), ?_⟩
            simp only [Q]
            rw [hm]
            congr 1
            ring
        rcases min_choice (min (hst (a * (N true w y / (u w * y.1 + v w * y.2 + k w) + 1 / 200))) (hst (a * (1 + 1 / 200 - N true w y / (u w * y.1 + v w * y.2 + k w)))))
          (min (hst (a * (N false w y / (u w * y.1 + v w * y.2 + k w) + 1 / 200))) (hst (a * (1 + 1 / 200 - N false w y / (u w * y.1 + v w * y.2 + k w))))) with e1 | e1
        · rcases min_choice (hst (a * (N true w y / (u w * y.1 + v w * y.2 + k w) + 1 / 200))) (hst (a * (1 + 1 / 200 - N true w y / (u w * y.1 + v w * y.2 + k w)))) with e2 | e2
          · exact low true (by simp [W]) (ew.symm.trans (e1.trans e2))
          · exact high true (by simp [W]) (ew.symm.trans (e1.trans e2))
        · rcases min_choice (hst (a * (N false w y / (u w * y.1 + v w * y.2 + k w) + 1 / 200))) (hst (a * (1 + 1 / 200 - N false w y / (u w * y.1 + v w * y.2 + k w)))) with e2 | e2
          · exact low false (by simp [W]) (ew.symm.trans (e1.trans e2))
          · exact high false (by simp [W]) (ew.symm.trans (e1.trans e2))
    · rw [e]
      exact ⟨_, List.mem_cons_self, rfl⟩

end DiffeRT2d
