import Verif.Lemmas.LitCurve
import Verif.Spec.Grad
import Mathlib.Analysis.Meromorphic.Basic

/-! The power received along a path, when the receiver moves along a line: a meromorphic function that vanishes at infinity. -/

namespace DiffeRT2d
open Filter Topology Polynomial Spec MeasureTheory

theorem poly_ne_zero_atTop {D : ℝ[X]} (h : D.eval 0 ≠ 0) : ∀ᶠ s in atTop, D.eval s ≠ 0 := by
  have hD : D ≠ 0 := by rintro rfl; simp at h
  have : (D.rootSet ℝ).Finite := D.rootSet_finite ℝ
  have hf : {s | D.eval s = 0}.Finite := by
    refine (D.roots.toFinset.finite_toSet).subset fun s hs => ?_
    simp only [Finset.mem_coe, Multiset.mem_toFinset, mem_roots hD]
    exact hs
  obtain ⟨B, hB⟩ := hf.bddAbove
  filter_upwards [eventually_gt_atTop B] with s hs h0
  exact absurd (hB h0) (not_le.mpr hs)

theorem poly_merom (D : ℝ[X]) (s : ℝ) : MeromorphicAt (fun s => D.eval s) s := (poly_analyticAt D s).meromorphicAt

/-- The length of a segment between two points whose coordinates are quotients of polynomials. -/
theorem seg_curve (eps : ℝ) (X Y D X' Y' D' : ℝ[X]) (hD : D.eval 0 ≠ 0) (hD' : D'.eval 0 ≠ 0)
    (hne : (⟨X'.eval 0 / D'.eval 0, Y'.eval 0 / D'.eval 0⟩ : Pt) ≠ ⟨X.eval 0 / D.eval 0 - eps, Y.eval 0 / D.eval 0 - eps⟩) :
    ∃ l : ℝ → ℝ, (∀ s, MeromorphicAt l s) ∧
      (∀ᶠ s in 𝓝 (0 : ℝ), l s = eucl ⟨X.eval s / D.eval s, Y.eval s / D.eval s⟩ ⟨X'.eval s / D'.eval s + eps, Y'.eval s / D'.eval s + eps⟩) ∧
      ∀ᶠ s in atTop, |l s| = eucl ⟨X.eval s / D.eval s, Y.eval s / D.eval s⟩ ⟨X'.eval s / D'.eval s + eps, Y'.eval s / D'.eval s + eps⟩ := by
  obtain ⟨ρ, r1, r2⟩ := exists_root ((X' * D + C eps * D * D' - X * D') ^ 2 + (Y' * D + C eps * D * D' - Y * D') ^ 2) fun s => by
    simp only [eval_add, eval_pow]
    positivity
  have sq : ∀ s, D.eval s ≠ 0 → D'.eval s ≠ 0 → (ρ s / (D.eval s * D'.eval s)) ^ 2 =
      (X'.eval s / D'.eval s + eps - X.eval s / D.eval s) ^ 2 + (Y'.eval s / D'.eval s + eps - Y.eval s / D.eval s) ^ 2 := by
    intro s h h'
    rw [div_pow, r2]
    simp only [eval_add, eval_pow, eval_sub, eval_mul, eval_C]
    field_simp
  have hab : ∀ s, D.eval s ≠ 0 → D'.eval s ≠ 0 → |ρ s / (D.eval s * D'.eval s)| =
      eucl ⟨X.eval s / D.eval s, Y.eval s / D.eval s⟩ ⟨X'.eval s / D'.eval s + eps, Y'.eval s / D'.eval s + eps⟩ := by
    intro s h h'
    rw [eucl, ← sq s h h', Real.sqrt_sq_eq_abs]
  have hm : ∀ s, MeromorphicAt (fun s => ρ s / (D.eval s * D'.eval s)) s := fun s => (r1 s).meromorphicAt.div ((poly_merom D s).mul (poly_merom D' s))
  have hc : ContinuousAt (fun s => ρ s / (D.eval s * D'.eval s)) 0 :=
    (r1 0).continuousAt.div ((poly_analyticAt D 0).continuousAt.mul (poly_analyticAt D' 0).continuousAt) (mul_ne_zero hD hD')
  have h0 : ρ 0 / (D.eval 0 * D'.eval 0) ≠ 0 := by
    intro e
    have := sq 0 hD hD'
    rw [e] at this
    apply hne
    have k1 : X'.eval 0 / D'.eval 0 + eps - X.eval 0 / D.eval 0 = 0 := by nlinarith [sq_nonneg (X'.eval 0 / D'.eval 0 + eps - X.eval 0 / D.eval 0), sq_nonneg (Y'.eval 0 / D'.eval 0 + eps - Y.eval 0 / D.eval 0)]
    have k2 : Y'.eval 0 / D'.eval 0 + eps - Y.eval 0 / D.eval 0 = 0 := by nlinarith [sq_nonneg (X'.eval 0 / D'.eval 0 + eps - X.eval 0 / D.eval 0), sq_nonneg (Y'.eval 0 / D'.eval 0 + eps - Y.eval 0 / D.eval 0)]
    ext
    · simp only; linarith
    · simp only; linarith
  have n1 : ∀ᶠ s in 𝓝 (0 : ℝ), D.eval s ≠ 0 := (poly_analyticAt D 0).continuousAt.eventually_ne hD
  have n2 : ∀ᶠ s in 𝓝 (0 : ℝ), D'.eval s ≠ 0 := (poly_analyticAt D' 0).continuousAt.eventually_ne hD'
  have t1 := poly_ne_zero_atTop hD
  have t2 := poly_ne_zero_atTop hD'
  rcases lt_or_gt_of_ne h0 with h0 | h0
  · refine ⟨fun s => -(ρ s / (D.eval s * D'.eval s)), fun s => (hm s).neg, ?_, ?_⟩
    · filter_upwards [n1, n2, hc.eventually_lt_const h0] with s m1 m2 m3
      rw [← hab s m1 m2, abs_of_neg m3]
    · filter_upwards [t1, t2] with s m1 m2
      rw [abs_neg, hab s m1 m2]
  · refine ⟨fun s => ρ s / (D.eval s * D'.eval s), hm, ?_, ?_⟩
    · filter_upwards [n1, n2, hc.eventually_const_lt h0] with s m1 m2 m3
      rw [← hab s m1 m2, abs_of_pos m3]
    · filter_upwards [t1, t2] with s m1 m2
      rw [hab s m1 m2]

theorem eucl_ge (p q : Pt) : |q.x - p.x| ≤ eucl p q ∧ |q.y - p.y| ≤ eucl p q := by
  constructor
  · rw [← Real.sqrt_sq_eq_abs]
    exact Real.sqrt_le_sqrt (by nlinarith [sq_nonneg (q.y - p.y)])
  · rw [← Real.sqrt_sq_eq_abs]
    exact Real.sqrt_le_sqrt (by nlinarith [sq_nonneg (q.x - p.x)])

/-- An affine function that moves, minus a function with a limit. -/
theorem abs_affine {f : ℝ → ℝ} {l : ℝ} (hf : Tendsto f atTop (𝓝 l)) (a b c : ℝ) (hb : b ≠ 0) : Tendsto (fun s : ℝ => |a + s * b + c - f s|) atTop atTop := by
  have h1 : Tendsto (fun s : ℝ => |s * b|) atTop atTop := by
    have : (fun s : ℝ => |s * b|) = fun s : ℝ => |s| * |b| := by funext s; exact abs_mul s b
    rw [this]
    exact tendsto_abs_atTop_atTop.atTop_mul_const (abs_pos.mpr hb)
  have h2 : Tendsto (fun s : ℝ => |f s - a - c|) atTop (𝓝 |l - a - c|) := ((hf.sub_const a).sub_const c).abs
  have h3 : Tendsto (fun s : ℝ => |s * b| - |f s - a - c|) atTop atTop := by
    have := h1.atTop_add h2.neg
    simpa only [sub_eq_add_neg] using this
  refine tendsto_atTop_mono (fun s => ?_) h3
  have := abs_sub_abs_le_abs_sub (s * b) (f s - a - c)
  rw [show a + s * b + c - f s = s * b - (f s - a - c) by ring]
  exact this

/-- The length of a path to a receiver that moves along a line. -/
theorem length_curve (eps : ℝ) (y : Pt) (d : ℝ × ℝ) (hd : d ≠ 0) (ps : List (ℝ → Pt)) (p0 : ℝ → Pt) (h0 : Curve p0) (hps : ∀ p ∈ ps, Curve p)
    (hoff : OffGuard eps (p0 0 :: ps.map (· 0) ++ [onLine y d 0])) :
    ∃ L : ℝ → ℝ, (∀ s, MeromorphicAt L s) ∧ (∀ᶠ s in 𝓝 (0 : ℝ), guardedLength eps (p0 s :: ps.map (· s) ++ [onLine y d s]) = L s) ∧ Tendsto (fun s => |L s|) atTop atTop := by
  obtain ⟨X, Y, D, l, hD, he, hx, hy⟩ := h0
  induction ps generalizing p0 X Y D l with
  | nil =>
    have hne := hoff 0 _ _ rfl rfl
    rw [he.self_of_nhds] at hne
    obtain ⟨L, m1, m2, m3⟩ := seg_curve eps X Y D (C y.x + Polynomial.X * C d.1) (C y.y + Polynomial.X * C d.2) 1 hD (by simp) (by simpa [onLine] using hne)
    simp only [eval_add, eval_mul, eval_C, eval_X, eval_one, div_one] at m2 m3
    refine ⟨L, m1, ?_, ?_⟩
    · filter_upwards [he, m2] with s hs hL
      rw [hL, hs]
      simp [guardedLength, onLine]
    · have hmain : Tendsto (fun s => eucl ⟨X.eval s / D.eval s, Y.eval s / D.eval s⟩ ⟨y.x + s * d.1 + eps, y.y + s * d.2 + eps⟩) atTop atTop := by
        by_cases h1 : d.1 = 0
        · have h2 : d.2 ≠ 0 := fun h2 => hd (Prod.ext h1 h2)
          exact tendsto_atTop_mono (fun s => (eucl_ge _ _).2) (abs_affine hy y.y d.2 eps h2)
        · exact tendsto_atTop_mono (fun s => (eucl_ge _ _).1) (abs_affine hx y.x d.1 eps h1)
      exact hmain.congr' (m3.mono fun s hs => hs.symm)
  | cons p ps ih =>
    obtain ⟨X', Y', D', l', hD', he', hx', hy'⟩ := hps p (by simp)
    have hne := hoff 0 _ _ rfl rfl
    simp only [he.self_of_nhds, he'.self_of_nhds] at hne
    obtain ⟨L0, m1, m2, m3⟩ := seg_curve eps X Y D X' Y' D' hD hD' hne
    obtain ⟨L, k1, k2, k3⟩ := ih p (fun q hq => hps q (by simp [hq])) (fun i a b ha hb => hoff (i + 1) a b (by simpa using ha) (by simpa using hb)) X' Y' D' l' hD' he' hx' hy'
    refine ⟨fun s => L0 s + L s, fun s => (m1 s).add (k1 s), ?_, ?_⟩
    · filter_upwards [he, he', m2, k2] with s e1 e2 e3 e4
      simp only [List.map_cons, List.cons_append, guardedLength] at e4 ⊢
      rw [e4, e3, e1, e2]
    · have hl : Tendsto (fun s => eucl ⟨X.eval s / D.eval s, Y.eval s / D.eval s⟩ ⟨X'.eval s / D'.eval s + eps, Y'.eval s / D'.eval s + eps⟩) atTop
          (𝓝 (Real.sqrt ((l'.x + eps - l.x) ^ 2 + (l'.y + eps - l.y) ^ 2))) := by
        refine (Real.continuous_sqrt.tendsto _).comp ?_
        exact (((hx'.add_const eps).sub hx).pow 2).add (((hy'.add_const eps).sub hy).pow 2)
      have hb := hl.congr' (m3.mono fun s hs => hs.symm)
      have h3 : Tendsto (fun s : ℝ => |L s| - |L0 s|) atTop atTop := by
        have := k3.atTop_add hb.neg
        simpa only [sub_eq_add_neg] using this
      refine tendsto_atTop_mono (fun s => ?_) h3
      have := abs_sub_abs_le_abs_sub (L s) (-L0 s)
      rw [abs_neg, sub_neg_eq_add] at this
      simp only [add_comm (L0 s)]
      exact this

/-- The power received along a path, when the receiver moves along a line in almost any direction. -/
theorem power_curve (eps coef height : ℝ) (t y : Pt) (ws : List RWall) (hu : Unguarded t y ws) (hoff : OffGuard eps (rpath t y ws)) :
    ∀ᵐ d : ℝ × ℝ, ∃ f : ℝ → ℝ, (∀ s, MeromorphicAt f s) ∧ (∀ᶠ s in 𝓝 (0 : ℝ), powerAlong eps coef height (rpath t (onLine y d s) ws) = f s) ∧ Tendsto f atTop (𝓝 0) := by
  obtain ⟨-, -, -, -, -, -, -, -, -, -, h⟩ := rpts_line ws t y hu
  filter_upwards [h, affine_ae 1 0 0 (by simp)] with d ⟨ps, hps, hcv⟩ hd
  have hd0 : d ≠ 0 := by rintro rfl; simp at hd
  have e0 : onLine y d 0 = y := by simp [onLine]
  have e : ∀ s, rpath t (onLine y d s) ws = t :: ps.map (· s) ++ [onLine y d s] := fun s => by rw [rpath, hps s]
  obtain ⟨L, m1, m2, m3⟩ := length_curve eps y d hd0 ps (fun _ => t) (.const t) hcv (by rw [← e 0, e0]; exact hoff)
  have hlen : ∀ s, (t :: ps.map (· s) ++ [onLine y d s]).length - 2 = ps.length := fun s => by simp
  refine ⟨fun s => coef ^ ps.length / (height ^ 2 + L s ^ 2), fun s => (MeromorphicAt.const _ _).div ((MeromorphicAt.const _ _).add ((m1 s).pow 2)), ?_, ?_⟩
  · filter_upwards [m2] with s hs
    rw [e s, powerAlong, hs, hlen]
  · refine Tendsto.div_atTop tendsto_const_nhds ?_
    refine tendsto_atTop_add_const_left _ _ ?_
    have : (fun s => L s ^ 2) = fun s => |L s| * |L s| := by funext s; rw [← sq, sq_abs]
    rw [this]
    exact m3.atTop_mul_atTop₀ m3

/-- A sum of powers that is constant near a position of the receiver is zero. -/
theorem sum_const_zero {ι : Type} (A : Finset ι) (ws : ι → List RWall) (eps coef height : ℝ) (t : ι → Pt) (y : Pt)
    (h : ∀ i ∈ A, Unguarded (t i) y (ws i) ∧ OffGuard eps (rpath (t i) y (ws i))) {c : ℝ}
    (hc : ∀ᶠ q : ℝ × ℝ in 𝓝 (y.x, y.y), ∑ i ∈ A, powerAlong eps coef height (rpath (t i) ⟨q.1, q.2⟩ (ws i)) = c) : c = 0 := by
  have hall : ∀ᵐ d : ℝ × ℝ, ∀ i ∈ A, ∃ f : ℝ → ℝ, (∀ s, MeromorphicAt f s) ∧
      (∀ᶠ s in 𝓝 (0 : ℝ), powerAlong eps coef height (rpath (t i) (onLine y d s) (ws i)) = f s) ∧ Tendsto f atTop (𝓝 0) :=
    (ae_ball_iff A.countable_toSet).mpr fun i hi => power_curve eps coef height (t i) y (ws i) (h i hi).1 (h i hi).2
  obtain ⟨d, hd⟩ := hall.exists
  choose! f h1 h2 h3 using hd
  have hline : Tendsto (fun s : ℝ => (y.x + s * d.1, y.y + s * d.2)) (𝓝 0) (𝓝 (y.x, y.y)) := by
    have : Continuous fun s : ℝ => (y.x + s * d.1, y.y + s * d.2) := by fun_prop
    simpa using this.tendsto 0
  refine const_eq_zero (f := fun s => ∑ i ∈ A, f i s) (fun s => ?_) ?_ ?_
  · exact MeromorphicAt.fun_sum fun i hi => h1 i hi s
  · have hs : ∀ᶠ s in 𝓝 (0 : ℝ), ∀ i ∈ A, powerAlong eps coef height (rpath (t i) (onLine y d s) (ws i)) = f i s := (Filter.eventually_all_finset A).mpr h2
    filter_upwards [hline.eventually hc, hs] with s e1 e2
    rw [← e1]
    exact (Finset.sum_congr rfl e2).symm
  · have := tendsto_finset_sum A h3
    simpa using this

end DiffeRT2d
