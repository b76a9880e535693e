import Verif.Lemmas.Directions
import Verif.Props.GradNan
import Verif.Props.LitFlat

/-! # Property C144: the gradients of the received power point along the rays -/

namespace DiffeRT2d.Props
open Classical Spec Filter Topology

theorem un_self (o d p : Pt) : un o d p p = 0 := by
  rw [un_parallel]
  simp [Parallel]

theorem moves_of_unguarded {t r : Pt} {ws : List (Pt × Pt)} (hne : ws ≠ []) (h : Unguarded t r ws) : Moves (rpath t r ws) := by
  by_contra hm
  cases ws with
  | nil => exact hne rfl
  | cons w ws =>
    have heq : ∀ p ∈ rpath t r (w :: ws), p = t := by
      intro p hp
      by_contra hpt
      exact hm ⟨p, hp, t, by simp [rpath], hpt⟩
    have hr : r = t := heq r (by simp [rpath])
    have h1 : rback w.1 w.2 (rimg w.1 w.2 t) ((rpts (rimg w.1 w.2 t) r ws).headD r) = t := heq _ (by simp [rpath, rpts])
    have hon := rback_on h.1
    rw [h1] at hon
    have him : rimg w.1 w.2 t = t := by
      ext <;> simp [rimg, hon]
    have hhead : (rpts (rimg w.1 w.2 t) r ws).headD r = t := by
      cases hp : rpts (rimg w.1 w.2 t) r ws with
      | nil => exact hr
      | cons p l => exact heq p (by simp [rpath, rpts, hp])
    apply h.1
    rw [hhead, him, un_self]

theorem noPause_accepted {t r : Pt} {ws : List (Pt × Pt)} (hne : ws ≠ []) (h : Unguarded t r ws) (hl : (scores ws (rpath t r ws)).sum < 1) : NoPause (rpath t r ws) :=
  noPause_of_specular (C73_sound t r ws (unguarded_ne h) _ _ (traceImage_eq t r ws) hl (moves_of_unguarded hne h)) hne

theorem eucl_deriv {p : Pt} {x : ℝ × ℝ} (h : p ≠ ⟨x.1, x.2⟩) :
    HasFDerivAt (fun q : ℝ × ℝ => eucl p ⟨q.1, q.2⟩) (((x.1 - p.x) / eucl p ⟨x.1, x.2⟩) • ContinuousLinearMap.fst ℝ ℝ ℝ + ((x.2 - p.y) / eucl p ⟨x.1, x.2⟩) • ContinuousLinearMap.snd ℝ ℝ ℝ) x := by
  have hpos : 0 < (x.1 - p.x) ^ 2 + (x.2 - p.y) ^ 2 := by
    rcases eq_or_ne (x.1 - p.x) 0 with h1 | h1
    · have : x.2 - p.y ≠ 0 := fun h2 => h (by ext <;> simp <;> linarith)
      positivity
    · positivity
  have hd : HasFDerivAt (fun q : ℝ × ℝ => (q.1 - p.x) ^ 2 + (q.2 - p.y) ^ 2)
      ((2 * (x.1 - p.x)) • ContinuousLinearMap.fst ℝ ℝ ℝ + (2 * (x.2 - p.y)) • ContinuousLinearMap.snd ℝ ℝ ℝ) x := by
    have a1 := ((hasFDerivAt_fst (𝕜 := ℝ) (p := x)).sub_const p.x).pow 2
    have a2 := ((hasFDerivAt_snd (𝕜 := ℝ) (p := x)).sub_const p.y).pow 2
    refine (a1.add a2).congr_fderiv ?_
    ext <;> simp
  refine (hd.sqrt hpos.ne').congr_fderiv ?_
  have hs : Real.sqrt ((x.1 - p.x) ^ 2 + (x.2 - p.y) ^ 2) ≠ 0 := (Real.sqrt_pos.mpr hpos).ne'
  ext <;> simp [eucl] <;> field_simp

theorem eucl_symm (p q : Pt) : eucl p q = eucl q p := by
  unfold eucl; congr 1; ring

theorem smooth_snd {X : Type} [NormedAddCommGroup X] [NormedSpace ℝ X] {x0 : X} {t : X → Pt} (ht : SmoothAt 1 t x0) (e : ℝ) : SmoothAt 1 (fun p : ℝ × X => t p.2) (e, x0) :=
  ⟨ContDiffAt.comp (g := fun x => (t x).x) (f := Prod.snd) (e, x0) ht.1 contDiffAt_snd, ContDiffAt.comp (g := fun x => (t x).y) (f := Prod.snd) (e, x0) ht.2 contDiffAt_snd⟩

theorem power_smooth {X : Type} [NormedAddCommGroup X] [NormedSpace ℝ X] {x0 : X} {t r : X → Pt} (ht : SmoothAt 1 t x0) (hr : SmoothAt 1 r x0) (coef : ℝ) {height : ℝ} (hh : 0 < height)
    {ws : List (Pt × Pt)} (hu : Unguarded (t x0) (r x0) ws) (hl : (scores ws (rpath (t x0) (r x0) ws)).sum < 1) :
    ContDiffAt ℝ 1 (fun p : ℝ × X => powerAlong p.1 coef height (rpath (t p.2) (r p.2) ws)) (0, x0) := by
  have ht' : SmoothAt 1 (fun p : ℝ × X => t p.2) (0, x0) := smooth_snd ht 0
  have hr' : SmoothAt 1 (fun p : ℝ × X => r p.2) (0, x0) := smooth_snd hr 0
  by_cases hne : ws = []
  · subst hne
    have : (fun p : ℝ × X => powerAlong p.1 coef height (rpath (t p.2) (r p.2) [])) =
        fun p : ℝ × X => 1 / (height ^ 2 + (((r p.2).x + p.1 - (t p.2).x) ^ 2 + ((r p.2).y + p.1 - (t p.2).y) ^ 2)) := by
      funext p
      simp only [powerAlong, rpath, rpts, guardedLength, List.cons_append, List.nil_append, List.length_cons, List.length_nil, eucl]
      rw [add_zero, Real.sq_sqrt (by positivity)]
      norm_num
    rw [this]
    refine contDiffAt_const.div (contDiffAt_const.add ?_) (by positivity)
    exact (((hr'.1.add contDiffAt_fst).sub ht'.1).pow 2).add (((hr'.2.add contDiffAt_fst).sub ht'.2).pow 2)
  · have hp := noPause_accepted hne hu hl
    have hg := guardedPath_smooth (n := 1) (eps := fun p : ℝ × X => p.1) (x0 := ((0 : ℝ), x0)) contDiffAt_fst rfl ht' hr' (unguarded_ne hu) hp
    simp only [powerAlong, rpath_length]
    exact contDiffAt_const.div (contDiffAt_const.add (hg.pow 2)) (by positivity)

/-- From the derivative of the length to that of the power. -/
theorem power_deriv {L : ℝ × ℝ → ℝ} {L' : ℝ × ℝ →L[ℝ] ℝ} {x : ℝ × ℝ} (h : HasFDerivAt L L' x) (k : ℝ) {height : ℝ} (hh : 0 < height) :
    HasFDerivAt (fun q => k / (height ^ 2 + L q ^ 2)) ((-(2 * k * L x / (height ^ 2 + L x ^ 2) ^ 2)) • L') x := by
  have hpos : height ^ 2 + L x ^ 2 ≠ 0 := by positivity
  have h1 : HasFDerivAt (fun q => height ^ 2 + L q ^ 2) ((2 * L x) • L') x := by
    refine ((h.pow 2).const_add (height ^ 2)).congr_fderiv ?_
    ext <;> simp
  have h2 := ((hasDerivAt_inv hpos).comp_hasFDerivAt x h1).const_mul k
  refine (h2.congr_of_eventuallyEq ?_).congr_fderiv ?_
  · exact Eventually.of_forall fun q => by simp [div_eq_mul_inv]
  · ext <;> simp <;> field_simp

theorem polyLength_snoc (l : List Pt) (hl : l ≠ []) (q : Pt) : polyLength (l ++ [q]) = polyLength l + eucl (l.getLast hl) q := by
  induction l with
  | nil => exact absurd rfl hl
  | cons a l ih =>
    cases l with
    | nil => simp [polyLength]
    | cons b l =>
      have := ih (by simp)
      simp only [List.cons_append, polyLength] at this ⊢
      rw [this]
      simp [add_assoc]

theorem noPause_last {l : List Pt} (hl : l ≠ []) {q : Pt} (h : NoPause (l ++ [q])) : l.getLast hl ≠ q := by
  have h0 : 0 < l.length := List.length_pos_iff.mpr hl
  refine h (l.length - 1) _ _ ?_ ?_
  · rw [List.getElem?_append_left (by omega), List.getLast_eq_getElem, List.getElem?_eq_getElem]
  · rw [Nat.sub_add_cancel h0, List.getElem?_append_right le_rfl]
    simp

theorem pullEnd_snoc (coef height : ℝ) (l : List Pt) (hl : l ≠ []) (q : Pt) :
    pullEnd coef height (l ++ [q]) = towards (steepness coef height (l ++ [q])) q (l.getLast hl) := by
  obtain ⟨m, b, rfl⟩ := List.eq_nil_or_concat' l |>.resolve_left hl
  simp [pullEnd]

/-- The vector `g` as a linear map. -/
noncomputable def asMap (g : Pt) : ℝ × ℝ →L[ℝ] ℝ := g.x • ContinuousLinearMap.fst ℝ ℝ ℝ + g.y • ContinuousLinearMap.snd ℝ ℝ ℝ

theorem smooth_id (x : ℝ × ℝ) : SmoothAt 1 (fun q : ℝ × ℝ => (⟨q.1, q.2⟩ : Pt)) x := ⟨contDiffAt_fst, contDiffAt_snd⟩

theorem smooth_const {X : Type} [NormedAddCommGroup X] [NormedSpace ℝ X] {x0 : X} (p : Pt) : SmoothAt 1 (fun _ : X => p) x0 := ⟨contDiffAt_const, contDiffAt_const⟩

/-- Without a wall. -/
theorem sight_deriv (p : Pt) (x : ℝ × ℝ) (coef : ℝ) {height : ℝ} (hh : 0 < height) :
    HasFDerivAt (fun q : ℝ × ℝ => 1 / (height ^ 2 + eucl p ⟨q.1, q.2⟩ ^ 2)) (asMap (towards (2 * eucl p ⟨x.1, x.2⟩ / (height ^ 2 + eucl p ⟨x.1, x.2⟩ ^ 2) ^ 2) ⟨x.1, x.2⟩ p)) x := by
  have hd : HasFDerivAt (fun q : ℝ × ℝ => (q.1 - p.x) ^ 2 + (q.2 - p.y) ^ 2)
      ((2 * (x.1 - p.x)) • ContinuousLinearMap.fst ℝ ℝ ℝ + (2 * (x.2 - p.y)) • ContinuousLinearMap.snd ℝ ℝ ℝ) x := by
    have a1 := ((hasFDerivAt_fst (𝕜 := ℝ) (p := x)).sub_const p.x).pow 2
    have a2 := ((hasFDerivAt_snd (𝕜 := ℝ) (p := x)).sub_const p.y).pow 2
    refine (a1.add a2).congr_fderiv ?_
    ext <;> simp
  have hsq : ∀ q : ℝ × ℝ, eucl p ⟨q.1, q.2⟩ ^ 2 = (q.1 - p.x) ^ 2 + (q.2 - p.y) ^ 2 := fun q => by
    rw [eucl, Real.sq_sqrt (by positivity)]
  have hpos : height ^ 2 + ((x.1 - p.x) ^ 2 + (x.2 - p.y) ^ 2) ≠ 0 := by positivity
  have h2 := (hasDerivAt_inv hpos).comp_hasFDerivAt x (hd.const_add (height ^ 2))
  have key : ∀ d : ℝ, (eucl p ⟨x.1, x.2⟩ = 0 → d = 0) → 2 * eucl p ⟨x.1, x.2⟩ / (height ^ 2 + eucl p ⟨x.1, x.2⟩ ^ 2) ^ 2 * (-d / eucl p ⟨x.1, x.2⟩) =
      -((height ^ 2 + ((x.1 - p.x) ^ 2 + (x.2 - p.y) ^ 2)) ^ 2)⁻¹ * (2 * d) := by
    intro d hd
    rw [hsq]
    rcases eq_or_ne (eucl p ⟨x.1, x.2⟩) 0 with h | h
    · rw [hd h, h]; simp
    · field_simp
  have hz : eucl p ⟨x.1, x.2⟩ = 0 → x.1 - p.x = 0 ∧ x.2 - p.y = 0 := by
    intro h
    have := hsq x
    rw [h] at this
    constructor <;> nlinarith [sq_nonneg (x.1 - p.x), sq_nonneg (x.2 - p.y)]
  refine (h2.congr_of_eventuallyEq ?_).congr_fderiv ?_
  · exact Eventually.of_forall fun q => by simp [hsq]
  · have k1 := key (x.1 - p.x) fun h => (hz h).1
    have k2 := key (x.2 - p.y) fun h => (hz h).2
    rw [neg_sub] at k1 k2
    ext
    · simp [asMap, towards, eucl_symm ⟨x.1, x.2⟩ p, k1]
    · simp [asMap, towards, eucl_symm ⟨x.1, x.2⟩ p, k2]

theorem power_end (t : Pt) (x : ℝ × ℝ) (coef : ℝ) {height : ℝ} (hh : 0 < height) {ws : List (Pt × Pt)} (hu : Unguarded t ⟨x.1, x.2⟩ ws)
    (hl : (scores ws (rpath t ⟨x.1, x.2⟩ ws)).sum < 1) :
    HasFDerivAt (fun q : ℝ × ℝ => powerAlong 0 coef height (rpath t ⟨q.1, q.2⟩ ws)) (asMap (pullEnd coef height (rpath t ⟨x.1, x.2⟩ ws))) x := by
  by_cases hne : ws = []
  · subst hne
    refine ((sight_deriv t x coef hh).congr_of_eventuallyEq (Eventually.of_forall fun q => ?_)).congr_fderiv ?_
    · simp [powerAlong, rpath, rpts, guardedLength]
    · simp [pullEnd, rpath, rpts, steepness, polyLength]
  · have hp := noPause_accepted hne hu hl
    have hw := unguarded_ne hu
    have hlast := noPause_last (l := t :: rpts t ⟨x.1, x.2⟩ ws) (by simp) hp
    obtain ⟨L', hL⟩ : ∃ L' : ℝ × ℝ →L[ℝ] ℝ, HasFDerivAt (fun q : ℝ × ℝ => polyLength (rpath t ⟨q.1, q.2⟩ ws)) L' x := by
      have := guardedPath_smooth (n := 1) (eps := fun _ : ℝ × ℝ => 0) contDiffAt_const rfl (smooth_const t) (smooth_id x) hw hp
      simp only [guardedLength_zero] at this
      exact ⟨_, (this.differentiableAt (by norm_num)).hasFDerivAt⟩
    have hM := (eucl_deriv hlast).const_add (polyLength (t :: rpts t ⟨x.1, x.2⟩ ws))
    have hM' := hM.congr_of_eventuallyEq (Eventually.of_forall fun q : ℝ × ℝ => polyLength_snoc (t :: rpts t ⟨x.1, x.2⟩ ws) (by simp) ⟨q.1, q.2⟩)
    rw [first_variation (smooth_const t) (smooth_id x) hw hp hl hL hM'] at hL
    have := power_deriv hL (coef ^ ws.length) hh
    refine (this.congr_of_eventuallyEq (Eventually.of_forall fun q => ?_)).congr_fderiv ?_
    · simp [powerAlong, rpath_length, guardedLength_zero]
    · have e := pullEnd_snoc coef height (t :: rpts t ⟨x.1, x.2⟩ ws) (by simp) ⟨x.1, x.2⟩
      have e' : t :: rpts t ⟨x.1, x.2⟩ ws ++ [⟨x.1, x.2⟩] = rpath t ⟨x.1, x.2⟩ ws := rfl
      rw [e'] at e
      rw [e, eucl_symm]
      ext <;> simp [asMap, towards, steepness, rpath_length] <;> ring

theorem power_start (r : Pt) (x : ℝ × ℝ) (coef : ℝ) {height : ℝ} (hh : 0 < height) {ws : List (Pt × Pt)} (hu : Unguarded ⟨x.1, x.2⟩ r ws)
    (hl : (scores ws (rpath ⟨x.1, x.2⟩ r ws)).sum < 1) :
    HasFDerivAt (fun q : ℝ × ℝ => powerAlong 0 coef height (rpath ⟨q.1, q.2⟩ r ws)) (asMap (pullStart coef height (rpath ⟨x.1, x.2⟩ r ws))) x := by
  by_cases hne : ws = []
  · subst hne
    refine ((sight_deriv r x coef hh).congr_of_eventuallyEq (Eventually.of_forall fun q => ?_)).congr_fderiv ?_
    · simp [powerAlong, rpath, rpts, guardedLength, eucl_symm r]
    · simp [pullStart, rpath, rpts, steepness, polyLength, eucl_symm r]
  · have hp := noPause_accepted hne hu hl
    have hw := unguarded_ne hu
    obtain ⟨b, ps, hb⟩ : ∃ b ps, rpts ⟨x.1, x.2⟩ r ws ++ [r] = b :: ps := by
      cases h : rpts ⟨x.1, x.2⟩ r ws with
      | nil => exact ⟨r, [], rfl⟩
      | cons p l => exact ⟨p, l ++ [r], rfl⟩
    have hpath : rpath ⟨x.1, x.2⟩ r ws = ⟨x.1, x.2⟩ :: b :: ps := by rw [← hb]; rfl
    have hlast : b ≠ ⟨x.1, x.2⟩ := by
      have := hp
      rw [hpath] at this
      exact (noPause_cons.mp this).1.symm
    obtain ⟨L', hL⟩ : ∃ L' : ℝ × ℝ →L[ℝ] ℝ, HasFDerivAt (fun q : ℝ × ℝ => polyLength (rpath ⟨q.1, q.2⟩ r ws)) L' x := by
      have := guardedPath_smooth (n := 1) (eps := fun _ : ℝ × ℝ => 0) contDiffAt_const rfl (smooth_id x) (smooth_const r) hw hp
      simp only [guardedLength_zero] at this
      exact ⟨_, (this.differentiableAt (by norm_num)).hasFDerivAt⟩
    have hM := (eucl_deriv hlast).add_const (polyLength (b :: ps))
    have hM' : HasFDerivAt (fun q : ℝ × ℝ => polyLength (⟨q.1, q.2⟩ :: rpts ⟨x.1, x.2⟩ r ws ++ [r])) _ x :=
      hM.congr_of_eventuallyEq (Eventually.of_forall fun q : ℝ × ℝ => by
        show polyLength (⟨q.1, q.2⟩ :: (rpts ⟨x.1, x.2⟩ r ws ++ [r])) = eucl b ⟨q.1, q.2⟩ + polyLength (b :: ps)
        rw [hb, polyLength, eucl_symm])
    rw [first_variation (smooth_id x) (smooth_const r) hw hp hl hL hM'] at hL
    have := power_deriv hL (coef ^ ws.length) hh
    refine (this.congr_of_eventuallyEq (Eventually.of_forall fun q => ?_)).congr_fderiv ?_
    · simp [powerAlong, rpath_length, guardedLength_zero]
    · have e : pullStart coef height (rpath ⟨x.1, x.2⟩ r ws) = towards (steepness coef height (rpath ⟨x.1, x.2⟩ r ws)) ⟨x.1, x.2⟩ b := by
        simp only [pullStart, hpath]
      rw [e, eucl_symm]
      ext <;> simp [asMap, towards, steepness, rpath_length] <;> ring

theorem offGuard_cons {eps : ℝ} {a b : Pt} {ps : List Pt} : OffGuard eps (a :: b :: ps) ↔ b ≠ ⟨a.x - eps, a.y - eps⟩ ∧ OffGuard eps (b :: ps) := by
  constructor
  · exact fun h => ⟨h 0 a b rfl rfl, fun i p q hp hq => h (i + 1) p q hp hq⟩
  · rintro ⟨h1, h2⟩ i p q hp hq
    cases i with
    | zero =>
      simp only [List.getElem?_cons_zero, Option.some.injEq, zero_add, List.getElem?_cons_succ] at hp hq
      subst hp hq
      exact h1
    | succ i => exact h2 i p q hp hq

/-- All guards but finitely many are off the path, in particular all the small ones but zero. -/
theorem offGuard_small (pts : List Pt) : ∀ᶠ ε in 𝓝[≠] (0 : ℝ), OffGuard ε pts := by
  induction pts with
  | nil => exact Eventually.of_forall fun ε i a b h => by simp at h
  | cons a ps ih =>
    cases ps with
    | nil => exact Eventually.of_forall fun ε i a b h h' => by simp at h'
    | cons b ps =>
      have h1 : ∀ᶠ ε in 𝓝[≠] (0 : ℝ), b ≠ ⟨a.x - ε, a.y - ε⟩ := by
        by_cases hx : b.x = a.x
        · filter_upwards [self_mem_nhdsWithin] with ε hε e
          have := congrArg V2.x e
          simp only at this
          exact hε (show ε = 0 by linarith)
        · have : ∀ᶠ ε in 𝓝 (0 : ℝ), ε ≠ a.x - b.x := isOpen_ne.mem_nhds (by intro e; exact hx (by linarith))
          filter_upwards [nhdsWithin_le_nhds this] with ε hε e
          have := congrArg V2.x e
          simp only at this
          exact hε (by linarith)
      filter_upwards [h1, ih] with ε h1 h2
      exact offGuard_cons.mpr ⟨h1, h2⟩

theorem limit_gradient {ι : Type} (A : Finset ι) (f : ι → ℝ × (ℝ × ℝ) → ℝ) (x : ℝ × ℝ) (g : ι → Pt) (hs : ∀ c ∈ A, ContDiffAt ℝ 1 (f c) (0, x))
    (hd : ∀ c ∈ A, HasFDerivAt (fun q => f c (0, q)) (asMap (g c)) x) (G : ℝ → V2 F)
    (hG : ∀ᶠ ε in 𝓝[≠] (0 : ℝ), GradientAt (fun q => ∑ c ∈ A, f c (ε, q)) x (G ε)) :
    ∃ k : ℝ → Pt, (∀ᶠ ε in 𝓝[≠] (0 : ℝ), G ε = V2.fin (k ε)) ∧
      Tendsto (fun ε => (k ε).x) (𝓝[≠] 0) (𝓝 (∑ c ∈ A, (g c).x)) ∧ Tendsto (fun ε => (k ε).y) (𝓝[≠] 0) (𝓝 (∑ c ∈ A, (g c).y)) := by
  have hsum : ContDiffAt ℝ 1 (fun p : ℝ × (ℝ × ℝ) => ∑ c ∈ A, f c p) (0, x) := ContDiffAt.sum hs
  have h0 : HasFDerivAt (fun q => ∑ c ∈ A, f c (0, q)) (∑ c ∈ A, asMap (g c)) x := HasFDerivAt.fun_sum hd
  have ht := fun v => partial_tendsto hsum v
  simp only [h0.fderiv] at ht
  refine ⟨fun ε => ⟨fderiv ℝ (fun q => ∑ c ∈ A, f c (ε, q)) x (1, 0), fderiv ℝ (fun q => ∑ c ∈ A, f c (ε, q)) x (0, 1)⟩, ?_, ?_, ?_⟩
  · filter_upwards [hG] with ε hε
    obtain ⟨v', h1, h2⟩ := hε
    rw [h2, h1.fderiv]
  · have := (ht (1, 0)).mono_left (nhdsWithin_le_nhds (s := {0}ᶜ))
    simpa [asMap, ContinuousLinearMap.sum_apply] using this
  · have := (ht (0, 1)).mono_left (nhdsWithin_le_nhds (s := {0}ᶜ))
    simpa [asMap, ContinuousLinearMap.sum_apply] using this

/-- **C144.** In hard mode, the gradient that `accumulate_on_receivers_grid_over_paths` computes for the received power is, as the
guard `ε` of the lengths tends to zero, the sum over the valid paths of vectors that point from the receiver to the last interaction of
the path (or to the transmitter, in line of sight), provided the reflection points of all the candidates are determined; otherwise it is NaN. -/
theorem C144_receivers (G : GraphLib) (hG : GraphContract G) (tx rx : PyDict Pt) (ht : Distinct tx) (walls : List (Pt × Pt))
    (lo hi : ℤ) (hlo : 0 ≤ lo) (hex : ∃ c, InRange walls.length lo hi c)
    (E : Env) (ap : Option Bool) (hh : Hard E ap) (tol patch : ℝ) (htol : tol ≤ 1) (kw : Rev.ActKw Rev.Coord) (kw' : ActKw) (hk : SameKw kw kw')
    (coef height : ℝ) (hht : 0 < height) :
    ∃ (gradient : ℝ → String × Pt → ℝ × ℝ → V2 F) (points : Pt → ℝ × ℝ → List ℤ → List Pt) (accepted : Pt → ℝ × ℝ → Finset (List ℤ)),
      (∀ (ε : ℝ) (P : Scene.Grid (ℝ × ℝ)),
        Rev.accumulateOnReceiversGrid (wallScene tx rx walls) G { minOrder := lo, maxOrder := hi } ⟨{ E with eps := ε }, F.fin tol, F.fin patch, ap, kw⟩ true false
          (Rev.receivedPower { E with eps := ε } (F.fin coef) (F.fin height))
          (gridX P) (gridY P) = .ok (tx.map fun t => (t.1, .gradient (P.map fun row => row.map (gradient ε t))))) ∧
      (∀ t r c, ∃ loss, traceImage t (wallsAt walls c) ⟨r.1, r.2⟩ = .ok (finitePath (points t r c) loss)) ∧
      (∀ (ε : ℝ) t r c, c ∈ accepted t r ↔ InRange walls.length lo hi c ∧ ∀ path, traceImage t (wallsAt walls c) ⟨r.1, r.2⟩ = .ok path →
        path.isValid { E with eps := ε } ((wallsOf walls).map Obj.interact) c ((wallsOf (wallsAt walls c)).map Obj.interact) (F.fin tol) (F.fin patch) ap kw' = .ok (.b true)) ∧
      ∀ t ∈ tx, ∀ r : ℝ × ℝ,
        ((∀ c, InRange walls.length lo hi c → Determined t.2 (wallsAt walls c) (points t.2 r c)) →
          ∃ g : ℝ → Pt, (∀ᶠ ε in 𝓝[≠] (0 : ℝ), gradient ε t r = V2.fin (g ε)) ∧
            Tendsto (fun ε => (g ε).x) (𝓝[≠] 0) (𝓝 (∑ c ∈ accepted t.2 r, (pullEnd coef height (points t.2 r c)).x)) ∧
            Tendsto (fun ε => (g ε).y) (𝓝[≠] 0) (𝓝 (∑ c ∈ accepted t.2 r, (pullEnd coef height (points t.2 r c)).y))) ∧
        ((∃ c, InRange walls.length lo hi c ∧ ¬ Determined t.2 (wallsAt walls c) (points t.2 r c)) → ∀ ε, gradient ε t r = ⟨F.nan, F.nan⟩) := by
  obtain ⟨cs, hcs, hcd, hcm, hne⟩ := cands_walls G hG tx rx walls lo hi hlo hex
  have hhe : ∀ ε, Hard { E with eps := ε } ap := fun ε => hh
  have H := fun ε => C100_receivers (Key := Unit) G hG tx rx ht walls lo hi hlo hex (fun k _ => [k]) none { E with eps := ε } ap (hhe ε) tol patch kw kw' hk coef height hht
  choose value gradient points accepted q1 q2 q3 q4 q5 using H
  have hpts : ∀ ε t r c, points ε t r c = rpath t ⟨r.1, r.2⟩ (wallsAt walls c) := by
    intro ε t r c
    obtain ⟨loss, hl⟩ := q3 ε t r c
    exact (traceImage_iff hl).1
  have hok : ∀ ε t r c, c ∈ accepted ε t r ↔ InRange walls.length lo hi c ∧ HardOk (wallsAt walls c) walls c (rpath t ⟨r.1, r.2⟩ (wallsAt walls c))
      (scores (wallsAt walls c) (rpath t ⟨r.1, r.2⟩ (wallsAt walls c))).sum tol patch := by
    intro ε t r c
    rw [q4]
    refine and_congr_right fun hc => ?_
    have hi := isValid_hardOk (hhe ε) kw' (wallsAt walls c) walls c (rpath t ⟨r.1, r.2⟩ (wallsAt walls c))
      (scores (wallsAt walls c) (rpath t ⟨r.1, r.2⟩ (wallsAt walls c))).sum tol patch (by rw [rpath_length, wallsAt_length hc.1])
    rw [traceImage_eq]
    constructor
    · intro h
      have := (hi.symm.trans (h _ rfl))
      simpa using this
    · intro hok path hp
      obtain rfl := Except.ok.inj hp
      rw [hi, decide_eq_true hok]
  have hacc : ∀ ε t r, accepted ε t r = accepted 0 t r := by
    intro ε t r
    ext c
    rw [hok, hok]
  refine ⟨gradient, points 0, accepted 0, fun ε P => (q2 ε true P).2, q3 0, fun ε t r c => ?_, fun t htm r => ⟨fun hdet => ?_, fun hbad ε => ?_⟩⟩
  · rw [← hacc ε]
    exact q4 ε t r c
  · have hu : ∀ c, InRange walls.length lo hi c → Unguarded t.2 ⟨r.1, r.2⟩ (wallsAt walls c) := by
      intro c hc
      have := hdet c hc
      rwa [hpts, determined_iff] at this
    have hl : ∀ c ∈ accepted 0 t.2 r, (scores (wallsAt walls c) (rpath t.2 ⟨r.1, r.2⟩ (wallsAt walls c))).sum < 1 := by
      intro c hc
      have := ((hok 0 t.2 r c).mp hc).2.2.2
      linarith
    have hin : ∀ c ∈ accepted 0 t.2 r, InRange walls.length lo hi c := fun c hc => ((hok 0 t.2 r c).mp hc).1
    simp only [hpts]
    refine limit_gradient (accepted 0 t.2 r) (fun c p => powerAlong p.1 coef height (rpath t.2 ⟨p.2.1, p.2.2⟩ (wallsAt walls c))) r
      (fun c => pullEnd coef height (rpath t.2 ⟨r.1, r.2⟩ (wallsAt walls c)))
      (fun c hc => power_smooth (smooth_const t.2) (smooth_id r) coef hht (hu c (hin c hc)) (hl c hc))
      (fun c hc => power_end t.2 r coef hht (hu c (hin c hc)) (hl c hc)) (fun ε => gradient ε t r) ?_
    have hoff : ∀ᶠ ε in 𝓝[≠] (0 : ℝ), ∀ c ∈ cs.toFinset, OffGuard ε (rpath t.2 ⟨r.1, r.2⟩ (wallsAt walls c)) :=
      (Filter.eventually_all_finset _).mpr fun c _ => offGuard_small _
    filter_upwards [hoff] with ε hε
    have := (q5 ε t htm r).2.1 fun c hc => ?_
    · simp only [hpts, hacc] at this
      exact this
    · rw [hpts]
      exact ⟨(determined_iff _ _ _).mpr (hu c hc), hε c (by simpa using (hcm c).mpr hc)⟩
  · obtain ⟨c, hc, hb⟩ := hbad
    refine (q5 ε t htm r).2.2 ⟨c, hc, fun h => hb ?_⟩
    rw [hpts]
    have := h.1
    rwa [hpts] at this

/-- **C144.** The same with respect to the transmitter: the vectors point from the transmitter to the first interaction of the path. -/
theorem C144_transmitters (G : GraphLib) (hG : GraphContract G) (tx rx : PyDict Pt) (hr : Distinct rx) (walls : List (Pt × Pt))
    (lo hi : ℤ) (hlo : 0 ≤ lo) (hex : ∃ c, InRange walls.length lo hi c)
    (E : Env) (ap : Option Bool) (hh : Hard E ap) (tol patch : ℝ) (htol : tol ≤ 1) (kw : Rev.ActKw Rev.Coord) (kw' : ActKw) (hk : SameKw kw kw')
    (coef height : ℝ) (hht : 0 < height) :
    ∃ (gradient : ℝ → String × Pt → ℝ × ℝ → V2 F) (points : Pt → ℝ × ℝ → List ℤ → List Pt) (accepted : Pt → ℝ × ℝ → Finset (List ℤ)),
      (∀ (ε : ℝ) (P : Scene.Grid (ℝ × ℝ)),
        Rev.accumulateOnTransmittersGrid (wallScene tx rx walls) G { minOrder := lo, maxOrder := hi } ⟨{ E with eps := ε }, F.fin tol, F.fin patch, ap, kw⟩ true false
          (Rev.receivedPower { E with eps := ε } (F.fin coef) (F.fin height))
          (gridX P) (gridY P) = .ok (rx.map fun r => (r.1, .gradient (P.map fun row => row.map (gradient ε r))))) ∧
      (∀ r t c, ∃ loss, traceImage ⟨t.1, t.2⟩ (wallsAt walls c) r = .ok (finitePath (points r t c) loss)) ∧
      (∀ (ε : ℝ) r t c, c ∈ accepted r t ↔ InRange walls.length lo hi c ∧ ∀ path, traceImage ⟨t.1, t.2⟩ (wallsAt walls c) r = .ok path →
        path.isValid { E with eps := ε } ((wallsOf walls).map Obj.interact) c ((wallsOf (wallsAt walls c)).map Obj.interact) (F.fin tol) (F.fin patch) ap kw' = .ok (.b true)) ∧
      ∀ r ∈ rx, ∀ t : ℝ × ℝ,
        ((∀ c, InRange walls.length lo hi c → Determined ⟨t.1, t.2⟩ (wallsAt walls c) (points r.2 t c)) →
          ∃ g : ℝ → Pt, (∀ᶠ ε in 𝓝[≠] (0 : ℝ), gradient ε r t = V2.fin (g ε)) ∧
            Tendsto (fun ε => (g ε).x) (𝓝[≠] 0) (𝓝 (∑ c ∈ accepted r.2 t, (pullStart coef height (points r.2 t c)).x)) ∧
            Tendsto (fun ε => (g ε).y) (𝓝[≠] 0) (𝓝 (∑ c ∈ accepted r.2 t, (pullStart coef height (points r.2 t c)).y))) ∧
        ((∃ c, InRange walls.length lo hi c ∧ ¬ Determined ⟨t.1, t.2⟩ (wallsAt walls c) (points r.2 t c)) → ∀ ε, gradient ε r t = ⟨F.nan, F.nan⟩) := by
  obtain ⟨cs, hcs, hcd, hcm, hne⟩ := cands_walls G hG tx rx walls lo hi hlo hex
  have hhe : ∀ ε, Hard { E with eps := ε } ap := fun ε => hh
  have H := fun ε => C100_transmitters (Key := Unit) G hG tx rx hr walls lo hi hlo hex (fun k _ => [k]) none { E with eps := ε } ap (hhe ε) tol patch kw kw' hk coef height hht
  choose value gradient points accepted q1 q2 q3 q4 q5 using H
  have hpts : ∀ ε r t c, points ε r t c = rpath ⟨t.1, t.2⟩ r (wallsAt walls c) := by
    intro ε r t c
    obtain ⟨loss, hl⟩ := q3 ε r t c
    exact (traceImage_iff hl).1
  have hok : ∀ ε r t c, c ∈ accepted ε r t ↔ InRange walls.length lo hi c ∧ HardOk (wallsAt walls c) walls c (rpath ⟨t.1, t.2⟩ r (wallsAt walls c))
      (scores (wallsAt walls c) (rpath ⟨t.1, t.2⟩ r (wallsAt walls c))).sum tol patch := by
    intro ε r t c
    rw [q4]
    refine and_congr_right fun hc => ?_
    have hi := isValid_hardOk (hhe ε) kw' (wallsAt walls c) walls c (rpath ⟨t.1, t.2⟩ r (wallsAt walls c))
      (scores (wallsAt walls c) (rpath ⟨t.1, t.2⟩ r (wallsAt walls c))).sum tol patch (by rw [rpath_length, wallsAt_length hc.1])
    rw [traceImage_eq]
    constructor
    · intro h
      have := (hi.symm.trans (h _ rfl))
      simpa using this
    · intro hok path hp
      obtain rfl := Except.ok.inj hp
      rw [hi, decide_eq_true hok]
  have hacc : ∀ ε r t, accepted ε r t = accepted 0 r t := by
    intro ε r t
    ext c
    rw [hok, hok]
  refine ⟨gradient, points 0, accepted 0, fun ε P => (q2 ε true P).2, q3 0, fun ε r t c => ?_, fun r hrm t => ⟨fun hdet => ?_, fun hbad ε => ?_⟩⟩
  · rw [← hacc ε]
    exact q4 ε r t c
  · have hu : ∀ c, InRange walls.length lo hi c → Unguarded ⟨t.1, t.2⟩ r.2 (wallsAt walls c) := by
      intro c hc
      have := hdet c hc
      rwa [hpts, determined_iff] at this
    have hl : ∀ c ∈ accepted 0 r.2 t, (scores (wallsAt walls c) (rpath ⟨t.1, t.2⟩ r.2 (wallsAt walls c))).sum < 1 := by
      intro c hc
      have := ((hok 0 r.2 t c).mp hc).2.2.2
      linarith
    have hin : ∀ c ∈ accepted 0 r.2 t, InRange walls.length lo hi c := fun c hc => ((hok 0 r.2 t c).mp hc).1
    simp only [hpts]
    refine limit_gradient (accepted 0 r.2 t) (fun c p => powerAlong p.1 coef height (rpath ⟨p.2.1, p.2.2⟩ r.2 (wallsAt walls c))) t
      (fun c => pullStart coef height (rpath ⟨t.1, t.2⟩ r.2 (wallsAt walls c)))
      (fun c hc => power_smooth (smooth_id t) (smooth_const r.2) coef hht (hu c (hin c hc)) (hl c hc))
      (fun c hc => power_start r.2 t coef hht (hu c (hin c hc)) (hl c hc)) (fun ε => gradient ε r t) ?_
    have hoff : ∀ᶠ ε in 𝓝[≠] (0 : ℝ), ∀ c ∈ cs.toFinset, OffGuard ε (rpath ⟨t.1, t.2⟩ r.2 (wallsAt walls c)) :=
      (Filter.eventually_all_finset _).mpr fun c _ => offGuard_small _
    filter_upwards [hoff] with ε hε
    have := (q5 ε r hrm t).2.1 fun c hc => ?_
    · simp only [hpts, hacc] at this
      exact this
    · rw [hpts]
      exact ⟨(determined_iff _ _ _).mpr (hu c hc), hε c (by simpa using (hcm c).mpr hc)⟩
  · obtain ⟨c, hc, hb⟩ := hbad
    refine (q5 ε r hrm t).2.2 ⟨c, hc, fun h => hb ?_⟩
    rw [hpts]
    have := h.1
    rwa [hpts] at this

theorem sight_only {n : ℕ} {c : List ℤ} : InRange n 0 0 c ↔ c = [] := by
  constructor
  · rintro ⟨-, -, h⟩
    exact List.length_eq_zero_iff.mp (by omega)
  · rintro rfl
    simp [InRange, IsCandidate]

theorem sight_power (eps coef height : ℝ) (t r : Pt) : powerAlong eps coef height [t, r] = 1 / (height ^ 2 + eucl t ⟨r.x + eps, r.y + eps⟩ ^ 2) := by
  simp [powerAlong, guardedLength]

theorem sight_map (p : Pt) (x : ℝ × ℝ) (h : p ≠ ⟨x.1, x.2⟩) (height : ℝ) :
    towards (2 * eucl p ⟨x.1, x.2⟩ / (height ^ 2 + eucl p ⟨x.1, x.2⟩ ^ 2) ^ 2) ⟨x.1, x.2⟩ p =
      ⟨2 * (1 / (height ^ 2 + eucl p ⟨x.1, x.2⟩ ^ 2)) ^ 2 * (p.x - x.1), 2 * (1 / (height ^ 2 + eucl p ⟨x.1, x.2⟩ ^ 2)) ^ 2 * (p.y - x.2)⟩ := by
  have h0 : eucl p ⟨x.1, x.2⟩ ≠ 0 := by
    rw [eucl_eq_nrm, Ne, nrm_eq_zero]
    exact sub_ne_zero_pt h
  simp only [towards, eucl_symm ⟨x.1, x.2⟩ p]
  ext <;> simp only [one_div, inv_pow, div_eq_mul_inv] <;> field_simp

/-- **C144.** In line of sight only, for every guard: the gradient at a receiver is minus twice the square of the value times the
vector from the transmitter to the (guarded) receiver, and the gradient at a transmitter its opposite; exactly at the guard it is NaN. -/
theorem C144_sight (G : GraphLib) (hG : GraphContract G) (tx rx : PyDict Pt) (ht : Distinct tx) (hr : Distinct rx) (walls : List (Pt × Pt))
    (E : Env) (ap : Option Bool) (hh : Hard E ap) (tol patch : ℝ) (kw : Rev.ActKw Rev.Coord) (kw' : ActKw) (hk : SameKw kw kw')
    (coef height : ℝ) (hht : 0 < height) :
    (∃ (value : String × Pt → ℝ × ℝ → ℝ) (gradient : String × Pt → ℝ × ℝ → V2 F),
      (∀ P : Scene.Grid (ℝ × ℝ), Rev.accumulateOnReceiversGrid (wallScene tx rx walls) G { minOrder := 0, maxOrder := 0 } ⟨E, F.fin tol, F.fin patch, ap, kw⟩ true true
        (Rev.receivedPower E (F.fin coef) (F.fin height)) (gridX P) (gridY P) =
          .ok (tx.map fun t => (t.1, .both (P.map fun row => row.map fun p => F.fin (value t p)) (P.map fun row => row.map (gradient t))))) ∧
      ∀ t ∈ tx, ∀ r : ℝ × ℝ,
        ((⟨r.1, r.2⟩ : Pt) ≠ ⟨t.2.x - E.eps, t.2.y - E.eps⟩ →
          gradient t r = V2.fin ⟨-(2 * value t r ^ 2 * (r.1 + E.eps - t.2.x)), -(2 * value t r ^ 2 * (r.2 + E.eps - t.2.y))⟩) ∧
        ((⟨r.1, r.2⟩ : Pt) = ⟨t.2.x - E.eps, t.2.y - E.eps⟩ → gradient t r = ⟨F.nan, F.nan⟩)) ∧
    ∃ (value : String × Pt → ℝ × ℝ → ℝ) (gradient : String × Pt → ℝ × ℝ → V2 F),
      (∀ P : Scene.Grid (ℝ × ℝ), Rev.accumulateOnTransmittersGrid (wallScene tx rx walls) G { minOrder := 0, maxOrder := 0 } ⟨E, F.fin tol, F.fin patch, ap, kw⟩ true true
        (Rev.receivedPower E (F.fin coef) (F.fin height)) (gridX P) (gridY P) =
          .ok (rx.map fun r => (r.1, .both (P.map fun row => row.map fun p => F.fin (value r p)) (P.map fun row => row.map (gradient r))))) ∧
      ∀ r ∈ rx, ∀ t : ℝ × ℝ,
        (r.2 ≠ ⟨t.1 - E.eps, t.2 - E.eps⟩ →
          gradient r t = V2.fin ⟨2 * value r t ^ 2 * (r.2.x + E.eps - t.1), 2 * value r t ^ 2 * (r.2.y + E.eps - t.2)⟩) ∧
        (r.2 = ⟨t.1 - E.eps, t.2 - E.eps⟩ → gradient r t = ⟨F.nan, F.nan⟩) := by
  have hcase : ∀ A : Finset (List ℤ), (∀ c ∈ A, c = []) → A = ∅ ∨ A = {[]} := by
    intro A hA
    exact Finset.subset_singleton_iff.mp fun c hc => by simp [hA c hc]
  have hoffI : ∀ t r : Pt, OffGuard E.eps [t, r] ↔ r ≠ ⟨t.x - E.eps, t.y - E.eps⟩ := by
    intro t r
    rw [offGuard_cons]
    exact and_iff_left fun i a b h h' => by simp at h'
  constructor
  · obtain ⟨value, gradient, points, accepted, -, q2, q3, q4, q5⟩ := C100_receivers (Key := Unit) G hG tx rx ht walls 0 0 le_rfl ⟨[], sight_only.mpr rfl⟩ (fun k _ => [k]) none E ap hh tol patch kw kw' hk coef height hht
    have hpts : ∀ t r, points t r [] = [t, ⟨r.1, r.2⟩] := by
      intro t r
      obtain ⟨loss, hl⟩ := q3 t r []
      exact (traceImage_iff hl).1
    have hdet : ∀ t r, Determined t (wallsAt walls []) (points t r []) := by
      intro t r
      rw [hpts]
      exact (determined_iff t ⟨r.1, r.2⟩ []).mpr trivial
    refine ⟨value, gradient, fun P => (q2 true P).1, fun t htm r => ?_⟩
    obtain ⟨h1, h2, h3⟩ := q5 t htm r
    refine ⟨fun hoff => ?_, fun hoff => h3 ⟨[], sight_only.mpr rfl, fun h => ?_⟩⟩
    · obtain ⟨v', hv, hg⟩ := h2 fun c hc => by
        obtain rfl := sight_only.mp hc
        refine ⟨hdet t.2 r, ?_⟩
        rw [hpts, hoffI]
        exact hoff
      rw [hg]
      rcases hcase (accepted t.2 r) fun c hc => sight_only.mp ((q4 _ _ _).mp hc).1 with hA | hA
      · rw [hA] at hv h1
        simp only [Finset.sum_empty] at hv h1
        rw [hv.unique (hasFDerivAt_const 0 r), h1]
        simp
      · rw [hA] at hv h1
        simp only [Finset.sum_singleton, hpts, sight_power] at hv h1
        have he : ∀ q : ℝ × ℝ, eucl t.2 ⟨q.1 + E.eps, q.2 + E.eps⟩ = eucl ⟨t.2.x - E.eps, t.2.y - E.eps⟩ ⟨q.1, q.2⟩ := fun q => by
          unfold eucl; congr 1; ring
        simp only [he] at hv h1
        rw [hv.unique (sight_deriv ⟨t.2.x - E.eps, t.2.y - E.eps⟩ r coef hht), sight_map _ _ (Ne.symm hoff), h1]
        congr 1
        ext <;> simp [asMap] <;> ring
    · have := h.2
      rw [hpts, hoffI] at this
      exact this hoff
  · obtain ⟨value, gradient, points, accepted, -, q2, q3, q4, q5⟩ := C100_transmitters (Key := Unit) G hG tx rx hr walls 0 0 le_rfl ⟨[], sight_only.mpr rfl⟩ (fun k _ => [k]) none E ap hh tol patch kw kw' hk coef height hht
    have hpts : ∀ r t, points r t [] = [⟨t.1, t.2⟩, r] := by
      intro r t
      obtain ⟨loss, hl⟩ := q3 r t []
      exact (traceImage_iff hl).1
    have hdet : ∀ r (t : ℝ × ℝ), Determined ⟨t.1, t.2⟩ (wallsAt walls []) (points r t []) := by
      intro r t
      rw [hpts]
      exact (determined_iff ⟨t.1, t.2⟩ r []).mpr trivial
    refine ⟨value, gradient, fun P => (q2 true P).1, fun r hrm t => ?_⟩
    obtain ⟨h1, h2, h3⟩ := q5 r hrm t
    refine ⟨fun hoff => ?_, fun hoff => h3 ⟨[], sight_only.mpr rfl, fun h => ?_⟩⟩
    · obtain ⟨v', hv, hg⟩ := h2 fun c hc => by
        obtain rfl := sight_only.mp hc
        refine ⟨hdet r.2 t, ?_⟩
        rw [hpts, hoffI]
        exact hoff
      rw [hg]
      rcases hcase (accepted r.2 t) fun c hc => sight_only.mp ((q4 _ _ _).mp hc).1 with hA | hA
      · rw [hA] at hv h1
        simp only [Finset.sum_empty] at hv h1
        rw [hv.unique (hasFDerivAt_const 0 t), h1]
        simp
      · rw [hA] at hv h1
        simp only [Finset.sum_singleton, hpts, sight_power] at hv h1
        have he : ∀ q : ℝ × ℝ, eucl ⟨q.1, q.2⟩ ⟨r.2.x + E.eps, r.2.y + E.eps⟩ = eucl ⟨r.2.x + E.eps, r.2.y + E.eps⟩ ⟨q.1, q.2⟩ := fun q => eucl_symm _ _
        simp only [he] at hv h1
        have hne : (⟨r.2.x + E.eps, r.2.y + E.eps⟩ : Pt) ≠ ⟨t.1, t.2⟩ := by
          intro e
          apply hoff
          have e1 := congrArg V2.x e
          have e2 := congrArg V2.y e
          simp only at e1 e2
          ext <;> simp <;> linarith
        rw [hv.unique (sight_deriv ⟨r.2.x + E.eps, r.2.y + E.eps⟩ t coef hht), sight_map _ _ hne, h1]
        congr 1
        ext <;> simp [asMap]
    · have := h.2
      rw [hpts, hoffI] at this
      exact this hoff

theorem mirror_path {t r : Pt} (h3 : 0 < t.y) (h6 : 0 < r.y) :
    rpath t r [(⟨-5, 0⟩, ⟨5, 0⟩)] = [t, ⟨(r.x * t.y + t.x * r.y) / (r.y + t.y), 0⟩, r] := by
  have hn : rn ⟨-5, 0⟩ ⟨5, 0⟩ = ⟨0, -1⟩ := by
    have : nrm (⟨0, -(5 - -5)⟩ : Pt) = 10 := by
      unfold nrm
      rw [Real.sqrt_eq_iff_mul_self_eq (by norm_num [dp]) (by norm_num)]
      norm_num [dp]
    simp only [rn, unit, len1, sub_self]
    rw [this]
    norm_num
  have hi : rimg ⟨-5, 0⟩ ⟨5, 0⟩ t = ⟨t.x, -t.y⟩ := by
    ext <;> simp [rimg, hn, dp]; ring
  have hy : r.y + t.y ≠ 0 := by linarith
  have hb : rback ⟨-5, 0⟩ ⟨5, 0⟩ ⟨t.x, -t.y⟩ r = ⟨(r.x * t.y + t.x * r.y) / (r.y + t.y), 0⟩ := by
    have hu : un ⟨-5, 0⟩ ⟨5, 0⟩ ⟨t.x, -t.y⟩ r = -(r.y + t.y) := by simp [un, hn, dp]
    rw [rback, hu, if_neg (neg_ne_zero.mpr hy), hn]
    ext <;> simp only [dp, V2.sub_x, V2.sub_y, div_neg] <;> field_simp <;> ring
  simp [rpath, rpts, hi, hb]

theorem one_only {c : List ℤ} : InRange 1 1 1 c ↔ c = [0] := by
  constructor
  · rintro ⟨h, h1, h2⟩
    obtain ⟨i, rfl⟩ := List.length_eq_one_iff.mp (show c.length = 1 by omega)
    have : 0 ≤ i ∧ i < 1 := by simpa [IsCandidate] using h
    rw [show i = 0 by omega]
  · rintro rfl
    simp [InRange, IsCandidate]

/-- C144 applies to a receiver at `(1/2, 1)` that gets the power of a transmitter at `(-1/2, 1)` from a mirror only: the gradient converges to a vector that points
to the place `(0, 0)` of the reflection, whence down to the mirror and left. -/
example (E : Env) : ∃ (gradient : ℝ → V2 F) (g : ℝ → Pt) (k : ℝ), 0 < k ∧
    (∀ ε : ℝ, Rev.accumulateOnReceiversGrid (wallScene [("tx", ⟨-1 / 2, 1⟩)] [] [(⟨-5, 0⟩, ⟨5, 0⟩)]) refLib { minOrder := 1, maxOrder := 1 }
      ⟨{ E with eps := ε }, F.fin (1 / 100), F.fin 0, some false, ⟨F.fin 100, Rev.hardSigmoid⟩⟩ true false (Rev.receivedPower { E with eps := ε } (F.fin (1 / 2)) (F.fin 1))
      (gridX [[(1 / 2, 1)]]) (gridY [[(1 / 2, 1)]]) = .ok [("tx", .gradient [[gradient ε]])]) ∧
    (∀ᶠ ε in 𝓝[≠] (0 : ℝ), gradient ε = V2.fin (g ε)) ∧
    Tendsto (fun ε => (g ε).x) (𝓝[≠] 0) (𝓝 (k * (-1 / 2))) ∧ Tendsto (fun ε => (g ε).y) (𝓝[≠] 0) (𝓝 (k * -1)) := by
  have hk : SameKw (⟨F.fin 100, Rev.hardSigmoid⟩ : Rev.ActKw Rev.Coord) ⟨F.fin 100, hardSigmoid⟩ := (C98_parts (ι := Rev.Coord) (F.fin 100) E (F.fin 1) (F.fin 1)).2.1
  obtain ⟨gradient, points, accepted, q2, q3, q4, q5⟩ := C144_receivers refLib refLib_contract [("tx", ⟨-1 / 2, 1⟩)] [] (by simp [Distinct]) [(⟨-5, 0⟩, ⟨5, 0⟩)]
    1 1 (by norm_num) ⟨[0], one_only.mpr rfl⟩ E (some false) (.inl rfl) (1 / 100) 0 (by norm_num) _ _ hk (1 / 2) 1 one_pos
  have hpath := mirror_path (t := ⟨-1 / 2, 1⟩) (r := ⟨1 / 2, 1⟩) one_pos one_pos
  norm_num at hpath
  have hpts : points ⟨-1 / 2, 1⟩ (1 / 2, 1) [0] = [⟨-1 / 2, 1⟩, ⟨0, 0⟩, ⟨1 / 2, 1⟩] := by
    obtain ⟨loss, hl⟩ := q3 ⟨-1 / 2, 1⟩ (1 / 2, 1) [0]
    rw [(traceImage_iff hl).1]
    norm_num
    exact hpath
  have hacc : accepted ⟨-1 / 2, 1⟩ (1 / 2, 1) = {[0]} := by
    ext c
    rw [q4 E.eps, Finset.mem_singleton]
    refine ⟨fun h => one_only.mp h.1, ?_⟩
    rintro rfl
    refine ⟨one_only.mpr rfl, fun path hp => ?_⟩
    rw [traceImage_eq] at hp
    obtain rfl := Except.ok.inj hp
    rw [isValid_hardOk (.inl rfl) _ _ _ _ _ _ _ _ (by rw [rpath_length]; rfl), decide_eq_true]
    exact mirror_ok (by norm_num) (by norm_num) (by norm_num) (by norm_num) (by norm_num) (by norm_num)
  obtain ⟨g, g1, g2, g3⟩ := (q5 _ (List.mem_singleton.mpr rfl) (1 / 2, 1)).1 fun c hc => by
    obtain rfl := one_only.mp hc
    obtain ⟨loss, hl⟩ := q3 ⟨-1 / 2, 1⟩ (1 / 2, 1) [0]
    refine (C100_one_wall _ _ (⟨-5, 0⟩, ⟨5, 0⟩) (by intro e; have := congrArg V2.x e; norm_num at this) _ loss hl).mpr ?_
    norm_num [side]
  have hpos : 0 < eucl ⟨-1 / 2, 1⟩ ⟨0, 0⟩ := Real.sqrt_pos.mpr (by norm_num)
  have hpos' : 0 < eucl ⟨0, 0⟩ ⟨1 / 2, 1⟩ := Real.sqrt_pos.mpr (by norm_num)
  have hpos'' : 0 < eucl ⟨1 / 2, 1⟩ ⟨0, 0⟩ := Real.sqrt_pos.mpr (by norm_num)
  refine ⟨fun ε => gradient ε ("tx", ⟨-1 / 2, 1⟩) (1 / 2, 1), g, steepness (1 / 2) 1 [⟨-1 / 2, 1⟩, ⟨0, 0⟩, ⟨1 / 2, 1⟩] / eucl ⟨1 / 2, 1⟩ ⟨0, 0⟩, ?_, fun ε => ?_, g1, ?_, ?_⟩
  · simp only [steepness, polyLength]
    positivity
  · simpa using q2 ε [[(1 / 2, 1)]]
  · simp only [hacc, Finset.sum_singleton, hpts] at g2
    convert g2 using 2
    simp only [pullEnd, List.reverse_cons, List.reverse_nil, List.nil_append, List.cons_append, towards]
    ring
  · simp only [hacc, Finset.sum_singleton, hpts] at g3
    convert g3 using 2
    simp only [pullEnd, List.reverse_cons, List.reverse_nil, List.nil_append, List.cons_append, towards]
    ring

end DiffeRT2d.Props
