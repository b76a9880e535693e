import Verif.Spec.Smooth
import Verif.Lemmas.Stability
import Mathlib.Analysis.Calculus.ContDiff.Operations
import Mathlib.Analysis.SpecialFunctions.Sqrt
import Mathlib.Analysis.Calculus.ContDiff.RCLike
import Mathlib.Analysis.Calculus.Rademacher

/-! Differentiability of the image method. -/

namespace DiffeRT2d
open Classical Spec Filter Topology

variable {X : Type} [NormedAddCommGroup X] [NormedSpace ℝ X] {x0 : X} {n : ℕ}

namespace Spec.SmoothAt

theorem movesAt {p : X → Pt} (hp : SmoothAt n p x0) : MovesAt p x0 := ⟨hp.1.continuousAt, hp.2.continuousAt⟩

theorem sub {p q : X → Pt} (hp : SmoothAt n p x0) (hq : SmoothAt n q x0) : SmoothAt n (fun x => p x - q x) x0 :=
  ⟨hp.1.sub hq.1, hp.2.sub hq.2⟩

theorem dp {p q : X → Pt} (hp : SmoothAt n p x0) (hq : SmoothAt n q x0) : ContDiffAt ℝ n (fun x => dp (p x) (q x)) x0 :=
  (hp.1.mul hq.1).add (hp.2.mul hq.2)

theorem pointAt {p q : X → Pt} (hp : SmoothAt n p x0) (hq : SmoothAt n q x0) (s : ℝ) :
    SmoothAt n (fun x => pointAt (p x) (q x) s) x0 :=
  ⟨hp.1.add (contDiffAt_const.mul (hq.1.sub hp.1)), hp.2.add (contDiffAt_const.mul (hq.2.sub hp.2))⟩

theorem nrm {p : X → Pt} (hp : SmoothAt n p x0) (h : p x0 ≠ ⟨0, 0⟩) : ContDiffAt ℝ n (fun x => nrm (p x)) x0 := by
  have hn : DiffeRT2d.nrm (p x0) ≠ 0 := fun h0 => h (by simpa using (nrm_eq_zero _).mp h0)
  unfold DiffeRT2d.nrm at hn ⊢
  exact ((hp.1.mul hp.1).add (hp.2.mul hp.2)).sqrt (fun e => hn (by
    have e' : (p x0).x * (p x0).x + (p x0).y * (p x0).y = 0 := e
    rw [e', Real.sqrt_zero]))

theorem unit {p : X → Pt} (hp : SmoothAt n p x0) (h : p x0 ≠ ⟨0, 0⟩) : SmoothAt n (fun x => unit (p x)) x0 := by
  have hn : DiffeRT2d.nrm (p x0) ≠ 0 := fun h0 => h (by simpa using (nrm_eq_zero _).mp h0)
  have hl : ContDiffAt ℝ n (fun x => len1 (p x)) x0 := by
    refine (hp.nrm h).congr_of_eventuallyEq ?_
    filter_upwards [hp.movesAt.nrm.eventually_ne hn] with x hx
    rw [len1, if_neg hx]
  exact ⟨hp.1.div hl (len1_pos _).ne', hp.2.div hl (len1_pos _).ne'⟩

theorem rn {o d : X → Pt} (ho : SmoothAt n o x0) (hd : SmoothAt n d x0) (h : o x0 ≠ d x0) : SmoothAt n (fun x => rn (o x) (d x)) x0 := by
  refine SmoothAt.unit (p := fun x => ⟨(d x).y - (o x).y, -((d x).x - (o x).x)⟩) ⟨hd.2.sub ho.2, (hd.1.sub ho.1).neg⟩ ?_
  intro e
  simp only [V2.mk.injEq] at e
  apply h
  ext <;> linarith

theorem rimg {o d p : X → Pt} (ho : SmoothAt n o x0) (hd : SmoothAt n d x0) (h : o x0 ≠ d x0) (hp : SmoothAt n p x0) :
    SmoothAt n (fun x => rimg (o x) (d x) (p x)) x0 := by
  have hn := ho.rn hd h
  have hk := contDiffAt_const (c := (2 : ℝ)) |>.mul ((hp.sub ho).dp hn)
  exact ⟨hp.1.sub (hk.mul hn.1), hp.2.sub (hk.mul hn.2)⟩

theorem rback {o d im pt : X → Pt} (ho : SmoothAt n o x0) (hd : SmoothAt n d x0) (h : o x0 ≠ d x0) (hi : SmoothAt n im x0)
    (hp : SmoothAt n pt x0) (hu : un (o x0) (d x0) (im x0) (pt x0) ≠ 0) :
    SmoothAt n (fun x => rback (o x) (d x) (im x) (pt x)) x0 := by
  have hn := ho.rn hd h
  have hv := hp.sub hi
  have hU : ContDiffAt ℝ n (fun x => un (o x) (d x) (im x) (pt x)) x0 := hv.dp hn
  have hk := (ho.sub hp).dp hn
  have ev := hU.continuousAt.eventually_ne hu
  constructor
  · refine (hp.1.add ((hk.mul hv.1).div hU hu)).congr_of_eventuallyEq ?_
    filter_upwards [ev] with x hx
    rw [DiffeRT2d.rback, if_neg hx]; rfl
  · refine (hp.2.add ((hk.mul hv.2).div hU hu)).congr_of_eventuallyEq ?_
    filter_upwards [ev] with x hx
    rw [DiffeRT2d.rback, if_neg hx]; rfl

theorem reval {o d a b c : X → Pt} (ho : SmoothAt n o x0) (hd : SmoothAt n d x0) (h : o x0 ≠ d x0) (ha : SmoothAt n a x0)
    (hb : SmoothAt n b x0) (hc : SmoothAt n c x0) (hab : a x0 ≠ b x0) (hbc : b x0 ≠ c x0) :
    ContDiffAt ℝ n (fun x => reval (o x) (d x) (a x) (b x) (c x)) x0 := by
  have hn := ho.rn hd h
  have ne : ∀ {p q : Pt}, p ≠ q → q - p ≠ ⟨0, 0⟩ := by
    intro p q hpq e
    apply hpq
    have e1 : q.x - p.x = 0 := congrArg V2.x e
    have e2 : q.y - p.y = 0 := congrArg V2.y e
    ext <;> linarith
  have hi := (hb.sub ha).unit (ne hab)
  have hr := (hc.sub hb).unit (ne hbc)
  have hk := contDiffAt_const (c := (2 : ℝ)) |>.mul (hi.dp hn)
  have he : SmoothAt n (fun x => (⟨(DiffeRT2d.unit (c x - b x)).x - ((DiffeRT2d.unit (b x - a x)).x - 2 * DiffeRT2d.dp (DiffeRT2d.unit (b x - a x)) (DiffeRT2d.rn (o x) (d x)) * (DiffeRT2d.rn (o x) (d x)).x),
      (DiffeRT2d.unit (c x - b x)).y - ((DiffeRT2d.unit (b x - a x)).y - 2 * DiffeRT2d.dp (DiffeRT2d.unit (b x - a x)) (DiffeRT2d.rn (o x) (d x)) * (DiffeRT2d.rn (o x) (d x)).y)⟩ : Pt)) x0 :=
    ⟨hr.1.sub (hi.1.sub (hk.mul hn.1)), hr.2.sub (hi.2.sub (hk.mul hn.2))⟩
  exact he.dp he

theorem rpar {o d p : X → Pt} (ho : SmoothAt n o x0) (hd : SmoothAt n d x0) (h : o x0 ≠ d x0) (hp : SmoothAt n p x0) :
    ContDiffAt ℝ n (fun x => rpar (o x) (d x) (p x)) x0 := by
  have hv := hd.sub ho
  have h0 : DiffeRT2d.dp (d x0 - o x0) (d x0 - o x0) ≠ 0 := fun e => h ((dp_self_eq_zero _ _).mp e)
  refine ((hv.dp (hp.sub ho)).div (hv.dp hv) h0).congr_of_eventuallyEq ?_
  filter_upwards [(hv.dp hv).continuousAt.eventually_ne h0] with x hx
  rw [DiffeRT2d.rpar, if_neg hx]; rfl

theorem segA {p1 p2 p3 p4 : X → Pt} (h1 : SmoothAt n p1 x0) (h3 : SmoothAt n p3 x0) (h4 : SmoothAt n p4 x0) :
    ContDiffAt ℝ n (fun x => segA (p1 x) (p2 x) (p3 x) (p4 x)) x0 :=
  ((h3.2.sub h4.2).mul (h1.1.sub h3.1)).sub ((h3.1.sub h4.1).mul (h1.2.sub h3.2))
theorem segB {p1 p2 p3 p4 : X → Pt} (h1 : SmoothAt n p1 x0) (h2 : SmoothAt n p2 x0) (h3 : SmoothAt n p3 x0) :
    ContDiffAt ℝ n (fun x => segB (p1 x) (p2 x) (p3 x) (p4 x)) x0 :=
  ((h2.1.sub h1.1).mul (h1.2.sub h3.2)).sub ((h2.2.sub h1.2).mul (h1.1.sub h3.1))
theorem segD {p1 p2 p3 p4 : X → Pt} (h1 : SmoothAt n p1 x0) (h2 : SmoothAt n p2 x0) (h3 : SmoothAt n p3 x0) (h4 : SmoothAt n p4 x0) :
    ContDiffAt ℝ n (fun x => segD (p1 x) (p2 x) (p3 x) (p4 x)) x0 :=
  ((h2.2.sub h1.2).mul (h3.1.sub h4.1)).sub ((h2.1.sub h1.1).mul (h3.2.sub h4.2))

end Spec.SmoothAt

/-- A smoothly moving wall. -/
def WallSmooth (n : ℕ) (w : X → RWall) (x0 : X) : Prop :=
  SmoothAt n (fun x => (w x).1) x0 ∧ SmoothAt n (fun x => (w x).2) x0 ∧ (w x0).1 ≠ (w x0).2

theorem mpts_smooth {img rx : X → Pt} {ws : List (X → RWall)} (hi : SmoothAt n img x0) (hr : SmoothAt n rx x0)
    (hw : ∀ w ∈ ws, WallSmooth n w x0)
    (hp : NoPause (rpts (img x0) (rx x0) (ws.map (· x0)) ++ [rx x0])) : ∀ p ∈ mpts img rx ws, SmoothAt n p x0 := by
  induction ws generalizing img with
  | nil => simp [mpts]
  | cons w ws ih =>
    obtain ⟨w1, w2, w3⟩ := hw w (by simp)
    have him := w1.rimg w2 w3 hi
    have hp' : NoPause (rpts (rimg (w x0).1 (w x0).2 (img x0)) (rx x0) (ws.map (· x0)) ++ [rx x0]) := by
      intro i a b ha hb
      exact hp (i + 1) a b ha hb
    have hrest := ih him (fun w h => hw w (by simp [h])) hp'
    have hhead : SmoothAt n ((mpts (fun x => rimg (w x).1 (w x).2 (img x)) rx ws).headD rx) x0 := by
      cases hm : mpts (fun x => rimg (w x).1 (w x).2 (img x)) rx ws with
      | nil => exact hr
      | cons a l => exact hrest a (by rw [hm]; simp)
    intro p hpm
    simp only [mpts, List.mem_cons] at hpm
    rcases hpm with rfl | hpm
    · refine w1.rback w2 w3 him hhead ?_
      intro hu
      have e := mpts_at (fun x => rimg (w x).1 (w x).2 (img x)) rx ws x0
      have hh : (mpts (fun x => rimg (w x).1 (w x).2 (img x)) rx ws).headD rx x0 =
          (rpts (rimg (w x0).1 (w x0).2 (img x0)) (rx x0) (ws.map (· x0))).headD (rx x0) := by
        rw [← e]; cases mpts (fun x => rimg (w x).1 (w x).2 (img x)) rx ws <;> rfl
      rw [hh] at hu
      refine hp 0 _ _ (by simp only [List.map_cons, rpts]; rfl) ?_ (rback_guard hu)
      simp only [List.map_cons, rpts]
      cases rpts (rimg (w x0).1 (w x0).2 (img x0)) (rx x0) (ws.map (· x0)) <;> rfl
    · exact hrest p hpm

theorem mpath_smooth {tx rx : X → Pt} {ws : List (X → RWall)} (ht : SmoothAt n tx x0) (hr : SmoothAt n rx x0)
    (hw : ∀ w ∈ ws, WallSmooth n w x0) (hp : ws ≠ [] → NoPause (rpath (tx x0) (rx x0) (ws.map (· x0)))) :
    ∀ p ∈ mpath tx rx ws, SmoothAt n p x0 := by
  intro p hpm
  simp only [mpath, List.cons_append, List.mem_cons, List.mem_append, List.not_mem_nil, or_false] at hpm
  rcases hpm with rfl | hpm | rfl
  · exact ht
  · have hne : ws ≠ [] := by rintro rfl; simp [mpts] at hpm
    refine mpts_smooth ht hr hw ?_ p hpm
    intro i a b ha hb
    exact hp hne (i + 1) a b ha hb
  · exact hr

theorem scores_smooth {ws : List (X → RWall)} {ps : List (X → Pt)} (hw : ∀ w ∈ ws, WallSmooth n w x0) (hm : ∀ p ∈ ps, SmoothAt n p x0)
    (hp : ws ≠ [] → NoPause (ps.map (· x0))) : ContDiffAt ℝ n (fun x => (scores (ws.map (· x)) (ps.map (· x))).sum) x0 := by
  induction ws generalizing ps with
  | nil =>
    have : (fun x => (scores (List.map (· x) ([] : List (X → RWall))) (ps.map (· x))).sum) = fun _ => 0 := by
      funext x; simp [scores]
    rw [this]; exact contDiffAt_const
  | cons w ws ih =>
    match ps, hm, hp with
    | [], _, _ => exact (contDiffAt_const (c := (0 : ℝ))).congr_of_eventuallyEq (Eventually.of_forall fun x => by simp [scores])
    | [_], _, _ => exact (contDiffAt_const (c := (0 : ℝ))).congr_of_eventuallyEq (Eventually.of_forall fun x => by simp [scores])
    | [_, _], _, _ => exact (contDiffAt_const (c := (0 : ℝ))).congr_of_eventuallyEq (Eventually.of_forall fun x => by simp [scores])
    | a :: b :: c :: ps, hm, hp =>
      obtain ⟨w1, w2, w3⟩ := hw w (by simp)
      have hp := hp (by simp)
      have e : (fun x => (scores ((w :: ws).map (· x)) ((a :: b :: c :: ps).map (· x))).sum) =
          fun x => reval (w x).1 (w x).2 (a x) (b x) (c x) + (scores (ws.map (· x)) ((b :: c :: ps).map (· x))).sum := by
        funext x; simp [scores]
      rw [e]
      refine (w1.reval w2 w3 (hm a (by simp)) (hm b (by simp)) (hm c (by simp)) (hp 0 _ _ rfl rfl) (hp 1 _ _ rfl rfl)).add ?_
      exact ih (fun w h => hw w (by simp [h])) (fun p h => hm p (List.mem_cons_of_mem _ h)) fun _ i p q h1 h2 => hp (i + 1) p q h1 h2

theorem mnth_smooth {ps : List (X → Pt)} (h : ∀ p ∈ ps, SmoothAt n p x0) (i : ℕ) : SmoothAt n (mnth ps i) x0 := by
  simp only [mnth, List.getD_eq_getElem?_getD]
  cases e : ps[min i (ps.length - 1)]? with
  | none => exact ⟨contDiffAt_const, contDiffAt_const⟩
  | some p => exact h p (List.mem_of_getElem? e)

/-! ### Lipschitz functions -/

namespace Spec.LipschitzNear

theorem of_contDiffAt {f : X → ℝ} (h : ContDiffAt ℝ 1 f x0) : LipschitzNear f x0 :=
  h.exists_lipschitzOnWith

theorem const (a : ℝ) : LipschitzNear (fun _ : X => a) x0 := of_contDiffAt contDiffAt_const

theorem congr {f g : X → ℝ} (hf : LipschitzNear f x0) (h : f =ᶠ[𝓝 x0] g) : LipschitzNear g x0 := by
  obtain ⟨K, U, hU, hL⟩ := hf
  refine ⟨K, U ∩ {x | f x = g x}, inter_mem hU h, ?_⟩
  intro x hx y hy
  have hx2 : f x = g x := hx.2
  have hy2 : f y = g y := hy.2
  rw [← hx2, ← hy2]
  exact hL hx.1 hy.1

theorem continuousAt {f : X → ℝ} (hf : LipschitzNear f x0) : ContinuousAt f x0 := by
  obtain ⟨K, U, hU, hL⟩ := hf
  exact hL.continuousOn.continuousAt hU

theorem comp {f : X → ℝ} {s : ℝ → ℝ} (hs : LipschitzNear s (f x0)) (hf : LipschitzNear f x0) : LipschitzNear (fun x => s (f x)) x0 := by
  have hc := hf.continuousAt
  obtain ⟨K, U, hU, hL⟩ := hf
  obtain ⟨K', V, hV, hL'⟩ := hs
  refine ⟨K' * K, U ∩ f ⁻¹' V, inter_mem hU (hc hV), ?_⟩
  exact hL'.comp (hL.mono Set.inter_subset_left) fun x hx => hx.2

theorem real_iff {f : X → ℝ} : LipschitzNear f x0 ↔ ∃ K : ℝ, 0 ≤ K ∧ ∃ U ∈ 𝓝 x0, ∀ x ∈ U, ∀ y ∈ U, |f x - f y| ≤ K * ‖x - y‖ := by
  constructor
  · rintro ⟨K, U, hU, hL⟩
    refine ⟨K, K.2, U, hU, fun x hx y hy => ?_⟩
    have := hL.dist_le_mul x hx y hy
    rwa [Real.dist_eq, dist_eq_norm] at this
  · rintro ⟨K, hK, U, hU, hL⟩
    refine ⟨⟨K, hK⟩, U, hU, LipschitzOnWith.of_dist_le_mul fun x hx y hy => ?_⟩
    rw [Real.dist_eq, dist_eq_norm]
    exact hL x hx y hy

theorem add {f g : X → ℝ} (hf : LipschitzNear f x0) (hg : LipschitzNear g x0) : LipschitzNear (fun x => f x + g x) x0 := by
  obtain ⟨K, hK, U, hU, h1⟩ := real_iff.mp hf
  obtain ⟨L, hL, V, hV, h2⟩ := real_iff.mp hg
  refine real_iff.mpr ⟨K + L, by positivity, U ∩ V, inter_mem hU hV, fun x hx y hy => ?_⟩
  have a1 := h1 x hx.1 y hy.1
  have a2 := h2 x hx.2 y hy.2
  have : f x + g x - (f y + g y) = (f x - f y) + (g x - g y) := by ring
  rw [this, add_mul]
  exact (abs_add_le _ _).trans (add_le_add a1 a2)

theorem const_sub {f : X → ℝ} (hf : LipschitzNear f x0) (a : ℝ) : LipschitzNear (fun x => a - f x) x0 := by
  obtain ⟨K, hK, U, hU, h1⟩ := real_iff.mp hf
  refine real_iff.mpr ⟨K, hK, U, hU, fun x hx y hy => ?_⟩
  have : a - f x - (a - f y) = -(f x - f y) := by ring
  rw [this, abs_neg]
  exact h1 x hx y hy

theorem min {f g : X → ℝ} (hf : LipschitzNear f x0) (hg : LipschitzNear g x0) : LipschitzNear (fun x => min (f x) (g x)) x0 := by
  obtain ⟨K, hK, U, hU, h1⟩ := real_iff.mp hf
  obtain ⟨L, hL, V, hV, h2⟩ := real_iff.mp hg
  refine real_iff.mpr ⟨K + L, by positivity, U ∩ V, inter_mem hU hV, fun x hx y hy => ?_⟩
  have a1 := h1 x hx.1 y hy.1
  have a2 := h2 x hx.2 y hy.2
  refine (abs_min_sub_min_le_max _ _ _ _).trans (max_le ?_ ?_)
  · exact a1.trans (by rw [add_mul]; have := mul_nonneg hL (norm_nonneg (x - y)); linarith)
  · exact a2.trans (by rw [add_mul]; have := mul_nonneg hK (norm_nonneg (x - y)); linarith)

theorem max {f g : X → ℝ} (hf : LipschitzNear f x0) (hg : LipschitzNear g x0) : LipschitzNear (fun x => max (f x) (g x)) x0 := by
  obtain ⟨K, hK, U, hU, h1⟩ := real_iff.mp hf
  obtain ⟨L, hL, V, hV, h2⟩ := real_iff.mp hg
  refine real_iff.mpr ⟨K + L, by positivity, U ∩ V, inter_mem hU hV, fun x hx y hy => ?_⟩
  have a1 := h1 x hx.1 y hy.1
  have a2 := h2 x hx.2 y hy.2
  refine (abs_max_sub_max_le_max _ _ _ _).trans (max_le ?_ ?_)
  · exact a1.trans (by rw [add_mul]; have := mul_nonneg hL (norm_nonneg (x - y)); linarith)
  · exact a2.trans (by rw [add_mul]; have := mul_nonneg hK (norm_nonneg (x - y)); linarith)

theorem mul {f g : X → ℝ} (hf : LipschitzNear f x0) (hg : LipschitzNear g x0) : LipschitzNear (fun x => f x * g x) x0 := by
  have cf := hf.continuousAt
  have cg := hg.continuousAt
  obtain ⟨K, hK, U, hU, h1⟩ := real_iff.mp hf
  obtain ⟨L, hL, V, hV, h2⟩ := real_iff.mp hg
  have b1 : ∀ᶠ x in 𝓝 x0, |f x| < |f x0| + 1 := cf.abs.eventually_lt_const (by show |f x0| < _; linarith)
  have b2 : ∀ᶠ x in 𝓝 x0, |g x| < |g x0| + 1 := cg.abs.eventually_lt_const (by show |g x0| < _; linarith)
  refine real_iff.mpr ⟨(|f x0| + 1) * L + (|g x0| + 1) * K, by positivity,
    (U ∩ V) ∩ ({x | |f x| < |f x0| + 1} ∩ {x | |g x| < |g x0| + 1}), inter_mem (inter_mem hU hV) (inter_mem b1 b2), fun x hx y hy => ?_⟩
  have a1 := h1 x hx.1.1 y hy.1.1
  have a2 := h2 x hx.1.2 y hy.1.2
  have c1 : |f x| < |f x0| + 1 := hx.2.1
  have c2 : |g y| < |g x0| + 1 := hy.2.2
  have : f x * g x - f y * g y = f x * (g x - g y) + g y * (f x - f y) := by ring
  rw [this]
  refine (abs_add_le _ _).trans ?_
  rw [abs_mul, abs_mul]
  have n0 := norm_nonneg (x - y)
  have d1 : |f x| * |g x - g y| ≤ (|f x0| + 1) * (L * ‖x - y‖) := mul_le_mul c1.le a2 (abs_nonneg _) (by positivity)
  have d2 : |g y| * |f x - f y| ≤ (|g x0| + 1) * (K * ‖x - y‖) := mul_le_mul c2.le a1 (abs_nonneg _) (by positivity)
  nlinarith

/-- Rademacher: a function that is Lipschitz near each point of a set is differentiable almost everywhere in it. -/
theorem ae_differentiable [FiniteDimensional ℝ X] [MeasurableSpace X] [BorelSpace X] (μ : MeasureTheory.Measure X)
    [μ.IsAddHaarMeasure] (f : X → ℝ) (S : Set X) (h : ∀ x ∈ S, LipschitzNear f x) :
    ∀ᵐ x ∂μ, x ∈ S → DifferentiableAt ℝ f x := by
  have : SecondCountableTopology X := by
    have := FiniteDimensional.proper ℝ X
    infer_instance
  rw [MeasureTheory.ae_iff]
  refine MeasureTheory.measure_null_of_locally_null _ fun x hx => ?_
  have hx' : x ∈ S := by
    by_contra hc; exact hx fun h => absurd h hc
  obtain ⟨K, U, hU, hL⟩ := h x hx'
  obtain ⟨V, hVU, hVo, hxV⟩ := mem_nhds_iff.mp hU
  have hae := (hL.mono hVU).ae_differentiableWithinAt_of_mem (μ := μ)
  rw [MeasureTheory.ae_iff] at hae
  refine ⟨V ∩ {x | ¬(x ∈ S → DifferentiableAt ℝ f x)}, ?_, ?_⟩
  · exact inter_mem (mem_nhdsWithin_of_mem_nhds (hVo.mem_nhds hxV)) self_mem_nhdsWithin
  · refine MeasureTheory.measure_mono_null ?_ hae
    rintro y ⟨hyV, hy⟩ hd
    exact hy fun _ => (hd hyV).differentiableAt (hVo.mem_nhds hyV)

end Spec.LipschitzNear

theorem foldl_min_lip {α : Type} (l : List α) (f : α → X → ℝ) (z : X → ℝ) (hz : LipschitzNear z x0) (hf : ∀ a ∈ l, LipschitzNear (f a) x0) :
    LipschitzNear (fun x => (l.map fun a => f a x).foldl min (z x)) x0 := by
  induction l generalizing z with
  | nil => exact hz
  | cons a l ih =>
    simp only [List.map_cons, List.foldl_cons]
    exact ih _ (hz.min (hf a (by simp))) fun a h => hf a (by simp [h])
theorem foldl_max_lip {α : Type} (l : List α) (f : α → X → ℝ) (z : X → ℝ) (hz : LipschitzNear z x0) (hf : ∀ a ∈ l, LipschitzNear (f a) x0) :
    LipschitzNear (fun x => (l.map fun a => f a x).foldl max (z x)) x0 := by
  induction l generalizing z with
  | nil => exact hz
  | cons a l ih =>
    simp only [List.map_cons, List.foldl_cons]
    exact ih _ (hz.max (hf a (by simp))) fun a h => hf a (by simp [h])

/-- A crossing test whose determinant vanishes: near that position, all four parts are small, and the least of them is a Lipschitz function. -/
theorem crossing_lip {s : ℝ → ℝ} (hmono : Monotone s) (h0 : LipschitzNear (fun y : ℝ => if y ≤ 0 then 0 else s (-1 / y)) 0)
    {fA fB fD : X → ℝ} (hA : LipschitzNear fA x0) (hB : LipschitzNear fB x0) (hD : LipschitzNear fD x0) (hd : fD x0 = 0) (hb : fB x0 ≠ 0) (tol : ℝ) :
    LipschitzNear (fun x => if fD x = 0 then 0 else Min.min (Min.min (s (fA x / fD x + tol)) (s (1 + tol - fA x / fD x)))
      (Min.min (s (fB x / fD x + tol)) (s (1 + tol - fB x / fD x)))) x0 := by
  -- the numerator of the least argument, for a positive determinant
  let W : ℝ → ℝ → ℝ → ℝ := fun a b d => Min.min (Min.min (a + tol * d) ((1 + tol) * d - a)) (Min.min (b + tol * d) ((1 + tol) * d - b))
  have key : ∀ {a b d : X → ℝ}, LipschitzNear a x0 → LipschitzNear b x0 → LipschitzNear d x0 → d x0 = 0 → b x0 ≠ 0 →
      LipschitzNear (fun x => if -(d x / W (a x) (b x) (d x)) ≤ 0 then 0 else s (-1 / (-(d x / W (a x) (b x) (d x))))) x0 ∧
      ∀ᶠ x in 𝓝 x0, W (a x) (b x) (d x) < 0 := by
    intro a b d ha hb' hd' e1 e2
    have hsub : ∀ {f g : X → ℝ}, LipschitzNear f x0 → LipschitzNear g x0 → LipschitzNear (fun x => f x - g x) x0 := by
      intro f g hf hg
      have := hf.add (hg.const_sub 0)
      refine this.congr (.of_forall fun x => ?_)
      simp only; ring
    have hW : LipschitzNear (fun x => W (a x) (b x) (d x)) x0 :=
      ((ha.add ((LipschitzNear.const tol).mul hd')).min (hsub ((LipschitzNear.const (1 + tol)).mul hd') ha)).min
        ((hb'.add ((LipschitzNear.const tol).mul hd')).min (hsub ((LipschitzNear.const (1 + tol)).mul hd') hb'))
    have hneg : W (a x0) (b x0) (d x0) < 0 := by
      simp only [W, e1, mul_zero, add_zero, zero_sub]
      refine (min_le_right _ _).trans_lt ?_
      rcases lt_or_gt_of_ne e2 with h | h
      · exact (min_le_left _ _).trans_lt h
      · exact (min_le_right _ _).trans_lt (by linarith)
    have hinv : LipschitzNear (fun x => (W (a x) (b x) (d x))⁻¹) x0 :=
      LipschitzNear.comp (s := fun y : ℝ => y⁻¹) (.of_contDiffAt (contDiffAt_inv ℝ hneg.ne)) hW
    have hY : LipschitzNear (fun x => -(d x / W (a x) (b x) (d x))) x0 := by
      refine ((hd'.mul hinv).const_sub 0).congr (.of_forall fun x => ?_)
      simp only [div_eq_mul_inv, zero_sub]
    refine ⟨LipschitzNear.comp (s := fun y : ℝ => if y ≤ 0 then 0 else s (-1 / y)) ?_ hY, hW.continuousAt.eventually_lt_const hneg⟩
    simpa [e1] using h0
  have ng : ∀ {f : X → ℝ}, LipschitzNear f x0 → LipschitzNear (fun x => -f x) x0 := fun hf => by simpa using hf.const_sub 0
  obtain ⟨p1, p2⟩ := key hA hB hD hd hb
  obtain ⟨n1, n2⟩ := key (ng hA) (ng hB) (ng hD) (by simp [hd]) (by simpa using hb)
  have hs : ∀ {a b d : ℝ}, 0 < d → Min.min (Min.min (s (a / d + tol)) (s (1 + tol - a / d))) (Min.min (s (b / d + tol)) (s (1 + tol - b / d))) = s (W a b d / d) := by
    intro a b d hd
    rw [← hmono.map_min, ← hmono.map_min, ← hmono.map_min]
    congr 1
    simp only [W]
    rw [← min_div_div_right hd.le, ← min_div_div_right hd.le, ← min_div_div_right hd.le]
    have e1 : (a + tol * d) / d = a / d + tol := by field_simp
    have e2 : ((1 + tol) * d - a) / d = 1 + tol - a / d := by field_simp
    have e3 : (b + tol * d) / d = b / d + tol := by field_simp
    have e4 : ((1 + tol) * d - b) / d = 1 + tol - b / d := by field_simp
    rw [e1, e2, e3, e4]
  refine (p1.add n1).congr ?_
  filter_upwards [p2, n2] with x h1 h2
  have q : ∀ {d w : ℝ}, w < 0 → (-(d / w) ≤ 0 ↔ d ≤ 0) := by
    intro d w hw
    rw [← div_neg, div_nonpos_iff]
    constructor
    · rintro (⟨-, h⟩ | ⟨h, -⟩)
      · linarith
      · exact h
    · intro h; exact .inr ⟨h, by linarith⟩
  simp only [q h1, q h2]
  rcases lt_trichotomy (fD x) 0 with h | h | h
  · rw [if_pos h.le, if_neg (by linarith), if_neg h.ne, zero_add]
    have := hs (a := -fA x) (b := -fB x) (d := -fD x) (by linarith)
    rw [neg_div_neg_eq, neg_div_neg_eq] at this
    rw [this]
    congr 1
    have : W (-fA x) (-fB x) (-fD x) ≠ 0 := h2.ne
    have hn : fD x ≠ 0 := h.ne
    field_simp
  · rw [if_pos h.le, if_pos (by linarith), if_pos h, zero_add]
  · rw [if_neg (by linarith), if_pos (by linarith), if_neg h.ne', add_zero, hs h]
    congr 1
    have := h1.ne
    have hn : fD x ≠ 0 := h.ne'
    field_simp

theorem fmValid_lip {s : ℝ → ℝ} (hs : ∀ x, LipschitzNear s x) (hmono : Monotone s) (h0 : LipschitzNear (fun y : ℝ => if y ≤ 0 then 0 else s (-1 / y)) 0)
    {ws scene : List (X → RWall)} {c : List ℤ} {ps : List (X → Pt)} {loss : X → ℝ} (tol : ℝ) {patch : ℝ} (hp : -(1 / 2) < patch)
    (hlen : ps.length = c.length + 2) (hw : ∀ w ∈ ws, WallSmooth 1 w x0) (hsc : ∀ w ∈ scene, WallSmooth 1 w x0) (hm : ∀ p ∈ ps, SmoothAt 1 p x0)
    (hl : ContDiffAt ℝ 1 loss x0) (hreg : RegularPath (scene.map (· x0)) c (ps.map (· x0))) :
    LipschitzNear (fun x => (fmValid (ws.map (· x)) (scene.map (· x)) c (ps.map (· x)) (loss x) tol patch).eval s) x0 := by
  have comp : ∀ {f : X → ℝ}, ContDiffAt ℝ 1 f x0 → LipschitzNear (fun x => s (f x)) x0 := fun hf => (hs _).comp (.of_contDiffAt hf)
  simp only [fmValid, Fm.eval, Fm.conj, Fm.disj, Fm.eval_foldl_and, Fm.eval_foldl_or, List.map_map, List.length_map, hitPairs_map,
    List.zipIdx_map, Function.comp_def, rnth_map]
  refine LipschitzNear.min (LipschitzNear.min ?_ (LipschitzNear.const_sub ?_ _)) (comp (contDiffAt_const.sub hl))
  · refine foldl_min_lip ws.zipIdx (fun y x => (fmOn (Prod.map (fun w : X → RWall => w x) id y).1.1 (Prod.map (fun w : X → RWall => w x) id y).1.2 (mnth ps ((Prod.map (fun w : X → RWall => w x) id y).2 + 1) x)).eval s) _ (.const _) ?_
    rintro ⟨w, i⟩ hy
    obtain ⟨w1, w2, w3⟩ := hw w (by
      have := (List.mem_zipIdx_iff_getElem?.mp hy); exact List.mem_of_getElem? this)
    have hpar := w1.rpar w2 w3 (mnth_smooth hm (i + 1))
    simp only [Prod.map, id, fmOn, Fm.eval]
    exact (comp hpar).min (comp (contDiffAt_const.sub hpar))
  · refine foldl_max_lip (hitIdx ps.length scene c) (fun y x => (fmSeg (pointAt (y.2.1 x).1 (y.2.1 x).2 (-patch)) (pointAt (y.2.1 x).1 (y.2.1 x).2 (1 + patch)) (mnth ps y.1 x) (mnth ps (y.1 + 1) x) (1 / 200)).eval s) _ (.const _) ?_
    intro y hy
    obtain ⟨hmem, hr2⟩ := regular_pairs hlen hreg hy
    obtain ⟨w1, w2, w3⟩ := hsc _ hmem
    have h1 := w1.pointAt w2 (-patch)
    have h2 := w1.pointAt w2 (1 + patch)
    have h3 := mnth_smooth hm y.1
    have h4 := mnth_smooth hm (y.1 + 1)
    have hA := SmoothAt.segA (p2 := fun x => pointAt (y.2.1 x).1 (y.2.1 x).2 (1 + patch)) h1 h3 h4
    have hB := SmoothAt.segB (p4 := mnth ps (y.1 + 1)) h1 h2 h3
    have hD := h1.segD h2 h3 h4
    rcases eq_or_ne (segD (pointAt (y.2.1 x0).1 (y.2.1 x0).2 (-patch)) (pointAt (y.2.1 x0).1 (y.2.1 x0).2 (1 + patch)) (mnth ps y.1 x0) (mnth ps (y.1 + 1) x0)) 0 with hd | hd
    · have hb := (regular_seg w3 hp hr2).resolve_left (not_not.mpr hd)
      refine (crossing_lip hmono h0 (.of_contDiffAt hA) (.of_contDiffAt hB) (.of_contDiffAt hD) hd hb (1 / 200)).congr (.of_forall fun x => ?_)
      simp only
      split_ifs with hx
      · exact (fmSeg_eval_zero _ s hx).symm
      · exact (fmSeg_eval_of_ne _ s hx).symm
    have hS := hA.div hD hd
    have hT := hB.div hD hd
    refine LipschitzNear.congr (((comp (hS.add (contDiffAt_const (c := 1 / 200)))).min (comp ((contDiffAt_const (c := 1 + 1 / 200)).sub hS))).min
        ((comp (hT.add (contDiffAt_const (c := 1 / 200)))).min (comp ((contDiffAt_const (c := 1 + 1 / 200)).sub hT)))) ?_
    filter_upwards [hD.continuousAt.eventually_ne hd] with x hx
    rw [fmSeg_eval_of_ne _ s hx]
    rfl

end DiffeRT2d
