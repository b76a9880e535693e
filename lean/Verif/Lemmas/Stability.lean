import Verif.Spec.Stability
import Verif.Lemmas.Generic
import Verif.Lemmas.ImageScore

/-! Continuity of the image method and of validity. -/

namespace DiffeRT2d
open Classical Spec Filter Topology

variable {X : Type} [TopologicalSpace X] {x0 : X}

theorem Spec.MovesAt.sub {p q : X → Pt} (hp : MovesAt p x0) (hq : MovesAt q x0) : MovesAt (fun x => p x - q x) x0 :=
  ⟨hp.1.sub hq.1, hp.2.sub hq.2⟩

theorem Spec.MovesAt.dp {p q : X → Pt} (hp : MovesAt p x0) (hq : MovesAt q x0) : ContinuousAt (fun x => dp (p x) (q x)) x0 :=
  (hp.1.mul hq.1).add (hp.2.mul hq.2)

theorem Spec.MovesAt.pointAt {p q : X → Pt} (hp : MovesAt p x0) (hq : MovesAt q x0) (s : ℝ) :
    MovesAt (fun x => pointAt (p x) (q x) s) x0 :=
  ⟨hp.1.add (continuousAt_const.mul (hq.1.sub hp.1)), hp.2.add (continuousAt_const.mul (hq.2.sub hp.2))⟩

theorem Spec.MovesAt.nrm {p : X → Pt} (hp : MovesAt p x0) : ContinuousAt (fun x => nrm (p x)) x0 := by
  unfold DiffeRT2d.nrm
  exact ((hp.1.mul hp.1).add (hp.2.mul hp.2)).sqrt

theorem Spec.MovesAt.unit {p : X → Pt} (hp : MovesAt p x0) (h : p x0 ≠ ⟨0, 0⟩) : MovesAt (fun x => unit (p x)) x0 := by
  have hn : DiffeRT2d.nrm (p x0) ≠ 0 := by
    intro h0; exact h (by simpa using (nrm_eq_zero _).mp h0)
  have hl : ContinuousAt (fun x => len1 (p x)) x0 := by
    refine hp.nrm.congr ?_
    filter_upwards [hp.nrm.eventually_ne hn] with x hx
    rw [len1, if_neg hx]
  exact ⟨hp.1.div hl (len1_pos _).ne', hp.2.div hl (len1_pos _).ne'⟩

theorem Spec.MovesAt.rn {o d : X → Pt} (ho : MovesAt o x0) (hd : MovesAt d x0) (h : o x0 ≠ d x0) : MovesAt (fun x => rn (o x) (d x)) x0 := by
  refine MovesAt.unit (p := fun x => ⟨(d x).y - (o x).y, -((d x).x - (o x).x)⟩) ⟨hd.2.sub ho.2, (hd.1.sub ho.1).neg⟩ ?_
  intro e
  simp only [V2.mk.injEq] at e
  apply h
  ext <;> linarith

theorem Spec.MovesAt.rimg {o d p : X → Pt} (ho : MovesAt o x0) (hd : MovesAt d x0) (h : o x0 ≠ d x0) (hp : MovesAt p x0) :
    MovesAt (fun x => rimg (o x) (d x) (p x)) x0 := by
  have hn := ho.rn hd h
  have hk := continuousAt_const.mul ((hp.sub ho).dp hn) (x := x0) (f := fun _ => (2 : ℝ))
  exact ⟨hp.1.sub (hk.mul hn.1), hp.2.sub (hk.mul hn.2)⟩

theorem Spec.MovesAt.rback {o d im pt : X → Pt} (ho : MovesAt o x0) (hd : MovesAt d x0) (h : o x0 ≠ d x0) (hi : MovesAt im x0)
    (hp : MovesAt pt x0) (hu : un (o x0) (d x0) (im x0) (pt x0) ≠ 0) :
    MovesAt (fun x => rback (o x) (d x) (im x) (pt x)) x0 := by
  have hn := ho.rn hd h
  have hv := hp.sub hi
  have hU : ContinuousAt (fun x => un (o x) (d x) (im x) (pt x)) x0 := hv.dp hn
  have hk := (ho.sub hp).dp hn
  have ev := hU.eventually_ne hu
  constructor
  · refine (hp.1.add ((hk.mul hv.1).div hU hu)).congr ?_
    filter_upwards [ev] with x hx
    rw [DiffeRT2d.rback, if_neg hx]; rfl
  · refine (hp.2.add ((hk.mul hv.2).div hU hu)).congr ?_
    filter_upwards [ev] with x hx
    rw [DiffeRT2d.rback, if_neg hx]; rfl

/-- Moving form of `rpts`. -/
noncomputable def mpts (img rx : X → Pt) : List (X → RWall) → List (X → Pt)
  | [] => []
  | w :: ws =>
    let im := fun x => rimg (w x).1 (w x).2 (img x)
    let rest := mpts im rx ws
    (fun x => rback (w x).1 (w x).2 (im x) (rest.headD rx x)) :: rest

theorem mpts_at (img rx : X → Pt) (ws : List (X → RWall)) (x : X) :
    (mpts img rx ws).map (· x) = rpts (img x) (rx x) (ws.map (· x)) := by
  induction ws generalizing img with
  | nil => rfl
  | cons w ws ih =>
    have e := ih fun x => rimg (w x).1 (w x).2 (img x)
    simp only [mpts, rpts, List.map_cons, ← e]
    congr 2
    cases mpts (fun x => rimg (w x).1 (w x).2 (img x)) rx ws <;> rfl

/-- Moving form of `rpath`. -/
noncomputable def mpath (tx rx : X → Pt) (ws : List (X → RWall)) : List (X → Pt) := tx :: mpts tx rx ws ++ [rx]

theorem mpath_at (tx rx : X → Pt) (ws : List (X → RWall)) (x : X) :
    (mpath tx rx ws).map (· x) = rpath (tx x) (rx x) (ws.map (· x)) := by
  simp [mpath, rpath, mpts_at]

/-- A moving wall. -/
def WallMoves (w : X → RWall) (x0 : X) : Prop :=
  MovesAt (fun x => (w x).1) x0 ∧ MovesAt (fun x => (w x).2) x0 ∧ (w x0).1 ≠ (w x0).2

theorem mpts_moves {img rx : X → Pt} {ws : List (X → RWall)} (hi : MovesAt img x0) (hr : MovesAt rx x0)
    (hw : ∀ w ∈ ws, WallMoves w x0)
    (hp : NoPause (rpts (img x0) (rx x0) (ws.map (· x0)) ++ [rx x0])) : ∀ p ∈ mpts img rx ws, MovesAt p x0 := by
  induction ws generalizing img with
  | nil => simp [mpts]
  | cons w ws ih =>
    obtain ⟨w1, w2, w3⟩ := hw w (by simp)
    have him := w1.rimg w2 w3 hi
    have hp' : NoPause (rpts (rimg (w x0).1 (w x0).2 (img x0)) (rx x0) (ws.map (· x0)) ++ [rx x0]) := by
      intro i a b ha hb
      exact hp (i + 1) a b ha hb
    have hrest := ih him (fun w h => hw w (by simp [h])) hp'
    have hhead : MovesAt ((mpts (fun x => rimg (w x).1 (w x).2 (img x)) rx ws).headD rx) x0 := by
      cases hm : mpts (fun x => rimg (w x).1 (w x).2 (img x)) rx ws with
      | nil => exact hr
      | cons a l => exact hrest a (by rw [hm]; simp)
    intro p hpm
    simp only [mpts, List.mem_cons] at hpm
    rcases hpm with rfl | hpm
    · refine w1.rback w2 w3 him hhead ?_
      intro hu
      have e := mpts_at (fun x => rimg (w x).1 (w x).2 (img x)) rx ws x0
      have hh : (mpts (fun x => rimg (w x).1 (w x).2 (img x)) rx ws).headD rx x0 =
          (rpts (rimg (w x0).1 (w x0).2 (img x0)) (rx x0) (ws.map (· x0))).headD (rx x0) := by
        rw [← e]; cases mpts (fun x => rimg (w x).1 (w x).2 (img x)) rx ws <;> rfl
      rw [hh] at hu
      refine hp 0 _ _ (by simp only [List.map_cons, rpts]; rfl) ?_ (rback_guard hu)
      simp only [List.map_cons, rpts]
      cases rpts (rimg (w x0).1 (w x0).2 (img x0)) (rx x0) (ws.map (· x0)) <;> rfl
    · exact hrest p hpm

theorem mpath_moves {tx rx : X → Pt} {ws : List (X → RWall)} (ht : MovesAt tx x0) (hr : MovesAt rx x0)
    (hw : ∀ w ∈ ws, WallMoves w x0) (hp : ws ≠ [] → NoPause (rpath (tx x0) (rx x0) (ws.map (· x0)))) :
    ∀ p ∈ mpath tx rx ws, MovesAt p x0 := by
  intro p hpm
  simp only [mpath, List.cons_append, List.mem_cons, List.mem_append, List.not_mem_nil, or_false] at hpm
  rcases hpm with rfl | hpm | rfl
  · exact ht
  · have hne : ws ≠ [] := by rintro rfl; simp [mpts] at hpm
    refine mpts_moves ht hr hw ?_ p hpm
    intro i a b ha hb
    exact hp hne (i + 1) a b ha hb
  · exact hr

theorem Spec.MovesAt.reval {o d a b c : X → Pt} (ho : MovesAt o x0) (hd : MovesAt d x0) (h : o x0 ≠ d x0) (ha : MovesAt a x0)
    (hb : MovesAt b x0) (hc : MovesAt c x0) (hab : a x0 ≠ b x0) (hbc : b x0 ≠ c x0) :
    ContinuousAt (fun x => reval (o x) (d x) (a x) (b x) (c x)) x0 := by
  have hn := ho.rn hd h
  have ne : ∀ {p q : Pt}, p ≠ q → q - p ≠ ⟨0, 0⟩ := by
    intro p q hpq e
    apply hpq
    have e1 : q.x - p.x = 0 := congrArg V2.x e
    have e2 : q.y - p.y = 0 := congrArg V2.y e
    ext <;> linarith
  have hi := (hb.sub ha).unit (ne hab)
  have hr := (hc.sub hb).unit (ne hbc)
  have hk := continuousAt_const.mul (hi.dp hn) (x := x0) (f := fun _ => (2 : ℝ))
  have he : MovesAt (fun x => (⟨(DiffeRT2d.unit (c x - b x)).x - ((DiffeRT2d.unit (b x - a x)).x - 2 * DiffeRT2d.dp (DiffeRT2d.unit (b x - a x)) (DiffeRT2d.rn (o x) (d x)) * (DiffeRT2d.rn (o x) (d x)).x),
      (DiffeRT2d.unit (c x - b x)).y - ((DiffeRT2d.unit (b x - a x)).y - 2 * DiffeRT2d.dp (DiffeRT2d.unit (b x - a x)) (DiffeRT2d.rn (o x) (d x)) * (DiffeRT2d.rn (o x) (d x)).y)⟩ : Pt)) x0 :=
    ⟨hr.1.sub (hi.1.sub (hk.mul hn.1)), hr.2.sub (hi.2.sub (hk.mul hn.2))⟩
  exact he.dp he

theorem scores_moves {ws : List (X → RWall)} {ps : List (X → Pt)} (hw : ∀ w ∈ ws, WallMoves w x0) (hm : ∀ p ∈ ps, MovesAt p x0)
    (hp : ws ≠ [] → NoPause (ps.map (· x0))) : ContinuousAt (fun x => (scores (ws.map (· x)) (ps.map (· x))).sum) x0 := by
  induction ws generalizing ps with
  | nil =>
    have : (fun x => (scores (List.map (· x) ([] : List (X → RWall))) (ps.map (· x))).sum) = fun _ => 0 := by
      funext x; simp [scores]
    rw [this]; exact continuousAt_const
  | cons w ws ih =>
    match ps, hm, hp with
    | [], _, _ => exact (continuousAt_const (y := (0 : ℝ))).congr (Eventually.of_forall fun x => by simp [scores])
    | [_], _, _ => exact (continuousAt_const (y := (0 : ℝ))).congr (Eventually.of_forall fun x => by simp [scores])
    | [_, _], _, _ => exact (continuousAt_const (y := (0 : ℝ))).congr (Eventually.of_forall fun x => by simp [scores])
    | a :: b :: c :: ps, hm, hp =>
      obtain ⟨w1, w2, w3⟩ := hw w (by simp)
      have hp := hp (by simp)
      have e : (fun x => (scores ((w :: ws).map (· x)) ((a :: b :: c :: ps).map (· x))).sum) =
          fun x => reval (w x).1 (w x).2 (a x) (b x) (c x) + (scores (ws.map (· x)) ((b :: c :: ps).map (· x))).sum := by
        funext x; simp [scores]
      rw [e]
      refine (w1.reval w2 w3 (hm a (by simp)) (hm b (by simp)) (hm c (by simp)) (hp 0 _ _ rfl rfl) (hp 1 _ _ rfl rfl)).add ?_
      exact ih (fun w h => hw w (by simp [h])) (fun p h => hm p (List.mem_cons_of_mem _ h)) fun _ i p q h1 h2 => hp (i + 1) p q h1 h2

theorem Spec.MovesAt.rpar {o d p : X → Pt} (ho : MovesAt o x0) (hd : MovesAt d x0) (h : o x0 ≠ d x0) (hp : MovesAt p x0) :
    ContinuousAt (fun x => rpar (o x) (d x) (p x)) x0 := by
  have hv := hd.sub ho
  have h0 : DiffeRT2d.dp (d x0 - o x0) (d x0 - o x0) ≠ 0 := fun e => h ((dp_self_eq_zero _ _).mp e)
  refine ((hv.dp (hp.sub ho)).div (hv.dp hv) h0).congr ?_
  filter_upwards [(hv.dp hv).eventually_ne h0] with x hx
  rw [DiffeRT2d.rpar, if_neg hx]; rfl

theorem Spec.MovesAt.segA {p1 p2 p3 p4 : X → Pt} (h1 : MovesAt p1 x0) (h3 : MovesAt p3 x0) (h4 : MovesAt p4 x0) :
    ContinuousAt (fun x => segA (p1 x) (p2 x) (p3 x) (p4 x)) x0 :=
  ((h3.2.sub h4.2).mul (h1.1.sub h3.1)).sub ((h3.1.sub h4.1).mul (h1.2.sub h3.2))
theorem Spec.MovesAt.segB {p1 p2 p3 p4 : X → Pt} (h1 : MovesAt p1 x0) (h2 : MovesAt p2 x0) (h3 : MovesAt p3 x0) :
    ContinuousAt (fun x => segB (p1 x) (p2 x) (p3 x) (p4 x)) x0 :=
  ((h2.1.sub h1.1).mul (h1.2.sub h3.2)).sub ((h2.2.sub h1.2).mul (h1.1.sub h3.1))
theorem Spec.MovesAt.segD {p1 p2 p3 p4 : X → Pt} (h1 : MovesAt p1 x0) (h2 : MovesAt p2 x0) (h3 : MovesAt p3 x0) (h4 : MovesAt p4 x0) :
    ContinuousAt (fun x => segD (p1 x) (p2 x) (p3 x) (p4 x)) x0 :=
  ((h2.2.sub h1.2).mul (h3.1.sub h4.1)).sub ((h2.1.sub h1.1).mul (h3.2.sub h4.2))

/-- A quotient whose denominator vanishes at `x0` but whose numerator does not is large near `x0`. -/
theorem quotient_large {b d : X → ℝ} (hb : ContinuousAt b x0) (hd : ContinuousAt d x0) (hb0 : b x0 ≠ 0) (hd0 : d x0 = 0) (K : ℝ) :
    ∀ᶠ x in 𝓝 x0, d x ≠ 0 → K < |b x / d x| := by
  have hK : (0 : ℝ) < |K| + 1 := by positivity
  have e1 : ∀ᶠ x in 𝓝 x0, |b x0| / 2 < |b x| := by
    refine hb.abs.eventually_const_lt ?_
    have := abs_pos.mpr hb0
    linarith
  have e2 : ∀ᶠ x in 𝓝 x0, |d x| < |b x0| / 2 / (|K| + 1) := by
    refine hd.abs.eventually_lt_const ?_
    show |d x0| < _
    rw [hd0, abs_zero]
    have := abs_pos.mpr hb0
    positivity
  filter_upwards [e1, e2] with x h1 h2 h3
  have h4 := abs_pos.mpr h3
  rw [abs_div, lt_div_iff₀ h4]
  rw [lt_div_iff₀ hK] at h2
  have := le_abs_self K
  nlinarith

theorem fmSeg_eval_of_ne {p1 p2 p3 p4 : Pt} (tol : ℝ) (s : ℝ → ℝ) (h : segD p1 p2 p3 p4 ≠ 0) :
    (fmSeg p1 p2 p3 p4 tol).eval s = min (min (s (segA p1 p2 p3 p4 / segD p1 p2 p3 p4 + tol)) (s (1 + tol - segA p1 p2 p3 p4 / segD p1 p2 p3 p4)))
      (min (s (segB p1 p2 p3 p4 / segD p1 p2 p3 p4 + tol)) (s (1 + tol - segB p1 p2 p3 p4 / segD p1 p2 p3 p4))) := by
  rw [fmSeg, segParams, if_neg h]; rfl
theorem fmSeg_eval_zero {p1 p2 p3 p4 : Pt} (tol : ℝ) (s : ℝ → ℝ) (h : segD p1 p2 p3 p4 = 0) :
    (fmSeg p1 p2 p3 p4 tol).eval s = 0 := by
  rw [fmSeg, segParams, if_pos h]; rfl

theorem fmSeg_moves {s : ℝ → ℝ} (hs : Continuous s) (hr : ∀ x, 0 ≤ s x ∧ s x ≤ 1) (h0 : Tendsto s atBot (𝓝 0)) {p1 p2 p3 p4 : X → Pt}
    (h1 : MovesAt p1 x0) (h2 : MovesAt p2 x0) (h3 : MovesAt p3 x0) (h4 : MovesAt p4 x0) (tol : ℝ)
    (hreg : segD (p1 x0) (p2 x0) (p3 x0) (p4 x0) ≠ 0 ∨ segB (p1 x0) (p2 x0) (p3 x0) (p4 x0) ≠ 0) :
    ContinuousAt (fun x => (fmSeg (p1 x) (p2 x) (p3 x) (p4 x) tol).eval s) x0 := by
  have hA := MovesAt.segA (p2 := p2) h1 h3 h4
  have hB := MovesAt.segB (p4 := p4) h1 h2 h3
  have hD := h1.segD h2 h3 h4
  by_cases hd : segD (p1 x0) (p2 x0) (p3 x0) (p4 x0) = 0
  · have hb := hreg.resolve_left (not_not.mpr hd)
    show Tendsto _ _ (𝓝 ((fmSeg (p1 x0) (p2 x0) (p3 x0) (p4 x0) tol).eval s))
    rw [fmSeg_eval_zero tol s hd]
    rw [Metric.tendsto_nhds]
    intro ε hε
    rw [Metric.tendsto_nhds] at h0
    obtain ⟨M, hM⟩ := eventually_atBot.mp (h0 ε hε)
    filter_upwards [quotient_large hB hD hb hd (|M| + |tol| + 2)] with x hx
    have hrange := Fm.eval_range hr (fmSeg (p1 x) (p2 x) (p3 x) (p4 x) tol)
    rw [Real.dist_eq, sub_zero, abs_of_nonneg hrange.1]
    by_cases hdx : segD (p1 x) (p2 x) (p3 x) (p4 x) = 0
    · rw [fmSeg_eval_zero tol s hdx]; exact hε
    · have hx := hx hdx
      rw [fmSeg_eval_of_ne tol s hdx]
      set t := segB (p1 x) (p2 x) (p3 x) (p4 x) / segD (p1 x) (p2 x) (p3 x) (p4 x)
      have a1 := neg_abs_le M
      have a2 := neg_abs_le tol
      have a3 := le_abs_self tol
      have small : ∀ y, y ≤ M → s y < ε := by
        intro y hy
        have := hM y hy
        rw [Real.dist_eq, sub_zero, abs_of_nonneg (hr y).1] at this
        exact this
      refine lt_of_le_of_lt (min_le_right _ _) ?_
      rcases le_or_gt 0 t with ht | ht
      · rw [abs_of_nonneg ht] at hx
        exact lt_of_le_of_lt (min_le_right _ _) (small _ (by linarith))
      · rw [abs_of_neg ht] at hx
        exact lt_of_le_of_lt (min_le_left _ _) (small _ (by linarith))
  · have hS := hA.div hD hd
    have hT := hB.div hD hd
    refine ContinuousAt.congr (f := fun x => min (min (s (segA (p1 x) (p2 x) (p3 x) (p4 x) / segD (p1 x) (p2 x) (p3 x) (p4 x) + tol))
      (s (1 + tol - segA (p1 x) (p2 x) (p3 x) (p4 x) / segD (p1 x) (p2 x) (p3 x) (p4 x))))
      (min (s (segB (p1 x) (p2 x) (p3 x) (p4 x) / segD (p1 x) (p2 x) (p3 x) (p4 x) + tol))
      (s (1 + tol - segB (p1 x) (p2 x) (p3 x) (p4 x) / segD (p1 x) (p2 x) (p3 x) (p4 x))))) ?_ ?_
    · have c : ∀ {f : X → ℝ}, ContinuousAt f x0 → ContinuousAt (fun x => s (f x)) x0 := fun hf => hs.continuousAt.comp hf
      exact ((c (hS.add continuousAt_const)).min (c (continuousAt_const.sub hS))).min
        ((c (hT.add continuousAt_const)).min (c (continuousAt_const.sub hT)))
    · filter_upwards [hD.eventually_ne hd] with x hx
      rw [fmSeg_eval_of_ne tol s hx]

theorem foldl_min_moves {α : Type} (l : List α) (f : α → X → ℝ) (z : X → ℝ) (hz : ContinuousAt z x0) (hf : ∀ a ∈ l, ContinuousAt (f a) x0) :
    ContinuousAt (fun x => (l.map fun a => f a x).foldl min (z x)) x0 := by
  induction l generalizing z with
  | nil => exact hz
  | cons a l ih =>
    simp only [List.map_cons, List.foldl_cons]
    exact ih _ (hz.min (hf a (by simp))) fun a h => hf a (by simp [h])
theorem foldl_max_moves {α : Type} (l : List α) (f : α → X → ℝ) (z : X → ℝ) (hz : ContinuousAt z x0) (hf : ∀ a ∈ l, ContinuousAt (f a) x0) :
    ContinuousAt (fun x => (l.map fun a => f a x).foldl max (z x)) x0 := by
  induction l generalizing z with
  | nil => exact hz
  | cons a l ih =>
    simp only [List.map_cons, List.foldl_cons]
    exact ih _ (hz.max (hf a (by simp))) fun a h => hf a (by simp [h])

/-! ### The pairs tested, for lists of anything -/

/-- `hitPairs` for lists of anything. -/
noncomputable def hitIdx {α : Type} (n : ℕ) (ws : List α) (candidate : List ℤ) : List (ℕ × α × ℕ) :=
  (List.range (n - 1)).flatMap fun i =>
    (ws.zipIdx.filter fun oj =>
      !(((oj.2 : ℤ) == (-1 :: candidate ++ [-1]).getD i 0) ||
        ((oj.2 : ℤ) == (-1 :: candidate ++ [-1]).getD (i + 1) 0))).map fun oj => (i, oj)

theorem hitPairs_map {α : Type} (n : ℕ) (ws : List α) (f : α → RWall) (c : List ℤ) :
    hitPairs n (ws.map f) c = (hitIdx n ws c).map fun y => (y.1, f y.2.1, y.2.2) := by
  unfold hitPairs hitIdx
  rw [List.map_flatMap]
  congr 1
  funext i
  rw [List.zipIdx_map, List.filter_map, List.map_map, List.map_map]
  rfl

theorem mem_hitIdx {α : Type} {n : ℕ} {ws : List α} {candidate : List ℤ} (hn : n ≤ candidate.length + 2)
    {x : ℕ × α × ℕ} (h : x ∈ hitIdx n ws candidate) :
    x.1 + 1 < n ∧ ws[x.2.2]? = some x.2.1 ∧ ¬ Adjacent candidate x.1 x.2.2 := by
  obtain ⟨i, w, j⟩ := x
  simp only [hitIdx, List.mem_flatMap, List.mem_range, List.mem_map, List.mem_filter,
    Bool.not_eq_true', Bool.or_eq_false_iff] at h
  obtain ⟨i', hi, ⟨w', j'⟩, ⟨h1, h2, h3⟩, h4⟩ := h
  rw [List.mem_zipIdx_iff_getElem?] at h1
  simp only [Prod.mk.injEq] at h4
  obtain ⟨rfl, rfl, rfl⟩ := h4
  have hc := cand_getD candidate i' j' (by omega)
  refine ⟨by simp only; omega, h1, ?_⟩
  rintro (h | h)
  · rw [← hc.2, h3] at h; cases h
  · rw [← hc.1, h2] at h; cases h

/-- Moving form of `rnth`. -/
noncomputable def mnth (ps : List (X → Pt)) (i : ℕ) : X → Pt := ps.getD (min i (ps.length - 1)) fun _ => ⟨0, 0⟩

omit [TopologicalSpace X] in
theorem rnth_map (ps : List (X → Pt)) (i : ℕ) (x : X) : rnth (ps.map (· x)) i = mnth ps i x := by
  simp only [rnth, mnth, List.length_map, List.getD_eq_getElem?_getD, List.getElem?_map]
  cases ps[min i (ps.length - 1)]? <;> rfl

theorem mnth_moves {ps : List (X → Pt)} (h : ∀ p ∈ ps, MovesAt p x0) (i : ℕ) : MovesAt (mnth ps i) x0 := by
  simp only [mnth, List.getD_eq_getElem?_getD]
  cases e : ps[min i (ps.length - 1)]? with
  | none => exact ⟨continuousAt_const, continuousAt_const⟩
  | some p => exact h p (List.mem_of_getElem? e)

theorem onLine_of_side {o d p : Pt} (h : o ≠ d) (hs : side o d p = 0) : OnLine o d p := by
  have h0 : dp (d - o) (d - o) ≠ 0 := fun e => h ((dp_self_eq_zero _ _).mp e)
  simp only [dp, V2.sub_x, V2.sub_y] at h0
  unfold side at hs
  refine ⟨((d.x - o.x) * (p.x - o.x) + (d.y - o.y) * (p.y - o.y)) / ((d.x - o.x) * (d.x - o.x) + (d.y - o.y) * (d.y - o.y)), ?_⟩
  ext
  · show p.x = o.x + _ * (d.x - o.x)
    rw [div_mul_eq_mul_div, ← sub_eq_iff_eq_add', eq_div_iff h0]; linear_combination (o.y - d.y) * hs
  · show p.y = o.y + _ * (d.y - o.y)
    rw [div_mul_eq_mul_div, ← sub_eq_iff_eq_add', eq_div_iff h0]; linear_combination (d.x - o.x) * hs

/-- A segment that is not in the line of a wall gives a regular crossing test. -/
theorem regular_seg {o d a b : Pt} {patch : ℝ} (h : o ≠ d) (hp : -(1 / 2) < patch) (hreg : ¬ (OnLine o d a ∧ OnLine o d b)) :
    segD (pointAt o d (-patch)) (pointAt o d (1 + patch)) a b ≠ 0 ∨ segB (pointAt o d (-patch)) (pointAt o d (1 + patch)) a b ≠ 0 := by
  by_contra hc
  push Not at hc
  obtain ⟨hD, hB⟩ := hc
  have hk : 1 + 2 * patch ≠ 0 := by linarith
  have eB : segB (pointAt o d (-patch)) (pointAt o d (1 + patch)) a b = (1 + 2 * patch) * (-side o d a) := by
    simp only [segB, pointAt, side]; ring
  have eD : segD (pointAt o d (-patch)) (pointAt o d (1 + patch)) a b = (1 + 2 * patch) * (side o d a - side o d b) * -1 * -1 ∨
      segD (pointAt o d (-patch)) (pointAt o d (1 + patch)) a b = (1 + 2 * patch) * (side o d b - side o d a) := by
    right; simp only [segD, pointAt, side]; ring
  rw [eB] at hB
  have ha : side o d a = 0 := by
    rcases mul_eq_zero.mp hB with h' | h'
    · exact absurd h' hk
    · linarith
  have hb : side o d b = 0 := by
    rcases eD with e | e <;> rw [e, ha] at hD
    · have : (1 + 2 * patch) * side o d b = 0 := by linarith
      exact (mul_eq_zero.mp this).resolve_left hk
    · have : (1 + 2 * patch) * side o d b = 0 := by linarith
      exact (mul_eq_zero.mp this).resolve_left hk
  exact hreg ⟨onLine_of_side h ha, onLine_of_side h hb⟩

/-- Regularity of the pairs tested. -/
theorem regular_pairs {scene : List (X → RWall)} {c : List ℤ} {ps : List (X → Pt)} (hlen : ps.length = c.length + 2)
    (hreg : RegularPath (scene.map (· x0)) c (ps.map (· x0))) {y : ℕ × (X → RWall) × ℕ} (hy : y ∈ hitIdx ps.length scene c) :
    y.2.1 ∈ scene ∧ ¬ (OnLine (y.2.1 x0).1 (y.2.1 x0).2 (mnth ps y.1 x0) ∧ OnLine (y.2.1 x0).1 (y.2.1 x0).2 (mnth ps (y.1 + 1) x0)) := by
  obtain ⟨h1, h2, h3⟩ := mem_hitIdx hlen.le hy
  refine ⟨List.mem_of_getElem? h2, ?_⟩
  have e1 := rnth_eq (pts := ps.map (· x0)) (i := y.1) (by simp; omega)
  have e2 := rnth_eq (pts := ps.map (· x0)) (i := y.1 + 1) (by simpa using h1)
  rw [rnth_map] at e1 e2
  exact hreg.across y.1 y.2.2 _ _ _ e1 e2 (by simp [h2]) h3

theorem fmValid_moves {s : ℝ → ℝ} (hs : Continuous s) (hr : ∀ x, 0 ≤ s x ∧ s x ≤ 1) (h0 : Tendsto s atBot (𝓝 0))
    {ws scene : List (X → RWall)} {c : List ℤ} {ps : List (X → Pt)} {loss : X → ℝ} (tol : ℝ) {patch : ℝ} (hp : -(1 / 2) < patch)
    (hlen : ps.length = c.length + 2) (hw : ∀ w ∈ ws, WallMoves w x0) (hsc : ∀ w ∈ scene, WallMoves w x0) (hm : ∀ p ∈ ps, MovesAt p x0)
    (hl : ContinuousAt loss x0) (hreg : RegularPath (scene.map (· x0)) c (ps.map (· x0))) :
    ContinuousAt (fun x => (fmValid (ws.map (· x)) (scene.map (· x)) c (ps.map (· x)) (loss x) tol patch).eval s) x0 := by
  simp only [fmValid, Fm.eval, Fm.conj, Fm.disj, Fm.eval_foldl_and, Fm.eval_foldl_or, List.map_map, List.length_map, hitPairs_map,
    List.zipIdx_map, Function.comp_def, rnth_map]
  refine Filter.Tendsto.min (Filter.Tendsto.min ?_ (Filter.Tendsto.const_sub _ ?_)) (hs.continuousAt.comp (continuousAt_const.sub hl))
  · refine foldl_min_moves ws.zipIdx (fun y x => (fmOn (Prod.map (fun w : X → RWall => w x) id y).1.1 (Prod.map (fun w : X → RWall => w x) id y).1.2 (mnth ps ((Prod.map (fun w : X → RWall => w x) id y).2 + 1) x)).eval s) _ continuousAt_const ?_
    rintro ⟨w, i⟩ hy
    obtain ⟨w1, w2, w3⟩ := hw w (by
      have := (List.mem_zipIdx_iff_getElem?.mp hy); exact List.mem_of_getElem? this)
    have hpar := w1.rpar w2 w3 (mnth_moves hm (i + 1))
    have c : ∀ {f : X → ℝ}, ContinuousAt f x0 → ContinuousAt (fun x => s (f x)) x0 := fun hf => hs.continuousAt.comp hf
    simp only [Prod.map, id, fmOn, Fm.eval]
    exact (c hpar).min (c (continuousAt_const.sub hpar))
  · refine foldl_max_moves (hitIdx ps.length scene c) (fun y x => (fmSeg (pointAt (y.2.1 x).1 (y.2.1 x).2 (-patch)) (pointAt (y.2.1 x).1 (y.2.1 x).2 (1 + patch)) (mnth ps y.1 x) (mnth ps (y.1 + 1) x) (1 / 200)).eval s) _ continuousAt_const ?_
    intro y hy
    obtain ⟨hmem, hr2⟩ := regular_pairs hlen hreg hy
    obtain ⟨w1, w2, w3⟩ := hsc _ hmem
    exact fmSeg_moves hs hr h0 (w1.pointAt w2 _) (w1.pointAt w2 _) (mnth_moves hm _) (mnth_moves hm _) _ (regular_seg w3 hp hr2)

/-! ### Hard mode -/

/-- The crossing test in hard mode. -/
def HardHit (p1 p2 p3 p4 : Pt) (tol : ℝ) : Prop :=
  segD p1 p2 p3 p4 ≠ 0 ∧ (-tol ≤ segA p1 p2 p3 p4 / segD p1 p2 p3 p4 ∧ segA p1 p2 p3 p4 / segD p1 p2 p3 p4 ≤ 1 + tol) ∧
    (-tol ≤ segB p1 p2 p3 p4 / segD p1 p2 p3 p4 ∧ segB p1 p2 p3 p4 / segD p1 p2 p3 p4 ≤ 1 + tol)

/-- Validity in hard mode. -/
def HardOk (ws scene : List RWall) (c : List ℤ) (pts : List Pt) (loss tol patch : ℝ) : Prop :=
  (∀ y ∈ ws.zipIdx, 0 ≤ rpar y.1.1 y.1.2 (rnth pts (y.2 + 1)) ∧ rpar y.1.1 y.1.2 (rnth pts (y.2 + 1)) ≤ 1) ∧
  (∀ y ∈ hitPairs pts.length scene c, ¬ HardHit (pointAt y.2.1.1 y.2.1.2 (-patch)) (pointAt y.2.1.1 y.2.1.2 (1 + patch)) (rnth pts y.1)
    (rnth pts (y.1 + 1)) (1 / 200)) ∧ loss < tol

theorem hardHit_test {E : Env} {ap : Option Bool} (h : Hard E ap) (kw : ActKw) (p1 p2 p3 p4 : Pt) (tol : ℝ) :
    (segmentsIntersect E (V2.fin p1) (V2.fin p2) (V2.fin p3) (V2.fin p4) (F.fin tol) ap kw).toBool = decide (HardHit p1 p2 p3 p4 tol) := by
  rw [segmentsIntersect_fin, segTest_hard h, segTest_hard h]
  simp only [logicalAnd, h.eq, Truthy.toBool, Bool.false_eq_true, if_false]
  rw [← Bool.decide_and]
  apply decide_eq_decide.mpr
  unfold HardHit
  tauto

theorem isValid_hardOk {E : Env} {ap : Option Bool} (h : Hard E ap) (kw : ActKw)
    (ws scene : List RWall) (candidate : List ℤ) (pts : List Pt)
    (loss tol patch : ℝ) (hlen : pts.length = candidate.length + 2) :
    (finitePath pts loss).isValid E ((wallsOf scene).map Obj.interact) candidate
      ((wallsOf ws).map Obj.interact) (F.fin tol) (F.fin patch) ap kw =
      .ok (.b (decide (HardOk ws scene candidate pts loss tol patch))) := by
  have hne : pts ≠ [] := by intro e; simp [e] at hlen
  unfold finitePath
  rw [isValid_hard _ h _ _ _ _ _ _ (by simp [hlen]), onVals_walls _ _ hne, hitVals_walls _ _ hne]
  congr 2
  rw [Bool.eq_iff_iff]
  simp only [Bool.and_eq_true, List.all_eq_true, List.mem_map, forall_exists_index, and_imp, forall_apply_eq_imp_iff₂, Bool.not_eq_true',
    List.any_eq_false, decide_eq_true_eq, F.lt]
  unfold HardOk
  refine and_congr ?_ (and_congr_left fun _ => ?_)
  · refine forall_congr' fun y => forall_congr' fun _ => ?_
    rw [contains_hard h]; simp [Truthy.toBool]
  · refine forall_congr' fun y => forall_congr' fun _ => ?_
    rw [patched, segTol_eq, hardHit_test h]; simp

theorem le_stable {f : X → ℝ} (hf : ContinuousAt f x0) {a : ℝ} (h : f x0 ≠ a) : ∀ᶠ x in 𝓝 x0, (a ≤ f x ↔ a ≤ f x0) := by
  rcases lt_or_gt_of_ne h with h | h
  · filter_upwards [hf.eventually_lt_const h] with x hx
    exact ⟨fun h' => absurd hx (not_lt.mpr h'), fun h' => absurd h (not_lt.mpr h')⟩
  · filter_upwards [hf.eventually_const_lt h] with x hx
    exact ⟨fun _ => h.le, fun _ => hx.le⟩
theorem ge_stable {f : X → ℝ} (hf : ContinuousAt f x0) {a : ℝ} (h : f x0 ≠ a) : ∀ᶠ x in 𝓝 x0, (f x ≤ a ↔ f x0 ≤ a) := by
  rcases lt_or_gt_of_ne h with h | h
  · filter_upwards [hf.eventually_lt_const h] with x hx
    exact ⟨fun _ => h.le, fun _ => hx.le⟩
  · filter_upwards [hf.eventually_const_lt h] with x hx
    exact ⟨fun h' => absurd hx (not_lt.mpr h'), fun h' => absurd h (not_lt.mpr h')⟩

theorem hardHit_stable {p1 p2 p3 p4 : X → Pt} (h1 : MovesAt p1 x0) (h2 : MovesAt p2 x0) (h3 : MovesAt p3 x0) (h4 : MovesAt p4 x0)
    {tol : ℝ} (hreg : segD (p1 x0) (p2 x0) (p3 x0) (p4 x0) ≠ 0 ∨ segB (p1 x0) (p2 x0) (p3 x0) (p4 x0) ≠ 0)
    (hn : NotCrossingAtEnds (p1 x0) (p2 x0) (p3 x0) (p4 x0) tol) :
    ∀ᶠ x in 𝓝 x0, (HardHit (p1 x) (p2 x) (p3 x) (p4 x) tol ↔ HardHit (p1 x0) (p2 x0) (p3 x0) (p4 x0) tol) := by
  have hA := MovesAt.segA (p2 := p2) h1 h3 h4
  have hB := MovesAt.segB (p4 := p4) h1 h2 h3
  have hD := h1.segD h2 h3 h4
  by_cases hd : segD (p1 x0) (p2 x0) (p3 x0) (p4 x0) = 0
  · have hb := hreg.resolve_left (not_not.mpr hd)
    filter_upwards [quotient_large hB hD hb hd (|tol| + 2)] with x hx
    refine iff_of_false ?_ fun h => h.1 hd
    rintro ⟨h5, -, h6, h7⟩
    have := hx h5
    have a1 := le_abs_self tol
    rcases abs_cases (segB (p1 x) (p2 x) (p3 x) (p4 x) / segD (p1 x) (p2 x) (p3 x) (p4 x)) with ⟨e, -⟩ | ⟨e, -⟩ <;> linarith
  · have hn := hn.resolve_left (fun h => hd ((segD_eq_zero _ _ _ _).mpr h))
    have hcr : pointAt (p1 x0) (p2 x0) (segA (p1 x0) (p2 x0) (p3 x0) (p4 x0) / segD (p1 x0) (p2 x0) (p3 x0) (p4 x0)) =
        pointAt (p3 x0) (p4 x0) (segB (p1 x0) (p2 x0) (p3 x0) (p4 x0) / segD (p1 x0) (p2 x0) (p3 x0) (p4 x0)) := by
      ext
      · simp only [pointAt]; field_simp; simp only [segA, segB, segD]; ring
      · simp only [pointAt]; field_simp; simp only [segA, segB, segD]; ring
    obtain ⟨⟨n1, n2⟩, n3, n4⟩ := hn _ _ hcr
    have hS := hA.div hD hd
    have hT := hB.div hD hd
    filter_upwards [le_stable hS n1, ge_stable hS n2, le_stable hT n3, ge_stable hT n4, hD.eventually_ne hd] with x a1 a2 a3 a4 a5
    unfold HardHit
    exact and_congr (iff_of_true a5 hd) (and_congr (and_congr a1 a2) (and_congr a3 a4))

theorem forall_stable {α : Type} (l : List α) (P : α → X → Prop) (h : ∀ a ∈ l, ∀ᶠ x in 𝓝 x0, (P a x ↔ P a x0)) :
    ∀ᶠ x in 𝓝 x0, ((∀ a ∈ l, P a x) ↔ ∀ a ∈ l, P a x0) := by
  induction l with
  | nil => simp
  | cons a l ih =>
    filter_upwards [h a (by simp), ih fun a ha => h a (by simp [ha])] with x h1 h2
    simp only [List.forall_mem_cons]
    exact and_congr h1 h2

theorem rpar_ne {w : RWall} {q : Pt} (h : w.1 ≠ w.2) (hn : NotLevelWithEnds w q) : rpar w.1 w.2 q ≠ 0 ∧ rpar w.1 w.2 q ≠ 1 := by
  have h0 : dp (w.2 - w.1) (w.2 - w.1) ≠ 0 := fun e => h ((dp_self_eq_zero _ _).mp e)
  obtain ⟨n1, n2⟩ := hn
  rw [rpar, if_neg h0]
  constructor
  · intro e
    rw [div_eq_zero_iff, or_iff_left h0] at e
    apply n1
    simp only [dp, V2.sub_x, V2.sub_y] at e
    unfold Orthogonal; linarith
  · intro e
    rw [div_eq_one_iff_eq h0] at e
    apply n2
    simp only [dp, V2.sub_x, V2.sub_y] at e
    unfold Orthogonal; linarith

theorem hardOk_stable {ws scene : List (X → RWall)} {c : List ℤ} {ps : List (X → Pt)} {loss : X → ℝ} {tol patch : ℝ} (hp : -(1 / 2) < patch)
    (hlen : ps.length = c.length + 2) (hw : ∀ w ∈ ws, WallMoves w x0) (hsc : ∀ w ∈ scene, WallMoves w x0) (hm : ∀ p ∈ ps, MovesAt p x0)
    (hwl : ws.length = c.length)
    (hl : ContinuousAt loss x0) (hreg : RegularPath (scene.map (· x0)) c (ps.map (· x0)))
    (hg : Generic (ws.map (· x0)) (scene.map (· x0)) c (ps.map (· x0)) (loss x0) tol patch) :
    ∀ᶠ x in 𝓝 x0, (HardOk (ws.map (· x)) (scene.map (· x)) c (ps.map (· x)) (loss x) tol patch ↔
      HardOk (ws.map (· x0)) (scene.map (· x0)) c (ps.map (· x0)) (loss x0) tol patch) := by
  simp only [HardOk, List.length_map, hitPairs_map, List.zipIdx_map, rnth_map, List.forall_mem_map]
  have e1 := forall_stable (x0 := x0) ws.zipIdx (fun y x => 0 ≤ rpar (Prod.map (fun w : X → RWall => w x) id y).1.1 (Prod.map (fun w : X → RWall => w x) id y).1.2 (mnth ps ((Prod.map (fun w : X → RWall => w x) id y).2 + 1) x) ∧
      rpar (Prod.map (fun w : X → RWall => w x) id y).1.1 (Prod.map (fun w : X → RWall => w x) id y).1.2 (mnth ps ((Prod.map (fun w : X → RWall => w x) id y).2 + 1) x) ≤ 1) (by
    rintro ⟨w, i⟩ hy
    have hi := List.mem_zipIdx_iff_getElem?.mp hy
    obtain ⟨w1, w2, w3⟩ := hw w (List.mem_of_getElem? hi)
    have hpar := w1.rpar w2 w3 (mnth_moves hm (i + 1))
    have hil : i < ws.length := (List.getElem?_eq_some_iff.mp hi).1
    have e := rnth_eq (pts := ps.map (· x0)) (i := i + 1) (by simp; omega)
    rw [rnth_map] at e
    obtain ⟨n1, n2⟩ := rpar_ne w3 (hg.on i (w x0) _ (by simpa using ⟨w, hi, rfl⟩) e)
    simp only [Prod.map, id]
    filter_upwards [le_stable hpar n1, ge_stable hpar n2] with x a1 a2
    exact and_congr a1 a2)
  have e2 := forall_stable (x0 := x0) (hitIdx ps.length scene c) (fun y x => ¬ HardHit (pointAt (y.2.1 x).1 (y.2.1 x).2 (-patch)) (pointAt (y.2.1 x).1 (y.2.1 x).2 (1 + patch)) (mnth ps y.1 x) (mnth ps (y.1 + 1) x) (1 / 200)) (by
    intro y hy
    obtain ⟨hmem, hr2⟩ := regular_pairs hlen hreg hy
    obtain ⟨w1, w2, w3⟩ := hsc _ hmem
    obtain ⟨h1, h2, h3⟩ := mem_hitIdx hlen.le hy
    have q1 := rnth_eq (pts := ps.map (· x0)) (i := y.1) (by simp; omega)
    have q2 := rnth_eq (pts := ps.map (· x0)) (i := y.1 + 1) (by simpa using h1)
    rw [rnth_map] at q1 q2
    filter_upwards [hardHit_stable (w1.pointAt w2 (-patch)) (w1.pointAt w2 (1 + patch)) (mnth_moves hm y.1) (mnth_moves hm (y.1 + 1)) (regular_seg w3 hp hr2)
      (hg.hit y.1 y.2.2 _ _ _ q1 q2 (by simp [h2]) h3)] with x hx
    exact not_congr hx)
  have e3 : ∀ᶠ x in 𝓝 x0, (loss x < tol ↔ loss x0 < tol) := by
    filter_upwards [le_stable hl hg.loss] with x hx
    rw [← not_le, ← not_le]; exact not_congr hx
  filter_upwards [e1, e2, e3] with x a1 a2 a3
  exact and_congr a1 (and_congr a2 a3)

end DiffeRT2d
