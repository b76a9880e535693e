import Verif.Lemmas.PrecisionHard

/-! Validity in approximate mode as the precision grows. -/

namespace DiffeRT2d
open Classical Spec Filter Topology

variable {ι : Type} {A : ι → FloatOps} {l : Filter ι} {E : ι → Env} {ap : Option Bool} {kw : ι → ActKw} {s : ℝ → ℝ}

theorem Spec.Approaches.min' {f g : ι → F} {x y : ℝ} (hf : Approaches l f x) (hg : Approaches l g y) : Approaches l (fun n => F.min (f n) (g n)) (min x y) := by
  obtain ⟨a, a1, a2⟩ := hf; obtain ⟨b, b1, b2⟩ := hg
  refine ⟨fun n => min (a n) (b n), ?_, a2.min b2⟩
  filter_upwards [a1, b1] with n e1 e2; rw [e1, e2, F.min_fin]
theorem Spec.Approaches.max' {f g : ι → F} {x y : ℝ} (hf : Approaches l f x) (hg : Approaches l g y) : Approaches l (fun n => F.max (f n) (g n)) (max x y) := by
  obtain ⟨a, a1, a2⟩ := hf; obtain ⟨b, b1, b2⟩ := hg
  refine ⟨fun n => max (a n) (b n), ?_, a2.max b2⟩
  filter_upwards [a1, b1] with n e1 e2; rw [e1, e2, F.max_fin]

theorem minOf_approach {α : Type} (L : List α) (f : α → ι → F) (x : α → ℝ) (h : ∀ a ∈ L, Approaches l (f a) (x a)) {z : ι → F} {z0 : ℝ} (hz : Approaches l z z0) :
    Approaches l (fun n => F.minOf (z n) (L.map fun a => f a n)) ((L.map x).foldl min z0) := by
  unfold F.minOf
  induction L generalizing z z0 with
  | nil => exact hz
  | cons a L ih =>
    simp only [List.map_cons, List.foldl_cons]
    exact ih (fun a ha => h a (by simp [ha])) (hz.min' (h a (by simp)))
theorem maxOf_approach {α : Type} (L : List α) (f : α → ι → F) (x : α → ℝ) (h : ∀ a ∈ L, Approaches l (f a) (x a)) {z : ι → F} {z0 : ℝ} (hz : Approaches l z z0) :
    Approaches l (fun n => F.maxOf (z n) (L.map fun a => f a n)) ((L.map x).foldl max z0) := by
  unfold F.maxOf
  induction L generalizing z z0 with
  | nil => exact hz
  | cons a L ih =>
    simp only [List.map_cons, List.foldl_cons]
    exact ih (fun a ha => h a (by simp [ha])) (hz.max' (h a (by simp)))

/-- The two activations of `test`. -/
theorem rounded_segTest_soft {E : Env} {A : FloatOps} (hs : Soft E ap) (kw : ActKw) (tol num den : F) :
    A.segTest E tol ap kw num den = .f (F.min (activation kw (A.sub (crossT A num den) (-tol))) (activation kw (A.sub (A.add 1 tol) (crossT A num den)))) := by
  simp only [FloatOps.segTest, logicalAnd, FloatOps.greaterEqual, FloatOps.lessEqual, hs.eq, if_true, Truthy.minimum, Truthy.toF, crossT]

theorem segTest_near_soft (h : BecomeExact A l) (hs : ∀ n, Soft (E n) ap) (hk : StepsApproach l kw s) {a d T : ι → F} {tol t0 : ℝ} (hT : Approaches l T tol)
    (ht : Approaches l (fun n => crossT (A n) (a n) (d n)) t0) :
    Approaches l (fun n => ((A n).segTest (E n) (T n) ap (kw n) (a n) (d n)).toF) (min (s (t0 + tol)) (s (1 + tol - t0))) := by
  have h1 : Approaches l (fun _ => (1 : F)) 1 := by simpa using Approaches.const (l := l) 1
  have u1 := hk.near _ _ (ht.sub h hT.neg)
  have u2 := hk.near _ _ ((h1.add h hT).sub h ht)
  rw [sub_neg_eq_add] at u1
  refine (u1.min' u2).congr' (.of_forall fun n => ?_)
  rw [rounded_segTest_soft (hs n)]; rfl

/-- A value below a bound that goes to minus infinity. -/
theorem StepsApproach.small (hk : StepsApproach l kw s) {ε : ℝ} (hε : 0 < ε) :
    ∃ K : ℝ, ∀ᶠ n in l, ∀ x, Le x (F.fin (-K)) → ∃ r, activation (kw n) x = F.fin r ∧ 0 ≤ r ∧ r < ε := by
  obtain ⟨M, hM⟩ := eventually_atBot.mp (hk.low.eventually_lt_const hε)
  refine ⟨-M, ?_⟩
  obtain ⟨g, g1, g2⟩ := hk.near _ _ (Approaches.const M)
  filter_upwards [g1, g2.eventually_lt_const (hM M le_rfl)] with n e1 e2 x hx
  rw [neg_neg] at hx
  have hst := hk.step n
  obtain ⟨r, r1, r2, -⟩ := hst.range x hx.left
  refine ⟨r, r1, r2, lt_of_le_of_lt ?_ e2⟩
  have := hst.mono _ _ hx
  rw [r1, e1, Le.fin] at this; exact this

theorem crossT_ne_nan {A : FloatOps} (hA : FloatContract A) (x y : ℝ) : crossT A (F.fin x) (F.fin y) ≠ F.nan := by
  unfold crossT
  by_cases hy : y = 0
  · simp [hy]
  · have : F.eq (F.fin y) 0 = false := by rw [F.zero_eq]; simpa using hy
    rw [this, F.where_false, F.where_false, FloatOps.div, F.fin_div _ hy]
    exact hA.number _

theorem sub_fin_ne {a : F} (h : a ≠ F.nan) (x : ℝ) : a - F.fin x ≠ F.nan ∧ F.fin x - a ≠ F.nan := by
  cases a with
  | nan => exact absurd rfl h
  | fin y => simp
  | pinf => exact ⟨by change F.add _ (F.neg _) ≠ _; simp [F.add, F.neg], by change F.add _ (F.neg _) ≠ _; simp [F.add, F.neg]⟩
  | ninf => exact ⟨by change F.add _ (F.neg _) ≠ _; simp [F.add, F.neg], by change F.add _ (F.neg _) ≠ _; simp [F.add, F.neg]⟩

theorem Spec.Le.sub_fin {a : F} {K : ℝ} (h : Le a (F.fin K)) (x : ℝ) : Le (a - F.fin x) (F.fin (K - x)) := by
  have := h.add_const (-x)
  rw [F.fin_add] at this
  rw [sub_eq_add_neg]
  exact this
theorem Spec.Le.fin_sub {a : F} {K : ℝ} (h : Le (F.fin K) a) (x : ℝ) : Le (F.fin x - a) (F.fin (x - K)) := by
  have := h.neg.add_const x
  rw [F.neg_fin', F.fin_add] at this
  have e : F.fin x - a = -a + F.fin x := by
    cases a <;> first | rfl | (rw [F.fin_sub, F.neg_fin', F.fin_add]; congr 1; ring)
  rw [e, show x - K = -K + x by ring]; exact this

/-- A test far away: its degree is small, whatever the sign of the parameter. -/
theorem segTest_far_soft (h : BecomeExact A l) (hs : ∀ n, Soft (E n) ap) (hk : StepsApproach l kw s) {a d T : ι → F} {tol : ℝ} (hT : Approaches l T tol)
    (hf : FarOff l fun n => crossT (A n) (a n) (d n)) {ε : ℝ} (hε : 0 < ε) :
    ∀ᶠ n in l, ∃ r, ((A n).segTest (E n) (T n) ap (kw n) (a n) (d n)).toF = F.fin r ∧ 0 ≤ r ∧ r < ε := by
  obtain ⟨K, hK⟩ := StepsApproach.small hk hε
  have h1 : Approaches l (fun _ => (1 : F)) 1 := by simpa using Approaches.const (l := l) 1
  obtain ⟨τ, τ1, τ2⟩ := hT
  obtain ⟨σ, σ1, σ2⟩ := h1.add h (⟨τ, τ1, τ2⟩ : Approaches l T tol)
  have b1 := τ2.eventually_lt_const (u := |tol| + 1) (by have := le_abs_self tol; linarith)
  have b2 := σ2.eventually_lt_const (u := |tol| + 2) (by have := le_abs_self tol; linarith)
  have b3 := h.rnd (|K| + 1) 1 one_pos
  filter_upwards [hf (|K| + |tol| + 3), hK, τ1, σ1, b1, b2, b3] with n e1 e2 e3 e4 e5 e6 e7
  have hA := h.contract n
  have hst := hk.step n
  obtain ⟨ρ, ρ1, ρ2⟩ := e7 (-(|K| + 1)) (by rw [abs_neg, abs_of_pos (by positivity)])
  have hρ : Le (F.fin ρ) (F.fin (-K)) := by
    rw [Le.fin]
    rw [abs_lt] at ρ2
    have := le_abs_self K
    linarith [ρ2.2]
  have hle : ∀ v : F, Le v (F.fin (-(|K| + 1))) → Le ((A n).round v) (F.fin (-K)) := by
    intro v hv
    have := hv.round hA
    rw [round_fin, ρ1] at this
    exact this.trans hρ
  rw [rounded_segTest_soft (hs n)]
  show ∃ r, F.min _ _ = F.fin r ∧ _
  rw [e4, e3, F.neg_fin', FloatOps.sub, FloatOps.sub]
  set t := crossT (A n) (a n) (d n)
  have ht : t ≠ F.nan := by rcases e1 with e1 | e1; exacts [e1.right, e1.left]
  obtain ⟨r1, p1, p2, p3⟩ := hst.range _ (hA.round_ne (sub_fin_ne ht (-τ n)).1)
  obtain ⟨r2, q1, q2, q3⟩ := hst.range _ (hA.round_ne (sub_fin_ne ht (σ n)).2)
  rw [p1, q1, F.min_fin]
  refine ⟨_, rfl, le_min p2 q2, ?_⟩
  rcases e1 with e1 | e1
  · obtain ⟨r, w1, -, w3⟩ := e2 _ (hle _ ((e1.fin_sub (σ n)).trans (Le.fin.mpr (by linarith))))
    rw [q1] at w1
    rw [F.fin.inj w1]; exact lt_of_le_of_lt (min_le_right _ _) w3
  · obtain ⟨r, w1, -, w3⟩ := e2 _ (hle _ ((e1.sub_fin (-τ n)).trans (Le.fin.mpr (by linarith))))
    rw [p1] at w1
    rw [F.fin.inj w1]; exact lt_of_le_of_lt (min_le_left _ _) w3

theorem segTest_range_soft {E : Env} {A : FloatOps} (hA : FloatContract A) (hs : Soft E ap) {kw : ActKw} (hst : FloatStep kw) (τ σ x y : ℝ)
    (hσ : A.add 1 (F.fin τ) = F.fin σ) :
    ∃ r, (A.segTest E (F.fin τ) ap kw (F.fin x) (F.fin y)).toF = F.fin r ∧ 0 ≤ r ∧ r ≤ 1 := by
  rw [rounded_segTest_soft hs, hσ]
  show ∃ r, F.min _ _ = F.fin r ∧ _
  rw [F.neg_fin', FloatOps.sub, FloatOps.sub]
  have ht := crossT_ne_nan hA x y
  obtain ⟨r1, p1, p2, p3⟩ := hst.range _ (hA.round_ne (sub_fin_ne ht (-τ)).1)
  obtain ⟨r2, q1, q2, q3⟩ := hst.range _ (hA.round_ne (sub_fin_ne ht σ).2)
  rw [p1, q1, F.min_fin]
  exact ⟨_, rfl, le_min p2 q2, (min_le_left _ _).trans p3⟩

variable {P1 P2 P3 P4 : ι → V2 F} {p1 p2 p3 p4 : Pt}

theorem seg_approach (h : BecomeExact A l) (hs : ∀ n, Soft (E n) ap) (hk : StepsApproach l kw s) (h1 : ApproachesPt l P1 p1) (h2 : ApproachesPt l P2 p2)
    (h3 : ApproachesPt l P3 p3) (h4 : ApproachesPt l P4 p4) {T : ι → F} {tol : ℝ} (hT : Approaches l T tol)
    (hreg : segD p1 p2 p3 p4 ≠ 0 ∨ segB p1 p2 p3 p4 ≠ 0) :
    Approaches l (fun n => ((A n).segmentsIntersect (E n) (P1 n) (P2 n) (P3 n) (P4 n) (T n) ap (kw n)).toF) ((fmSeg p1 p2 p3 p4 tol).eval s) := by
  have hA := cA_approach h h1 h3 h4 p2
  have hB := cB_approach h h1 h2 h3 p4
  have hD := cD_approach h h1 h2 h3 h4
  have e : ∀ n, ((A n).segmentsIntersect (E n) (P1 n) (P2 n) (P3 n) (P4 n) (T n) ap (kw n)).toF =
      F.min ((A n).segTest (E n) (T n) ap (kw n) (cA (A n) (P1 n) (P3 n) (P4 n)) (cD (A n) (P1 n) (P2 n) (P3 n) (P4 n))).toF
        ((A n).segTest (E n) (T n) ap (kw n) (cB (A n) (P1 n) (P2 n) (P3 n)) (cD (A n) (P1 n) (P2 n) (P3 n) (P4 n))).toF := by
    intro n
    have : IsF ((A n).segTest (E n) (T n) ap (kw n) (cA (A n) (P1 n) (P3 n) (P4 n)) (cD (A n) (P1 n) (P2 n) (P3 n) (P4 n))) := by
      rw [rounded_segTest_soft (hs n)]; exact ⟨_, rfl⟩
    show (logicalAnd (E n) ap ((A n).segTest (E n) (T n) ap (kw n) (cA (A n) (P1 n) (P3 n) (P4 n)) (cD (A n) (P1 n) (P2 n) (P3 n) (P4 n)))
      ((A n).segTest (E n) (T n) ap (kw n) (cB (A n) (P1 n) (P2 n) (P3 n)) (cD (A n) (P1 n) (P2 n) (P3 n) (P4 n)))).toF = _
    rw [soft_and (hs n) this]
    rfl
  by_cases hd : segD p1 p2 p3 p4 = 0
  · have hb := hreg.resolve_left (not_not.mpr hd)
    rw [hd] at hD
    rw [fmSeg_eval_zero tol s hd]
    obtain ⟨α, α1, -⟩ := hA
    have hD' := hD
    obtain ⟨δ, δ1, -⟩ := hD'
    have o1 : Approaches l (fun _ => (1 : F)) 1 := by simpa using Approaches.const (l := l) 1
    obtain ⟨σ, σ1, -⟩ := o1.add h hT
    have hT' := hT
    obtain ⟨τ, τ1, -⟩ := hT'
    have key : ∀ ε > 0, ∀ᶠ n in l, ∃ r, ((A n).segmentsIntersect (E n) (P1 n) (P2 n) (P3 n) (P4 n) (T n) ap (kw n)).toF = F.fin r ∧ 0 ≤ r ∧ r < ε := by
      intro ε hε
      filter_upwards [segTest_far_soft h hs hk hT (crossT_far h hB hD hb) hε, α1, δ1, τ1, σ1] with n ⟨r, r1, r2, r3⟩ a1 a2 a3 a4
      obtain ⟨r', w1, w2, w3⟩ := segTest_range_soft (h.contract n) (hs n) (hk.step n) (τ n) (σ n) (α n) (δ n) (by rw [← a3, a4])
      rw [e, r1, a1, a2, a3, w1, F.min_fin]
      exact ⟨_, rfl, le_min w2 r2, lt_of_le_of_lt (min_le_right _ _) r3⟩
    let g : ι → ℝ := fun n => match ((A n).segmentsIntersect (E n) (P1 n) (P2 n) (P3 n) (P4 n) (T n) ap (kw n)).toF with | F.fin r => r | _ => 0
    have hg : ∀ (n : ι) (r : ℝ), ((A n).segmentsIntersect (E n) (P1 n) (P2 n) (P3 n) (P4 n) (T n) ap (kw n)).toF = F.fin r → g n = r := by
      intro n r hr; simp only [g, hr]
    refine ⟨g, ?_, ?_⟩
    · filter_upwards [key 1 one_pos] with n hn
      obtain ⟨r, r1, -⟩ := hn
      rw [hg n r r1, r1]
    · rw [Metric.tendsto_nhds]
      intro ε hε
      filter_upwards [key ε hε] with n ⟨r, r1, r2, r3⟩
      rw [hg n r r1, Real.dist_eq, sub_zero, abs_of_nonneg r2]; exact r3
  · rw [fmSeg_eval_of_ne tol s hd]
    refine ((segTest_near_soft h hs hk hT (crossT_approach h hA hD hd)).min' (segTest_near_soft h hs hk hT (crossT_approach h hB hD hd))).congr' (.of_forall fun n => ?_)
    rw [e]

/-- **Approximate validity.** -/
theorem soft_approach (h : BecomeExact A l) (hs : ∀ n, Soft (E n) ap) (hk : StepsApproach l kw s) {ws scene : List ((ι → Wall) × RWall)} (hw : ∀ w ∈ ws, WallTo l w.1 w.2)
    (hsc : ∀ w ∈ scene, WallTo l w.1 w.2) {P : List (ι → V2 F)} {pts : List Pt} (hP : List.Forall₂ (ApproachesPt l) P pts) {c : List ℤ}
    (hlen : pts.length = c.length + 2) (hwl : ws.length = c.length) {L T Q : ι → F} {loss tol patch : ℝ} (hL : Approaches l L loss)
    (hT : Approaches l T tol) (hQ : Approaches l Q patch) (hp : -(1 / 2) < patch) (hreg : RegularPath (scene.map (·.2)) c pts) :
    ∃ f : ι → F, (∀ n, (A n).isValid ⟨P.map (· n), L n⟩ (E n) ((scene.map (·.1 n)).map (A n).wallInteract) c ((ws.map (·.1 n)).map (A n).wallInteract) (T n) (Q n) ap (kw n) =
      .ok (.f (f n))) ∧ Approaches l f ((fmValid (ws.map (·.2)) (scene.map (·.2)) c pts loss tol patch).eval s) := by
  have hPl := hP.length_eq
  have z : Approaches l (fun _ => (0 : F)) 0 := by simpa using Approaches.const (l := l) 0
  have o : Approaches l (fun _ => (1 : F)) 1 := by simpa using Approaches.const (l := l) 1
  have e1 := minOf_approach (l := l) ws.zipIdx (fun x n => ((A n).wallContains (E n) ap (kw n) ((A n).wallToParam (x.1.1 n) (cnth P (x.2 + 1) n))).toF)
    (fun x => (fmOn x.1.2.1 x.1.2.2 (rnth pts (x.2 + 1))).eval s) (by
    rintro ⟨w, i⟩ hy
    have hi := List.mem_zipIdx_iff_getElem?.mp hy
    have hW := hw w (List.mem_of_getElem? hi)
    have hil : i < ws.length := (List.getElem?_eq_some_iff.mp hi).1
    have hpar := hW.param h (cnth_approach hP (i := i + 1) (by omega))
    have u1 := hk.near _ _ (hpar.sub h z)
    have u2 := hk.near _ _ (o.sub h hpar)
    rw [sub_zero] at u1
    refine (show Approaches l _ (min (s _) (s _)) from u1.min' u2).congr' (.of_forall fun n => ?_)
    simp only [FloatOps.wallContains, logicalAnd, FloatOps.greaterEqual, FloatOps.lessEqual, (hs n).eq, if_true, Truthy.minimum, Truthy.toF]) o
  have e2 := maxOf_approach (l := l) (hitIdx pts.length scene c) (fun x n => ((A n).wallIntersects (x.2.1.1 n) (E n) ap (kw n) (Q n) (cnth P x.1 n) (cnth P (x.1 + 1) n)).toF)
    (fun x => (fmSeg (pointAt x.2.1.2.1 x.2.1.2.2 (-patch)) (pointAt x.2.1.2.1 x.2.1.2.2 (1 + patch)) (rnth pts x.1) (rnth pts (x.1 + 1)) (1 / 200)).eval s) (by
    intro y hy
    obtain ⟨k1, k2, k3⟩ := mem_hitIdx hlen.le hy
    have hW := hsc _ (List.mem_of_getElem? k2)
    have q1 := rnth_eq (pts := pts) (i := y.1) (by omega)
    have q2 := rnth_eq (pts := pts) (i := y.1 + 1) k1
    have q3 : (scene.map (·.2))[y.2.2]? = some y.2.1.2 := by simp [k2]
    have ht := hW.t h
    have b1 : ApproachesPt l (fun n => (A n).vsub (y.2.1.1 n).origin ((A n).vsmul (Q n) ((A n).wallT (y.2.1.1 n)))) (pointAt y.2.1.2.1 y.2.1.2.2 (-patch)) := by
      have := hW.1.sub h (ApproachesPt.smul h hQ ht)
      convert this using 1
      ext <;> simp [pointAt] <;> ring
    have b2 : ApproachesPt l (fun n => (A n).vadd (y.2.1.1 n).dest ((A n).vsmul (Q n) ((A n).wallT (y.2.1.1 n)))) (pointAt y.2.1.2.1 y.2.1.2.2 (1 + patch)) := by
      have := hW.2.1.add h (ApproachesPt.smul h hQ ht)
      convert this using 1
      ext <;> simp [pointAt] <;> ring
    have hS : Approaches l (fun n => (A n).SEG_TOL) (1 / 200) := by
      have := h.tendsto (g := fun _ => (5 / 1000 : ℝ)) tendsto_const_nhds
      rw [show (1 / 200 : ℝ) = 5 / 1000 by norm_num]; exact this
    exact seg_approach h hs hk b1 b2 (cnth_approach hP (by omega)) (cnth_approach hP k1) hS
      (regular_seg hW.2.2 hp (hreg.across y.1 y.2.2 _ _ _ q1 q2 q3 k3))) z
  have e3 := (e1.min' (o.sub h e2)).min' (hk.near _ _ (hT.sub h hL))
  refine ⟨_, fun n => rounded_isValid_soft _ (hs n) _ _ _ _ _ _ (by simp [hPl, hlen]), ?_⟩
  obtain ⟨g, g1, g2⟩ := e3
  refine ⟨g, ?_, by
    simp only [fmValid, Fm.eval, Fm.conj, Fm.disj, Fm.eval_foldl_and, Fm.eval_foldl_or, List.map_map, List.zipIdx_map, hitPairs_map]
    exact g2⟩
  filter_upwards [g1] with n hn
  rw [hitVals_at, onVals_at]
  simp only [F.minOf, List.foldl_cons, List.foldl_nil, List.length_map, hPl, hitIdx_map, List.map_map, List.zipIdx_map, nth_at]
  simp only [F.minOf] at hn
  have key : ∀ a b : F, a = F.fin (g n) → b = a → b.nanToNum = F.fin (g n) := by rintro a b h1 h2; rw [h2, h1]; rfl
  refine key _ _ hn ?_
  rfl

end DiffeRT2d
