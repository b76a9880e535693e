import Verif.Lemmas.PrecisionSoft
import Verif.Lemmas.Rate

/-! The size of the errors of the degrees of validity in approximate mode. -/

namespace DiffeRT2d
open Classical Spec Filter Topology Asymptotics

variable {ι : Type} {A : ι → FloatOps} {l : Filter ι} {ε : ι → ℝ} {E : ι → Env} {ap : Option Bool} {kw : ι → ActKw} {s : ℝ → ℝ}

theorem Spec.OffBy.min' (h : ErrsBy A l ε) {f g : ι → F} {x y : ℝ} (hf : OffBy l ε f x) (hg : OffBy l ε g y) : OffBy l ε (fun n => F.min (f n) (g n)) (min x y) := by
  obtain ⟨C, hC⟩ := hf; obtain ⟨D, hD⟩ := hg
  refine ⟨max C D, ?_⟩
  filter_upwards [hC, hD] with n ⟨a, a1, a2⟩ ⟨b, b1, b2⟩
  refine ⟨min a b, by rw [a1, b1, F.min_fin], ?_⟩
  have h1 := mul_le_mul_of_nonneg_right (le_max_left C D) (h.pos n)
  have h2 := mul_le_mul_of_nonneg_right (le_max_right C D) (h.pos n)
  exact (abs_min_sub_min_le_max a b x y).trans (max_le (a2.trans h1) (b2.trans h2))
theorem Spec.OffBy.max' (h : ErrsBy A l ε) {f g : ι → F} {x y : ℝ} (hf : OffBy l ε f x) (hg : OffBy l ε g y) : OffBy l ε (fun n => F.max (f n) (g n)) (max x y) := by
  obtain ⟨C, hC⟩ := hf; obtain ⟨D, hD⟩ := hg
  refine ⟨max C D, ?_⟩
  filter_upwards [hC, hD] with n ⟨a, a1, a2⟩ ⟨b, b1, b2⟩
  refine ⟨max a b, by rw [a1, b1, F.max_fin], ?_⟩
  have h1 := mul_le_mul_of_nonneg_right (le_max_left C D) (h.pos n)
  have h2 := mul_le_mul_of_nonneg_right (le_max_right C D) (h.pos n)
  exact (abs_max_sub_max_le_max a b x y).trans (max_le (a2.trans h1) (b2.trans h2))

theorem minOf_off (h : ErrsBy A l ε) {α : Type} (L : List α) (f : α → ι → F) (x : α → ℝ) (hL : ∀ a ∈ L, OffBy l ε (f a) (x a)) {z : ι → F} {z0 : ℝ} (hz : OffBy l ε z z0) :
    OffBy l ε (fun n => F.minOf (z n) (L.map fun a => f a n)) ((L.map x).foldl min z0) := by
  unfold F.minOf
  induction L generalizing z z0 with
  | nil => exact hz
  | cons a L ih =>
    simp only [List.map_cons, List.foldl_cons]
    exact ih (fun a ha => hL a (by simp [ha])) (hz.min' h (hL a (by simp)))
theorem maxOf_off (h : ErrsBy A l ε) {α : Type} (L : List α) (f : α → ι → F) (x : α → ℝ) (hL : ∀ a ∈ L, OffBy l ε (f a) (x a)) {z : ι → F} {z0 : ℝ} (hz : OffBy l ε z z0) :
    OffBy l ε (fun n => F.maxOf (z n) (L.map fun a => f a n)) ((L.map x).foldl max z0) := by
  unfold F.maxOf
  induction L generalizing z z0 with
  | nil => exact hz
  | cons a L ih =>
    simp only [List.map_cons, List.foldl_cons]
    exact ih (fun a ha => hL a (by simp [ha])) (hz.max' h (hL a (by simp)))

theorem segTest_near_rate (h : ErrsEverywhereBy A l ε) (hs : ∀ n, Soft (E n) ap) (hk : StepsOff l ε kw s) {a d T : ι → F} {tol t0 : ℝ} (hT : OffBy l ε T tol)
    (ht : OffBy l ε (fun n => crossT (A n) (a n) (d n)) t0) :
    OffBy l ε (fun n => ((A n).segTest (E n) (T n) ap (kw n) (a n) (d n)).toF) (min (s (t0 + tol)) (s (1 + tol - t0))) := by
  have h1 : OffBy l ε (fun _ => (1 : F)) 1 := by simpa using OffBy.const h.toErrsBy 1
  have u1 := hk.near _ _ (ht.sub h.toErrsBy hT.neg)
  have u2 := hk.near _ _ ((h1.add h.toErrsBy hT).sub h.toErrsBy ht)
  rw [sub_neg_eq_add] at u1
  refine (u1.min' h.toErrsBy u2).congr' (.of_forall fun n => ?_)
  rw [rounded_segTest_soft (hs n)]; rfl

/-- A value below a bound that goes to minus infinity like `-1 / ε`. -/
theorem Spec.StepsOff.small (hk : StepsOff l ε kw s) {c : ℝ} (hc : 0 < c) :
    ∃ C : ℝ, ∀ᶠ n in l, ∀ x, Le x (F.fin (-(c / ε n))) → ∃ r, activation (kw n) x = F.fin r ∧ 0 ≤ r ∧ r ≤ C * ε n := by
  obtain ⟨C, hC⟩ := hk.low c hc
  refine ⟨C, ?_⟩
  filter_upwards [hC] with n ⟨y, y1, y2⟩ x hx
  have hst := hk.step n
  obtain ⟨r, r1, r2, -⟩ := hst.range x hx.left
  refine ⟨r, r1, r2, ?_⟩
  have := hst.mono _ _ hx
  rw [r1, y1, Le.fin] at this
  rw [sub_zero] at y2
  exact this.trans ((le_abs_self y).trans y2)

/-- The floats `t n` are as large as `1 / ε n`, positive or negative. -/
def FarBy (l : Filter ι) (ε : ι → ℝ) (t : ι → F) : Prop := ∃ c > 0, ∀ᶠ n in l, Le (F.fin (c / ε n)) (t n) ∨ Le (t n) (F.fin (-(c / ε n)))

theorem large_eventually (h : ErrsEverywhereBy A l ε) {c : ℝ} (hc : 0 < c) (K : ℝ) : ∀ᶠ n in l, K ≤ c / ε n := by
  filter_upwards [h.small.eventually_lt_const (u := c / (|K| + 1)) (by positivity)] with n hn
  have h0 := h.ne n
  rw [le_div_iff₀ h0]
  rw [lt_div_iff₀ (by positivity)] at hn
  have := le_abs_self K
  nlinarith

theorem Spec.ErrsEverywhereBy.below (h : ErrsEverywhereBy A l ε) (n : ι) {x : ℝ} (hx : 1 ≤ x) {y : ℝ} (hy : y ≤ -x) : Le ((A n).rnd y) (F.fin (-(x / 2))) := by
  have hc := h.contract n
  have := (h.large n x hx).neg
  rw [← hc.odd, F.neg_fin'] at this
  exact (hc.mono _ _ hy).trans this
theorem Spec.ErrsEverywhereBy.above (h : ErrsEverywhereBy A l ε) (n : ι) {x : ℝ} (hx : 1 ≤ x) {y : ℝ} (hy : x ≤ y) : Le (F.fin (x / 2)) ((A n).rnd y) :=
  (h.large n x hx).trans ((h.contract n).mono _ _ hy)

theorem crossT_off (h : ErrsBy A l ε) {a d : ι → F} {a0 d0 : ℝ} (ha : OffBy l ε a a0) (hd : OffBy l ε d d0) (h0 : d0 ≠ 0) :
    OffBy l ε (fun n => crossT (A n) (a n) (d n)) (a0 / d0) := by
  refine (ha.div h hd h0).congr' ?_
  filter_upwards [hd.ne_zero h h0] with n hn
  simp only [crossT, hn, F.where_false]

theorem crossT_farBy (h : ErrsEverywhereBy A l ε) {a d : ι → F} {a0 : ℝ} (ha : OffBy l ε a a0) (hd : OffBy l ε d 0) (h0 : a0 ≠ 0) :
    FarBy l ε fun n => crossT (A n) (a n) (d n) := by
  obtain ⟨x, x1, x2⟩ := ha.approaches h.toErrsBy
  obtain ⟨C, hC⟩ := hd
  have hb := abs_pos.mpr h0
  set c := |a0| / 2 / (|C| + 1) with hcdef
  have hc : 0 < c := by positivity
  have hx2 : ∀ᶠ n in l, |a0| / 2 < |x n| := x2.abs.eventually_const_lt (by linarith)
  refine ⟨c / 2, by positivity, ?_⟩
  filter_upwards [x1, hx2, hC, large_eventually h hc 1] with n e1 e2 ⟨y, y1, y2⟩ e3
  have hε := h.ne n
  by_cases hy : y = 0
  · left
    have : F.eq (d n) 0 = true := by rw [y1, F.zero_eq, hy]; simp
    simp only [crossT, this, F.where_true]
    exact .pinf (by simp)
  · have : F.eq (d n) 0 = false := by rw [y1, F.zero_eq]; simpa using hy
    simp only [crossT, this, F.where_false]
    rw [e1, y1, FloatOps.div, F.fin_div _ hy, round_fin]
    have hq : c / ε n ≤ |x n / y| := by
      have hy' := abs_pos.mpr hy
      rw [sub_zero] at y2
      rw [abs_div, le_div_iff₀ hy', div_mul_eq_mul_div, div_le_iff₀ hε]
      have h1 : |y| ≤ (|C| + 1) * ε n := by
        have := le_abs_self C
        nlinarith
      have h2 : c * |y| ≤ c * ((|C| + 1) * ε n) := mul_le_mul_of_nonneg_left h1 hc.le
      have h3 : c * ((|C| + 1) * ε n) = |a0| / 2 * ε n := by rw [hcdef]; field_simp
      nlinarith
    have hd2 : c / 2 / ε n = c / ε n / 2 := by ring
    rw [hd2]
    rcases le_or_gt 0 (x n / y) with hs | hs
    · left
      rw [abs_of_nonneg hs] at hq
      exact h.above n e3 hq
    · right
      rw [abs_of_neg hs] at hq
      exact h.below n e3 (by linarith)

/-- A test far away: its degree is of size `ε`, whatever the sign of the parameter. -/
theorem segTest_far_rate (h : ErrsEverywhereBy A l ε) (hs : ∀ n, Soft (E n) ap) (hk : StepsOff l ε kw s) {a d T : ι → F} {tol : ℝ} (hT : OffBy l ε T tol)
    (hf : FarBy l ε fun n => crossT (A n) (a n) (d n)) :
    ∃ C : ℝ, ∀ᶠ n in l, ∃ r, ((A n).segTest (E n) (T n) ap (kw n) (a n) (d n)).toF = F.fin r ∧ 0 ≤ r ∧ r ≤ C * ε n := by
  obtain ⟨c, hc, hf⟩ := hf
  obtain ⟨C, hC⟩ := hk.small (c := c / 4) (by positivity)
  have h1 : OffBy l ε (fun _ => (1 : F)) 1 := by simpa using OffBy.const h.toErrsBy 1
  obtain ⟨τ, τ1, τ2⟩ := hT.approaches h.toErrsBy
  obtain ⟨σ, σ1, σ2⟩ := (h1.add h.toErrsBy hT).approaches h.toErrsBy
  have b1 := τ2.eventually_lt_const (u := |tol| + 1) (by have := le_abs_self tol; linarith)
  have b2 := σ2.eventually_lt_const (u := |tol| + 2) (by have := le_abs_self tol; linarith)
  refine ⟨C, ?_⟩
  filter_upwards [hf, hC, τ1, σ1, b1, b2, large_eventually h (c := c / 2) (by positivity) (|tol| + 2)] with n e1 e2 e3 e4 e5 e6 e7
  have hA := h.contract n
  have hst := hk.step n
  have hK : 1 ≤ c / 2 / ε n := by have := abs_nonneg tol; linarith
  have hcc : c / ε n = c / 2 / ε n + c / 2 / ε n := by ring
  have hq : c / 4 / ε n = c / 2 / ε n / 2 := by ring
  have hle : ∀ v : F, Le v (F.fin (-(c / 2 / ε n))) → Le ((A n).round v) (F.fin (-(c / 4 / ε n))) := by
    intro v hv
    have := hv.round hA
    rw [round_fin] at this
    rw [hq]
    exact this.trans (h.below n hK le_rfl)
  rw [rounded_segTest_soft (hs n)]
  show ∃ r, F.min _ _ = F.fin r ∧ _
  rw [e4, e3, F.neg_fin', FloatOps.sub, FloatOps.sub]
  generalize crossT (A n) (a n) (d n) = t at e1
  have ht : t ≠ F.nan := by rcases e1 with e1 | e1; exacts [e1.right, e1.left]
  obtain ⟨r1, p1, p2, p3⟩ := hst.range _ (hA.round_ne (sub_fin_ne ht (-τ n)).1)
  obtain ⟨r2, q1, q2, q3⟩ := hst.range _ (hA.round_ne (sub_fin_ne ht (σ n)).2)
  rw [p1, q1, F.min_fin]
  refine ⟨_, rfl, le_min p2 q2, ?_⟩
  rcases e1 with e1 | e1
  · obtain ⟨r, w1, -, w3⟩ := e2 _ (hle _ ((e1.fin_sub (σ n)).trans (Le.fin.mpr (by linarith))))
    rw [q1] at w1
    rw [F.fin.inj w1]; exact le_trans (min_le_right _ _) w3
  · obtain ⟨r, w1, -, w3⟩ := e2 _ (hle _ ((e1.sub_fin (-τ n)).trans (Le.fin.mpr (by linarith))))
    rw [p1] at w1
    rw [F.fin.inj w1]; exact le_trans (min_le_left _ _) w3

theorem cnth_off {P : List (ι → V2 F)} {pts : List Pt} (hP : List.Forall₂ (OffByPt l ε) P pts) {i : ℕ} (hi : i < pts.length) :
    OffByPt l ε (cnth P i) (rnth pts i) := by
  have hl := hP.length_eq
  have h1 : min i (P.length - 1) = i := by omega
  have h2 : min i (pts.length - 1) = i := by omega
  have := List.Forall₂.get hP (i := i) (by omega) hi
  simp only [cnth, rnth, h1, h2, List.getD_eq_getElem?_getD]
  rw [List.getElem?_eq_getElem (by omega : i < P.length), List.getElem?_eq_getElem hi]
  simpa using this

variable {P1 P2 P3 P4 : ι → V2 F} {p1 p2 p3 p4 : Pt}

theorem cA_off (h : ErrsBy A l ε) (h1 : OffByPt l ε P1 p1) (h3 : OffByPt l ε P3 p3) (h4 : OffByPt l ε P4 p4) (p2 : Pt) :
    OffBy l ε (fun n => cA (A n) (P1 n) (P3 n) (P4 n)) (segA p1 p2 p3 p4) :=
  ((h3.sub h h4).2.mul h (h1.sub h h3).1).sub h ((h3.sub h h4).1.mul h (h1.sub h h3).2)
theorem cB_off (h : ErrsBy A l ε) (h1 : OffByPt l ε P1 p1) (h2 : OffByPt l ε P2 p2) (h3 : OffByPt l ε P3 p3) (p4 : Pt) :
    OffBy l ε (fun n => cB (A n) (P1 n) (P2 n) (P3 n)) (segB p1 p2 p3 p4) :=
  ((h2.sub h h1).1.mul h (h1.sub h h3).2).sub h ((h2.sub h h1).2.mul h (h1.sub h h3).1)
theorem cD_off (h : ErrsBy A l ε) (h1 : OffByPt l ε P1 p1) (h2 : OffByPt l ε P2 p2) (h3 : OffByPt l ε P3 p3) (h4 : OffByPt l ε P4 p4) :
    OffBy l ε (fun n => cD (A n) (P1 n) (P2 n) (P3 n) (P4 n)) (segD p1 p2 p3 p4) :=
  ((h2.sub h h1).2.mul h (h3.sub h h4).1).sub h ((h2.sub h h1).1.mul h (h3.sub h h4).2)

theorem seg_off (h : ErrsEverywhereBy A l ε) (hs : ∀ n, Soft (E n) ap) (hk : StepsOff l ε kw s) (h1 : OffByPt l ε P1 p1) (h2 : OffByPt l ε P2 p2)
    (h3 : OffByPt l ε P3 p3) (h4 : OffByPt l ε P4 p4) {T : ι → F} {tol : ℝ} (hT : OffBy l ε T tol)
    (hreg : segD p1 p2 p3 p4 ≠ 0 ∨ segB p1 p2 p3 p4 ≠ 0) :
    OffBy l ε (fun n => ((A n).segmentsIntersect (E n) (P1 n) (P2 n) (P3 n) (P4 n) (T n) ap (kw n)).toF) ((fmSeg p1 p2 p3 p4 tol).eval s) := by
  have hA := cA_off h.toErrsBy h1 h3 h4 p2
  have hB := cB_off h.toErrsBy h1 h2 h3 p4
  have hD := cD_off h.toErrsBy h1 h2 h3 h4
  have e : ∀ n, ((A n).segmentsIntersect (E n) (P1 n) (P2 n) (P3 n) (P4 n) (T n) ap (kw n)).toF =
      F.min ((A n).segTest (E n) (T n) ap (kw n) (cA (A n) (P1 n) (P3 n) (P4 n)) (cD (A n) (P1 n) (P2 n) (P3 n) (P4 n))).toF
        ((A n).segTest (E n) (T n) ap (kw n) (cB (A n) (P1 n) (P2 n) (P3 n)) (cD (A n) (P1 n) (P2 n) (P3 n) (P4 n))).toF := by
    intro n
    have : IsF ((A n).segTest (E n) (T n) ap (kw n) (cA (A n) (P1 n) (P3 n) (P4 n)) (cD (A n) (P1 n) (P2 n) (P3 n) (P4 n))) := by
      rw [rounded_segTest_soft (hs n)]; exact ⟨_, rfl⟩
    show (logicalAnd (E n) ap ((A n).segTest (E n) (T n) ap (kw n) (cA (A n) (P1 n) (P3 n) (P4 n)) (cD (A n) (P1 n) (P2 n) (P3 n) (P4 n)))
      ((A n).segTest (E n) (T n) ap (kw n) (cB (A n) (P1 n) (P2 n) (P3 n)) (cD (A n) (P1 n) (P2 n) (P3 n) (P4 n)))).toF = _
    rw [soft_and (hs n) this]
    rfl
  by_cases hd : segD p1 p2 p3 p4 = 0
  · have hb := hreg.resolve_left (not_not.mpr hd)
    rw [hd] at hD
    rw [fmSeg_eval_zero tol s hd]
    obtain ⟨α, α1, -⟩ := hA.approaches h.toErrsBy
    have hD' := hD
    obtain ⟨δ, δ1, -⟩ := hD'.approaches h.toErrsBy
    have o1 : OffBy l ε (fun _ => (1 : F)) 1 := by simpa using OffBy.const h.toErrsBy 1
    obtain ⟨σ, σ1, -⟩ := (o1.add h.toErrsBy hT).approaches h.toErrsBy
    have hT' := hT
    obtain ⟨τ, τ1, -⟩ := hT'.approaches h.toErrsBy
    obtain ⟨C, hC⟩ := segTest_far_rate h hs hk hT (crossT_farBy h hB hD hb)
    refine ⟨C, ?_⟩
    filter_upwards [hC, α1, δ1, τ1, σ1] with n ⟨r, r1, r2, r3⟩ a1 a2 a3 a4
    obtain ⟨r', w1, w2, w3⟩ := segTest_range_soft (h.contract n) (hs n) (hk.step n) (τ n) (σ n) (α n) (δ n) (by rw [← a3, a4])
    rw [e, r1, a1, a2, a3, w1, F.min_fin]
    refine ⟨_, rfl, ?_⟩
    rw [sub_zero, abs_of_nonneg (le_min w2 r2)]
    exact le_trans (min_le_right _ _) r3
  · rw [fmSeg_eval_of_ne tol s hd]
    refine ((segTest_near_rate h hs hk hT (crossT_off h.toErrsBy hA hD hd)).min' h.toErrsBy (segTest_near_rate h hs hk hT (crossT_off h.toErrsBy hB hD hd))).congr' (.of_forall fun n => ?_)
    rw [e]

/-- **Approximate validity.** -/
theorem soft_off (h : ErrsEverywhereBy A l ε) (hs : ∀ n, Soft (E n) ap) (hk : StepsOff l ε kw s) {ws scene : List ((ι → Wall) × RWall)} (hw : ∀ w ∈ ws, WallOff l ε w.1 w.2)
    (hsc : ∀ w ∈ scene, WallOff l ε w.1 w.2) {P : List (ι → V2 F)} {pts : List Pt} (hP : List.Forall₂ (OffByPt l ε) P pts) {c : List ℤ}
    (hlen : pts.length = c.length + 2) (hwl : ws.length = c.length) {L T Q : ι → F} {loss tol patch : ℝ} (hL : OffBy l ε L loss)
    (hT : OffBy l ε T tol) (hQ : OffBy l ε Q patch) (hp : -(1 / 2) < patch) (hreg : RegularPath (scene.map (·.2)) c pts) :
    ∃ f : ι → F, (∀ n, (A n).isValid ⟨P.map (· n), L n⟩ (E n) ((scene.map (·.1 n)).map (A n).wallInteract) c ((ws.map (·.1 n)).map (A n).wallInteract) (T n) (Q n) ap (kw n) =
      .ok (.f (f n))) ∧ OffBy l ε f ((fmValid (ws.map (·.2)) (scene.map (·.2)) c pts loss tol patch).eval s) := by
  have hPl := hP.length_eq
  have z : OffBy l ε (fun _ => (0 : F)) 0 := by simpa using OffBy.const h.toErrsBy 0
  have o : OffBy l ε (fun _ => (1 : F)) 1 := by simpa using OffBy.const h.toErrsBy 1
  have e1 := minOf_off h.toErrsBy ws.zipIdx (fun x n => ((A n).wallContains (E n) ap (kw n) ((A n).wallToParam (x.1.1 n) (cnth P (x.2 + 1) n))).toF)
    (fun x => (fmOn x.1.2.1 x.1.2.2 (rnth pts (x.2 + 1))).eval s) (by
    rintro ⟨w, i⟩ hy
    have hi := List.mem_zipIdx_iff_getElem?.mp hy
    have hW := hw w (List.mem_of_getElem? hi)
    have hil : i < ws.length := (List.getElem?_eq_some_iff.mp hi).1
    have hpar := hW.param h.toErrsBy (cnth_off hP (i := i + 1) (by omega))
    have u1 := hk.near _ _ (hpar.sub h.toErrsBy z)
    have u2 := hk.near _ _ (o.sub h.toErrsBy hpar)
    rw [sub_zero] at u1
    refine (show OffBy l ε _ (min (s _) (s _)) from u1.min' h.toErrsBy u2).congr' (.of_forall fun n => ?_)
    simp only [FloatOps.wallContains, logicalAnd, FloatOps.greaterEqual, FloatOps.lessEqual, (hs n).eq, if_true, Truthy.minimum, Truthy.toF]) o
  have e2 := maxOf_off h.toErrsBy (hitIdx pts.length scene c) (fun x n => ((A n).wallIntersects (x.2.1.1 n) (E n) ap (kw n) (Q n) (cnth P x.1 n) (cnth P (x.1 + 1) n)).toF)
    (fun x => (fmSeg (pointAt x.2.1.2.1 x.2.1.2.2 (-patch)) (pointAt x.2.1.2.1 x.2.1.2.2 (1 + patch)) (rnth pts x.1) (rnth pts (x.1 + 1)) (1 / 200)).eval s) (by
    intro y hy
    obtain ⟨k1, k2, k3⟩ := mem_hitIdx hlen.le hy
    have hW := hsc _ (List.mem_of_getElem? k2)
    have q1 := rnth_eq (pts := pts) (i := y.1) (by omega)
    have q2 := rnth_eq (pts := pts) (i := y.1 + 1) k1
    have q3 : (scene.map (·.2))[y.2.2]? = some y.2.1.2 := by simp [k2]
    have ht := hW.t h.toErrsBy
    have b1 : OffByPt l ε (fun n => (A n).vsub (y.2.1.1 n).origin ((A n).vsmul (Q n) ((A n).wallT (y.2.1.1 n)))) (pointAt y.2.1.2.1 y.2.1.2.2 (-patch)) := by
      have := hW.1.sub h.toErrsBy (OffByPt.smul h.toErrsBy hQ ht)
      convert this using 1
      ext <;> simp [pointAt] <;> ring
    have b2 : OffByPt l ε (fun n => (A n).vadd (y.2.1.1 n).dest ((A n).vsmul (Q n) ((A n).wallT (y.2.1.1 n)))) (pointAt y.2.1.2.1 y.2.1.2.2 (1 + patch)) := by
      have := hW.2.1.add h.toErrsBy (OffByPt.smul h.toErrsBy hQ ht)
      convert this using 1
      ext <;> simp [pointAt] <;> ring
    have hS : OffBy l ε (fun n => (A n).SEG_TOL) (1 / 200) := by
      have := OffBy.rnd h.toErrsBy (5 / 1000 : ℝ)
      rw [show (1 / 200 : ℝ) = 5 / 1000 by norm_num]; exact this
    exact seg_off h hs hk b1 b2 (cnth_off hP (by omega)) (cnth_off hP k1) hS
      (regular_seg hW.2.2 hp (hreg.across y.1 y.2.2 _ _ _ q1 q2 q3 k3))) z
  have e3 := (e1.min' h.toErrsBy (o.sub h.toErrsBy e2)).min' h.toErrsBy (hk.near _ _ (hT.sub h.toErrsBy hL))
  refine ⟨_, fun n => rounded_isValid_soft _ (hs n) _ _ _ _ _ _ (by simp [hPl, hlen]), ?_⟩
  obtain ⟨g, g1, g2⟩ := (offBy_iff h.pos).mp e3
  refine (offBy_iff h.pos).mpr ⟨g, ?_, by
    simp only [fmValid, Fm.eval, Fm.conj, Fm.disj, Fm.eval_foldl_and, Fm.eval_foldl_or, List.map_map, List.zipIdx_map, hitPairs_map]
    exact g2⟩
  filter_upwards [g1] with n hn
  rw [hitVals_at, onVals_at]
  simp only [F.minOf, List.foldl_cons, List.foldl_nil, List.length_map, hPl, hitIdx_map, List.map_map, List.zipIdx_map, nth_at]
  simp only [F.minOf] at hn
  have key : ∀ a b : F, a = F.fin (g n) → b = a → b.nanToNum = F.fin (g n) := by rintro a b h1 h2; rw [h2, h1]; rfl
  refine key _ _ hn ?_
  rfl

end DiffeRT2d
