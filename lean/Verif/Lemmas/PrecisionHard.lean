import Verif.Lemmas.Precision

/-! Validity in hard mode as the precision grows. -/

namespace DiffeRT2d
open Classical Spec Filter Topology

variable {ι : Type} {A : ι → FloatOps} {l : Filter ι}

/-- The floats `t n` leave every bounded interval. -/
def FarOff (l : Filter ι) (t : ι → F) : Prop := ∀ K : ℝ, ∀ᶠ n in l, Le (F.fin K) (t n) ∨ Le (t n) (F.fin (-K))

/-- A quotient whose denominator vanishes in the limit but whose numerator does not is large. -/
theorem quotient_large' {b d : ι → ℝ} {b0 : ℝ} (hb : Tendsto b l (𝓝 b0)) (hd : Tendsto d l (𝓝 0)) (hb0 : b0 ≠ 0) (K : ℝ) :
    ∀ᶠ n in l, d n ≠ 0 → K < |b n / d n| := by
  have hK : (0 : ℝ) < |K| + 1 := by positivity
  have hb1 := abs_pos.mpr hb0
  have e1 : ∀ᶠ n in l, |b0| / 2 < |b n| := hb.abs.eventually_const_lt (by linarith)
  have e2 : ∀ᶠ n in l, |d n| < |b0| / 2 / (|K| + 1) := by
    refine hd.abs.eventually_lt_const ?_
    rw [abs_zero]; positivity
  filter_upwards [e1, e2] with n h1 h2 h3
  have h4 := abs_pos.mpr h3
  rw [abs_div, lt_div_iff₀ h4]
  rw [lt_div_iff₀ hK] at h2
  have := le_abs_self K
  nlinarith

/-- The parameter of the crossing point, as `test` computes it. -/
noncomputable def crossT (A : FloatOps) (num den : F) : F :=
  F.where_ (F.eq den 0) F.pinf (A.div num (F.where_ (F.eq den 0) 1 den))

theorem crossT_approach (h : BecomeExact A l) {a d : ι → F} {a0 d0 : ℝ} (ha : Approaches l a a0) (hd : Approaches l d d0) (h0 : d0 ≠ 0) :
    Approaches l (fun n => crossT (A n) (a n) (d n)) (a0 / d0) := by
  refine (ha.div h hd h0).congr' ?_
  filter_upwards [hd.ne_zero h0] with n hn
  simp only [crossT, hn, F.where_false]

theorem crossT_far (h : BecomeExact A l) {a d : ι → F} {a0 : ℝ} (ha : Approaches l a a0) (hd : Approaches l d 0) (h0 : a0 ≠ 0) :
    FarOff l fun n => crossT (A n) (a n) (d n) := by
  intro K
  obtain ⟨x, x1, x2⟩ := ha; obtain ⟨y, y1, y2⟩ := hd
  have hr := h.rnd (|K| + 1) 1 one_pos
  filter_upwards [x1, y1, quotient_large' x2 y2 h0 (|K| + 1), hr] with n e1 e2 e3 e4
  obtain ⟨r, r1, r2⟩ := e4 (|K| + 1) (abs_of_pos (by positivity)).le
  have r3 : K ≤ r := by
    rw [abs_lt] at r2
    have := le_abs_self K
    linarith [r2.1]
  by_cases hy : y n = 0
  · left
    have : F.eq (d n) 0 = true := by rw [e2, F.zero_eq, hy]; simp
    simp only [crossT, this, F.where_true]
    exact .pinf (by simp)
  · have : F.eq (d n) 0 = false := by rw [e2, F.zero_eq]; simpa using hy
    simp only [crossT, this, F.where_false]
    rw [e1, e2, FloatOps.div, F.fin_div _ hy, round_fin]
    have e3 := e3 hy
    have hc := (h.contract n).mono
    rcases le_or_gt 0 (x n / y n) with hs | hs
    · left
      rw [abs_of_nonneg hs] at e3
      have := hc _ _ e3.le
      rw [r1] at this
      exact Le.trans (Le.fin.mpr r3) this
    · right
      rw [abs_of_neg hs] at e3
      have := hc (x n / y n) (-(|K| + 1)) (by linarith)
      rw [(h.contract n).odd, r1, F.neg_fin'] at this
      exact this.trans (Le.fin.mpr (by linarith))

/-- The comparison of two values whose limits differ is eventually that of the limits. -/
theorem le_eventually {f g : ι → F} {x y : ℝ} (hf : Approaches l f x) (hg : Approaches l g y) (hne : x ≠ y) :
    ∀ᶠ n in l, F.le (f n) (g n) = decide (x ≤ y) := by
  rcases lt_or_gt_of_ne hne with h | h
  · filter_upwards [hf.lt hg h] with n hn
    rw [hn.le', decide_eq_true h.le]
  · filter_upwards [hg.lt hf h] with n hn
    rw [hn.not_le', decide_eq_false (not_le.mpr h)]
theorem lt_eventually {f g : ι → F} {x y : ℝ} (hf : Approaches l f x) (hg : Approaches l g y) (hne : x ≠ y) :
    ∀ᶠ n in l, F.lt (f n) (g n) = decide (x < y) := by
  obtain ⟨a, a1, a2⟩ := hf; obtain ⟨b, b1, b2⟩ := hg
  rcases lt_or_gt_of_ne hne with h | h
  · filter_upwards [a1, b1, a2.eventually_lt b2 h] with n e1 e2 e3
    rw [e1, e2, F.lt_fin, decide_eq_true h, decide_eq_true e3]
  · filter_upwards [a1, b1, b2.eventually_lt a2 h] with n e1 e2 e3
    rw [e1, e2, F.lt_fin, decide_eq_false (not_lt.mpr h.le), decide_eq_false (not_lt.mpr e3.le)]

variable {E : ι → Env} {ap : Option Bool} {kw : ι → ActKw}

theorem rounded_segTest_hard {E : Env} {A : FloatOps} (hh : Hard E ap) (kw : ActKw) (tol num den : F) :
    (A.segTest E tol ap kw num den).toBool = (F.le (-tol) (crossT A num den) && F.le (crossT A num den) (A.add 1 tol)) := by
  simp only [FloatOps.segTest, logicalAnd, FloatOps.greaterEqual, FloatOps.lessEqual, hh.eq, Bool.false_eq_true, if_false, Truthy.toBool, crossT]

theorem segTest_far (h : BecomeExact A l) (hh : ∀ n, Hard (E n) ap) {a d T : ι → F} {tol : ℝ} (hT : Approaches l T tol) (hf : FarOff l fun n => crossT (A n) (a n) (d n)) :
    ∀ᶠ n in l, ((A n).segTest (E n) (T n) ap (kw n) (a n) (d n)).toBool = false := by
  have h1 : Approaches l (fun _ => (1 : F)) 1 := by simpa using Approaches.const (l := l) 1
  have u1 := Approaches.lt hT.neg (Approaches.const (|tol| + 2)) (by have := neg_abs_le tol; linarith)
  have u2 := Approaches.lt (h1.add h hT) (Approaches.const (|tol| + 2)) (by have := le_abs_self tol; linarith)
  have u3 := Approaches.lt (Approaches.const (-(|tol| + 2))) hT.neg (by have := le_abs_self tol; linarith)
  filter_upwards [hf (|tol| + 2), u1, u2, u3] with n e1 e2 e3 e4
  rw [rounded_segTest_hard (hh n), Bool.and_eq_false_iff]
  rcases e1 with e1 | e1
  · right
    rw [← Bool.not_eq_true, F.le_iff]
    exact fun hle => e3.not_le (e1.trans hle)
  · left
    rw [← Bool.not_eq_true, F.le_iff]
    exact fun hle => e4.not_le (hle.trans e1)

theorem segTest_near (h : BecomeExact A l) (hh : ∀ n, Hard (E n) ap) {a d T : ι → F} {tol t0 : ℝ} (hT : Approaches l T tol)
    (ht : Approaches l (fun n => crossT (A n) (a n) (d n)) t0) (n1 : t0 ≠ -tol) (n2 : t0 ≠ 1 + tol) :
    ∀ᶠ n in l, ((A n).segTest (E n) (T n) ap (kw n) (a n) (d n)).toBool = decide (-tol ≤ t0 ∧ t0 ≤ 1 + tol) := by
  have h1 : Approaches l (fun _ => (1 : F)) 1 := by simpa using Approaches.const (l := l) 1
  filter_upwards [le_eventually hT.neg ht n1.symm, le_eventually ht (h1.add h hT) n2] with n e1 e2
  rw [rounded_segTest_hard (hh n), e1, e2, Bool.decide_and]

variable {P1 P2 P3 P4 : ι → V2 F} {p1 p2 p3 p4 : Pt}

/-- The three determinants of `segments_intersect`, as computed. -/
noncomputable def cA (A : FloatOps) (P1 P3 P4 : V2 F) : F :=
  A.sub (A.mul (A.vsub P3 P4).y (A.vsub P1 P3).x) (A.mul (A.vsub P3 P4).x (A.vsub P1 P3).y)
noncomputable def cB (A : FloatOps) (P1 P2 P3 : V2 F) : F :=
  A.sub (A.mul (A.vsub P2 P1).x (A.vsub P1 P3).y) (A.mul (A.vsub P2 P1).y (A.vsub P1 P3).x)
noncomputable def cD (A : FloatOps) (P1 P2 P3 P4 : V2 F) : F :=
  A.sub (A.mul (A.vsub P2 P1).y (A.vsub P3 P4).x) (A.mul (A.vsub P2 P1).x (A.vsub P3 P4).y)

theorem cA_approach (h : BecomeExact A l) (h1 : ApproachesPt l P1 p1) (h3 : ApproachesPt l P3 p3) (h4 : ApproachesPt l P4 p4) (p2 : Pt) :
    Approaches l (fun n => cA (A n) (P1 n) (P3 n) (P4 n)) (segA p1 p2 p3 p4) :=
  ((h3.sub h h4).2.mul h (h1.sub h h3).1).sub h ((h3.sub h h4).1.mul h (h1.sub h h3).2)
theorem cB_approach (h : BecomeExact A l) (h1 : ApproachesPt l P1 p1) (h2 : ApproachesPt l P2 p2) (h3 : ApproachesPt l P3 p3) (p4 : Pt) :
    Approaches l (fun n => cB (A n) (P1 n) (P2 n) (P3 n)) (segB p1 p2 p3 p4) :=
  ((h2.sub h h1).1.mul h (h1.sub h h3).2).sub h ((h2.sub h h1).2.mul h (h1.sub h h3).1)
theorem cD_approach (h : BecomeExact A l) (h1 : ApproachesPt l P1 p1) (h2 : ApproachesPt l P2 p2) (h3 : ApproachesPt l P3 p3) (h4 : ApproachesPt l P4 p4) :
    Approaches l (fun n => cD (A n) (P1 n) (P2 n) (P3 n) (P4 n)) (segD p1 p2 p3 p4) :=
  ((h2.sub h h1).2.mul h (h3.sub h h4).1).sub h ((h2.sub h h1).1.mul h (h3.sub h h4).2)

theorem seg_eventually (h : BecomeExact A l) (hh : ∀ n, Hard (E n) ap) (h1 : ApproachesPt l P1 p1) (h2 : ApproachesPt l P2 p2) (h3 : ApproachesPt l P3 p3)
    (h4 : ApproachesPt l P4 p4) {T : ι → F} {tol : ℝ} (hT : Approaches l T tol) (hreg : segD p1 p2 p3 p4 ≠ 0 ∨ segB p1 p2 p3 p4 ≠ 0)
    (hn : NotCrossingAtEnds p1 p2 p3 p4 tol) :
    ∀ᶠ n in l, ((A n).segmentsIntersect (E n) (P1 n) (P2 n) (P3 n) (P4 n) (T n) ap (kw n)).toBool = decide (HardHit p1 p2 p3 p4 tol) := by
  have hA := cA_approach h h1 h3 h4 p2
  have hB := cB_approach h h1 h2 h3 p4
  have hD := cD_approach h h1 h2 h3 h4
  have e : ∀ n, ((A n).segmentsIntersect (E n) (P1 n) (P2 n) (P3 n) (P4 n) (T n) ap (kw n)).toBool =
      (((A n).segTest (E n) (T n) ap (kw n) (cA (A n) (P1 n) (P3 n) (P4 n)) (cD (A n) (P1 n) (P2 n) (P3 n) (P4 n))).toBool &&
        ((A n).segTest (E n) (T n) ap (kw n) (cB (A n) (P1 n) (P2 n) (P3 n)) (cD (A n) (P1 n) (P2 n) (P3 n) (P4 n))).toBool) := by
    intro n
    simp only [FloatOps.segmentsIntersect, logicalAnd, (hh n).eq, Bool.false_eq_true, if_false, Truthy.toBool, cA, cB, cD]
  by_cases hd : segD p1 p2 p3 p4 = 0
  · have hb := hreg.resolve_left (not_not.mpr hd)
    rw [hd] at hD
    filter_upwards [segTest_far h hh hT (kw := kw) (crossT_far h hB hD hb)] with n hx
    rw [e, hx, Bool.and_false, eq_comm, decide_eq_false_iff_not]
    exact fun hc => hc.1 hd
  · have hn := hn.resolve_left (fun h => hd ((segD_eq_zero _ _ _ _).mpr h))
    have hcr : pointAt p1 p2 (segA p1 p2 p3 p4 / segD p1 p2 p3 p4) = pointAt p3 p4 (segB p1 p2 p3 p4 / segD p1 p2 p3 p4) := by
      ext
      · simp only [pointAt]; field_simp; simp only [segA, segB, segD]; ring
      · simp only [pointAt]; field_simp; simp only [segA, segB, segD]; ring
    obtain ⟨⟨n1, n2⟩, n3, n4⟩ := hn _ _ hcr
    filter_upwards [segTest_near h hh hT (kw := kw) (crossT_approach h hA hD hd) n1 n2, segTest_near h hh hT (kw := kw) (crossT_approach h hB hD hd) n3 n4] with n a1 a2
    rw [e, a1, a2, ← Bool.decide_and]
    apply decide_eq_decide.mpr
    unfold HardHit
    tauto

/-! ### `is_valid` -/

/-- The computed point of index `i`, clamped. -/
noncomputable def cnth (P : List (ι → V2 F)) (i : ℕ) : ι → V2 F := P.getD (min i (P.length - 1)) fun _ => V2.nan

theorem nth_at (P : List (ι → V2 F)) (i : ℕ) (n : ι) : nth (P.map (· n)) i = cnth P i n := by
  simp only [nth, cnth, List.length_map, List.getD_eq_getElem?_getD, List.getElem?_map]
  cases P[min i (P.length - 1)]? <;> rfl

theorem cnth_approach {P : List (ι → V2 F)} {pts : List Pt} (hP : List.Forall₂ (ApproachesPt l) P pts) {i : ℕ} (hi : i < pts.length) :
    ApproachesPt l (cnth P i) (rnth pts i) := by
  have hl := hP.length_eq
  have h1 : min i (P.length - 1) = i := by omega
  have h2 : min i (pts.length - 1) = i := by omega
  have := List.Forall₂.get hP (i := i) (by omega) hi
  simp only [cnth, rnth, h1, h2, List.getD_eq_getElem?_getD]
  rw [List.getElem?_eq_getElem (by omega : i < P.length), List.getElem?_eq_getElem hi]
  simpa using this

theorem forall_eventually {α : Type} (L : List α) (f : α → ι → Bool) (b : α → Bool) (h : ∀ a ∈ L, ∀ᶠ n in l, f a n = b a) :
    ∀ᶠ n in l, ∀ a ∈ L, f a n = b a := by
  induction L with
  | nil => simp
  | cons a L ih =>
    filter_upwards [h a (by simp), ih fun a ha => h a (by simp [ha])] with n h1 h2
    simpa using ⟨h1, h2⟩

theorem hitVals_at {A : FloatOps} (p : Path) (E : Env) (ws : List Wall) (c : List ℤ) (patch : F) (ap kw) :
    hitVals p E (ws.map A.wallInteract) c patch ap kw =
      (hitIdx p.xys.length ws c).map fun x => A.wallIntersects x.2.1 E ap kw patch (nth p.xys x.1) (nth p.xys (x.1 + 1)) := by
  unfold hitVals hitIdx
  rw [List.map_flatMap]
  congr 1
  funext i
  rw [List.zipIdx_map, List.filter_map, List.map_map, List.map_map]
  rfl
theorem onVals_at {A : FloatOps} (p : Path) (E : Env) (ws : List Wall) (ap kw) :
    onVals p E (ws.map A.wallInteract) ap kw = ws.zipIdx.map fun x => A.wallContains E ap kw (A.wallToParam x.1 (nth p.xys (x.2 + 1))) := by
  unfold onVals
  rw [List.zipIdx_map, List.map_map]
  rfl

/-- `hitIdx` and maps. -/
theorem hitIdx_map {α β : Type} (n : ℕ) (ws : List α) (f : α → β) (c : List ℤ) :
    hitIdx n (ws.map f) c = (hitIdx n ws c).map fun y => (y.1, f y.2.1, y.2.2) := by
  unfold hitIdx
  rw [List.map_flatMap]
  congr 1
  funext i
  rw [List.zipIdx_map, List.filter_map, List.map_map, List.map_map]
  rfl

/-- **Hard validity.** -/
theorem hard_eventually (h : BecomeExact A l) (hh : ∀ n, Hard (E n) ap) {ws scene : List ((ι → Wall) × RWall)} (hw : ∀ w ∈ ws, WallTo l w.1 w.2)
    (hsc : ∀ w ∈ scene, WallTo l w.1 w.2) {P : List (ι → V2 F)} {pts : List Pt} (hP : List.Forall₂ (ApproachesPt l) P pts) {c : List ℤ}
    (hlen : pts.length = c.length + 2) (hwl : ws.length = c.length) {L T Q : ι → F} {loss tol patch : ℝ} (hL : Approaches l L loss)
    (hT : Approaches l T tol) (hQ : Approaches l Q patch) (hp : -(1 / 2) < patch) (hreg : RegularPath (scene.map (·.2)) c pts)
    (hg : Generic (ws.map (·.2)) (scene.map (·.2)) c pts loss tol patch) :
    ∀ᶠ n in l, (A n).isValid ⟨P.map (· n), L n⟩ (E n) ((scene.map (·.1 n)).map (A n).wallInteract) c ((ws.map (·.1 n)).map (A n).wallInteract) (T n) (Q n) ap (kw n) =
      .ok (.b (decide (HardOk (ws.map (·.2)) (scene.map (·.2)) c pts loss tol patch))) := by
  have hPl := hP.length_eq
  have e1 := forall_eventually (l := l) ws.zipIdx (fun x n => ((A n).wallContains (E n) ap (kw n) ((A n).wallToParam (x.1.1 n) (cnth P (x.2 + 1) n))).toBool)
    (fun x => decide (0 ≤ rpar x.1.2.1 x.1.2.2 (rnth pts (x.2 + 1)) ∧ rpar x.1.2.1 x.1.2.2 (rnth pts (x.2 + 1)) ≤ 1)) (by
    rintro ⟨w, i⟩ hy
    have hi := List.mem_zipIdx_iff_getElem?.mp hy
    have hW := hw w (List.mem_of_getElem? hi)
    have hil : i < ws.length := (List.getElem?_eq_some_iff.mp hi).1
    have hpar := hW.param h (cnth_approach hP (i := i + 1) (by omega))
    obtain ⟨n1, n2⟩ := rpar_ne hW.2.2 (hg.on i w.2 _ (by simpa using ⟨w.1, by simpa using hi⟩) (rnth_eq (by omega)))
    have z : Approaches l (fun _ => (0 : F)) 0 := by simpa using Approaches.const (l := l) 0
    have o : Approaches l (fun _ => (1 : F)) 1 := by simpa using Approaches.const (l := l) 1
    filter_upwards [le_eventually z hpar n1.symm, le_eventually hpar o n2] with n a1 a2
    simp only [FloatOps.wallContains, logicalAnd, FloatOps.greaterEqual, FloatOps.lessEqual, (hh n).eq, Bool.false_eq_true, if_false, Truthy.toBool]
    rw [a1, a2, Bool.decide_and])
  have e2 := forall_eventually (l := l) (hitIdx pts.length scene c) (fun x n => ((A n).wallIntersects (x.2.1.1 n) (E n) ap (kw n) (Q n) (cnth P x.1 n) (cnth P (x.1 + 1) n)).toBool)
    (fun x => decide (HardHit (pointAt x.2.1.2.1 x.2.1.2.2 (-patch)) (pointAt x.2.1.2.1 x.2.1.2.2 (1 + patch)) (rnth pts x.1) (rnth pts (x.1 + 1)) (1 / 200))) (by
    intro y hy
    obtain ⟨k1, k2, k3⟩ := mem_hitIdx hlen.le hy
    have hW := hsc _ (List.mem_of_getElem? k2)
    have q1 := rnth_eq (pts := pts) (i := y.1) (by omega)
    have q2 := rnth_eq (pts := pts) (i := y.1 + 1) k1
    have q3 : (scene.map (·.2))[y.2.2]? = some y.2.1.2 := by simp [k2]
    have ht := hW.t h
    have b1 : ApproachesPt l (fun n => (A n).vsub (y.2.1.1 n).origin ((A n).vsmul (Q n) ((A n).wallT (y.2.1.1 n)))) (pointAt y.2.1.2.1 y.2.1.2.2 (-patch)) := by
      have := hW.1.sub h (ApproachesPt.smul h hQ ht)
      convert this using 1
      ext <;> simp [pointAt] <;> ring
    have b2 : ApproachesPt l (fun n => (A n).vadd (y.2.1.1 n).dest ((A n).vsmul (Q n) ((A n).wallT (y.2.1.1 n)))) (pointAt y.2.1.2.1 y.2.1.2.2 (1 + patch)) := by
      have := hW.2.1.add h (ApproachesPt.smul h hQ ht)
      convert this using 1
      ext <;> simp [pointAt] <;> ring
    have hS : Approaches l (fun n => (A n).SEG_TOL) (1 / 200) := by
      have := h.tendsto (g := fun _ => (5 / 1000 : ℝ)) tendsto_const_nhds
      rw [show (1 / 200 : ℝ) = 5 / 1000 by norm_num]; exact this
    exact seg_eventually h hh b1 b2 (cnth_approach hP (by omega)) (cnth_approach hP k1) hS
      (regular_seg hW.2.2 hp (hreg.across y.1 y.2.2 _ _ _ q1 q2 q3 k3)) (hg.hit y.1 y.2.2 _ _ _ q1 q2 q3 k3))
  filter_upwards [e1, e2, lt_eventually hL hT hg.loss] with n a1 a2 a3
  rw [rounded_isValid_hard _ (hh n) _ _ _ _ _ _ (by simp [hPl, hlen]), hitVals_at, onVals_at]
  congr 2
  rw [List.length_map, hPl, hitIdx_map, Bool.eq_iff_iff]
  simp only [Bool.and_eq_true, List.all_eq_true, List.mem_map, forall_exists_index, and_imp, forall_apply_eq_imp_iff₂, Bool.not_eq_true',
    List.any_eq_false, decide_eq_true_eq, HardOk, List.zipIdx_map, nth_at, a3]
  rw [hitPairs_map]
  simp only [List.mem_map, forall_exists_index, and_imp, forall_apply_eq_imp_iff₂]
  refine and_congr ?_ (and_congr_left fun _ => ?_)
  · refine forall_congr' fun y => forall_congr' fun hy => ?_
    have := a1 y hy
    simp only [Prod.map, id]
    rw [this, decide_eq_true_eq]
  · refine forall_congr' fun y => forall_congr' fun hy => ?_
    rw [a2 y hy, decide_eq_true_eq]

end DiffeRT2d
