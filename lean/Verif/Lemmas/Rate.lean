import Verif.Spec.Rate
import Verif.Lemmas.Precision
import Verif.Lemmas.PrecisionFormats

/-! The size of the errors of the computed values. -/

namespace DiffeRT2d
open Classical Spec Filter Topology Asymptotics

variable {ι : Type} {A : ι → FloatOps} {l : Filter ι} {ε : ι → ℝ}

/-! ### Arithmetic -/

theorem offBy_iff {f : ι → F} {x : ℝ} (hε : ∀ n, 0 ≤ ε n) : OffBy l ε f x ↔ ∃ g : ι → ℝ, (∀ᶠ n in l, f n = F.fin (g n)) ∧ (fun n => g n - x) =O[l] ε := by
  constructor
  · rintro ⟨C, hC⟩
    let r : ι → ℝ := fun n => match f n with | F.fin r => r | _ => 0
    have hr : ∀ (n : ι) (y : ℝ), f n = F.fin y → r n = y := by intro n y hy; simp only [r, hy]
    refine ⟨r, ?_, IsBigO.of_bound C ?_⟩
    · filter_upwards [hC] with n hn
      obtain ⟨y, hy, -⟩ := hn
      rw [hr n y hy, hy]
    · filter_upwards [hC] with n hn
      obtain ⟨y, hy, hy'⟩ := hn
      rw [hr n y hy, Real.norm_eq_abs, Real.norm_eq_abs, abs_of_nonneg (hε n)]; exact hy'
  · rintro ⟨g, h1, h2⟩
    obtain ⟨C, hC⟩ := h2.bound
    refine ⟨C, ?_⟩
    filter_upwards [h1, hC] with n a b
    refine ⟨g n, a, ?_⟩
    rwa [Real.norm_eq_abs, Real.norm_eq_abs, abs_of_nonneg (hε n)] at b

theorem Spec.OffBy.const (h : ErrsBy A l ε) (x : ℝ) : OffBy l ε (fun _ => F.fin x) x :=
  (offBy_iff h.pos).mpr ⟨fun _ => x, .of_forall fun _ => rfl, by simpa using isBigO_zero _ _⟩

theorem bigO_tendsto (h : ErrsBy A l ε) {g : ι → ℝ} {x : ℝ} (hg : (fun n => g n - x) =O[l] ε) : Tendsto g l (𝓝 x) := by
  have := hg.trans_tendsto h.small
  simpa using this.add_const x

theorem Spec.OffBy.approaches (h : ErrsBy A l ε) {f : ι → F} {x : ℝ} (hf : OffBy l ε f x) : Approaches l f x := by
  obtain ⟨g, h1, h2⟩ := (offBy_iff h.pos).mp hf
  exact ⟨g, h1, bigO_tendsto h h2⟩

theorem Spec.ErrsBy.off (h : ErrsBy A l ε) {g : ι → ℝ} {x : ℝ} (hg : (fun n => g n - x) =O[l] ε) : OffBy l ε (fun n => (A n).rnd (g n)) x := by
  have ht := bigO_tendsto h hg
  have hb : ∀ᶠ n in l, |g n| ≤ |x| + 1 := by
    have := ht.abs.eventually_lt_const (u := |x| + 1) (by linarith)
    filter_upwards [this] with n hn using hn.le
  obtain ⟨C, hC⟩ := h.rnd (|x| + 1)
  obtain ⟨D, hD⟩ := hg.bound
  refine ⟨C + D, ?_⟩
  filter_upwards [hb, hC, hD] with n h1 h2 h3
  obtain ⟨y, hy, hy'⟩ := h2 _ h1
  rw [Real.norm_eq_abs, Real.norm_eq_abs, abs_of_nonneg (h.pos n)] at h3
  refine ⟨y, hy, ?_⟩
  have := abs_sub_le y (g n) x
  linarith

theorem Spec.OffBy.congr' {f f' : ι → F} {x : ℝ} (h : OffBy l ε f x) (e : ∀ᶠ n in l, f n = f' n) : OffBy l ε f' x := by
  obtain ⟨C, hC⟩ := h
  refine ⟨C, ?_⟩
  filter_upwards [hC, e] with n a b; rw [← b]; exact a

theorem Spec.OffBy.round' (h : ErrsBy A l ε) {f : ι → F} {g : ι → ℝ} {x : ℝ} (h1 : ∀ᶠ n in l, f n = F.fin (g n)) (h2 : (fun n => g n - x) =O[l] ε) :
    OffBy l ε (fun n => (A n).round (f n)) x := by
  refine (h.off h2).congr' ?_
  filter_upwards [h1] with n a; rw [a]; rfl

variable {f g : ι → F} {x y : ℝ}

theorem bigO_mul (h : ErrsBy A l ε) {a b : ι → ℝ} (ha : (fun n => a n - x) =O[l] ε) (hb : (fun n => b n - y) =O[l] ε) : (fun n => a n * b n - x * y) =O[l] ε := by
  have e : (fun n => a n * b n - x * y) = fun n => (a n - x) * b n + x * (b n - y) := by funext n; ring
  rw [e]
  refine IsBigO.add ?_ (hb.const_mul_left x)
  have := ha.mul ((bigO_tendsto h hb).isBigO_one ℝ)
  simpa using this

theorem bigO_inv (h : ErrsBy A l ε) {b : ι → ℝ} (hb : (fun n => b n - y) =O[l] ε) (hy : y ≠ 0) : (fun n => (b n)⁻¹ - y⁻¹) =O[l] ε := by
  have ht := bigO_tendsto h hb
  have : (fun n => (b n - y) * (-((b n)⁻¹ * y⁻¹))) =O[l] ε := by
    have := hb.mul ((((ht.inv₀ hy).mul_const y⁻¹).neg).isBigO_one ℝ)
    simpa using this
  refine this.congr' ?_ .rfl
  filter_upwards [ht.eventually_ne hy] with n hn
  field_simp
  ring

theorem Spec.OffBy.add (h : ErrsBy A l ε) (hf : OffBy l ε f x) (hg : OffBy l ε g y) : OffBy l ε (fun n => (A n).add (f n) (g n)) (x + y) := by
  obtain ⟨a, a1, a2⟩ := (offBy_iff h.pos).mp hf; obtain ⟨b, b1, b2⟩ := (offBy_iff h.pos).mp hg
  refine OffBy.round' h (g := fun n => a n + b n) ?_ ((a2.add b2).congr_left fun n => by ring)
  filter_upwards [a1, b1] with n e1 e2; rw [e1, e2]; rfl
theorem Spec.OffBy.sub (h : ErrsBy A l ε) (hf : OffBy l ε f x) (hg : OffBy l ε g y) : OffBy l ε (fun n => (A n).sub (f n) (g n)) (x - y) := by
  obtain ⟨a, a1, a2⟩ := (offBy_iff h.pos).mp hf; obtain ⟨b, b1, b2⟩ := (offBy_iff h.pos).mp hg
  refine OffBy.round' h (g := fun n => a n - b n) ?_ ((a2.sub b2).congr_left fun n => by ring)
  filter_upwards [a1, b1] with n e1 e2; rw [e1, e2, F.fin_sub]
theorem Spec.OffBy.mul (h : ErrsBy A l ε) (hf : OffBy l ε f x) (hg : OffBy l ε g y) : OffBy l ε (fun n => (A n).mul (f n) (g n)) (x * y) := by
  obtain ⟨a, a1, a2⟩ := (offBy_iff h.pos).mp hf; obtain ⟨b, b1, b2⟩ := (offBy_iff h.pos).mp hg
  refine OffBy.round' h (g := fun n => a n * b n) ?_ (bigO_mul h a2 b2)
  filter_upwards [a1, b1] with n e1 e2; rw [e1, e2]; rfl
theorem Spec.OffBy.div (h : ErrsBy A l ε) (hf : OffBy l ε f x) (hg : OffBy l ε g y) (hy : y ≠ 0) : OffBy l ε (fun n => (A n).div (f n) (g n)) (x / y) := by
  obtain ⟨a, a1, a2⟩ := (offBy_iff h.pos).mp hf; obtain ⟨b, b1, b2⟩ := (offBy_iff h.pos).mp hg
  refine OffBy.round' h (g := fun n => a n / b n) ?_ (by simpa only [div_eq_mul_inv] using bigO_mul h a2 (bigO_inv h b2 hy))
  filter_upwards [a1, b1, (bigO_tendsto h b2).eventually_ne hy] with n e1 e2 e3; rw [e1, e2, F.fin_div _ e3]
theorem Spec.OffBy.neg (hf : OffBy l ε f x) : OffBy l ε (fun n => -f n) (-x) := by
  obtain ⟨C, hC⟩ := hf
  refine ⟨C, ?_⟩
  filter_upwards [hC] with n hn
  obtain ⟨r, e, h⟩ := hn
  exact ⟨-r, by rw [e]; rfl, by rwa [neg_sub_neg, abs_sub_comm]⟩
theorem Spec.OffBy.ne_zero (h : ErrsBy A l ε) (hf : OffBy l ε f x) (hx : x ≠ 0) : ∀ᶠ n in l, F.eq (f n) 0 = false := (hf.approaches h).ne_zero hx
theorem Spec.OffBy.rnd (h : ErrsBy A l ε) (x : ℝ) : OffBy l ε (fun n => (A n).rnd x) x := h.off (g := fun _ => x) (by simpa using isBigO_zero _ _)
theorem Spec.OffBy.store (h : ErrsBy A l ε) (p : Pt) : OffByPt l ε (fun n => store (A n) p) p := ⟨OffBy.rnd h _, OffBy.rnd h _⟩

theorem bigO_sqrt {s : ι → ℝ} {S : ℝ} (hS : 0 < S) (hs : ∀ᶠ n in l, 0 ≤ s n) (h : (fun n => s n - S) =O[l] ε) : (fun n => Real.sqrt (s n) - Real.sqrt S) =O[l] ε := by
  refine IsBigO.trans (IsBigO.of_bound (1 / Real.sqrt S) ?_) h
  filter_upwards [hs] with n h0
  have p := Real.sqrt_pos.mpr hS
  have q := Real.sqrt_nonneg (s n)
  rw [Real.norm_eq_abs, Real.norm_eq_abs, div_mul_eq_mul_div, one_mul, le_div_iff₀ p]
  have e : s n - S = (Real.sqrt (s n) - Real.sqrt S) * (Real.sqrt (s n) + Real.sqrt S) := by
    have e1 := Real.mul_self_sqrt h0
    have e2 := Real.mul_self_sqrt hS.le
    linear_combination -e1 + e2
  rw [e, abs_mul, abs_of_nonneg (by linarith : 0 ≤ Real.sqrt (s n) + Real.sqrt S)]
  exact mul_le_mul_of_nonneg_left (by linarith) (abs_nonneg _)

variable {v u w : ι → V2 F} {p q r : Pt}

theorem Spec.OffByPt.norm (h : ErrsBy A l ε) (hv : OffByPt l ε v p) (hp : p ≠ ⟨0, 0⟩) : OffBy l ε (fun n => (A n).vnorm (v n)) (nrm p) := by
  have hs := OffBy.add h (hv.1.mul h hv.1) (hv.2.mul h hv.2)
  obtain ⟨a, a1, -⟩ := (offBy_iff h.pos).mp hv.1; obtain ⟨b, b1, -⟩ := (offBy_iff h.pos).mp hv.2; obtain ⟨s, s1, s2⟩ := (offBy_iff h.pos).mp hs
  have h0 : ∀ᶠ n in l, 0 ≤ s n := by
    filter_upwards [a1, b1, s1] with n e1 e2 e3
    rw [e1, e2] at e3; exact rounded_sumsq (h.contract n) e3
  have hpos : 0 < p.x * p.x + p.y * p.y := by
    have h1 := mul_self_nonneg p.x; have h2 := mul_self_nonneg p.y
    rcases (add_nonneg h1 h2).lt_or_eq with h | h
    · exact h
    · exfalso; apply hp
      ext
      · exact mul_self_eq_zero.mp (by linarith)
      · exact mul_self_eq_zero.mp (by linarith)
  refine OffBy.round' h (g := fun n => Real.sqrt (s n)) ?_ (bigO_sqrt hpos h0 s2)
  filter_upwards [s1, h0] with n e3 h0
  rw [e3, F.sqrt, if_neg h0.not_gt]

theorem Spec.OffByPt.add (h : ErrsBy A l ε) (hv : OffByPt l ε v p) (hu : OffByPt l ε u q) : OffByPt l ε (fun n => (A n).vadd (v n) (u n)) (p + q) :=
  ⟨hv.1.add h hu.1, hv.2.add h hu.2⟩
theorem Spec.OffByPt.sub (h : ErrsBy A l ε) (hv : OffByPt l ε v p) (hu : OffByPt l ε u q) : OffByPt l ε (fun n => (A n).vsub (v n) (u n)) (p - q) :=
  ⟨hv.1.sub h hu.1, hv.2.sub h hu.2⟩
theorem Spec.OffByPt.smul (h : ErrsBy A l ε) (hf : OffBy l ε f x) (hv : OffByPt l ε v p) :
    OffByPt l ε (fun n => (A n).vsmul (f n) (v n)) ⟨x * p.x, x * p.y⟩ := ⟨hf.mul h hv.1, hf.mul h hv.2⟩
theorem Spec.OffByPt.sdiv (h : ErrsBy A l ε) (hf : OffBy l ε f x) (hx : x ≠ 0) (hv : OffByPt l ε v p) :
    OffByPt l ε (fun n => (A n).vsdiv (v n) (f n)) ⟨p.x / x, p.y / x⟩ := ⟨hv.1.div h hf hx, hv.2.div h hf hx⟩
theorem Spec.OffByPt.dot (h : ErrsBy A l ε) (hv : OffByPt l ε v p) (hu : OffByPt l ε u q) : OffBy l ε (fun n => (A n).vdot (v n) (u n)) (dp p q) :=
  (hv.1.mul h hu.1).add h (hv.2.mul h hu.2)
theorem Spec.OffByPt.congr' (hv : OffByPt l ε v p) (e : ∀ᶠ n in l, v n = u n) : OffByPt l ε u p :=
  ⟨hv.1.congr' (by filter_upwards [e] with n a; rw [a]), hv.2.congr' (by filter_upwards [e] with n a; rw [a])⟩

theorem Spec.OffByPt.unit (h : ErrsBy A l ε) (hv : OffByPt l ε v p) (hp : p ≠ ⟨0, 0⟩) : OffByPt l ε (fun n => ((A n).normalize (v n)).1) (unit p) := by
  have hn := hv.norm h hp
  have h0 : nrm p ≠ 0 := fun e => hp ((nrm_eq_zero _).mp e)
  have := OffByPt.sdiv h hn h0 hv
  have e : DiffeRT2d.unit p = ⟨p.x / nrm p, p.y / nrm p⟩ := by simp [DiffeRT2d.unit, len1, h0]
  rw [e]
  refine this.congr' ?_
  filter_upwards [hn.ne_zero h h0] with n hne
  simp only [FloatOps.normalize, hne, F.where_false]

/-! ### Walls -/

/-- The stored walls `W n` approach the wall `w`, of non-zero length. -/
def WallOff (l : Filter ι) (ε : ι → ℝ) (W : ι → Wall) (w : RWall) : Prop := OffByPt l ε (fun n => (W n).origin) w.1 ∧ OffByPt l ε (fun n => (W n).dest) w.2 ∧ w.1 ≠ w.2

variable {W : ι → Wall} {k : RWall}

theorem WallOff.t (h : ErrsBy A l ε) (hW : WallOff l ε W k) : OffByPt l ε (fun n => (A n).wallT (W n)) (k.2 - k.1) := hW.2.1.sub h hW.1

theorem WallOff.normal (h : ErrsBy A l ε) (hW : WallOff l ε W k) : OffByPt l ε (fun n => (A n).wallNormal (W n)) (rn k.1 k.2) := by
  have ht := hW.t h
  refine OffByPt.unit h (v := fun n => ⟨((A n).wallT (W n)).y, -((A n).wallT (W n)).x⟩) (p := ⟨k.2.y - k.1.y, -(k.2.x - k.1.x)⟩) ⟨ht.2, ht.1.neg⟩ ?_
  intro e
  simp only [V2.mk.injEq] at e
  apply hW.2.2
  ext <;> linarith

theorem WallOff.image (h : ErrsBy A l ε) (hW : WallOff l ε W k) (hv : OffByPt l ε v p) :
    OffByPt l ε (fun n => (A n).wallImageOf (W n) (v n)) (rimg k.1 k.2 p) := by
  have hn := hW.normal h
  have h2 : OffBy l ε (fun _ => (2 : F)) 2 := by simpa using OffBy.const h 2
  exact hv.sub h (OffByPt.smul h (h2.mul h ((hv.sub h hW.1).dot h hn)) hn)

theorem WallOff.back (h : ErrsBy A l ε) (hW : WallOff l ε W k) (hu : OffByPt l ε u q) (hv : OffByPt l ε v p) (h0 : un k.1 k.2 q p ≠ 0) :
    OffByPt l ε (fun n => (A n).backStep (W n) (u n) (v n)) (rback k.1 k.2 q p) := by
  have hn := hW.normal h
  have hd := hv.sub h hu
  have hU : OffBy l ε _ (un k.1 k.2 q p) := hd.dot h hn
  have hk := (hW.1.sub h hv).dot h hn
  have := hv.add h (OffByPt.sdiv h hU h0 (OffByPt.smul h hk hd))
  rw [rback, if_neg h0]
  refine (show OffByPt l ε _ ⟨_, _⟩ from this).congr' ?_
  filter_upwards [hU.ne_zero h h0] with n hne
  simp only [FloatOps.backStep, hne, F.where_false]

theorem WallOff.eval (h : ErrsBy A l ε) (hW : WallOff l ε W k) (hv : OffByPt l ε v p) (hu : OffByPt l ε u q) (hw : OffByPt l ε w r)
    (h1 : p ≠ q) (h2 : q ≠ r) : OffBy l ε (fun n => (A n).wallEvaluate (W n) (v n) (u n) (w n)) (reval k.1 k.2 p q r) := by
  have hn := hW.normal h
  have ne : ∀ {p q : Pt}, p ≠ q → q - p ≠ ⟨0, 0⟩ := by
    intro p q hpq e
    apply hpq
    have e1 : q.x - p.x = 0 := congrArg V2.x e
    have e2 : q.y - p.y = 0 := congrArg V2.y e
    ext <;> linarith
  have hi := (hu.sub h hv).unit h (ne h1)
  have hr := (hw.sub h hu).unit h (ne h2)
  have h2 : OffBy l ε (fun _ => (2 : F)) 2 := by simpa using OffBy.const h 2
  have he := hr.sub h (hi.sub h (OffByPt.smul h (h2.mul h (hi.dot h hn)) hn))
  exact he.dot h he

theorem WallOff.param (h : ErrsBy A l ε) (hW : WallOff l ε W k) (hv : OffByPt l ε v p) : OffBy l ε (fun n => (A n).wallToParam (W n) (v n)) (rpar k.1 k.2 p) := by
  have ht := hW.t h
  have h0 : dp (k.2 - k.1) (k.2 - k.1) ≠ 0 := fun e => hW.2.2 ((dp_self_eq_zero _ _).mp e)
  have hs := ht.dot h ht
  rw [rpar, if_neg h0]
  refine ((ht.dot h (hv.sub h hW.1)).div h hs h0).congr' ?_
  filter_upwards [hs.ne_zero h h0] with n hne
  simp only [FloatOps.wallToParam, hne, F.where_false]

/-! ### The image method -/

theorem cpts_off (h : ErrsBy A l ε) {img rx : ι → V2 F} {p0 r0 : Pt} (hi : OffByPt l ε img p0) (hr : OffByPt l ε rx r0)
    {ws : List (ι → Wall)} {ks : List RWall} (hw : List.Forall₂ (WallOff l ε) ws ks) (hp : NoPause (rpts p0 r0 ks ++ [r0])) :
    List.Forall₂ (OffByPt l ε) (cpts A img rx ws) (rpts p0 r0 ks) := by
  induction hw generalizing img p0 with
  | nil => exact .nil
  | @cons w k ws ks hk hks ih =>
    have him := hk.image h hi
    have hp' : NoPause (rpts (rimg k.1 k.2 p0) r0 ks ++ [r0]) := by
      intro i a b ha hb
      exact hp (i + 1) a b ha hb
    have hrest := ih him hp'
    refine .cons (hk.back h him ?_ ?_) hrest
    · generalize cpts A (fun n => (A n).wallImageOf (w n) (img n)) rx ws = R at hrest
      generalize rpts (rimg k.1 k.2 p0) r0 ks = S at hrest
      cases hrest with
      | nil => exact hr
      | cons h1 _ => exact h1
    · intro hu
      refine hp 0 _ _ (by simp only [rpts]; rfl) ?_ (rback_guard hu)
      simp only [rpts]
      cases rpts (rimg k.1 k.2 p0) r0 ks <;> rfl

theorem cpath_off (h : ErrsBy A l ε) {tx rx : ι → V2 F} {p0 r0 : Pt} (hi : OffByPt l ε tx p0) (hr : OffByPt l ε rx r0)
    {ws : List (ι → Wall)} {ks : List RWall} (hw : List.Forall₂ (WallOff l ε) ws ks) (hp : ks ≠ [] → NoPause (rpath p0 r0 ks)) :
    List.Forall₂ (OffByPt l ε) (cpath A tx rx ws) (rpath p0 r0 ks) := by
  have key : List.Forall₂ (OffByPt l ε) (cpts A tx rx ws) (rpts p0 r0 ks) := by
    by_cases hk : ks = []
    · subst hk; cases hw; exact .nil
    · refine cpts_off h hi hr hw ?_
      intro i a b ha hb
      exact hp hk (i + 1) a b ha hb
  exact .cons hi (List.rel_append key (.cons hr .nil))

theorem loss_off (h : ErrsBy A l ε) {ws : List (ι → Wall)} {ks : List RWall} (hw : List.Forall₂ (WallOff l ε) ws ks)
    {P : List (ι → V2 F)} {pts : List Pt} (hP : List.Forall₂ (OffByPt l ε) P pts) (hlen : ks.length + 2 ≤ pts.length)
    (hp : ks ≠ [] → NoPause pts) (hf : OffBy l ε f x) :
    OffBy l ε (fun n => (A n).pathLoss (f n) ((ws.map (· n)).map (A n).wallInteract) (P.map (· n))) (x + (scores ks pts).sum) := by
  induction hw generalizing P pts f x with
  | nil => simpa [FloatOps.pathLoss, scores] using hf
  | @cons w k ws ks hk hks ih =>
    match P, pts, hP, hlen, hp with
    | _, [], _, hl, _ => simp at hl
    | _, [_], _, hl, _ => simp at hl
    | _, [_, _], _, hl, _ => simp at hl
    | _, _ :: _ :: _ :: _, .cons h1 (.cons h2 (.cons h3 hr)), hl, hp =>
      rename_i a b c ps A' B' C' Ps
      have hp := hp (by simp)
      have := ih (.cons h2 (.cons h3 hr)) (by simp at hl ⊢; omega) (fun _ i p q h1 h2 => hp (i + 1) p q h1 h2)
        (hf.add h (hk.eval h h1 h2 h3 (hp 0 _ _ rfl rfl) (hp 1 _ _ rfl rfl)))
      simp only [scores, List.sum_cons, ← add_assoc]
      simpa only [List.map_cons, FloatOps.pathLoss, FloatOps.wallInteract] using this

end DiffeRT2d
