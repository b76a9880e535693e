import Verif.Spec.Precision
import Verif.Lemmas.Stability
import Verif.Lemmas.RoundedPaths

/-! Limits of the computed values as the precision grows. -/

namespace DiffeRT2d
open Classical Spec Filter Topology

variable {ι : Type} {A : ι → FloatOps} {l : Filter ι}

/-! ### Arithmetic -/

theorem Spec.Approaches.const (x : ℝ) : Approaches l (fun _ => F.fin x) x := ⟨fun _ => x, .of_forall fun _ => rfl, tendsto_const_nhds⟩

theorem Spec.BecomeExact.tendsto (h : BecomeExact A l) {g : ι → ℝ} {x : ℝ} (hg : Tendsto g l (𝓝 x)) : Approaches l (fun n => (A n).rnd (g n)) x := by
  have hb : ∀ᶠ n in l, |g n| ≤ |x| + 1 := by
    have := hg.abs.eventually_lt_const (u := |x| + 1) (by linarith)
    filter_upwards [this] with n hn using hn.le
  let r : ι → ℝ := fun n => match (A n).rnd (g n) with | F.fin r => r | _ => 0
  have hr : ∀ (n : ι) (y : ℝ), (A n).rnd (g n) = F.fin y → r n = y := by intro n y hy; simp only [r, hy]
  refine ⟨r, ?_, ?_⟩
  · filter_upwards [hb, h.rnd (|x| + 1) 1 one_pos] with n h1 h2
    obtain ⟨y, hy, -⟩ := h2 _ h1
    rw [hr n y hy, hy]
  · have : Tendsto (fun n => r n - g n) l (𝓝 0) := by
      rw [Metric.tendsto_nhds]
      intro ε hε
      filter_upwards [hb, h.rnd (|x| + 1) ε hε] with n h1 h2
      obtain ⟨y, hy, hy'⟩ := h2 _ h1
      rw [Real.dist_eq, sub_zero, hr n y hy]; exact hy'
    simpa using this.add hg

theorem Spec.Approaches.congr' {f f' : ι → F} {x : ℝ} (h : Approaches l f x) (e : ∀ᶠ n in l, f n = f' n) : Approaches l f' x := by
  obtain ⟨g, h1, h2⟩ := h
  refine ⟨g, ?_, h2⟩
  filter_upwards [h1, e] with n a b; rw [← b, a]

theorem Spec.Approaches.round (h : BecomeExact A l) {f : ι → F} {x : ℝ} (hf : Approaches l f x) : Approaches l (fun n => (A n).round (f n)) x := by
  obtain ⟨g, h1, h2⟩ := hf
  refine (h.tendsto h2).congr' ?_
  filter_upwards [h1] with n a; rw [a]; rfl

variable {f g : ι → F} {x y : ℝ}

theorem Spec.Approaches.add (h : BecomeExact A l) (hf : Approaches l f x) (hg : Approaches l g y) : Approaches l (fun n => (A n).add (f n) (g n)) (x + y) := by
  obtain ⟨a, a1, a2⟩ := hf; obtain ⟨b, b1, b2⟩ := hg
  refine Approaches.round h ⟨fun n => a n + b n, ?_, a2.add b2⟩
  filter_upwards [a1, b1] with n e1 e2; rw [e1, e2]; rfl
theorem Spec.Approaches.sub (h : BecomeExact A l) (hf : Approaches l f x) (hg : Approaches l g y) : Approaches l (fun n => (A n).sub (f n) (g n)) (x - y) := by
  obtain ⟨a, a1, a2⟩ := hf; obtain ⟨b, b1, b2⟩ := hg
  refine Approaches.round h ⟨fun n => a n - b n, ?_, a2.sub b2⟩
  filter_upwards [a1, b1] with n e1 e2; rw [e1, e2, F.fin_sub]
theorem Spec.Approaches.mul (h : BecomeExact A l) (hf : Approaches l f x) (hg : Approaches l g y) : Approaches l (fun n => (A n).mul (f n) (g n)) (x * y) := by
  obtain ⟨a, a1, a2⟩ := hf; obtain ⟨b, b1, b2⟩ := hg
  refine Approaches.round h ⟨fun n => a n * b n, ?_, a2.mul b2⟩
  filter_upwards [a1, b1] with n e1 e2; rw [e1, e2]; rfl
theorem Spec.Approaches.div (h : BecomeExact A l) (hf : Approaches l f x) (hg : Approaches l g y) (hy : y ≠ 0) : Approaches l (fun n => (A n).div (f n) (g n)) (x / y) := by
  obtain ⟨a, a1, a2⟩ := hf; obtain ⟨b, b1, b2⟩ := hg
  refine Approaches.round h ⟨fun n => a n / b n, ?_, a2.div b2 hy⟩
  filter_upwards [a1, b1, b2.eventually_ne hy] with n e1 e2 e3; rw [e1, e2, F.fin_div _ e3]
theorem Spec.Approaches.neg (hf : Approaches l f x) : Approaches l (fun n => -f n) (-x) := by
  obtain ⟨a, a1, a2⟩ := hf
  refine ⟨fun n => -a n, ?_, a2.neg⟩
  filter_upwards [a1] with n e1; rw [e1]; rfl
theorem Spec.Approaches.ne_zero (hf : Approaches l f x) (hx : x ≠ 0) : ∀ᶠ n in l, F.eq (f n) 0 = false := by
  obtain ⟨a, a1, a2⟩ := hf
  filter_upwards [a1, a2.eventually_ne hx] with n e1 e2; rw [e1, F.zero_eq]; simpa using e2
theorem Spec.Approaches.lt (hf : Approaches l f x) (hg : Approaches l g y) (h : x < y) : ∀ᶠ n in l, Lt (f n) (g n) := by
  obtain ⟨a, a1, a2⟩ := hf; obtain ⟨b, b1, b2⟩ := hg
  filter_upwards [a1, b1, a2.eventually_lt b2 h] with n e1 e2 e3; rw [e1, e2, Lt.fin]; exact e3
theorem Spec.Approaches.store (h : BecomeExact A l) (p : Pt) : ApproachesPt l (fun n => store (A n) p) p :=
  ⟨h.tendsto tendsto_const_nhds, h.tendsto tendsto_const_nhds⟩

/-- Sums of squares are non-negative, so that the square root is that of a number. -/
theorem rounded_sumsq {A : FloatOps} (hA : FloatContract A) {a b : ℝ} {r : ℝ} (h : A.add (A.mul (F.fin a) (F.fin a)) (A.mul (F.fin b) (F.fin b)) = F.fin r) : 0 ≤ r := by
  have nn : ∀ x : F, Le (F.fin 0) x → Le (F.fin 0) (A.round x) := by
    intro x hx
    have := hx.round hA
    rwa [round_fin, hA.zero] at this
  have h1 : ∀ c : ℝ, Le (F.fin 0) (A.mul (F.fin c) (F.fin c)) := fun c => nn _ (Le.fin.mpr (mul_self_nonneg c))
  have h2 : Le (F.fin 0) (A.add (A.mul (F.fin a) (F.fin a)) (A.mul (F.fin b) (F.fin b))) := by
    refine nn _ ?_
    have p := h1 a; have q := h1 b
    rw [← F.le_iff] at *
    change F.le _ (F.add _ _) = true
    cases e1 : A.mul (F.fin a) (F.fin a) <;> cases e2 : A.mul (F.fin b) (F.fin b) <;> rw [e1] at p <;> rw [e2] at q <;> simp_all [F.le, F.lt, F.eq, F.add]
    rename_i x y
    have : 0 ≤ x + y := add_nonneg (by rcases p with h | h <;> linarith) (by rcases q with h | h <;> linarith)
    rcases this.lt_or_eq with h | h <;> simp [h]
  rw [h, Le.fin] at h2; exact h2

variable {v u w : ι → V2 F} {p q r : Pt}

theorem Spec.ApproachesPt.norm (h : BecomeExact A l) (hv : ApproachesPt l v p) : Approaches l (fun n => (A n).vnorm (v n)) (nrm p) := by
  have hs := Approaches.add h (hv.1.mul h hv.1) (hv.2.mul h hv.2)
  obtain ⟨a, a1, -⟩ := hv.1; obtain ⟨b, b1, -⟩ := hv.2; obtain ⟨s, s1, s2⟩ := hs
  refine Approaches.round h ⟨fun n => Real.sqrt (s n), ?_, s2.sqrt⟩
  filter_upwards [a1, b1, s1] with n e1 e2 e3
  have h0 : 0 ≤ s n := by
    rw [e1, e2] at e3; exact rounded_sumsq (h.contract n) e3
  rw [e3, F.sqrt, if_neg h0.not_gt]

theorem Spec.ApproachesPt.add (h : BecomeExact A l) (hv : ApproachesPt l v p) (hu : ApproachesPt l u q) : ApproachesPt l (fun n => (A n).vadd (v n) (u n)) (p + q) :=
  ⟨hv.1.add h hu.1, hv.2.add h hu.2⟩
theorem Spec.ApproachesPt.sub (h : BecomeExact A l) (hv : ApproachesPt l v p) (hu : ApproachesPt l u q) : ApproachesPt l (fun n => (A n).vsub (v n) (u n)) (p - q) :=
  ⟨hv.1.sub h hu.1, hv.2.sub h hu.2⟩
theorem Spec.ApproachesPt.smul (h : BecomeExact A l) (hf : Approaches l f x) (hv : ApproachesPt l v p) :
    ApproachesPt l (fun n => (A n).vsmul (f n) (v n)) ⟨x * p.x, x * p.y⟩ := ⟨hf.mul h hv.1, hf.mul h hv.2⟩
theorem Spec.ApproachesPt.sdiv (h : BecomeExact A l) (hf : Approaches l f x) (hx : x ≠ 0) (hv : ApproachesPt l v p) :
    ApproachesPt l (fun n => (A n).vsdiv (v n) (f n)) ⟨p.x / x, p.y / x⟩ := ⟨hv.1.div h hf hx, hv.2.div h hf hx⟩
theorem Spec.ApproachesPt.dot (h : BecomeExact A l) (hv : ApproachesPt l v p) (hu : ApproachesPt l u q) : Approaches l (fun n => (A n).vdot (v n) (u n)) (dp p q) :=
  (hv.1.mul h hu.1).add h (hv.2.mul h hu.2)
theorem Spec.ApproachesPt.congr' (hv : ApproachesPt l v p) (e : ∀ᶠ n in l, v n = u n) : ApproachesPt l u p :=
  ⟨hv.1.congr' (by filter_upwards [e] with n a; rw [a]), hv.2.congr' (by filter_upwards [e] with n a; rw [a])⟩

theorem Spec.ApproachesPt.unit (h : BecomeExact A l) (hv : ApproachesPt l v p) (hp : p ≠ ⟨0, 0⟩) : ApproachesPt l (fun n => ((A n).normalize (v n)).1) (unit p) := by
  have hn := hv.norm h
  have h0 : nrm p ≠ 0 := fun e => hp ((nrm_eq_zero _).mp e)
  have := ApproachesPt.sdiv h hn h0 hv
  have e : DiffeRT2d.unit p = ⟨p.x / nrm p, p.y / nrm p⟩ := by simp [DiffeRT2d.unit, len1, h0]
  rw [e]
  refine this.congr' ?_
  filter_upwards [hn.ne_zero h0] with n hne
  simp only [FloatOps.normalize, hne, F.where_false]

/-! ### Walls -/

/-- The stored walls `W n` approach the wall `w`, of non-zero length. -/
def WallTo (l : Filter ι) (W : ι → Wall) (w : RWall) : Prop := ApproachesPt l (fun n => (W n).origin) w.1 ∧ ApproachesPt l (fun n => (W n).dest) w.2 ∧ w.1 ≠ w.2

variable {W : ι → Wall} {k : RWall}

theorem WallTo.t (h : BecomeExact A l) (hW : WallTo l W k) : ApproachesPt l (fun n => (A n).wallT (W n)) (k.2 - k.1) := hW.2.1.sub h hW.1

theorem WallTo.normal (h : BecomeExact A l) (hW : WallTo l W k) : ApproachesPt l (fun n => (A n).wallNormal (W n)) (rn k.1 k.2) := by
  have ht := hW.t h
  refine ApproachesPt.unit h (v := fun n => ⟨((A n).wallT (W n)).y, -((A n).wallT (W n)).x⟩) (p := ⟨k.2.y - k.1.y, -(k.2.x - k.1.x)⟩) ⟨ht.2, ht.1.neg⟩ ?_
  intro e
  simp only [V2.mk.injEq] at e
  apply hW.2.2
  ext <;> linarith

theorem WallTo.image (h : BecomeExact A l) (hW : WallTo l W k) (hv : ApproachesPt l v p) :
    ApproachesPt l (fun n => (A n).wallImageOf (W n) (v n)) (rimg k.1 k.2 p) := by
  have hn := hW.normal h
  have h2 : Approaches l (fun _ => (2 : F)) 2 := by simpa using Approaches.const (l := l) 2
  exact hv.sub h (ApproachesPt.smul h (h2.mul h ((hv.sub h hW.1).dot h hn)) hn)

theorem WallTo.back (h : BecomeExact A l) (hW : WallTo l W k) (hu : ApproachesPt l u q) (hv : ApproachesPt l v p) (h0 : un k.1 k.2 q p ≠ 0) :
    ApproachesPt l (fun n => (A n).backStep (W n) (u n) (v n)) (rback k.1 k.2 q p) := by
  have hn := hW.normal h
  have hd := hv.sub h hu
  have hU : Approaches l _ (un k.1 k.2 q p) := hd.dot h hn
  have hk := (hW.1.sub h hv).dot h hn
  have := hv.add h (ApproachesPt.sdiv h hU h0 (ApproachesPt.smul h hk hd))
  rw [rback, if_neg h0]
  refine (show ApproachesPt l _ ⟨_, _⟩ from this).congr' ?_
  filter_upwards [hU.ne_zero h0] with n hne
  simp only [FloatOps.backStep, hne, F.where_false]

theorem WallTo.eval (h : BecomeExact A l) (hW : WallTo l W k) (hv : ApproachesPt l v p) (hu : ApproachesPt l u q) (hw : ApproachesPt l w r)
    (h1 : p ≠ q) (h2 : q ≠ r) : Approaches l (fun n => (A n).wallEvaluate (W n) (v n) (u n) (w n)) (reval k.1 k.2 p q r) := by
  have hn := hW.normal h
  have ne : ∀ {p q : Pt}, p ≠ q → q - p ≠ ⟨0, 0⟩ := by
    intro p q hpq e
    apply hpq
    have e1 : q.x - p.x = 0 := congrArg V2.x e
    have e2 : q.y - p.y = 0 := congrArg V2.y e
    ext <;> linarith
  have hi := (hu.sub h hv).unit h (ne h1)
  have hr := (hw.sub h hu).unit h (ne h2)
  have h2 : Approaches l (fun _ => (2 : F)) 2 := by simpa using Approaches.const (l := l) 2
  have he := hr.sub h (hi.sub h (ApproachesPt.smul h (h2.mul h (hi.dot h hn)) hn))
  exact he.dot h he

theorem WallTo.param (h : BecomeExact A l) (hW : WallTo l W k) (hv : ApproachesPt l v p) : Approaches l (fun n => (A n).wallToParam (W n) (v n)) (rpar k.1 k.2 p) := by
  have ht := hW.t h
  have h0 : dp (k.2 - k.1) (k.2 - k.1) ≠ 0 := fun e => hW.2.2 ((dp_self_eq_zero _ _).mp e)
  have hs := ht.dot h ht
  rw [rpar, if_neg h0]
  refine ((ht.dot h (hv.sub h hW.1)).div h hs h0).congr' ?_
  filter_upwards [hs.ne_zero h0] with n hne
  simp only [FloatOps.wallToParam, hne, F.where_false]

/-! ### The image method -/

/-- The computed interaction points, one function for each. -/
noncomputable def cpts (A : ι → FloatOps) (img rx : ι → V2 F) : List (ι → Wall) → List (ι → V2 F)
  | [] => []
  | w :: ws =>
    let im := fun n => (A n).wallImageOf (w n) (img n)
    let rest := cpts A im rx ws
    (fun n => (A n).backStep (w n) (im n) (rest.headD rx n)) :: rest

theorem cpts_at (img rx : ι → V2 F) (ws : List (ι → Wall)) (n : ι) :
    (cpts A img rx ws).map (· n) = (A n).backward (rx n) ((ws.map (· n)).zip ((A n).images (img n) (ws.map (· n)))) := by
  induction ws generalizing img with
  | nil => rfl
  | cons w ws ih =>
    have e := ih fun n => (A n).wallImageOf (w n) (img n)
    simp only [cpts, List.map_cons, FloatOps.images, List.zip_cons_cons, FloatOps.backward, ← e]
    congr 2
    cases cpts A (fun n => (A n).wallImageOf (w n) (img n)) rx ws <;> rfl

theorem cpts_approach (h : BecomeExact A l) {img rx : ι → V2 F} {p0 r0 : Pt} (hi : ApproachesPt l img p0) (hr : ApproachesPt l rx r0)
    {ws : List (ι → Wall)} {ks : List RWall} (hw : List.Forall₂ (WallTo l) ws ks) (hp : NoPause (rpts p0 r0 ks ++ [r0])) :
    List.Forall₂ (ApproachesPt l) (cpts A img rx ws) (rpts p0 r0 ks) := by
  induction hw generalizing img p0 with
  | nil => exact .nil
  | @cons w k ws ks hk hks ih =>
    have him := hk.image h hi
    have hp' : NoPause (rpts (rimg k.1 k.2 p0) r0 ks ++ [r0]) := by
      intro i a b ha hb
      exact hp (i + 1) a b ha hb
    have hrest := ih him hp'
    refine .cons (hk.back h him ?_ ?_) hrest
    · generalize cpts A (fun n => (A n).wallImageOf (w n) (img n)) rx ws = R at hrest
      generalize rpts (rimg k.1 k.2 p0) r0 ks = S at hrest
      cases hrest with
      | nil => exact hr
      | cons h1 _ => exact h1
    · intro hu
      refine hp 0 _ _ (by simp only [rpts]; rfl) ?_ (rback_guard hu)
      simp only [rpts]
      cases rpts (rimg k.1 k.2 p0) r0 ks <;> rfl

/-- The computed points of the path. -/
noncomputable def cpath (A : ι → FloatOps) (tx rx : ι → V2 F) (ws : List (ι → Wall)) : List (ι → V2 F) := tx :: cpts A tx rx ws ++ [rx]

theorem cpath_at (tx rx : ι → V2 F) (ws : List (ι → Wall)) (n : ι) :
    (cpath A tx rx ws).map (· n) = ((A n).imagePath (tx n) (ws.map (· n)) (rx n)).xys := by
  cases ws with
  | nil => rfl
  | cons w ws => simp only [cpath, FloatOps.imagePath, List.map_cons, List.map_append, List.map_nil, cpts_at, List.cons_append]

theorem cpath_approach (h : BecomeExact A l) {tx rx : ι → V2 F} {p0 r0 : Pt} (hi : ApproachesPt l tx p0) (hr : ApproachesPt l rx r0)
    {ws : List (ι → Wall)} {ks : List RWall} (hw : List.Forall₂ (WallTo l) ws ks) (hp : ks ≠ [] → NoPause (rpath p0 r0 ks)) :
    List.Forall₂ (ApproachesPt l) (cpath A tx rx ws) (rpath p0 r0 ks) := by
  have key : List.Forall₂ (ApproachesPt l) (cpts A tx rx ws) (rpts p0 r0 ks) := by
    by_cases hk : ks = []
    · subst hk; cases hw; exact .nil
    · refine cpts_approach h hi hr hw ?_
      intro i a b ha hb
      exact hp hk (i + 1) a b ha hb
  exact .cons hi (List.rel_append key (.cons hr .nil))

theorem loss_approach (h : BecomeExact A l) {ws : List (ι → Wall)} {ks : List RWall} (hw : List.Forall₂ (WallTo l) ws ks)
    {P : List (ι → V2 F)} {pts : List Pt} (hP : List.Forall₂ (ApproachesPt l) P pts) (hlen : ks.length + 2 ≤ pts.length)
    (hp : ks ≠ [] → NoPause pts) (hf : Approaches l f x) :
    Approaches l (fun n => (A n).pathLoss (f n) ((ws.map (· n)).map (A n).wallInteract) (P.map (· n))) (x + (scores ks pts).sum) := by
  induction hw generalizing P pts f x with
  | nil => simpa [FloatOps.pathLoss, scores] using hf
  | @cons w k ws ks hk hks ih =>
    match P, pts, hP, hlen, hp with
    | _, [], _, hl, _ => simp at hl
    | _, [_], _, hl, _ => simp at hl
    | _, [_, _], _, hl, _ => simp at hl
    | _, _ :: _ :: _ :: _, .cons h1 (.cons h2 (.cons h3 hr)), hl, hp =>
      rename_i a b c ps A' B' C' Ps
      have hp := hp (by simp)
      have := ih (.cons h2 (.cons h3 hr)) (by simp at hl ⊢; omega) (fun _ i p q h1 h2 => hp (i + 1) p q h1 h2)
        (hf.add h (hk.eval h h1 h2 h3 (hp 0 _ _ rfl rfl) (hp 1 _ _ rfl rfl)))
      simp only [scores, List.sum_cons, ← add_assoc]
      simpa only [List.map_cons, FloatOps.pathLoss, FloatOps.wallInteract] using this

/-- The length. -/
theorem length_approach (h : BecomeExact A l) {E : ι → Env} {e : ℝ} (hE : Tendsto (fun n => (E n).eps) l (𝓝 e))
    {P : List (ι → V2 F)} {pts : List Pt} (hP : List.Forall₂ (ApproachesPt l) P pts) :
    Approaches l (fun n => (A n).pathLength (E n) (P.map (· n))) (plen e pts) := by
  have key : ∀ {P : List (ι → V2 F)} {pts : List Pt}, List.Forall₂ (ApproachesPt l) P pts → ∀ {f : ι → F} {x : ℝ}, Approaches l f x →
      Approaches l (fun n => (List.zipWith (fun q p => (A n).vnorm ((A n).vadd ((A n).vsub q p) ⟨F.fin (E n).eps, F.fin (E n).eps⟩)) (P.map (· n)).tail (P.map (· n))).foldl (A n).add (f n))
        (x + plen e pts) := by
    intro P pts hP
    induction hP with
    | nil => intro f x hf; simpa [plen] using hf
    | cons h1 hr ih =>
      cases hr with
      | nil => intro f x hf; simpa [plen] using hf
      | cons h2 hr =>
        intro f x hf
        have he : ApproachesPt l (fun n => (⟨F.fin (E n).eps, F.fin (E n).eps⟩ : V2 F)) ⟨e, e⟩ := ⟨⟨_, .of_forall fun _ => rfl, hE⟩, ⟨_, .of_forall fun _ => rfl, hE⟩⟩
        have := ih (hf.add h (((h2.sub h h1).add h he).norm h))
        simp only [plen, ← add_assoc]
        simpa only [List.map_cons, List.tail_cons, List.zipWith_cons_cons, List.foldl_cons] using this
  have := key hP (f := fun _ => 0) (x := 0) (by simpa using Approaches.const (l := l) 0)
  rw [zero_add] at this
  exact this

end DiffeRT2d
