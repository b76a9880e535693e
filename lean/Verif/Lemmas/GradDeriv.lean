import Verif.Spec.Grad
import Verif.Lemmas.Smooth
import Verif.Lemmas.GradValue
import Verif.Lemmas.ImageSym
import Mathlib.Analysis.Calculus.FDeriv.Mul
import Mathlib.Analysis.Calculus.Deriv.Inv
import Mathlib.Analysis.SpecialFunctions.Sqrt

/-! The rules of reverse-mode differentiation are right. -/

namespace DiffeRT2d
open Classical Spec Filter Topology

variable {ι X : Type} [NormedAddCommGroup X] [NormedSpace ℝ X] {e : ι → X} {x0 : X}

namespace Spec.Differentiates

variable {a b : Rev ι} {f g : X → ℝ}

theorem const (c : ℝ) : Differentiates e x0 (Rev.const (F.fin c)) fun _ => c :=
  ⟨rfl, 0, hasFDerivAt_const _ _, fun c i => by simp [Rev.const]⟩

theorem congr (h : Differentiates e x0 a f) (hg : g =ᶠ[𝓝 x0] f) : Differentiates e x0 a g := by
  obtain ⟨h1, f', h2, h3⟩ := h
  exact ⟨by rw [h1, hg.eq_of_nhds], f', h2.congr_of_eventuallyEq hg, h3⟩

theorem continuousAt (h : Differentiates e x0 a f) : ContinuousAt f x0 := by
  obtain ⟨-, f', h2, -⟩ := h
  exact h2.continuousAt

theorem add (ha : Differentiates e x0 a f) (hb : Differentiates e x0 b g) : Differentiates e x0 (a + b) fun x => f x + g x := by
  obtain ⟨a1, f', a2, a3⟩ := ha
  obtain ⟨b1, g', b2, b3⟩ := hb
  refine ⟨by simp [a1, b1], f' + g', a2.add b2, fun c i => ?_⟩
  show a.pull _ i + b.pull _ i = _
  rw [a3, b3, F.fin_add]; simp [mul_add]

theorem neg (ha : Differentiates e x0 a f) : Differentiates e x0 (-a) fun x => -f x := by
  obtain ⟨a1, f', a2, a3⟩ := ha
  refine ⟨by simp [a1], -f', a2.neg, fun c i => ?_⟩
  show a.pull (-F.fin c) i = _
  rw [F.fin_neg, a3]; simp

theorem sub (ha : Differentiates e x0 a f) (hb : Differentiates e x0 b g) : Differentiates e x0 (a - b) fun x => f x - g x := by
  obtain ⟨a1, f', a2, a3⟩ := ha
  obtain ⟨b1, g', b2, b3⟩ := hb
  refine ⟨by simp [a1, b1], f' - g', a2.sub b2, fun c i => ?_⟩
  show a.pull _ i + b.pull (-F.fin c) i = _
  rw [F.fin_neg, a3, b3, F.fin_add]; simp; ring

theorem mul (ha : Differentiates e x0 a f) (hb : Differentiates e x0 b g) : Differentiates e x0 (a * b) fun x => f x * g x := by
  obtain ⟨a1, f', a2, a3⟩ := ha
  obtain ⟨b1, g', b2, b3⟩ := hb
  refine ⟨by simp [a1, b1], f x0 • g' + g x0 • f', a2.mul b2, fun c i => ?_⟩
  show a.pull (F.fin c * b.val) i + b.pull (F.fin c * a.val) i = _
  rw [a1, b1, F.fin_mul, F.fin_mul, a3, b3, F.fin_add]; simp; ring

theorem div (ha : Differentiates e x0 a f) (hb : Differentiates e x0 b g) (h : g x0 ≠ 0) :
    Differentiates e x0 (a / b) fun x => f x / g x := by
  obtain ⟨a1, f', a2, a3⟩ := ha
  obtain ⟨b1, g', b2, b3⟩ := hb
  have hi : HasFDerivAt (fun x => (g x)⁻¹) (-(g x0 ^ 2)⁻¹ • g') x0 := (hasDerivAt_inv h).comp_hasFDerivAt x0 b2
  have hd := a2.mul hi
  refine ⟨by rw [Rev.val_div, a1, b1, F.fin_div _ h], f x0 • (-(g x0 ^ 2)⁻¹ • g') + (g x0)⁻¹ • f', ?_, fun c i => ?_⟩
  · have : (fun x => f x / g x) = fun x => f x * (g x)⁻¹ := by funext x; rw [div_eq_mul_inv]
    rw [this]; exact hd
  · show a.pull (F.fin c / b.val) i + b.pull (-(F.fin c * (1 / (b.val * b.val)) * a.val)) i = _
    have h2 : g x0 * g x0 ≠ 0 := mul_self_ne_zero.mpr h
    rw [a1, b1, F.fin_div _ h, F.fin_mul, F.one_eq, F.fin_div _ h2, F.fin_mul, F.fin_mul, F.fin_neg, a3, b3, F.fin_add]
    congr 1
    simp
    field_simp
    ring

theorem sqrt (ha : Differentiates e x0 a f) (h : 0 < f x0) : Differentiates e x0 a.sqrt fun x => Real.sqrt (f x) := by
  obtain ⟨a1, f', a2, a3⟩ := ha
  have hs : Real.sqrt (f x0) ≠ 0 := (Real.sqrt_pos.mpr h).ne'
  refine ⟨by show F.sqrt a.val = _; rw [a1, F.sqrt_fin h.le], (1 / (2 * Real.sqrt (f x0))) • f', a2.sqrt h.ne', fun c i => ?_⟩
  show a.pull (F.fin c * (0.5 / F.sqrt a.val)) i = _
  rw [a1, F.sqrt_fin h.le, F.ofScientific_eq, F.fin_div _ hs, F.fin_mul, a3]
  congr 1
  simp
  norm_num
  field_simp

/-- The operand that is not selected has no effect, if its pullback is harmless. -/
theorem where_false (hb : Differentiates e x0 b g) (ha : ∀ i, a.pull (F.fin 0) i = F.fin 0) : Differentiates e x0 (Rev.where_ false a b) g := by
  obtain ⟨b1, g', b2, b3⟩ := hb
  refine ⟨b1, g', b2, fun c i => ?_⟩
  show a.pull (F.where_ false (F.fin c) 0) i + b.pull (F.where_ false 0 (F.fin c)) i = _
  simp [ha, b3]

theorem where_true (ha : Differentiates e x0 a f) (hb : ∀ i, b.pull (F.fin 0) i = F.fin 0) : Differentiates e x0 (Rev.where_ true a b) f := by
  obtain ⟨b1, g', b2, b3⟩ := ha
  refine ⟨b1, g', b2, fun c i => ?_⟩
  show a.pull (F.where_ true (F.fin c) 0) i + b.pull (F.where_ true 0 (F.fin c)) i = _
  simp [hb, b3]

theorem pull_zero (ha : Differentiates e x0 a f) (i : ι) : a.pull (F.fin 0) i = F.fin 0 := by
  obtain ⟨-, f', -, a3⟩ := ha
  rw [a3]; simp

end Spec.Differentiates

theorem const_pull (x c : F) (i : ι) : (Rev.const x).pull c i = F.fin 0 := by simp [Rev.const]

namespace Spec.DifferentiatesPt

theorem add {a b : V2 (Rev ι)} {p q : X → Pt} (ha : DifferentiatesPt e x0 a p) (hb : DifferentiatesPt e x0 b q) :
    DifferentiatesPt e x0 (a + b) fun x => p x + q x := ⟨ha.1.add hb.1, ha.2.add hb.2⟩

theorem sub {a b : V2 (Rev ι)} {p q : X → Pt} (ha : DifferentiatesPt e x0 a p) (hb : DifferentiatesPt e x0 b q) :
    DifferentiatesPt e x0 (a - b) fun x => p x - q x := ⟨ha.1.sub hb.1, ha.2.sub hb.2⟩

theorem const (p : Pt) : DifferentiatesPt e x0 (Rev.constV (V2.fin p)) fun _ => p := ⟨.const _, .const _⟩

theorem val {a : V2 (Rev ι)} {p : X → Pt} (ha : DifferentiatesPt e x0 a p) : Rev.valV a = V2.fin (p x0) := by
  have h1 := ha.1.value
  have h2 := ha.2.value
  simp only [Rev.valV, V2.fin, h1, h2]

theorem dp {a b : V2 (Rev ι)} {p q : X → Pt} (ha : DifferentiatesPt e x0 a p) (hb : DifferentiatesPt e x0 b q) :
    Differentiates e x0 (V2.dot a b) fun x => dp (p x) (q x) := (ha.1.mul hb.1).add (ha.2.mul hb.2)

theorem smul {k : Rev ι} {c : X → ℝ} {a : V2 (Rev ι)} {p : X → Pt} (hk : Differentiates e x0 k c) (ha : DifferentiatesPt e x0 a p) :
    DifferentiatesPt e x0 (V2.smul k a) fun x => ⟨c x * (p x).x, c x * (p x).y⟩ := ⟨hk.mul ha.1, hk.mul ha.2⟩

theorem nrm {a : V2 (Rev ι)} {p : X → Pt} (ha : DifferentiatesPt e x0 a p) (h : p x0 ≠ ⟨0, 0⟩) :
    Differentiates e x0 (Rev.norm a) fun x => nrm (p x) := by
  have hn : DiffeRT2d.nrm (p x0) ≠ 0 := fun h0 => h (by simpa using (nrm_eq_zero _).mp h0)
  refine ((ha.1.mul ha.1).add (ha.2.mul ha.2)).sqrt ?_
  by_contra h0
  apply hn
  exact Real.sqrt_eq_zero'.mpr (not_lt.mp h0)

theorem unit {a : V2 (Rev ι)} {p : X → Pt} (ha : DifferentiatesPt e x0 a p) (h : p x0 ≠ ⟨0, 0⟩) :
    DifferentiatesPt e x0 (Rev.normalize a).1 fun x => unit (p x) := by
  have hn : DiffeRT2d.nrm (p x0) ≠ 0 := fun h0 => h (by simpa using (nrm_eq_zero _).mp h0)
  have hl : Differentiates e x0 (Rev.where_ (F.eq (Rev.norm a).val 0) (.const 1) (Rev.norm a)) fun x => len1 (p x) := by
    have h1 := ha.nrm h
    have : F.eq (Rev.norm a).val 0 = false := by rw [h1.value]; simp [hn]
    rw [this]
    refine (h1.where_false fun i => const_pull _ _ i).congr ?_
    filter_upwards [h1.continuousAt.eventually_ne hn] with x hx
    rw [len1, if_neg hx]
  exact ⟨ha.1.div hl (len1_pos _).ne', ha.2.div hl (len1_pos _).ne'⟩

end Spec.DifferentiatesPt

section Walls
variable {w : Rev.RWall ι} {v : X → Pt × Pt}

theorem normal_diff (h : DifferentiatesWall e x0 w v) : DifferentiatesPt e x0 w.normal fun x => rn (v x).1 (v x).2 := by
  obtain ⟨ho, hd, hne⟩ := h
  refine DifferentiatesPt.unit (p := fun x => ⟨(v x).2.y - (v x).1.y, -((v x).2.x - (v x).1.x)⟩) ⟨hd.2.sub ho.2, (hd.1.sub ho.1).neg⟩ ?_
  intro e
  simp only [V2.mk.injEq] at e
  apply hne
  ext <;> linarith

theorem imageOf_diff (h : DifferentiatesWall e x0 w v) {a : V2 (Rev ι)} {p : X → Pt} (ha : DifferentiatesPt e x0 a p) :
    DifferentiatesPt e x0 (w.imageOf a) fun x => rimg (v x).1 (v x).2 (p x) := by
  have hn := normal_diff h
  have h2 : Differentiates e x0 (.const (2.0 : F)) fun _ => (2 : ℝ) := by
    have := Differentiates.const (e := e) (x0 := x0) 2
    have e2 : (2.0 : F) = F.fin 2 := by rw [F.ofScientific_eq]; norm_num
    rw [e2]; exact this
  have hk := h2.mul ((ha.sub h.1).dp hn)
  exact ⟨ha.1.sub (hk.mul hn.1), ha.2.sub (hk.mul hn.2)⟩

theorem backStep_diff (h : DifferentiatesWall e x0 w v) {im pt : V2 (Rev ι)} {p q : X → Pt} (hi : DifferentiatesPt e x0 im p)
    (hp : DifferentiatesPt e x0 pt q) (hu : un (v x0).1 (v x0).2 (p x0) (q x0) ≠ 0) :
    DifferentiatesPt e x0 (Rev.backStep w im pt) fun x => rback (v x).1 (v x).2 (p x) (q x) := by
  have hn := normal_diff h
  have hv := hp.sub hi
  have hU : Differentiates e x0 (V2.dot (pt - im) w.normal) (fun x => un (v x).1 (v x).2 (p x) (q x)) := hv.dp hn
  have hk := (h.1.sub hp).dp hn
  have ev := hU.continuousAt.eventually_ne hu
  have hz : F.eq (V2.dot (pt - im) w.normal).val 0 = false := by rw [hU.value]; simp [hu]
  simp only [Rev.backStep, hz]
  constructor
  · refine (hp.1.add (((hk.mul hv.1).div hU hu).where_false fun i => const_pull _ _ i)).congr ?_
    filter_upwards [ev] with x hx
    rw [DiffeRT2d.rback, if_neg hx]
  · refine (hp.2.add (((hk.mul hv.2).div hU hu).where_false fun i => const_pull _ _ i)).congr ?_
    filter_upwards [ev] with x hx
    rw [DiffeRT2d.rback, if_neg hx]

end Walls

/-- The two scans, fused, on differentiated numbers. -/
noncomputable def dpts (img rx : V2 (Rev ι)) : List (Rev.RWall ι) → List (V2 (Rev ι))
  | [] => []
  | w :: ws =>
    let im := w.imageOf img
    let rest := dpts im rx ws
    Rev.backStep w im (rest.headD rx) :: rest

theorem backward_dpts (img rx : V2 (Rev ι)) (ws : List (Rev.RWall ι)) : Rev.backward rx (ws.zip (Rev.images img ws)) = dpts img rx ws := by
  induction ws generalizing img with
  | nil => rfl
  | cons w ws ih => simp only [Rev.images, List.zip_cons_cons, Rev.backward, dpts, ih]

theorem imagePath_xys (tx rx : V2 (Rev ι)) (ws : List (Rev.RWall ι)) : (Rev.imagePath tx ws rx).xys = tx :: dpts tx rx ws ++ [rx] := by
  cases ws with
  | nil => rfl
  | cons w ws => simp only [Rev.imagePath, backward_dpts]

theorem unguarded_of_noPause {p q : Pt} {vs : List RWall} (hp : NoPause (rpts p q vs ++ [q])) : Unguarded p q vs := by
  induction vs generalizing p with
  | nil => trivial
  | cons v vs ih =>
    refine ⟨fun hu => ?_, ih fun i a b ha hb => hp (i + 1) a b ha hb⟩
    refine hp 0 _ _ (by simp only [rpts]; rfl) ?_ (rback_guard hu)
    simp only [rpts]
    cases rpts (rimg v.1 v.2 p) q vs <;> rfl

theorem dpts_diff {img rx : V2 (Rev ι)} {p q : X → Pt} {ws : List (Rev.RWall ι)} {vs : List (X → RWall)} (hi : DifferentiatesPt e x0 img p)
    (hr : DifferentiatesPt e x0 rx q) (hw : List.Forall₂ (DifferentiatesWall e x0) ws vs)
    (hp : Unguarded (p x0) (q x0) (vs.map (· x0))) : List.Forall₂ (DifferentiatesPt e x0) (dpts img rx ws) (mpts p q vs) := by
  induction hw generalizing img p with
  | nil => exact .nil
  | @cons w v ws vs hwv _ ih =>
    have him := imageOf_diff hwv hi
    have hrest := ih him hp.2
    refine .cons (backStep_diff hwv him ?_ ?_) hrest
    · revert hrest
      generalize dpts (w.imageOf img) rx ws = l
      generalize mpts (fun x => rimg (v x).1 (v x).2 (p x)) q vs = m
      intro hrest
      cases hrest with
      | nil => exact hr
      | cons h _ => exact h
    · have e := mpts_at (fun x => rimg (v x).1 (v x).2 (p x)) q vs x0
      have hh : (mpts (fun x => rimg (v x).1 (v x).2 (p x)) q vs).headD q x0 =
          (rpts (rimg (v x0).1 (v x0).2 (p x0)) (q x0) (vs.map (· x0))).headD (q x0) := by
        rw [← e]; cases mpts (fun x => rimg (v x).1 (v x).2 (p x)) q vs <;> rfl
      rw [hh]
      exact hp.1

theorem dpath_unguarded {tx rx : V2 (Rev ι)} {p q : X → Pt} {ws : List (Rev.RWall ι)} {vs : List (X → RWall)} (ht : DifferentiatesPt e x0 tx p)
    (hr : DifferentiatesPt e x0 rx q) (hw : List.Forall₂ (DifferentiatesWall e x0) ws vs) (hp : Unguarded (p x0) (q x0) (vs.map (· x0))) :
    List.Forall₂ (DifferentiatesPt e x0) (Rev.imagePath tx ws rx).xys (mpath p q vs) := by
  rw [imagePath_xys]
  exact .cons ht (List.rel_append (dpts_diff ht hr hw hp) (.cons hr .nil))

theorem dpath_diff {tx rx : V2 (Rev ι)} {p q : X → Pt} {ws : List (Rev.RWall ι)} {vs : List (X → RWall)} (ht : DifferentiatesPt e x0 tx p)
    (hr : DifferentiatesPt e x0 rx q) (hw : List.Forall₂ (DifferentiatesWall e x0) ws vs)
    (hp : ws ≠ [] → NoPause (rpath (p x0) (q x0) (vs.map (· x0)))) :
    List.Forall₂ (DifferentiatesPt e x0) (Rev.imagePath tx ws rx).xys (mpath p q vs) := by
  refine dpath_unguarded ht hr hw ?_
  cases hw with
  | nil => trivial
  | cons h1 h2 => exact unguarded_of_noPause fun i a b ha hb => hp (by simp) (i + 1) a b ha hb

/-! ### Length and received power -/

theorem sum_diff {l : List (Rev ι)} {fs : List (X → ℝ)} (h : List.Forall₂ (Differentiates e x0) l fs) {z : Rev ι} {f : X → ℝ} (hz : Differentiates e x0 z f) :
    Differentiates e x0 (l.foldl (· + ·) z) fun x => f x + (fs.map (· x)).sum := by
  induction h generalizing z f with
  | nil => exact hz.congr (Eventually.of_forall fun x => by simp)
  | cons h1 _ ih => exact (ih (hz.add h1)).congr (Eventually.of_forall fun x => by simp [add_assoc])

/-- The real steps, with the guard. -/
noncomputable def mlens (eps : ℝ) : List (X → Pt) → List (X → ℝ)
  | p :: q :: ps => (fun x => nrm (q x - p x + ⟨eps, eps⟩)) :: mlens eps (q :: ps)
  | _ => []

theorem mlens_sum (eps : ℝ) (ps : List (X → Pt)) (x : X) : ((mlens eps ps).map (· x)).sum = plen eps (ps.map (· x)) := by
  match ps with
  | [] => simp [mlens, plen]
  | [_] => simp [mlens, plen]
  | p :: q :: ps =>
    have := mlens_sum eps (q :: ps) x
    simp only [List.map_cons] at this
    simp [mlens, plen, this]

theorem pathLength_diff (E : Env) {ps : List (V2 (Rev ι))} {qs : List (X → Pt)} (h : List.Forall₂ (DifferentiatesPt e x0) ps qs)
    (hq : OffGuard E.eps (qs.map (· x0))) : Differentiates e x0 (Rev.pathLength E ps) fun x => plen E.eps (qs.map (· x)) := by
  have key : ∀ {ps : List (V2 (Rev ι))} {qs : List (X → Pt)}, List.Forall₂ (DifferentiatesPt e x0) ps qs → OffGuard E.eps (qs.map (· x0)) →
      List.Forall₂ (Differentiates e x0) ((Rev.diffs ps).map fun v => Rev.norm (v + Rev.constV ⟨F.fin E.eps, F.fin E.eps⟩)) (mlens E.eps qs) := by
    intro ps qs h
    induction h with
    | nil => intro _; exact .nil
    | @cons a p ps qs h1 h2 ih =>
      intro hq
      cases h2 with
      | nil => exact .nil
      | @cons b q ps qs h2 h3 =>
        refine .cons (((h2.sub h1).add (.const ⟨E.eps, E.eps⟩)).nrm ?_) (ih fun i a b ha hb => hq (i + 1) a b ha hb)
        intro e'
        apply hq 0 (p x0) (q x0) rfl rfl
        have e1 : (q x0).x - (p x0).x + E.eps = 0 := congrArg V2.x e'
        have e2 : (q x0).y - (p x0).y + E.eps = 0 := congrArg V2.y e'
        ext <;> simp only <;> linarith
  have h0 := sum_diff (key h hq) (Differentiates.const (e := e) (x0 := x0) 0)
  simp only [Rev.pathLength, Rev.sum, F.zero_eq]
  exact h0.congr (Eventually.of_forall fun x => by simp [mlens_sum])

end DiffeRT2d
