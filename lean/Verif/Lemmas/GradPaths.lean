import Verif.Spec.GradPaths
import Verif.Lemmas.GradSoft
import Verif.Lemmas.Objectives
import Mathlib.Analysis.Calculus.Deriv.Basic

/-! # Differentiation of the objectives of the iterative tracing methods -/

namespace DiffeRT2d
open Classical Spec Filter Topology

variable {ι X : Type} [NormedAddCommGroup X] [NormedSpace ℝ X] {e : ι → X} {x0 : X}

/-- A point that does not move and sends nothing back. -/
def Pinned (x0 : X) (a : V2 (Rev ι)) (p : X → Pt) : Prop := Dead a.x ∧ Dead a.y ∧ ∀ x, p x = p x0

theorem Dead.sqrt {a : Rev ι} (h : Dead a) : Dead a.sqrt := fun c i => h _ i
theorem Dead.neg {a : Rev ι} (h : Dead a) : Dead (-a) := fun c i => h _ i
theorem Dead.where_ {a b : Rev ι} (c : Bool) (ha : Dead a) (hb : Dead b) : Dead (Rev.where_ c a b) := fun ct i => by
  show a.pull _ i + b.pull _ i = _; rw [ha, hb]; simp
theorem Dead.norm {v : V2 (Rev ι)} (hx : Dead v.x) (hy : Dead v.y) : Dead (Rev.norm v) := ((hx.mul hx).add (hy.mul hy)).sqrt
theorem Dead.normalize {v : V2 (Rev ι)} (hx : Dead v.x) (hy : Dead v.y) : Dead (Rev.normalize v).1.x ∧ Dead (Rev.normalize v).1.y :=
  have h := Dead.where_ (F.eq (Rev.norm v).val 0) (Dead.const 1) (Dead.norm hx hy)
  ⟨hx.div h, hy.div h⟩

theorem Dead.differentiates {r : Rev ι} (h : Dead r) {f : X → ℝ} (hv : r.val = F.fin (f x0)) (hc : ∀ x, f x = f x0) : Differentiates e x0 r f := by
  refine ⟨hv, 0, ?_, fun c i => by rw [h]; simp⟩
  have : f = fun _ => f x0 := funext hc
  rw [this]
  exact hasFDerivAt_const _ _

theorem step_norm {a b : V2 (Rev ι)} {p q : X → Pt} (ha : DifferentiatesPt e x0 a p) (hb : DifferentiatesPt e x0 b q) (g : Pt)
    (h : q x0 - p x0 + g ≠ ⟨0, 0⟩ ∨ (Pinned x0 a p ∧ Pinned x0 b q)) :
    Differentiates e x0 (Rev.norm (b - a + Rev.constV (V2.fin g))) fun x => nrm (q x - p x + g) := by
  have hd := (hb.sub ha).add (.const g)
  rcases h with h | ⟨⟨a1, a2, a3⟩, b1, b2, b3⟩
  · exact hd.nrm h
  · refine Dead.differentiates (.norm ((b1.sub a1).add (.const _)) ((b2.sub a2).add (.const _))) ?_ fun x => by rw [a3, b3]
    have e := hd.val
    have e2 : (Rev.norm (b - a + Rev.constV (V2.fin g))).val = V2.norm (Rev.valV (b - a + Rev.constV (V2.fin g))) := rfl
    rw [e2, e, V2.fin_norm']

theorem step_unit {a b : V2 (Rev ι)} {p q : X → Pt} (ha : DifferentiatesPt e x0 a p) (hb : DifferentiatesPt e x0 b q)
    (h : q x0 ≠ p x0 ∨ (Pinned x0 a p ∧ Pinned x0 b q)) :
    DifferentiatesPt e x0 (Rev.normalize (b - a)).1 fun x => unit (q x - p x) := by
  have hd := hb.sub ha
  rcases h with h | ⟨⟨a1, a2, a3⟩, b1, b2, b3⟩
  · refine hd.unit fun e => h ?_
    have e1 : (q x0).x - (p x0).x = 0 := congrArg V2.x e
    have e2 : (q x0).y - (p x0).y = 0 := congrArg V2.y e
    ext <;> linarith
  · obtain ⟨d1, d2⟩ := Dead.normalize (v := b - a) (b1.sub a1) (b2.sub a2)
    have hv : Rev.valV (Rev.normalize (b - a)).1 = V2.fin (unit (q x0 - p x0)) := by
      rw [Rev.val_normalize, hd.val, normalize_fin]
    refine ⟨d1.differentiates (congrArg V2.x hv) fun x => by simp only [a3 x, b3 x], d2.differentiates (congrArg V2.y hv) fun x => by simp only [a3 x, b3 x]⟩

/-! ### Path length -/

theorem pathLength_diff' (E : Env) {ps : List (V2 (Rev ι))} {qs : List (X → Pt)} (h : List.Forall₂ (DifferentiatesPt e x0) ps qs)
    (hq : ∀ k a b p q, ps[k]? = some a → ps[k + 1]? = some b → qs[k]? = some p → qs[k + 1]? = some q →
      q x0 ≠ ⟨(p x0).x - E.eps, (p x0).y - E.eps⟩ ∨ (Pinned x0 a p ∧ Pinned x0 b q)) :
    Differentiates e x0 (Rev.pathLength E ps) fun x => plen E.eps (qs.map (· x)) := by
  have key : ∀ {ps : List (V2 (Rev ι))} {qs : List (X → Pt)}, List.Forall₂ (DifferentiatesPt e x0) ps qs →
      (∀ k a b p q, ps[k]? = some a → ps[k + 1]? = some b → qs[k]? = some p → qs[k + 1]? = some q →
        q x0 ≠ ⟨(p x0).x - E.eps, (p x0).y - E.eps⟩ ∨ (Pinned x0 a p ∧ Pinned x0 b q)) →
      List.Forall₂ (Differentiates e x0) ((Rev.diffs ps).map fun v => Rev.norm (v + Rev.constV ⟨F.fin E.eps, F.fin E.eps⟩)) (mlens E.eps qs) := by
    intro ps qs h
    induction h with
    | nil => intro _; exact .nil
    | @cons a p ps qs h1 h2 ih =>
      intro hq
      cases h2 with
      | nil => exact .nil
      | @cons b q ps qs h2 h3 =>
        refine .cons (step_norm h1 h2 ⟨E.eps, E.eps⟩ ?_) (ih fun i a b p q h1 h2 h3 h4 => hq (i + 1) a b p q h1 h2 h3 h4)
        rcases hq 0 a b p q rfl rfl rfl rfl with h | h
        · left
          intro e'
          apply h
          have e1 : (q x0).x - (p x0).x + E.eps = 0 := congrArg V2.x e'
          have e2 : (q x0).y - (p x0).y + E.eps = 0 := congrArg V2.y e'
          ext <;> simp only <;> linarith
        · exact .inr h
  have h0 := sum_diff (key h hq) (Differentiates.const (e := e) (x0 := x0) 0)
  simp only [Rev.pathLength, Rev.sum, F.zero_eq]
  exact h0.congr (Eventually.of_forall fun x => by simp [mlens_sum])

/-! ### Scores -/

/-- The object, not differentiated. -/
noncomputable def robj (ι : Type) : Shape → Rev.RObj ι
  | .wall o d => .wall ⟨Rev.constV (V2.fin o), Rev.constV (V2.fin d)⟩
  | .ris o d φ => .ris ⟨Rev.constV (V2.fin o), Rev.constV (V2.fin d)⟩ (.const (F.fin φ))
  | .vertex p => .vertex (Rev.constV (V2.fin p))

/-- The score of an object, in real numbers. -/
noncomputable def rscore : Shape → Pt → Pt → Pt → ℝ
  | .wall o d, a, b, c => reval o d a b c
  | .ris o d φ, _, b, c =>
    let r := unit (c - b)
    let n := rn o d
    (-r.x * n.y - -r.y * n.x - Real.sin φ) * (-r.x * n.y - -r.y * n.x - Real.sin φ) +
      (-r.x * n.x + -r.y * n.y - Real.cos φ) * (-r.x * n.x + -r.y * n.y - Real.cos φ)
  | .vertex _, _, _, _ => 0

theorem evaluate_rscore (s : Shape) (a b c : Pt) : s.obj.interact.evaluate (V2.fin a) (V2.fin b) (V2.fin c) = F.fin (rscore s a b c) := by
  cases s with
  | wall o d => exact evaluate_fin o d a b c
  | ris o d φ =>
    simp only [Shape.obj, Obj.interact, RIS.interact, RIS.evaluate, RIS.sq, normal_fin, V2.fin_sub, normalize_fin, F.sin, F.cos]
    simp only [V2.cross, V2.dot, V2.neg_x, V2.neg_y, V2.fin, F.fin_neg, F.fin_mul, F.fin_sub, F.fin_add]
    rfl
  | vertex p => exact F.zero_eq

theorem const_normal_diff (o d : Pt) : DifferentiatesPt e x0 (Rev.RWall.normal ⟨Rev.constV (V2.fin o), Rev.constV (V2.fin d)⟩) fun _ => rn o d := by
  have hv : Rev.valV (Rev.RWall.normal (⟨Rev.constV (V2.fin o), Rev.constV (V2.fin d)⟩ : Rev.RWall ι)) = V2.fin (rn o d) := by
    rw [Rev.val_normal]; exact normal_fin o d
  obtain ⟨d1, d2⟩ := Dead.normalize (v := ⟨(Rev.RWall.t (⟨Rev.constV (V2.fin o), Rev.constV (V2.fin d)⟩ : Rev.RWall ι)).y,
    -(Rev.RWall.t (⟨Rev.constV (V2.fin o), Rev.constV (V2.fin d)⟩ : Rev.RWall ι)).x⟩) ((Dead.const _).sub (.const _)) ((Dead.const _).sub (.const _)).neg
  exact ⟨d1.differentiates (congrArg V2.x hv) fun _ => rfl, d2.differentiates (congrArg V2.y hv) fun _ => rfl⟩

theorem evaluate_diff (s : Shape) {a b c : V2 (Rev ι)} {p q r : X → Pt} (ha : DifferentiatesPt e x0 a p) (hb : DifferentiatesPt e x0 b q)
    (hc : DifferentiatesPt e x0 c r)
    (h1 : (∃ o d, s = .wall o d) → q x0 ≠ p x0 ∨ (Pinned x0 a p ∧ Pinned x0 b q))
    (h2 : (∃ o d, s = .wall o d) ∨ (∃ o d φ, s = .ris o d φ) → r x0 ≠ q x0 ∨ (Pinned x0 b q ∧ Pinned x0 c r)) :
    Differentiates e x0 ((robj ι s).evaluate a b c) fun x => rscore s (p x) (q x) (r x) := by
  cases s with
  | wall o d =>
    have hn := const_normal_diff (e := e) (x0 := x0) o d
    have hi := step_unit ha hb (h1 ⟨o, d, rfl⟩)
    have hr := step_unit hb hc (h2 (.inl ⟨o, d, rfl⟩))
    have h2' : Differentiates e x0 (.const (2 : F)) fun _ => (2 : ℝ) := Differentiates.const 2
    have he := hr.sub (hi.sub (hn.smul (h2'.mul (hi.dp hn))))
    exact he.dp he
  | ris o d φ =>
    have hn := const_normal_diff (e := e) (x0 := x0) o d
    have hr := step_unit hb hc (h2 (.inr ⟨o, d, φ, rfl⟩))
    have hs : Differentiates e x0 (Rev.sin (.const (F.fin φ))) fun _ => Real.sin φ :=
      Dead.differentiates (fun c i => by simp [Rev.sin, Rev.const]) rfl fun _ => rfl
    have hc' : Differentiates e x0 (Rev.cos (.const (F.fin φ))) fun _ => Real.cos φ :=
      Dead.differentiates (fun c i => by simp [Rev.cos, Rev.const]) rfl fun _ => rfl
    have a1 := ((hr.1.neg.mul hn.2).sub (hr.2.neg.mul hn.1)).sub hs
    have a2 := ((hr.1.neg.mul hn.1).add (hr.2.neg.mul hn.2)).sub hc'
    exact (a1.mul a1).add (a2.mul a2)
  | vertex p => exact Dead.differentiates (.const _) F.zero_eq fun _ => rfl

/-- The sum of the scores, in real numbers. -/
noncomputable def rtotal : List Shape → List Pt → ℝ
  | s :: ss, a :: b :: c :: pts => rscore s a b c + rtotal ss (b :: c :: pts)
  | _, _ => 0

theorem pathLoss_rtotal (ss : List Shape) (pts : List Pt) (h : pts.length = ss.length + 2) (l : ℝ) :
    pathLoss (F.fin l) (ss.map fun s => s.obj.interact) (pts.map V2.fin) = F.fin (l + rtotal ss pts) := by
  induction ss generalizing l pts with
  | nil => simp [pathLoss, rtotal]
  | cons s ss ih =>
    match pts, h with
    | a :: b :: c :: pts, h =>
      have := ih (b :: c :: pts) (by simpa using h) (l + rscore s a b c)
      simp only [List.map_cons] at this
      simp only [List.map_cons, pathLoss, evaluate_rscore, F.fin_add, this, rtotal, add_assoc]

theorem totalScore_diff (ss : List Shape) {ps : List (V2 (Rev ι))} {qs : List (X → Pt)} (h : List.Forall₂ (DifferentiatesPt e x0) ps qs)
    (hlen : ps.length = ss.length + 2)
    (hq : ∀ k a b p q, ScoredStep ss k → ps[k]? = some a → ps[k + 1]? = some b → qs[k]? = some p → qs[k + 1]? = some q →
      q x0 ≠ p x0 ∨ (Pinned x0 a p ∧ Pinned x0 b q)) {l : Rev ι} {f : X → ℝ} (hl : Differentiates e x0 l f) :
    Differentiates e x0 (Rev.totalScore l (ss.map (robj ι)) ps) fun x => f x + rtotal ss (qs.map (· x)) := by
  induction ss generalizing ps qs l f with
  | nil => exact hl.congr (Eventually.of_forall fun x => by simp [rtotal])
  | cons s ss ih =>
    match ps, qs, h, hlen with
    | a :: b :: c :: ps, p :: q :: r :: qs, .cons ha (.cons hb (.cons hc hrest)), hlen =>
      have hs := evaluate_diff s ha hb hc (fun ⟨o, d, hs⟩ => hq 0 a b p q (.inl ⟨o, d, by simp [hs]⟩) rfl rfl rfl rfl)
        (fun hs => hq 1 b c q r (.inr ⟨0, rfl, by
          rcases hs with ⟨o, d, hs⟩ | ⟨o, d, φ, hs⟩
          · exact .inl ⟨o, d, by simp [hs]⟩
          · exact .inr ⟨o, d, φ, by simp [hs]⟩⟩) rfl rfl rfl rfl)
      have := ih (.cons hb (.cons hc hrest)) (by simpa using hlen) (fun k a b p q hk h1 h2 h3 h4 => hq (k + 1) a b p q (by
        rcases hk with ⟨o, d, h⟩ | ⟨m, rfl, h⟩
        · exact .inl ⟨o, d, by simpa using h⟩
        · exact .inr ⟨m + 1, rfl, by simpa using h⟩) h1 h2 h3 h4) (hl.add hs)
      exact this.congr (Eventually.of_forall fun x => by simp [rtotal, add_assoc])

/-! ### Scores that send NaN back -/

variable {i : ι}

theorem totalScore_nans_acc {os : List (Rev.RObj ι)} {xys : List (V2 (Rev ι))} (hlen : xys.length = os.length + 2) {l : Rev ι} (h : Nans i l) :
    Nans i (Rev.totalScore l os xys) := by
  induction os generalizing l xys with
  | nil => exact h
  | cons w os ih =>
    match xys, hlen with
    | a :: b :: c :: xys, hlen => exact ih (by simpa using hlen) h.add_left

theorem ris_nans {w : Rev.RWall ι} {phi : Rev ι} {b c : V2 (Rev ι)} (h : Rev.valV (c - b) = V2.fin ⟨0, 0⟩) (hp : PassesPt i (c - b)) :
    Nans i (Rev.risEvaluate w phi b c) :=
  have h1 : Nans i (-(Rev.normalize (c - b)).1).x := fun ct => normalize_nans h hp _
  Nans.add_left (Nans.mul_left (Nans.sub_left (Nans.sub_left (Nans.mul_left h1))))

theorem totalScore_nans (ss : List Shape) {xys : List (V2 (Rev ι))} (hlen : xys.length = ss.length + 2) {k : ℕ} (hk : ScoredStep ss k) {a b : V2 (Rev ι)}
    (ha : xys[k]? = some a) (hb : xys[k + 1]? = some b) (hz : Rev.valV (b - a) = V2.fin ⟨0, 0⟩) (hp : PassesPt i (b - a)) (l : Rev ι) :
    Nans i (Rev.totalScore l (ss.map (robj ι)) xys) := by
  induction ss generalizing l xys k with
  | nil => rcases hk with ⟨o, d, h⟩ | ⟨m, -, ⟨o, d, h⟩ | ⟨o, d, φ, h⟩⟩ <;> simp at h
  | cons s ss ih =>
    match xys, hlen with
    | p :: q :: r :: xys, hlen =>
      simp only [List.map_cons, Rev.totalScore]
      have hlen' : (q :: r :: xys).length = (ss.map (robj ι)).length + 2 := by simpa using hlen
      have hlen'' : (q :: r :: xys).length = ss.length + 2 := by simpa using hlen
      rcases hk with ⟨o, d, h⟩ | ⟨m, rfl, h⟩
      · match k with
        | 0 =>
          simp only [List.getElem?_cons_zero, List.getElem?_cons_succ, zero_add, Option.some.injEq] at ha hb h
          subst ha hb h
          exact totalScore_nans_acc hlen' (Nans.add_right (evaluate_nans_left hz hp))
        | k + 1 =>
          exact ih hlen'' (k := k) (.inl ⟨o, d, by simpa using h⟩) (by simpa using ha) (by simpa using hb) _
      · match m with
        | 0 =>
          simp only [List.getElem?_cons_zero, List.getElem?_cons_succ, zero_add, Option.some.injEq] at ha hb h
          subst ha hb
          refine totalScore_nans_acc hlen' (Nans.add_right ?_)
          rcases h with ⟨o, d, rfl⟩ | ⟨o, d, φ, rfl⟩
          · exact evaluate_nans_right hz hp
          · exact ris_nans hz hp
        | m + 1 =>
          exact ih hlen'' (k := m + 1) (.inr ⟨m, rfl, by simpa using h⟩) (by simpa using ha) (by simpa using hb) _

/-! ### The points of a path -/

/-- The point of an object, for its parameter. -/
noncomputable def rpoint (s : Shape) (r : Rev ι) : V2 (Rev ι) := (robj ι s).toCart [r]

/-- The number of parameters before object `k`. -/
def offset (ss : List Shape) (k : ℕ) : ℕ := ((ss.take k).map Shape.count).sum

theorem robj_count (s : Shape) : (robj ι s).paramCount = s.count := by cases s <;> rfl

theorem constObjs (ss : List Shape) : (ss.map Shape.obj).mapM Rev.constObj = some (ss.map (robj ι)) := by
  induction ss with
  | nil => rfl
  | cons s ss ih =>
    have : Rev.constObj s.obj = some (robj ι s) := by cases s <;> rfl
    simp [this, ih]

theorem toCartesianFrom_get (θ : List (Rev ι)) (ss : List Shape) (j : ℕ) (h : j + (ss.map Shape.count).sum ≤ θ.length) {k : ℕ} {s : Shape} (hs : ss[k]? = some s) :
    (Rev.toCartesianFrom θ j (ss.map (robj ι)))[k]? = some (rpoint s ((θ[j + offset ss k]?).getD (.const F.nan))) := by
  induction ss generalizing j k with
  | nil => simp at hs
  | cons s' ss ih =>
    simp only [List.map_cons, Rev.toCartesianFrom, List.sum_cons] at h ⊢
    cases k with
    | zero =>
      simp only [List.getElem?_cons_zero, Option.some.injEq] at hs ⊢
      subst hs
      simp only [offset, List.take_zero, List.map_nil, List.sum_nil, add_zero]
      cases hs' : s' with
      | vertex p => rfl
      | wall o d =>
        rw [hs'] at h
        have hj : j < θ.length := by simp only [Shape.count] at h; omega
        have : dynamicSlice θ j 1 = [θ[j]] := by
          simp only [dynamicSlice]
          rw [min_eq_left (by omega), List.take_one, List.head?_drop, List.getElem?_eq_getElem hj]; rfl
        show Rev.RObj.toCart (robj ι (.wall o d)) (dynamicSlice θ j 1) = _
        rw [this, List.getElem?_eq_getElem hj]; rfl
      | ris o d φ =>
        rw [hs'] at h
        have hj : j < θ.length := by simp only [Shape.count] at h; omega
        have : dynamicSlice θ j 1 = [θ[j]] := by
          simp only [dynamicSlice]
          rw [min_eq_left (by omega), List.take_one, List.head?_drop, List.getElem?_eq_getElem hj]; rfl
        show Rev.RObj.toCart (robj ι (.ris o d φ)) (dynamicSlice θ j 1) = _
        rw [this, List.getElem?_eq_getElem hj]; rfl
    | succ k =>
      simp only [List.getElem?_cons_succ] at hs ⊢
      rw [robj_count, ih (j + s'.count) (by omega) hs]
      simp [offset, add_assoc]

theorem rtoCartesianFrom_length (θ : List (Rev ι)) (os : List (Rev.RObj ι)) (j : ℕ) : (Rev.toCartesianFrom θ j os).length = os.length := by
  induction os generalizing j with
  | nil => rfl
  | cons o os ih => simp [Rev.toCartesianFrom, ih]

/-- The point of an object, in real numbers. -/
def point : Shape → ℝ → Pt
  | .wall o d, s => pointAt o d s
  | .ris o d _, s => pointAt o d s
  | .vertex p, _ => p

theorem place_get (ss : List Shape) (θ : List ℝ) {k : ℕ} {s : Shape} (hs : ss[k]? = some s) : (place ss θ)[k]? = some (point s ((θ[offset ss k]?).getD 0)) := by
  induction ss generalizing θ k with
  | nil => simp at hs
  | cons s' ss ih =>
    cases k with
    | zero =>
      simp only [List.getElem?_cons_zero, Option.some.injEq] at hs
      subst hs
      cases s' <;> simp [place, point, offset, List.headD_eq_head?_getD, List.head?_eq_getElem?]
    | succ k =>
      simp only [List.getElem?_cons_succ] at hs
      cases s' <;> simp [place, ih _ hs, offset, Shape.count, add_comm]

theorem rpoint_diff (s : Shape) {r : Rev ι} {f : X → ℝ} (h : s.count = 1 → Differentiates e x0 r f) : DifferentiatesPt e x0 (rpoint s r) fun x => point s (f x) := by
  have wall : ∀ o d : Pt, Differentiates e x0 r f →
      DifferentiatesPt e x0 (Rev.RWall.toCart ⟨Rev.constV (V2.fin o), Rev.constV (V2.fin d)⟩ r) fun x => pointAt o d (f x) := fun o d h =>
    ⟨(Differentiates.const _).add (h.mul ((Differentiates.const _).sub (.const _))), (Differentiates.const _).add (h.mul ((Differentiates.const _).sub (.const _)))⟩
  cases s with
  | wall o d => exact wall o d (h rfl)
  | ris o d φ => exact wall o d (h rfl)
  | vertex p => exact .const p

theorem rpoint_pinned (s : Shape) {r : Rev ι} {f : X → ℝ} (h : s.count = 1 → Dead r ∧ ∀ x, f x = f x0) : Pinned x0 (rpoint s r) fun x => point s (f x) := by
  have wall : ∀ o d : Pt, Dead r → Dead (Rev.RWall.toCart ⟨Rev.constV (V2.fin o), Rev.constV (V2.fin d)⟩ r).x ∧
      Dead (Rev.RWall.toCart ⟨Rev.constV (V2.fin o), Rev.constV (V2.fin d)⟩ r).y := fun o d h =>
    ⟨(Dead.const _).add (h.mul ((Dead.const _).sub (.const _))), (Dead.const _).add (h.mul ((Dead.const _).sub (.const _)))⟩
  cases s with
  | wall o d => exact ⟨(wall o d (h rfl).1).1, (wall o d (h rfl).1).2, fun x => by simp only [point]; rw [(h rfl).2 x]⟩
  | ris o d φ => exact ⟨(wall o d (h rfl).1).1, (wall o d (h rfl).1).2, fun x => by simp only [point]; rw [(h rfl).2 x]⟩
  | vertex p => exact ⟨.const _, .const _, fun x => rfl⟩

theorem rpoint_passes (s : Shape) {r : Rev ι} (hs : s.count = 1) (h : Passes i r) : PassesPt i (rpoint s r) := by
  cases s with
  | wall o d => exact .inl (Passes.add_right h.mul_left)
  | ris o d φ => exact .inl (Passes.add_right h.mul_left)
  | vertex p => simp [Shape.count] at hs

/-! ### The share of one input -/

/-- What is sent back to the input `j`. -/
def proj (j : ι) (r : Rev ι) : Rev Unit := ⟨r.val, fun ct _ => r.pull ct j⟩

def projV (j : ι) (v : V2 (Rev ι)) : V2 (Rev Unit) := ⟨proj j v.x, proj j v.y⟩

theorem proj_foldl (j : ι) (l : List (Rev ι)) (z : Rev ι) : proj j (l.foldl (· + ·) z) = (l.map (proj j)).foldl (· + ·) (proj j z) := by
  induction l generalizing z with
  | nil => rfl
  | cons a l ih => exact ih (z + a)

theorem proj_diffs (j : ι) (ps : List (V2 (Rev ι))) : (Rev.diffs ps).map (projV j) = Rev.diffs (ps.map (projV j)) := by
  match ps with
  | [] => rfl
  | [_] => rfl
  | p :: q :: ps =>
    have := proj_diffs j (q :: ps)
    simp only [Rev.diffs, List.map_cons] at this ⊢
    rw [this]; rfl

theorem proj_pathLength (j : ι) (E : Env) (ps : List (V2 (Rev ι))) : proj j (Rev.pathLength E ps) = Rev.pathLength E (ps.map (projV j)) := by
  simp only [Rev.pathLength, Rev.sum, proj_foldl, ← proj_diffs, List.map_map]
  rfl

theorem proj_totalScore (j : ι) (ss : List Shape) (ps : List (V2 (Rev ι))) (l : Rev ι) :
    proj j (Rev.totalScore l (ss.map (robj ι)) ps) = Rev.totalScore (proj j l) (ss.map (robj Unit)) (ps.map (projV j)) := by
  induction ss generalizing l ps with
  | nil => rfl
  | cons s ss ih =>
    match ps with
    | a :: b :: c :: ps =>
      simp only [List.map_cons, Rev.totalScore]
      have := ih (b :: c :: ps) (l + (robj ι s).evaluate a b c)
      simp only [List.map_cons] at this
      rw [this]
      cases s <;> rfl
    | [] => rfl
    | [_] => rfl
    | [_, _] => rfl

theorem proj_rpoint (j : ι) (s : Shape) (r : Rev ι) : projV j (rpoint s r) = rpoint s (proj j r) := by cases s <;> rfl

/-- The points of the path, for the inputs `θ`. -/
noncomputable def gpts (ι : Type) (ss : List Shape) (tx rx : Pt) (θ : List (Rev ι)) : List (V2 (Rev ι)) :=
  Rev.parametricToCartesian (ss.map (robj ι)) θ (Rev.constV (V2.fin tx)) (Rev.constV (V2.fin rx))

theorem gpts_length (ss : List Shape) (tx rx : Pt) (θ : List (Rev ι)) : (gpts ι ss tx rx θ).length = ss.length + 2 := by
  simp [gpts, Rev.parametricToCartesian, rtoCartesianFrom_length]

theorem gpts_zero (ss : List Shape) (tx rx : Pt) (θ : List (Rev ι)) : (gpts ι ss tx rx θ)[0]? = some (Rev.constV (V2.fin tx)) := by
  simp [gpts, Rev.parametricToCartesian]

theorem gpts_last (ss : List Shape) (tx rx : Pt) (θ : List (Rev ι)) : (gpts ι ss tx rx θ)[ss.length + 1]? = some (Rev.constV (V2.fin rx)) := by
  simp only [gpts, Rev.parametricToCartesian, List.cons_append, List.getElem?_cons_succ]
  rw [List.getElem?_append_right (by rw [rtoCartesianFrom_length]; simp)]
  simp [rtoCartesianFrom_length]

theorem gpts_succ (ss : List Shape) (tx rx : Pt) (θ : List (Rev ι)) (h : (ss.map Shape.count).sum = θ.length) {k : ℕ} {s : Shape} (hs : ss[k]? = some s) :
    (gpts ι ss tx rx θ)[k + 1]? = some (rpoint s ((θ[offset ss k]?).getD (.const F.nan))) := by
  have hk : k < ss.length := (List.getElem?_eq_some_iff.mp hs).1
  simp only [gpts, Rev.parametricToCartesian, List.cons_append, List.getElem?_cons_succ]
  rw [List.getElem?_append_left (by rw [rtoCartesianFrom_length]; simpa using hk), toCartesianFrom_get θ ss 0 (by omega) hs]
  simp

/-- The points of the path, in real numbers. -/
noncomputable def ptsAt (ss : List Shape) (tx rx : Pt) (θ : List ℝ) : List Pt := tx :: place ss θ ++ [rx]

theorem ptsAt_length (ss : List Shape) (tx rx : Pt) (θ : List ℝ) : (ptsAt ss tx rx θ).length = ss.length + 2 := by simp [ptsAt, place_length]
theorem ptsAt_zero (ss : List Shape) (tx rx : Pt) (θ : List ℝ) : (ptsAt ss tx rx θ)[0]? = some tx := by simp [ptsAt]
theorem ptsAt_last (ss : List Shape) (tx rx : Pt) (θ : List ℝ) : (ptsAt ss tx rx θ)[ss.length + 1]? = some rx := by
  simp only [ptsAt, List.cons_append, List.getElem?_cons_succ]
  rw [List.getElem?_append_right (by rw [place_length])]
  simp [place_length]
theorem ptsAt_succ (ss : List Shape) (tx rx : Pt) (θ : List ℝ) {k : ℕ} {s : Shape} (hs : ss[k]? = some s) :
    (ptsAt ss tx rx θ)[k + 1]? = some (point s ((θ[offset ss k]?).getD 0)) := by
  have hk : k < ss.length := (List.getElem?_eq_some_iff.mp hs).1
  simp only [ptsAt, List.cons_append, List.getElem?_cons_succ]
  rw [List.getElem?_append_left (by rwa [place_length]), place_get _ _ hs]

theorem offset_lt {ss : List Shape} {k : ℕ} {s : Shape} (hs : ss[k]? = some s) (hc : s.count = 1) : offset ss k < (ss.map Shape.count).sum := by
  have hk : k < ss.length := (List.getElem?_eq_some_iff.mp hs).1
  have : ((ss.drop k).map Shape.count).sum ≥ 1 := by
    rw [List.drop_eq_getElem_cons hk, List.map_cons, List.sum_cons]
    have : ss[k] = s := by
      rw [List.getElem?_eq_getElem hk] at hs; simpa using hs
    rw [this, hc]; omega
  have e : (ss.map Shape.count).sum = offset ss k + ((ss.drop k).map Shape.count).sum := by
    conv_lhs => rw [← List.take_append_drop k ss]
    simp [offset]
  omega

/-- `PathAt` describes the points. -/
theorem pathAt_iff {ss : List Shape} {tx rx : Pt} {θ : List ℝ} (h : θ.length = (ss.map Shape.count).sum) {pts : List Pt} :
    PathAt ss tx rx θ pts ↔ pts = ptsAt ss tx rx θ := by
  constructor
  · rintro ⟨h1, h2, h3, h4, h5⟩
    apply List.ext_getElem?
    intro m
    rcases Nat.eq_zero_or_pos m with rfl | hm
    · rw [h2, ptsAt_zero]
    · obtain ⟨k, rfl⟩ : ∃ k, m = k + 1 := ⟨m - 1, by omega⟩
      rcases lt_trichotomy k ss.length with hk | rfl | hk
      · have hs : ss[k]? = some ss[k] := List.getElem?_eq_getElem hk
        rw [ptsAt_succ _ _ _ _ hs]
        cases hc : ss[k] with
        | vertex p => rw [hc] at hs; rw [h4 k p hs]; rfl
        | wall o d =>
          rw [hc] at hs
          have ho := offset_lt hs rfl
          rw [h5 k _ θ[offset ss k] o d ⟨_, hs, rfl, rfl⟩ (List.getElem?_eq_getElem _) (.inl hs)]
          rw [List.getElem?_eq_getElem (by omega)]; rfl
        | ris o d φ =>
          rw [hc] at hs
          have ho := offset_lt hs rfl
          rw [h5 k _ θ[offset ss k] o d ⟨_, hs, rfl, rfl⟩ (List.getElem?_eq_getElem _) (.inr ⟨φ, hs⟩)]
          rw [List.getElem?_eq_getElem (by omega)]; rfl
      · rw [h3, ptsAt_last]
      · rw [List.getElem?_eq_none (by omega), List.getElem?_eq_none (by rw [ptsAt_length]; omega)]
  · rintro rfl
    refine ⟨ptsAt_length _ _ _ _, ptsAt_zero _ _ _ _, ptsAt_last _ _ _ _, fun k p hs => by rw [ptsAt_succ _ _ _ _ hs]; rfl, ?_⟩
    rintro k j s o d ⟨s', hs', -, rfl⟩ hj hs
    rw [ptsAt_succ _ _ _ _ hs']
    have : (θ[offset ss k]?).getD 0 = s := by
      show (θ[((ss.take k).map Shape.count).sum]?).getD 0 = s
      rw [hj]; rfl
    rw [this]
    rcases hs with hs | ⟨φ, hs⟩ <;> (rw [hs] at hs'; cases hs'; rfl)

/-! ### Derivatives of the two objectives -/

/-- The points, as functions of the parameters. -/
noncomputable def qpts (ss : List Shape) (tx rx : Pt) (fs : X → List ℝ) : List (X → Pt) :=
  (List.range (ss.length + 2)).map fun m x => ((ptsAt ss tx rx (fs x))[m]?).getD tx

theorem qpts_map (ss : List Shape) (tx rx : Pt) (fs : X → List ℝ) (x : X) : (qpts ss tx rx fs).map (· x) = ptsAt ss tx rx (fs x) := by
  apply List.ext_getElem?
  intro m
  simp only [qpts, List.map_map, List.getElem?_map]
  by_cases hm : m < ss.length + 2
  · rw [List.getElem?_range hm, List.getElem?_eq_getElem (by rw [ptsAt_length]; exact hm)]
    simp [List.getElem?_eq_getElem (show m < (ptsAt ss tx rx (fs x)).length by rw [ptsAt_length]; exact hm)]
  · rw [List.getElem?_eq_none (by simpa using hm), List.getElem?_eq_none (by rw [ptsAt_length]; omega)]; rfl

theorem qpts_get (ss : List Shape) (tx rx : Pt) (fs : X → List ℝ) {m : ℕ} {q : X → Pt} (h : (qpts ss tx rx fs)[m]? = some q) :
    m < ss.length + 2 ∧ ∀ x, (ptsAt ss tx rx (fs x))[m]? = some (q x) := by
  have hm : m < ss.length + 2 := by
    have := (List.getElem?_eq_some_iff.mp h).1
    simpa [qpts] using this
  refine ⟨hm, fun x => ?_⟩
  simp only [qpts, List.getElem?_map, List.getElem?_range hm, Option.map_some, Option.some.injEq] at h
  subst h
  have hm' : m < (ptsAt ss tx rx (fs x)).length := by rw [ptsAt_length]; exact hm
  simp only [List.getElem?_eq_getElem hm', Option.getD_some]

/-- Every point is one of the two ends or the point of an object. -/
theorem gpts_cases {ss : List Shape} {tx rx : Pt} {rs : List (Rev ι)} (hlen : (ss.map Shape.count).sum = rs.length) (fs : X → List ℝ) {m : ℕ} {a : V2 (Rev ι)} {q : X → Pt}
    (ha : (gpts ι ss tx rx rs)[m]? = some a) (hq : (qpts ss tx rx fs)[m]? = some q) :
    (∃ p : Pt, a = Rev.constV (V2.fin p) ∧ q = fun _ => p) ∨
    ∃ k s, m = k + 1 ∧ ss[k]? = some s ∧ a = rpoint s ((rs[offset ss k]?).getD (.const F.nan)) ∧ q = fun x => point s (((fs x)[offset ss k]?).getD 0) := by
  obtain ⟨hm, hq⟩ := qpts_get ss tx rx fs hq
  rcases Nat.eq_zero_or_pos m with rfl | hm0
  · left
    refine ⟨tx, ?_, funext fun x => ?_⟩
    · rw [gpts_zero] at ha; exact (Option.some.inj ha).symm
    · have := hq x; rw [ptsAt_zero] at this; exact (Option.some.inj this).symm
  · obtain ⟨k, rfl⟩ : ∃ k, m = k + 1 := ⟨m - 1, by omega⟩
    rcases Nat.lt_or_ge k ss.length with hk | hk
    · right
      have hs : ss[k]? = some ss[k] := List.getElem?_eq_getElem hk
      refine ⟨k, ss[k], rfl, hs, ?_, funext fun x => ?_⟩
      · rw [gpts_succ ss tx rx rs hlen hs] at ha; exact (Option.some.inj ha).symm
      · have := hq x; rw [ptsAt_succ _ _ _ _ hs] at this; exact (Option.some.inj this).symm
    · left
      have hk : k = ss.length := by omega
      subst hk
      refine ⟨rx, ?_, funext fun x => ?_⟩
      · rw [gpts_last] at ha; exact (Option.some.inj ha).symm
      · have := hq x; rw [ptsAt_last] at this; exact (Option.some.inj this).symm

theorem gpts_diff (ss : List Shape) (tx rx : Pt) {rs : List (Rev ι)} (hlen : (ss.map Shape.count).sum = rs.length) {fs : X → List ℝ}
    (hd : ∀ (m : ℕ) (r : Rev ι), rs[m]? = some r → Differentiates e x0 r fun x => ((fs x)[m]?).getD 0) :
    List.Forall₂ (DifferentiatesPt e x0) (gpts ι ss tx rx rs) (qpts ss tx rx fs) := by
  rw [List.forall₂_iff_get]
  have h1 := gpts_length ss tx rx rs
  have h2 : (qpts ss tx rx fs).length = ss.length + 2 := by simp [qpts]
  refine ⟨by omega, fun m hm1 hm2 => ?_⟩
  simp only [List.get_eq_getElem]
  rcases gpts_cases hlen fs (List.getElem?_eq_getElem hm1) (List.getElem?_eq_getElem hm2) with ⟨p, e1, e2⟩ | ⟨k, s, -, hs, e1, e2⟩
  · rw [e1, e2]; exact .const p
  · rw [e1, e2]
    refine rpoint_diff s fun hc => hd _ _ ?_
    have := offset_lt hs hc
    rw [List.getElem?_eq_getElem (by omega)]; rfl

theorem gpts_pinned (ss : List Shape) (tx rx : Pt) {rs : List (Rev ι)} (hlen : (ss.map Shape.count).sum = rs.length) {fs : X → List ℝ} {S : ℕ → Prop}
    (hp : ∀ (m : ℕ) (r : Rev ι), rs[m]? = some r → S m ∨ Dead r ∧ ∀ x, ((fs x)[m]?).getD 0 = ((fs x0)[m]?).getD 0) {m : ℕ} {a : V2 (Rev ι)} {q : X → Pt}
    (ha : (gpts ι ss tx rx rs)[m]? = some a) (hq : (qpts ss tx rx fs)[m]? = some q) :
    (∃ k s, m = k + 1 ∧ ss[k]? = some s ∧ s.count = 1 ∧ S (offset ss k)) ∨ Pinned x0 a q := by
  rcases gpts_cases hlen fs ha hq with ⟨p, rfl, rfl⟩ | ⟨k, s, rfl, hs, rfl, rfl⟩
  · exact .inr ⟨.const _, .const _, fun _ => rfl⟩
  · by_cases hc : s.count = 1
    · have := offset_lt hs hc
      have hr : rs[offset ss k]? = some ((rs[offset ss k]?).getD (.const F.nan)) := by
        rw [List.getElem?_eq_getElem (by omega)]; rfl
      rcases hp _ _ hr with h | h
      · exact .inl ⟨k, s, rfl, hs, hc, h⟩
      · exact .inr (rpoint_pinned s fun _ => h)
    · exact .inr (rpoint_pinned s fun h => absurd h hc)

/-- The length of the path is differentiated at the inputs `S`, if no step next to their points is singular. -/
theorem fermat_diff (E : Env) (ss : List Shape) (tx rx : Pt) {rs : List (Rev ι)} (hlen : (ss.map Shape.count).sum = rs.length) {fs : X → List ℝ} {S : ℕ → Prop}
    (hd : ∀ (m : ℕ) (r : Rev ι), rs[m]? = some r → Differentiates e x0 r fun x => ((fs x)[m]?).getD 0)
    (hp : ∀ (m : ℕ) (r : Rev ι), rs[m]? = some r → S m ∨ Dead r ∧ ∀ x, ((fs x)[m]?).getD 0 = ((fs x0)[m]?).getD 0)
    (hg : ∀ k j, Owns ss k j → S j → ¬ GuardStep E.eps (ptsAt ss tx rx (fs x0)) k ∧ ¬ GuardStep E.eps (ptsAt ss tx rx (fs x0)) (k + 1)) :
    Differentiates e x0 (Rev.pathLength E (gpts ι ss tx rx rs)) fun x => plen E.eps (ptsAt ss tx rx (fs x)) := by
  have := pathLength_diff' E (gpts_diff ss tx rx hlen hd) fun k a b p q ha hb hp' hq' => by
    have h1 := (qpts_get ss tx rx fs hp').2 x0
    have h2 := (qpts_get ss tx rx fs hq').2 x0
    rcases gpts_pinned ss tx rx hlen hp ha hp' with ⟨k', s, rfl, hs, hc, hS⟩ | h3
    · exact .inl fun h => (hg k' _ ⟨s, hs, hc, rfl⟩ hS).2 ⟨_, _, h1, h2, h⟩
    rcases gpts_pinned ss tx rx hlen hp hb hq' with ⟨k', s, e, hs, hc, hS⟩ | h4
    · have : k' = k := by omega
      subst this
      exact .inl fun h => (hg k' _ ⟨s, hs, hc, rfl⟩ hS).1 ⟨_, _, h1, h2, h⟩
    exact .inr ⟨h3, h4⟩
  simpa only [qpts_map] using this

/-- The total score is differentiated at the inputs `S`, if no step next to their points that is looked at by a score is null. -/
theorem min_diff (ss : List Shape) (tx rx : Pt) {rs : List (Rev ι)} (hlen : (ss.map Shape.count).sum = rs.length) {fs : X → List ℝ} {S : ℕ → Prop}
    (hd : ∀ (m : ℕ) (r : Rev ι), rs[m]? = some r → Differentiates e x0 r fun x => ((fs x)[m]?).getD 0)
    (hp : ∀ (m : ℕ) (r : Rev ι), rs[m]? = some r → S m ∨ Dead r ∧ ∀ x, ((fs x)[m]?).getD 0 = ((fs x0)[m]?).getD 0)
    (hg : ∀ k j, Owns ss k j → S j → ∀ m, m = k ∨ m = k + 1 → ScoredStep ss m → ¬ NullStep (ptsAt ss tx rx (fs x0)) m) :
    Differentiates e x0 (Rev.totalScore (.const 0) (ss.map (robj ι)) (gpts ι ss tx rx rs)) fun x => rtotal ss (ptsAt ss tx rx (fs x)) := by
  have h0 : Differentiates e x0 (.const (0 : F)) fun _ => (0 : ℝ) := F.zero_eq ▸ Differentiates.const 0
  have := totalScore_diff ss (gpts_diff ss tx rx hlen hd) (gpts_length ss tx rx rs) (fun k a b p q hk ha hb hp' hq' => by
    have h1 := (qpts_get ss tx rx fs hp').2 x0
    have h2 := (qpts_get ss tx rx fs hq').2 x0
    rcases gpts_pinned ss tx rx hlen hp ha hp' with ⟨k', s, rfl, hs, hc, hS⟩ | h3
    · exact .inl fun h => hg k' _ ⟨s, hs, hc, rfl⟩ hS _ (.inr rfl) hk ⟨_, h1, by rw [h2, h]⟩
    rcases gpts_pinned ss tx rx hlen hp hb hq' with ⟨k', s, e, hs, hc, hS⟩ | h4
    · have : k' = k := by omega
      subst this
      exact .inl fun h => hg k' _ ⟨s, hs, hc, rfl⟩ hS _ (.inl rfl) hk ⟨_, h1, by rw [h2, h]⟩
    exact .inr ⟨h3, h4⟩) h0
  simpa only [qpts_map, zero_add] using this

/-! ### NaN -/

theorem valV_rpoint (s : Shape) (x : ℝ) (j : ι) : Rev.valV (rpoint s (.var (F.fin x) j)) = V2.fin (point s x) := by
  cases s with
  | vertex p => rfl
  | wall o d => ext <;> simp [rpoint, robj, Rev.RObj.toCart, Rev.RWall.toCart, Rev.RWall.t, Rev.valV, V2.fin, Rev.constV, V2.smul, point, pointAt, Rev.var]
  | ris o d φ => ext <;> simp [rpoint, robj, Rev.RObj.toCart, Rev.RWall.toCart, Rev.RWall.t, Rev.valV, V2.fin, Rev.constV, V2.smul, point, pointAt, Rev.var]

/-- The inputs of the gradient. -/
noncomputable def vars (θ : List ℝ) : List (Rev ℕ) := (θ.map F.fin).zipIdx.map fun p => .var p.1 p.2

theorem vars_length (θ : List ℝ) : (vars θ).length = θ.length := by simp [vars]

theorem vars_get (θ : List ℝ) (m : ℕ) : (vars θ)[m]? = θ[m]?.map fun x => .var (F.fin x) m := by
  simp only [vars, List.getElem?_map, List.getElem?_zipIdx]
  cases θ[m]? <;> simp

theorem gpts_vars_val {ss : List Shape} (tx rx : Pt) {θ : List ℝ} (h : θ.length = (ss.map Shape.count).sum) {m : ℕ} {a : V2 (Rev ℕ)}
    (ha : (gpts ℕ ss tx rx (vars θ))[m]? = some a) {p : Pt} (hp : (ptsAt ss tx rx θ)[m]? = some p) : Rev.valV a = V2.fin p := by
  have hlen : (ss.map Shape.count).sum = (vars θ).length := by rw [vars_length, h]
  have hm : m < ss.length + 2 := by
    have := (List.getElem?_eq_some_iff.mp hp).1
    rwa [ptsAt_length] at this
  rcases Nat.eq_zero_or_pos m with rfl | hm0
  · rw [gpts_zero] at ha; rw [ptsAt_zero] at hp
    cases ha; cases hp; rfl
  · obtain ⟨k, rfl⟩ : ∃ k, m = k + 1 := ⟨m - 1, by omega⟩
    rcases Nat.lt_or_ge k ss.length with hk | hk
    · have hs : ss[k]? = some ss[k] := List.getElem?_eq_getElem hk
      rw [gpts_succ ss tx rx _ hlen hs] at ha
      rw [ptsAt_succ _ _ _ _ hs] at hp
      cases ha; cases hp
      by_cases hc : ss[k].count = 1
      · have := offset_lt hs hc
        rw [vars_get, List.getElem?_eq_getElem (by omega)]
        exact valV_rpoint _ _ _
      · cases hv : ss[k] with
        | vertex p => rfl
        | wall o d => rw [hv] at hc; exact absurd rfl hc
        | ris o d φ => rw [hv] at hc; exact absurd rfl hc
    · have hk : k = ss.length := by omega
      subst hk
      rw [gpts_last] at ha; rw [ptsAt_last] at hp
      cases ha; cases hp; rfl

theorem gpts_passes {ss : List Shape} (tx rx : Pt) {θ : List ℝ} (h : θ.length = (ss.map Shape.count).sum) {k j : ℕ} (ho : Owns ss k j) {a : V2 (Rev ℕ)}
    (ha : (gpts ℕ ss tx rx (vars θ))[k + 1]? = some a) : PassesPt j a := by
  obtain ⟨s, hs, hc, rfl⟩ := ho
  have hlen : (ss.map Shape.count).sum = (vars θ).length := by rw [vars_length, h]
  rw [gpts_succ ss tx rx _ hlen hs] at ha
  cases ha
  refine rpoint_passes s hc ?_
  have := offset_lt hs hc
  rw [vars_get, List.getElem?_eq_getElem (by omega)]
  simp [Passes, Rev.var, offset]

theorem fermat_nan (E : Env) {ss : List Shape} (tx rx : Pt) {θ : List ℝ} (h : θ.length = (ss.map Shape.count).sum) {k j : ℕ} (ho : Owns ss k j) {m : ℕ}
    (hm : m = k ∨ m = k + 1) (hg : GuardStep E.eps (ptsAt ss tx rx θ) m) : Nans j (Rev.pathLength E (gpts ℕ ss tx rx (vars θ))) := by
  obtain ⟨p, q, h1, h2, h3⟩ := hg
  have hl := gpts_length ss tx rx (vars θ)
  have l1 := (List.getElem?_eq_some_iff.mp h2).1
  rw [ptsAt_length] at l1
  have e1 : (gpts ℕ ss tx rx (vars θ))[m]? = some _ := List.getElem?_eq_getElem (by omega)
  have e2 : (gpts ℕ ss tx rx (vars θ))[m + 1]? = some _ := List.getElem?_eq_getElem (by omega)
  refine pathLength_step E e1 e2 (gpts_vars_val tx rx h e1 h1) (gpts_vars_val tx rx h e2 h2) h3 ?_
  rcases hm with rfl | rfl
  · exact .inr (gpts_passes tx rx h ho e2)
  · exact .inl (gpts_passes tx rx h ho e1)

theorem min_nan {ss : List Shape} (tx rx : Pt) {θ : List ℝ} (h : θ.length = (ss.map Shape.count).sum) {k j : ℕ} (ho : Owns ss k j) {m : ℕ}
    (hm : m = k ∨ m = k + 1) (hsc : ScoredStep ss m) (hg : NullStep (ptsAt ss tx rx θ) m) :
    Nans j (Rev.totalScore (.const 0) (ss.map (robj ℕ)) (gpts ℕ ss tx rx (vars θ))) := by
  obtain ⟨p, h1, h2⟩ := hg
  have hl := gpts_length ss tx rx (vars θ)
  have l1 := (List.getElem?_eq_some_iff.mp h2).1
  rw [ptsAt_length] at l1
  have e1 : (gpts ℕ ss tx rx (vars θ))[m]? = some _ := List.getElem?_eq_getElem (by omega)
  have e2 : (gpts ℕ ss tx rx (vars θ))[m + 1]? = some _ := List.getElem?_eq_getElem (by omega)
  refine totalScore_nans ss hl hsc e1 e2 ?_ ?_ _
  · show Rev.valV _ - Rev.valV _ = _
    rw [gpts_vars_val tx rx h e1 h1, gpts_vars_val tx rx h e2 h2, V2.fin_sub]
    congr 1
    ext <;> simp
  · rcases hm with rfl | rfl
    · exact .sub_left (gpts_passes tx rx h ho e2)
    · exact .sub_right (gpts_passes tx rx h ho e1)

/-! ### Inputs, one at a time and together -/

theorem proj_gpts (j : ι) (ss : List Shape) (tx rx : Pt) (rs : List (Rev ι)) (hlen : (ss.map Shape.count).sum = rs.length) :
    (gpts ι ss tx rx rs).map (projV j) = gpts Unit ss tx rx (rs.map (proj j)) := by
  apply List.ext_getElem?
  intro m
  rw [List.getElem?_map]
  rcases Nat.eq_zero_or_pos m with rfl | hm0
  · rw [gpts_zero, gpts_zero]; rfl
  · obtain ⟨k, rfl⟩ : ∃ k, m = k + 1 := ⟨m - 1, by omega⟩
    rcases lt_trichotomy k ss.length with hk | rfl | hk
    · have hs : ss[k]? = some ss[k] := List.getElem?_eq_getElem hk
      rw [gpts_succ ss tx rx _ hlen hs, gpts_succ ss tx rx _ (by simpa using hlen) hs, Option.map_some, proj_rpoint, List.getElem?_map]
      cases rs[offset ss k]? <;> rfl
    · rw [gpts_last, gpts_last]; rfl
    · rw [List.getElem?_eq_none (by rw [gpts_length]; omega), List.getElem?_eq_none (by rw [gpts_length]; omega)]; rfl

theorem input_diff (θ : List ℝ) {j : ℕ} {x : ℝ} (hj : θ[j]? = some x) (m : ℕ) (r : Rev Unit) (hr : ((vars θ).map (proj j))[m]? = some r) :
    Differentiates (fun _ : Unit => (1 : ℝ)) x r fun t => ((θ.set j t)[m]?).getD 0 := by
  simp only [List.getElem?_map, vars_get, Option.map_map] at hr
  cases hy : θ[m]? with
  | none => rw [hy] at hr; simp at hr
  | some y =>
    rw [hy] at hr
    simp only [Option.map_some, Function.comp_apply, Option.some.injEq] at hr
    subst hr
    have hm := (List.getElem?_eq_some_iff.mp hy).1
    by_cases hmj : m = j
    · subst hmj
      rw [hj] at hy
      cases hy
      have : (fun t : ℝ => ((θ.set m t)[m]?).getD 0) = fun t => t := by
        funext t; simp [hm]
      rw [this]
      refine ⟨rfl, ContinuousLinearMap.id ℝ ℝ, hasFDerivAt_id _, fun c i => ?_⟩
      simp [proj, Rev.var]
    · have : (fun t : ℝ => ((θ.set j t)[m]?).getD 0) = fun _ => y := by
        funext t; rw [List.getElem?_set_ne (Ne.symm hmj), hy]; rfl
      rw [this]
      refine Dead.differentiates (fun c i => ?_) rfl fun _ => rfl
      simp [proj, Rev.var, Ne.symm hmj, F.zero_eq]

theorem input_dead (θ : List ℝ) (j : ℕ) (x : ℝ) (m : ℕ) (r : Rev Unit) (hr : ((vars θ).map (proj j))[m]? = some r) :
    m = j ∨ Dead r ∧ ∀ t : ℝ, ((θ.set j t)[m]?).getD 0 = ((θ.set j x)[m]?).getD 0 := by
  by_cases hmj : m = j
  · exact .inl hmj
  right
  simp only [List.getElem?_map, vars_get, Option.map_map] at hr
  cases hy : θ[m]? with
  | none => rw [hy] at hr; simp at hr
  | some y =>
    rw [hy] at hr
    simp only [Option.map_some, Function.comp_apply, Option.some.injEq] at hr
    subst hr
    refine ⟨fun c i => ?_, fun t => by rw [List.getElem?_set_ne (Ne.symm hmj), List.getElem?_set_ne (Ne.symm hmj)]⟩
    simp [proj, Rev.var, Ne.symm hmj, F.zero_eq]

/-- The direction of the input `m`. -/
noncomputable def axis (n m : ℕ) : Fin n → ℝ := fun i => if (i : ℕ) = m then 1 else 0

theorem axes_diff {n : ℕ} (v0 : Fin n → ℝ) (m : ℕ) (r : Rev ℕ) (hr : (vars (List.ofFn v0))[m]? = some r) :
    Differentiates (axis n) v0 r fun v => ((List.ofFn v)[m]?).getD 0 := by
  rw [vars_get] at hr
  by_cases hm : m < n
  · have hv : ∀ v : Fin n → ℝ, ((List.ofFn v)[m]?).getD 0 = v ⟨m, hm⟩ := fun v => by simp [hm]
    rw [List.getElem?_ofFn, dif_pos hm] at hr
    simp only [Option.map_some, Option.some.injEq] at hr
    subst hr
    simp only [hv]
    refine ⟨rfl, ContinuousLinearMap.proj (R := ℝ) (φ := fun _ : Fin n => ℝ) ⟨m, hm⟩, (ContinuousLinearMap.proj (R := ℝ) (φ := fun _ : Fin n => ℝ) ⟨m, hm⟩).hasFDerivAt, fun c i => ?_⟩
    by_cases h : i = m
    · simp [h, Rev.var, axis]
    · simp [h, Ne.symm h, F.zero_eq, Rev.var, axis]
  · rw [List.getElem?_eq_none (by simpa using hm)] at hr; simp at hr

end DiffeRT2d
