import Verif.Lemmas.GradAlmost
import Verif.Lemmas.Analytic
import Mathlib.Analysis.SpecialFunctions.Sqrt
import Mathlib.Analysis.SpecialFunctions.ExpDeriv

/-! Derivatives that are right around almost every point: validity in approximate mode. -/

namespace DiffeRT2d
open Classical Spec MeasureTheory Filter Topology

variable {ι X : Type} [NormedAddCommGroup X] [NormedSpace ℝ X] [MeasurableSpace X] {μ : Measure X} {e : ι → X} {S : TopologicalSpace.Opens X}

/-! ### Around a point -/

/-- Around `x`, the tape `R` is right about `f`, which is analytic at `x`. -/
def Near (e : ι → X) (x : X) (R : X → Rev ι) (f : X → ℝ) : Prop := AnalyticAt ℝ f x ∧ ∀ᶠ y in 𝓝 x, Differentiates e y (R y) f

/-- Functions that are equal at `x` are equal around `x`. -/
def TieNear (x : X) (f g : X → ℝ) : Prop := f x = g x → ∀ᶠ y in 𝓝 x, f y = g y

namespace Near
variable {x : X} {R R' : X → Rev ι} {f g : X → ℝ}

theorem add (h : Near e x R f) (h' : Near e x R' g) : Near e x (fun y => R y + R' y) fun y => f y + g y :=
  ⟨h.1.add h'.1, by filter_upwards [h.2, h'.2] with y a b; exact a.add b⟩

theorem sub (h : Near e x R f) (h' : Near e x R' g) : Near e x (fun y => R y - R' y) fun y => f y - g y :=
  ⟨h.1.sub h'.1, by filter_upwards [h.2, h'.2] with y a b; exact a.sub b⟩

theorem neg (h : Near e x R f) : Near e x (fun y => -R y) fun y => -f y :=
  ⟨h.1.neg, by filter_upwards [h.2] with y a; exact a.neg⟩

theorem mul (h : Near e x R f) (h' : Near e x R' g) : Near e x (fun y => R y * R' y) fun y => f y * g y :=
  ⟨h.1.mul h'.1, by filter_upwards [h.2, h'.2] with y a b; exact a.mul b⟩

theorem div (h : Near e x R f) (h' : Near e x R' g) (h0 : g x ≠ 0) : Near e x (fun y => R y / R' y) fun y => f y / g y :=
  ⟨h.1.div h'.1 h0, by filter_upwards [h.2, h'.2, h'.1.continuousAt.eventually_ne h0] with y a b c; exact a.div b c⟩

theorem sqrt (h : Near e x R f) (h0 : 0 < f x) : Near e x (fun y => (R y).sqrt) fun y => Real.sqrt (f y) :=
  ⟨(Real.contDiffAt_sqrt h0.ne' (n := ⊤)).analyticAt.comp h.1, by filter_upwards [h.2, h.1.continuousAt.eventually_const_lt h0] with y a b; exact a.sqrt b⟩

theorem logistic (h : Near e x R f) : Near e x (fun y => (R y).logistic) fun y => 1 / (1 + Real.exp (-f y)) :=
  ⟨analyticAt_const.div (analyticAt_const.add h.1.neg.rexp) (by positivity), by filter_upwards [h.2] with y a; exact a.logistic⟩

theorem congr (h : Near e x R f) (h' : ∀ᶠ y in 𝓝 x, R' y = R y) : Near e x R' f :=
  ⟨h.1, by filter_upwards [h.2, h'] with y a b; rw [b]; exact a⟩

end Near

theorem TieNear.tieAt {x : X} {f g : X → ℝ} (hf : ContinuousAt f x) (hg : ContinuousAt g x) (h : TieNear x f g) : ∀ᶠ y in 𝓝 x, TieAt y f g := by
  by_cases he : f x = g x
  · filter_upwards [(h he).eventually_nhds] with y hy _ f' g' h1 h2
    exact h1.unique (h2.congr_of_eventuallyEq hy)
  · filter_upwards [(hf.sub hg).eventually_ne (sub_ne_zero.mpr he)] with y hy e
    exact absurd (sub_eq_zero.mpr e) hy

theorem TieNear.max_eq {x : X} {f g : X → ℝ} (hf : ContinuousAt f x) (hg : ContinuousAt g x) (h : TieNear x f g) :
    (∀ᶠ y in 𝓝 x, Max.max (f y) (g y) = f y) ∨ ∀ᶠ y in 𝓝 x, Max.max (f y) (g y) = g y := by
  rcases lt_trichotomy (f x) (g x) with hlt | he | hlt
  · right; filter_upwards [hf.eventually_lt hg hlt] with y hy; exact max_eq_right hy.le
  · left; filter_upwards [h he] with y hy; rw [hy, max_self]
  · left; filter_upwards [hg.eventually_lt hf hlt] with y hy; exact max_eq_left hy.le

theorem TieNear.min_eq {x : X} {f g : X → ℝ} (hf : ContinuousAt f x) (hg : ContinuousAt g x) (h : TieNear x f g) :
    (∀ᶠ y in 𝓝 x, Min.min (f y) (g y) = f y) ∨ ∀ᶠ y in 𝓝 x, Min.min (f y) (g y) = g y := by
  rcases lt_trichotomy (f x) (g x) with hlt | he | hlt
  · left; filter_upwards [hf.eventually_lt hg hlt] with y hy; exact min_eq_left hy.le
  · left; filter_upwards [h he] with y hy; rw [hy, min_self]
  · right; filter_upwards [hg.eventually_lt hf hlt] with y hy; exact min_eq_right hy.le

/-- Around `x`, the minimum of functions with harmless ties is one of them. -/
theorem foldl_min_eq {x : X} (l : List (X → ℝ)) (f : X → ℝ) (hc : ∀ g ∈ f :: l, ContinuousAt g x) (ht : ∀ g ∈ f :: l, ∀ h ∈ f :: l, TieNear x g h) :
    ∃ g ∈ f :: l, ∀ᶠ y in 𝓝 x, (l.map (· y)).foldl Min.min (f y) = g y := by
  induction l generalizing f with
  | nil => exact ⟨f, by simp, Eventually.of_forall fun _ => rfl⟩
  | cons k l ih =>
    have hcf := hc f (by simp)
    have hck := hc k (by simp)
    rcases (ht f (by simp) k (by simp)).min_eq hcf hck with h | h
    · obtain ⟨g, hg, e⟩ := ih f (fun g hg => hc g (by simp at hg ⊢; tauto)) fun g hg h hh => ht g (by simp at hg ⊢; tauto) h (by simp at hh ⊢; tauto)
      refine ⟨g, by simp at hg ⊢; tauto, ?_⟩
      filter_upwards [e, h] with y h1 h2
      simp only [List.map_cons, List.foldl_cons, h2, h1]
    · obtain ⟨g, hg, e⟩ := ih k (fun g hg => hc g (by simp at hg ⊢; tauto)) fun g hg h hh => ht g (by simp at hg ⊢; tauto) h (by simp at hh ⊢; tauto)
      refine ⟨g, by simp at hg ⊢; tauto, ?_⟩
      filter_upwards [e, h] with y h1 h2
      simp only [List.map_cons, List.foldl_cons, h2, h1]

/-! ### Around almost every point -/

/-- On the open set `S`, the values are those of a real function, and around almost every point this function is analytic and what is sent back is its derivative. -/
def AE (μ : Measure X) (e : ι → X) (S : TopologicalSpace.Opens X) (R : X → Rev ι) : Prop :=
  ∃ f : X → ℝ, (∀ x ∈ S, (R x).val = F.fin (f x)) ∧ ∀ᵐ x ∂μ, x ∈ S → Near e x R f

namespace AE
variable {R R' : X → Rev ι}

theorem of_diff {f : X → ℝ} (ha : ∀ᵐ x ∂μ, x ∈ S → AnalyticAt ℝ f x) (h : ∀ x ∈ S, Differentiates e x (R x) f) : AE μ e S R := by
  refine ⟨f, fun x hx => (h x hx).value, ha.mono fun x hx hS => ⟨hx hS, ?_⟩⟩
  filter_upwards [S.isOpen.mem_nhds hS] with y hy
  exact h y hy

theorem congr (h : AE μ e S R) (he : ∀ x ∈ S, R' x = R x) : AE μ e S R' := by
  obtain ⟨f, h1, h2⟩ := h
  refine ⟨f, fun x hx => by rw [he x hx, h1 x hx], ?_⟩
  filter_upwards [h2] with x hx hS
  refine (hx hS).congr ?_
  filter_upwards [S.isOpen.mem_nhds hS] with y hy
  exact he y hy

theorem const (c : ℝ) : AE μ e S fun _ => Rev.const (F.fin c) := of_diff (Eventually.of_forall fun _ _ => analyticAt_const) fun _ _ => .const c
theorem const_one : AE μ e S fun _ => Rev.const 1 := by rw [F.one_eq]; exact const 1
theorem const_zero : AE μ e S fun _ => Rev.const 0 := by rw [F.zero_eq]; exact const 0

theorem add (ha : AE μ e S R) (hb : AE μ e S R') : AE μ e S fun x => R x + R' x := by
  obtain ⟨f, a1, a2⟩ := ha
  obtain ⟨g, b1, b2⟩ := hb
  refine ⟨fun x => f x + g x, fun x hx => by simp [a1 x hx, b1 x hx], ?_⟩
  filter_upwards [a2, b2] with x h1 h2 hS
  exact (h1 hS).add (h2 hS)

theorem sub (ha : AE μ e S R) (hb : AE μ e S R') : AE μ e S fun x => R x - R' x := by
  obtain ⟨f, a1, a2⟩ := ha
  obtain ⟨g, b1, b2⟩ := hb
  refine ⟨fun x => f x - g x, fun x hx => by simp [a1 x hx, b1 x hx], ?_⟩
  filter_upwards [a2, b2] with x h1 h2 hS
  exact (h1 hS).sub (h2 hS)

theorem neg (ha : AE μ e S R) : AE μ e S fun x => -R x := by
  obtain ⟨f, a1, a2⟩ := ha
  refine ⟨fun x => -f x, fun x hx => by simp [a1 x hx], ?_⟩
  filter_upwards [a2] with x h1 hS
  exact (h1 hS).neg

theorem mul (ha : AE μ e S R) (hb : AE μ e S R') : AE μ e S fun x => R x * R' x := by
  obtain ⟨f, a1, a2⟩ := ha
  obtain ⟨g, b1, b2⟩ := hb
  refine ⟨fun x => f x * g x, fun x hx => by simp [a1 x hx, b1 x hx], ?_⟩
  filter_upwards [a2, b2] with x h1 h2 hS
  exact (h1 hS).mul (h2 hS)

theorem div (ha : AE μ e S R) (hb : AE μ e S R') (h : ∀ x ∈ S, (R' x).val ≠ F.fin 0) : AE μ e S fun x => R x / R' x := by
  obtain ⟨f, a1, a2⟩ := ha
  obtain ⟨g, b1, b2⟩ := hb
  have hg : ∀ x ∈ S, g x ≠ 0 := fun x hx e => h x hx (by rw [b1 x hx, e])
  refine ⟨fun x => f x / g x, fun x hx => by rw [Rev.val_div, a1 x hx, b1 x hx, F.fin_div _ (hg x hx)], ?_⟩
  filter_upwards [a2, b2] with x h1 h2 hS
  exact (h1 hS).div (h2 hS) (hg x hS)

theorem sqrt (ha : AE μ e S R) (h : ∀ x ∈ S, ∀ v, (R x).val = F.fin v → 0 < v) : AE μ e S fun x => (R x).sqrt := by
  obtain ⟨f, a1, a2⟩ := ha
  have hf : ∀ x ∈ S, 0 < f x := fun x hx => h x hx _ (a1 x hx)
  refine ⟨fun x => Real.sqrt (f x), fun x hx => by show F.sqrt (R x).val = _; rw [a1 x hx, F.sqrt_fin (hf x hx).le], ?_⟩
  filter_upwards [a2] with x h1 hS
  exact (h1 hS).sqrt (hf x hS)

theorem logistic (ha : AE μ e S R) : AE μ e S fun x => (R x).logistic := by
  obtain ⟨f, a1, a2⟩ := ha
  refine ⟨fun x => 1 / (1 + Real.exp (-f x)), fun x hx => by show nnSigmoid (R x).val = _; rw [a1 x hx, nnSigmoid_fin], ?_⟩
  filter_upwards [a2] with x h1 hS
  exact (h1 hS).logistic

theorem where_false (hb : AE μ e S R') (ha : ∀ x ∈ S, ∀ i, (R x).pull (F.fin 0) i = F.fin 0) : AE μ e S fun x => Rev.where_ false (R x) (R' x) := by
  obtain ⟨f, a1, a2⟩ := hb
  refine ⟨f, fun x hx => by simp [a1 x hx, F.where_], ?_⟩
  filter_upwards [a2] with x h1 hS
  refine ⟨(h1 hS).1, ?_⟩
  filter_upwards [(h1 hS).2, S.isOpen.mem_nhds hS] with y hy hyS
  exact hy.where_false (ha y hyS)

theorem where_ (c : Bool) (ha : AE μ e S R) (hb : AE μ e S R') : AE μ e S fun x => Rev.where_ c (R x) (R' x) := by
  obtain ⟨f, a1, a2⟩ := ha
  obtain ⟨g, b1, b2⟩ := hb
  cases c
  · refine ⟨g, fun x hx => by simp [b1 x hx, F.where_], ?_⟩
    filter_upwards [a2, b2] with x h1 h2 hS
    refine ⟨(h2 hS).1, ?_⟩
    filter_upwards [(h1 hS).2, (h2 hS).2] with y g1 g2
    exact g2.where_false g1.pull_zero
  · refine ⟨f, fun x hx => by simp [a1 x hx, F.where_], ?_⟩
    filter_upwards [a2, b2] with x h1 h2 hS
    refine ⟨(h1 hS).1, ?_⟩
    filter_upwards [(h1 hS).2, (h2 hS).2] with y g1 g2
    exact g1.where_true g2.pull_zero

theorem nanToNum (ha : AE μ e S R) : AE μ e S fun x => (R x).nanToNum := by
  refine congr (R := fun x => Rev.where_ false (Rev.const (F.fin (-F.maxFinite))) (Rev.where_ false (Rev.const (F.fin F.maxFinite)) (Rev.where_ false (Rev.const 0) (R x)))) ?_ ?_
  · exact where_ _ (const _) (where_ _ (const _) (where_ _ const_zero ha))
  · obtain ⟨f, a1, -⟩ := ha
    intro x hx
    simp [Rev.nanToNum, a1 x hx, F.isNan, F.where_, F.eq]

section Haar
variable [FiniteDimensional ℝ X] [BorelSpace X] [μ.IsAddHaarMeasure]

variable (μ) in
/-- Around almost every point where two functions are analytic, their ties are harmless. -/
theorem ties_near (f g : X → ℝ) : ∀ᵐ x ∂μ, AnalyticAt ℝ f x → AnalyticAt ℝ g x → TieNear x f g := by
  filter_upwards [zeros_analytic μ fun x => f x - g x] with x hx hf hg he
  filter_upwards [hx (hf.sub hg) (sub_eq_zero.mpr he)] with y hy
  exact sub_eq_zero.mp hy

theorem max (ha : AE μ e S R) (hb : AE μ e S R') : AE μ e S fun x => Rev.max (R x) (R' x) := by
  obtain ⟨f, a1, a2⟩ := ha
  obtain ⟨g, b1, b2⟩ := hb
  refine ⟨fun x => Max.max (f x) (g x), fun x hx => by simp [a1 x hx, b1 x hx], ?_⟩
  filter_upwards [a2, b2, ties_near μ f g] with x h1 h2 h3 hS
  obtain ⟨c1, d1⟩ := h1 hS
  obtain ⟨c2, d2⟩ := h2 hS
  have ht := h3 c1 c2
  refine ⟨?_, ?_⟩
  · rcases ht.max_eq c1.continuousAt c2.continuousAt with h | h
    · exact c1.congr (h.mono fun _ h => h.symm)
    · exact c2.congr (h.mono fun _ h => h.symm)
  · filter_upwards [d1, d2, ht.tieAt c1.continuousAt c2.continuousAt] with y g1 g2 g3
    exact g1.max g2 g3

theorem min (ha : AE μ e S R) (hb : AE μ e S R') : AE μ e S fun x => Rev.min (R x) (R' x) := by
  obtain ⟨f, a1, a2⟩ := ha
  obtain ⟨g, b1, b2⟩ := hb
  refine ⟨fun x => Min.min (f x) (g x), fun x hx => by simp [a1 x hx, b1 x hx], ?_⟩
  filter_upwards [a2, b2, ties_near μ f g] with x h1 h2 h3 hS
  obtain ⟨c1, d1⟩ := h1 hS
  obtain ⟨c2, d2⟩ := h2 hS
  have ht := h3 c1 c2
  refine ⟨?_, ?_⟩
  · rcases ht.min_eq c1.continuousAt c2.continuousAt with h | h
    · exact c1.congr (h.mono fun _ h => h.symm)
    · exact c2.congr (h.mono fun _ h => h.symm)
  · filter_upwards [d1, d2, ht.tieAt c1.continuousAt c2.continuousAt] with y g1 g2 g3
    exact g1.min g2 g3

theorem minOf (L : List (X → Rev ι)) (R : X → Rev ι) (h : ∀ Q ∈ R :: L, AE μ e S Q) : AE μ e S fun x => Rev.minOf (R x) (L.map (· x)) := by
  have : ∀ Q, ∃ f : X → ℝ, Q ∈ R :: L → (∀ x ∈ S, (Q x).val = F.fin (f x)) ∧ ∀ᵐ x ∂μ, x ∈ S → Near e x Q f := by
    intro Q
    by_cases hQ : Q ∈ R :: L
    · obtain ⟨f, hf⟩ := h Q hQ
      exact ⟨f, fun _ => hf⟩
    · exact ⟨fun _ => 0, fun h => absurd h hQ⟩
  choose φ hφ using this
  refine ⟨fun x => ((L.map φ).map (· x)).foldl Min.min (φ R x), fun x hx => ?_, ?_⟩
  · rw [Rev.val_minOf, (hφ R (by simp)).1 x hx, ← minOf_real]
    congr 1
    simp only [List.map_map]
    exact List.map_congr_left fun Q hQ => (hφ Q (by simp [hQ])).1 x hx
  · have h1 : ∀ᵐ x ∂μ, ∀ Q ∈ {Q | Q ∈ R :: L}, x ∈ S → Near e x Q (φ Q) :=
      (eventually_all_finite (List.finite_toSet (R :: L))).mpr fun Q hQ => (hφ Q hQ).2
    have h2 : ∀ᵐ x ∂μ, ∀ Q ∈ {Q | Q ∈ R :: L}, ∀ Q' ∈ {Q | Q ∈ R :: L}, AnalyticAt ℝ (φ Q) x → AnalyticAt ℝ (φ Q') x → TieNear x (φ Q) (φ Q') :=
      (eventually_all_finite (List.finite_toSet (R :: L))).mpr fun Q _ => (eventually_all_finite (List.finite_toSet (R :: L))).mpr fun Q' _ => ties_near μ (φ Q) (φ Q')
    filter_upwards [h1, h2] with x g1 g2 hS
    have hmem : ∀ g ∈ φ R :: L.map φ, ∃ Q ∈ R :: L, φ Q = g := fun g hg => List.mem_map.mp (show g ∈ (R :: L).map φ from hg)
    have ht : ∀ Q ∈ {Q | Q ∈ R :: L}, ∀ Q' ∈ {Q | Q ∈ R :: L}, TieNear x (φ Q) (φ Q') := fun Q hQ Q' hQ' => g2 Q hQ Q' hQ' (g1 Q hQ hS).1 (g1 Q' hQ' hS).1
    refine ⟨?_, ?_⟩
    · obtain ⟨g, hg, eg⟩ := foldl_min_eq (x := x) (L.map φ) (φ R) (fun g hg => by obtain ⟨Q, hQ, rfl⟩ := hmem g hg; exact (g1 Q hQ hS).1.continuousAt)
        (fun g hg k hk => by obtain ⟨Q, hQ, rfl⟩ := hmem g hg; obtain ⟨Q', hQ', rfl⟩ := hmem k hk; exact ht Q hQ Q' hQ')
      obtain ⟨Q, hQ, rfl⟩ := hmem g hg
      exact (g1 Q hQ hS).1.congr (eg.mono fun _ h => h.symm)
    · have k1 : ∀ᶠ y in 𝓝 x, ∀ Q ∈ {Q | Q ∈ R :: L}, Differentiates e y (Q y) (φ Q) := (eventually_all_finite (List.finite_toSet (R :: L))).mpr fun Q hQ => (g1 Q hQ hS).2
      have k2 : ∀ᶠ y in 𝓝 x, ∀ Q ∈ {Q | Q ∈ R :: L}, ∀ Q' ∈ {Q | Q ∈ R :: L}, TieAt y (φ Q) (φ Q') :=
        (eventually_all_finite (List.finite_toSet (R :: L))).mpr fun Q hQ => (eventually_all_finite (List.finite_toSet (R :: L))).mpr fun Q' hQ' =>
          (ht Q hQ Q' hQ').tieAt (g1 Q hQ hS).1.continuousAt (g1 Q' hQ' hS).1.continuousAt
      filter_upwards [k1, k2] with y k1 k2
      have := Differentiates.minOf (e := e) (x0 := y) (L.map fun Q => (Q y, φ Q)) (R y, φ R) (by
        intro q hq
        obtain ⟨Q, hQ, rfl⟩ := (List.mem_map (f := fun Q : X → Rev ι => (Q y, φ Q)) (l := R :: L)).mp hq
        exact k1 Q hQ) (by
        intro q hq r hr
        obtain ⟨Q, hQ, rfl⟩ := (List.mem_map (f := fun Q : X → Rev ι => (Q y, φ Q)) (l := R :: L)).mp hq
        obtain ⟨Q', hQ', rfl⟩ := (List.mem_map (f := fun Q : X → Rev ι => (Q y, φ Q)) (l := R :: L)).mp hr
        exact k2 Q hQ Q' hQ')
      simp only [List.map_map] at this ⊢
      exact this

end Haar
end AE

/-- The same for points, walls and truth values. -/
def AEPt (μ : Measure X) (e : ι → X) (S : TopologicalSpace.Opens X) (p : X → V2 (Rev ι)) : Prop := AE μ e S (fun x => (p x).x) ∧ AE μ e S fun x => (p x).y
def AET (μ : Measure X) (e : ι → X) (S : TopologicalSpace.Opens X) (t : X → RevTruthy ι) : Prop := AE μ e S fun x => (t x).toF

theorem toF_minimum (x y : RevTruthy ι) : (x.minimum y).toF = Rev.min x.toF y.toF := by
  rcases x with (_ | _) | x <;> rcases y with (_ | _) | y <;> try rfl
  all_goals simp [RevTruthy.minimum, RevTruthy.toF, Rev.min, Rev.const, F.one_eq, F.zero_eq]

theorem toF_maximum (x y : RevTruthy ι) : (x.maximum y).toF = Rev.max x.toF y.toF := by
  rcases x with (_ | _) | x <;> rcases y with (_ | _) | y <;> try rfl
  all_goals simp [RevTruthy.maximum, RevTruthy.toF, Rev.max, Rev.const, F.one_eq, F.zero_eq]

theorem toF_nanToNum (x : RevTruthy ι) : x.nanToNum.toF = x.toF.nanToNum := by
  rcases x with (_ | _) | x <;> try rfl
  all_goals simp [RevTruthy.nanToNum, RevTruthy.toF, Rev.nanToNum, Rev.where_, Rev.const, F.one_eq, F.zero_eq, F.where_, F.isNan, F.eq]

theorem toF_whereTruthy (c : Bool) (x y : RevTruthy ι) : (Rev.whereTruthy c x y).toF = Rev.where_ c x.toF y.toF ∨ (Rev.whereTruthy c x y).toF = F.where_ c x.toF y.toF := by
  rcases x with x | x <;> rcases y with y | y
  · right; cases c <;> rfl
  · right; cases c <;> rfl
  · right; cases c <;> rfl
  · left; rfl

/-- An activation that is differentiated rightly almost everywhere. -/
def AEKw (μ : Measure X) (e : ι → X) (S : TopologicalSpace.Opens X) (kw : Rev.ActKw ι) : Prop := ∀ R : X → Rev ι, AE μ e S R → AE μ e S fun x => Rev.activation kw (R x)

theorem aeKw_sigmoid (a : ℝ) : AEKw μ e S (⟨F.fin a, Rev.sigmoid⟩ : Rev.ActKw ι) := fun _ h => ((AE.const a).mul h).logistic

section Haar
variable [FiniteDimensional ℝ X] [BorelSpace X] [μ.IsAddHaarMeasure] {E : Env} {ap : Option Bool} {kw : Rev.ActKw ι}

theorem aeKw_hardSigmoid (a : ℝ) : AEKw μ e S (⟨F.fin a, Rev.hardSigmoid⟩ : Rev.ActKw ι) := by
  have h6 : (Rev.const 6 : Rev ι) = Rev.const (F.fin 6) := rfl
  have h3 : (Rev.const 3 : Rev ι) = Rev.const (F.fin 3) := rfl
  intro R h
  refine AE.div (AE.min (AE.max (((AE.const a).mul h).add ?_) .const_zero) ?_) ?_ ?_
  · rw [h3]; exact .const _
  · rw [h6]; exact .const _
  · rw [h6]; exact .const _
  · rw [h6]; simp

namespace AET
variable {s t : X → RevTruthy ι}

theorem minimum (hx : AET μ e S s) (hy : AET μ e S t) : AET μ e S fun x => (s x).minimum (t x) :=
  (AE.min hx hy).congr fun x _ => toF_minimum _ _

theorem maximum (hx : AET μ e S s) (hy : AET μ e S t) : AET μ e S fun x => (s x).maximum (t x) :=
  (AE.max hx hy).congr fun x _ => toF_maximum _ _

theorem and (hs : Soft E ap) (hx : AET μ e S s) (hy : AET μ e S t) : AET μ e S fun x => Rev.logicalAnd E ap (s x) (t x) := by
  simp only [Rev.logicalAnd, hs.eq, if_true]; exact hx.minimum hy

theorem or (hs : Soft E ap) (hx : AET μ e S s) (hy : AET μ e S t) : AET μ e S fun x => Rev.logicalOr E ap (s x) (t x) := by
  simp only [Rev.logicalOr, hs.eq, if_true]; exact hx.maximum hy

theorem not (hs : Soft E ap) (hx : AET μ e S s) : AET μ e S fun x => Rev.logicalNot E ap (s x) := by
  simp only [Rev.logicalNot, hs.eq, if_true]; exact AE.const_one.sub hx

theorem trueValue (hs : Soft E ap) : AET μ e S fun _ => Rev.trueValue E ap := by
  simp only [Rev.trueValue, hs.eq, if_true]; exact AE.const_one

theorem falseValue (hs : Soft E ap) : AET μ e S fun _ => Rev.falseValue E ap := by
  simp only [Rev.falseValue, hs.eq, if_true]; exact AE.const_zero

variable {R R' : X → Rev ι}

theorem ge (hs : Soft E ap) (hk : AEKw μ e S kw) (hx : AE μ e S R) (hy : AE μ e S R') : AET μ e S fun x => Rev.greaterEqual E ap kw (R x) (R' x) := by
  simp only [Rev.greaterEqual, hs.eq, if_true]; exact hk _ (hx.sub hy)

theorem le (hs : Soft E ap) (hk : AEKw μ e S kw) (hx : AE μ e S R) (hy : AE μ e S R') : AET μ e S fun x => Rev.lessEqual E ap kw (R x) (R' x) := by
  simp only [Rev.lessEqual, hs.eq, if_true]; exact hk _ (hy.sub hx)

theorem lt (hs : Soft E ap) (hk : AEKw μ e S kw) (hx : AE μ e S R) (hy : AE μ e S R') : AET μ e S fun x => Rev.less E ap kw (R x) (R' x) := by
  simp only [Rev.less, hs.eq, if_true]; exact hk _ (hy.sub hx)

theorem whereT (c : Bool) (hx : AET μ e S s) (hy : AET μ e S t) : AET μ e S fun x => Rev.whereTruthy c (s x) (t x) := by
  have h := AE.where_ c hx hy
  obtain ⟨f, a1, a2⟩ := hx
  obtain ⟨g, b1, b2⟩ := hy
  refine ⟨fun x => if c then f x else g x, fun x hx => ?_, ?_⟩
  · rw [Rev.val_toF, Rev.val_whereTruthy]
    cases c
    · simpa [F.where_, ← Rev.val_toF] using b1 x hx
    · simpa [F.where_, ← Rev.val_toF] using a1 x hx
  · filter_upwards [a2, b2] with x h1 h2 hS
    obtain ⟨c1, d1⟩ := h1 hS
    obtain ⟨c2, d2⟩ := h2 hS
    refine ⟨by cases c <;> assumption, ?_⟩
    filter_upwards [d1, d2] with y g1 g2
    rcases toF_whereTruthy c (s y) (t y) with e' | e' <;> rw [e']
    · cases c
      · exact g2.where_false g1.pull_zero
      · exact g1.where_true g2.pull_zero
    · cases c
      · exact g2
      · exact g1

theorem nanToNum (hx : AET μ e S s) : AET μ e S fun x => (s x).nanToNum :=
  (AE.nanToNum hx).congr fun x _ => toF_nanToNum _

theorem foldl {α : Type} (op : X → RevTruthy ι → α → RevTruthy ι) (l : List α) (h : ∀ a ∈ l, ∀ T : X → RevTruthy ι, AET μ e S T → AET μ e S fun x => op x (T x) a)
    {z : X → RevTruthy ι} (hz : AET μ e S z) : AET μ e S fun x => l.foldl (op x) (z x) := by
  induction l generalizing z with
  | nil => exact hz
  | cons a l ih => exact ih (fun a ha => h a (by simp [ha])) (h a (by simp) z hz)

end AET

namespace AEPt
variable {p q : X → V2 (Rev ι)} {k : X → Rev ι}
theorem sub (hp : AEPt μ e S p) (hq : AEPt μ e S q) : AEPt μ e S fun x => p x - q x := ⟨hp.1.sub hq.1, hp.2.sub hq.2⟩
theorem add (hp : AEPt μ e S p) (hq : AEPt μ e S q) : AEPt μ e S fun x => p x + q x := ⟨hp.1.add hq.1, hp.2.add hq.2⟩
theorem dot (hp : AEPt μ e S p) (hq : AEPt μ e S q) : AE μ e S fun x => V2.dot (p x) (q x) := (hp.1.mul hq.1).add (hp.2.mul hq.2)
theorem smul (hk : AE μ e S k) (hp : AEPt μ e S p) : AEPt μ e S fun x => V2.smul (k x) (p x) := ⟨hk.mul hp.1, hk.mul hp.2⟩
theorem const (v : Pt) : AEPt μ e S fun _ => Rev.constV (V2.fin v) := ⟨.const _, .const _⟩
end AEPt

/-- The constant wall. -/
noncomputable def cwall (ι : Type) (w : Pt × Pt) : Rev.RWall ι := ⟨Rev.constV (V2.fin w.1), Rev.constV (V2.fin w.2)⟩

theorem segTest_ae (hs : Soft E ap) (hk : AEKw μ e S kw) (tol : ℝ) {num den : X → Rev ι} (hn : AE μ e S num) (hd : AE μ e S den) (h0 : ∀ x ∈ S, (den x).val ≠ F.fin 0) :
    AET μ e S fun x => Rev.segTest E (F.fin tol) ap kw (num x) (den x) := by
  have hden : AE μ e S fun x => Rev.where_ (F.eq (den x).val 0) (Rev.const 1) (den x) := by
    refine (hd.where_false (R := fun _ => Rev.const 1) fun x _ i => Dead.const _ _ i).congr fun x hx => ?_
    rw [show F.eq (den x).val 0 = false from by by_contra h; exact h0 x hx (eq_zero_iff.mp (by simpa using h))]
  have hq := hn.div hden fun x hx => by
    rw [show F.eq (den x).val 0 = false from by by_contra h; exact h0 x hx (eq_zero_iff.mp (by simpa using h))]
    simpa [F.where_] using h0 x hx
  have ht : AE μ e S fun x => Rev.where_ (F.eq (den x).val 0) (Rev.const F.pinf) (num x / Rev.where_ (F.eq (den x).val 0) (Rev.const 1) (den x)) := by
    refine (hq.where_false (R := fun _ => Rev.const F.pinf) fun x _ i => Dead.const _ _ i).congr fun x hx => ?_
    rw [show F.eq (den x).val 0 = false from by by_contra h; exact h0 x hx (eq_zero_iff.mp (by simpa using h))]
  unfold Rev.segTest
  refine AET.and hs (AET.ge hs hk ht ?_) (AET.le hs hk ht ?_)
  · rw [F.fin_neg]; exact .const _
  · rw [F.one_eq, F.fin_add]; exact .const _

theorem intersects_ae (hs : Soft E ap) (hk : AEKw μ e S kw) (patch : ℝ) (hp : -(1 / 2) < patch) (w : Pt × Pt) {a b : X → V2 (Rev ι)} {p q : X → Pt} (ha : AEPt μ e S a) (hb : AEPt μ e S b)
    (va : ∀ x ∈ S, Rev.valV (a x) = V2.fin (p x)) (vb : ∀ x ∈ S, Rev.valV (b x) = V2.fin (q x)) (hpar : ∀ x ∈ S, ¬ Parallel w.1 w.2 (p x) (q x)) :
    AET μ e S fun x => (cwall ι w).intersects E ap kw (F.fin patch) (a x) (b x) := by
  have ho : AEPt μ e S fun _ => (cwall ι w).origin := .const _
  have hd : AEPt μ e S fun _ => (cwall ι w).dest := .const _
  have ht : AEPt μ e S fun _ => (cwall ι w).t := hd.sub ho
  have h1 : AEPt μ e S fun _ => (cwall ι w).origin - V2.smul (Rev.const (F.fin patch)) (cwall ι w).t := ho.sub (ht.smul (.const _))
  have h2 : AEPt μ e S fun _ => (cwall ι w).dest + V2.smul (Rev.const (F.fin patch)) (cwall ι w).t := hd.add (ht.smul (.const _))
  have hA := h2.sub h1
  have hB := ha.sub hb
  have hC := h1.sub ha
  obtain ⟨τ, hτ⟩ : ∃ τ : ℝ, SEG_TOL = F.fin τ := by unfold SEG_TOL; exact ⟨_, F.ofScientific_eq ..⟩
  have hD := (hA.2.mul hB.1).sub (hA.1.mul hB.2)
  have hne : ∀ x ∈ S, (((cwall ι w).dest + V2.smul (Rev.const (F.fin patch)) (cwall ι w).t - ((cwall ι w).origin - V2.smul (Rev.const (F.fin patch)) (cwall ι w).t)).y * (a x - b x).x -
      ((cwall ι w).dest + V2.smul (Rev.const (F.fin patch)) (cwall ι w).t - ((cwall ι w).origin - V2.smul (Rev.const (F.fin patch)) (cwall ι w).t)).x * (a x - b x).y).val ≠ F.fin 0 := by
    intro x hx h
    have ax : (a x).x.val = F.fin (p x).x := congrArg V2.x (va x hx)
    have ay : (a x).y.val = F.fin (p x).y := congrArg V2.y (va x hx)
    have bx : (b x).x.val = F.fin (q x).x := congrArg V2.x (vb x hx)
    have by' : (b x).y.val = F.fin (q x).y := congrArg V2.y (vb x hx)
    simp only [V2.sub_x, V2.sub_y, V2.add_x, V2.add_y, V2.smul_x, V2.smul_y, Rev.RWall.t, cwall, Rev.constV, V2.fin, Rev.val_sub, Rev.val_add, Rev.val_mul, Rev.val_const,
      ax, ay, bx, by', F.fin_sub, F.fin_add, F.fin_mul] at h
    have h := F.fin.inj h
    apply hpar x hx
    unfold Parallel
    have hk : (1 + 2 * patch) ≠ 0 := by linarith
    refine (mul_eq_zero.mp (?_ : (1 + 2 * patch) * _ = 0)).resolve_left hk |> sub_eq_zero.mp
    linear_combination h
  unfold Rev.RWall.intersects Rev.segmentsIntersect
  rw [hτ]
  refine AET.and hs (segTest_ae hs hk τ ?_ hD hne) (segTest_ae hs hk τ ?_ hD hne)
  · exact (hB.2.mul hC.1).sub (hB.1.mul hC.2)
  · exact (hA.1.mul hC.2).sub (hA.2.mul hC.1)

theorem toParam_ae {w : Pt × Pt} (hw : w.1 ≠ w.2) {p : X → V2 (Rev ι)} (hp : AEPt μ e S p) : AE μ e S fun x => (cwall ι w).toParam (p x) := by
  have ho : AEPt μ e S fun _ => (cwall ι w).origin := .const _
  have hd : AEPt μ e S fun _ => (cwall ι w).dest := .const _
  have ht : AEPt μ e S fun _ => (cwall ι w).t := hd.sub ho
  have hz : (V2.dot (cwall ι w).t (cwall ι w).t).val ≠ F.fin 0 := by
    intro h
    simp only [V2.dot, V2.sub_x, V2.sub_y, Rev.RWall.t, cwall, Rev.constV, V2.fin, Rev.val_sub, Rev.val_add, Rev.val_mul, Rev.val_const, F.fin_sub, F.fin_add, F.fin_mul] at h
    have h := F.fin.inj h
    apply hw
    ext
    · nlinarith [mul_self_nonneg (w.2.x - w.1.x), mul_self_nonneg (w.2.y - w.1.y)]
    · nlinarith [mul_self_nonneg (w.2.x - w.1.x), mul_self_nonneg (w.2.y - w.1.y)]
  have hz' : F.eq (V2.dot (cwall ι w).t (cwall ι w).t).val 0 = false := by by_contra h; exact hz (eq_zero_iff.mp (by simpa using h))
  have hsq := AE.where_ (μ := μ) (e := e) (S := S) false .const_one (ht.dot ht)
  have h := AE.div (ht.dot (hp.sub ho)) hsq fun x _ => by simpa [F.where_] using hz
  refine h.congr fun x _ => ?_
  simp only [Rev.RWall.toParam, hz']

theorem contains_ae (hs : Soft E ap) (hk : AEKw μ e S kw) {s : X → Rev ι} (h : AE μ e S s) : AET μ e S fun x => Rev.RWall.contains E ap kw (s x) :=
  AET.and hs (AET.ge hs hk h .const_zero) (AET.le hs hk h .const_one)

theorem zipIdx_cwalls {walls : List (Pt × Pt)} {a : Rev.RWall ι × ℕ} (h : a ∈ (walls.map (cwall ι)).zipIdx) : ∃ w ∈ walls, a.1 = cwall ι w := by
  have h1 := List.mem_zipIdx' h
  have : a.1 ∈ walls.map (cwall ι) := h1.2 ▸ List.getElem_mem _
  obtain ⟨w, hw, e⟩ := List.mem_map.mp this
  exact ⟨w, hw, e.symm⟩

theorem onObjects_ae (hs : Soft E ap) (hk : AEKw μ e S kw) {P : X → Rev.RPath ι} (hp : ∀ k, AEPt μ e S fun x => Rev.nth (P x).xys k) {ws : List (Pt × Pt)} (hw : ∀ w ∈ ws, w.1 ≠ w.2) :
    AET μ e S fun x => (P x).onObjects E (ws.map (cwall ι)) ap kw := by
  have h := AET.foldl (fun x contains (wi : Rev.RWall ι × ℕ) => Rev.logicalAnd E ap contains (Rev.RWall.contains E ap kw (wi.1.toParam (Rev.nth (P x).xys (wi.2 + 1)))))
    (ws.map (cwall ι)).zipIdx ?_ (AET.trueValue (μ := μ) (e := e) (S := S) hs)
  · exact h
  intro a ha T hT
  obtain ⟨w, hm, e'⟩ := zipIdx_cwalls ha
  simp only [e']
  exact hT.and hs (contains_ae hs hk (toParam_ae (hw w hm) (hp _)))

theorem intersectsWithObjects_ae (hs : Soft E ap) (hk : AEKw μ e S kw) (patch : ℝ) (hpa : -(1 / 2) < patch) {P : X → Rev.RPath ι} {n : ℕ} (hn : ∀ x, (P x).xys.length = n)
    (hp : ∀ k, AEPt μ e S fun x => Rev.nth (P x).xys k) {p : ℕ → X → Pt} (hv : ∀ k, k < n → ∀ x ∈ S, Rev.valV (Rev.nth (P x).xys k) = V2.fin (p k x)) {walls : List (Pt × Pt)}
    (hpar : ∀ w ∈ walls, ∀ k, k + 1 < n → ∀ x ∈ S, ¬ Parallel w.1 w.2 (p k x) (p (k + 1) x)) {c : List ℤ} {T : X → RevTruthy ι}
    (hT : ∀ x, (P x).intersectsWithObjects E (walls.map (cwall ι)) c (F.fin patch) ap kw = .ok (T x)) : AET μ e S T := by
  have hT' : ∀ x, (List.range (n - 1)).foldl
      (fun intersects i =>
        (walls.map (cwall ι)).zipIdx.foldl
          (fun intersects oj =>
            Rev.whereTruthy (((oj.2 : ℤ) == (-1 :: c ++ [-1]).getD i 0) || ((oj.2 : ℤ) == (-1 :: c ++ [-1]).getD (i + 1) 0)) intersects
              (Rev.logicalOr E ap intersects (oj.1.intersects E ap kw (F.fin patch) (Rev.nth (P x).xys i) (Rev.nth (P x).xys (i + 1)))))
          intersects)
      (Rev.falseValue E ap) = T x := by
    intro x
    have h := hT x
    unfold Rev.RPath.intersectsWithObjects at h
    simp only [hn] at h
    split at h
    · cases h
    · exact Except.ok.inj h
  rw [← funext hT']
  refine AET.foldl (fun x intersects i => (walls.map (cwall ι)).zipIdx.foldl
          (fun intersects oj =>
            Rev.whereTruthy (((oj.2 : ℤ) == (-1 :: c ++ [-1]).getD i 0) || ((oj.2 : ℤ) == (-1 :: c ++ [-1]).getD (i + 1) 0)) intersects
              (Rev.logicalOr E ap intersects (oj.1.intersects E ap kw (F.fin patch) (Rev.nth (P x).xys i) (Rev.nth (P x).xys (i + 1)))))
          intersects) _ (fun i hi T hT => ?_) (AET.falseValue (μ := μ) (e := e) (S := S) hs)
  refine AET.foldl (fun x intersects (oj : Rev.RWall ι × ℕ) =>
            Rev.whereTruthy (((oj.2 : ℤ) == (-1 :: c ++ [-1]).getD i 0) || ((oj.2 : ℤ) == (-1 :: c ++ [-1]).getD (i + 1) 0)) intersects
              (Rev.logicalOr E ap intersects (oj.1.intersects E ap kw (F.fin patch) (Rev.nth (P x).xys i) (Rev.nth (P x).xys (i + 1))))) _ (fun a ha T hT => ?_) hT
  obtain ⟨w, hm, e'⟩ := zipIdx_cwalls ha
  have hi := List.mem_range.mp hi
  simp only [e']
  exact hT.whereT _ (hT.or hs (intersects_ae hs hk patch hpa w (hp i) (hp (i + 1)) (hv i (by omega)) (hv (i + 1) (by omega)) (hpar w hm i (by omega))))

theorem isValid_ae (hs : Soft E ap) (hk : AEKw μ e S kw) (tol patch : ℝ) (hpa : -(1 / 2) < patch) {P : X → Rev.RPath ι} {n : ℕ} (hn : ∀ x, (P x).xys.length = n)
    (hp : ∀ k, AEPt μ e S fun x => Rev.nth (P x).xys k) {p : ℕ → X → Pt} (hv : ∀ k, k < n → ∀ x ∈ S, Rev.valV (Rev.nth (P x).xys k) = V2.fin (p k x)) (hl : AE μ e S fun x => (P x).loss)
    {walls : List (Pt × Pt)} (hpar : ∀ w ∈ walls, ∀ k, k + 1 < n → ∀ x ∈ S, ¬ Parallel w.1 w.2 (p k x) (p (k + 1) x)) {ws : List (Pt × Pt)} (hw : ∀ w ∈ ws, w.1 ≠ w.2)
    {c : List ℤ} {T : X → RevTruthy ι} (hT : ∀ x, (P x).isValid E (walls.map (cwall ι)) c (ws.map (cwall ι)) (F.fin tol) (F.fin patch) ap kw = .ok (T x)) : AET μ e S T := by
  have hI : ∀ x, ∃ u, (P x).intersectsWithObjects E (walls.map (cwall ι)) c (F.fin patch) ap kw = .ok u ∧
      ((Rev.RPath.onObjects (P x) E (ws.map (cwall ι)) ap kw).toF |> fun o => (RevTruthy.f (Rev.minOf o [(Rev.logicalNot E ap u).toF, (Rev.less E ap kw (P x).loss (Rev.const (F.fin tol))).toF])).nanToNum) = T x := by
    intro x
    have h := hT x
    unfold Rev.RPath.isValid at h
    cases h1 : (P x).intersectsWithObjects E (walls.map (cwall ι)) c (F.fin patch) ap kw with
    | error er => rw [h1] at h; cases h
    | ok u =>
      refine ⟨u, rfl, ?_⟩
      rw [h1] at h
      simp only [Bind.bind, Except.bind, Pure.pure, Except.pure] at h
      unfold Rev.logicalAll at h
      simp only [hs.eq, if_true] at h
      rw [if_neg (by simp [Rev.less, hs.eq, RevTruthy.val, Truthy.isB])] at h
      exact Except.ok.inj h
  choose u h1 h2 using hI
  have hu := intersectsWithObjects_ae hs hk patch hpa hn hp hv hpar h1
  rw [← funext h2]
  refine AET.nanToNum (s := fun x => RevTruthy.f _) ?_
  have := AE.minOf (μ := μ) (e := e) (S := S) [fun x => (Rev.logicalNot E ap (u x)).toF, fun x => (Rev.less E ap kw (P x).loss (Rev.const (F.fin tol))).toF]
    (fun x => (Rev.RPath.onObjects (P x) E (ws.map (cwall ι)) ap kw).toF) (by
      intro Q hQ
      simp only [List.mem_cons, List.not_mem_nil, or_false] at hQ
      rcases hQ with rfl | rfl | rfl
      · exact onObjects_ae hs hk hp hw
      · exact hu.not hs
      · exact AET.lt hs hk hl (.const _))
  exact this

/-! ### The loss -/

theorem normalize_ae {v : X → V2 (Rev ι)} (hv : AEPt μ e S v) (h : ∀ x ∈ S, Rev.valV (v x) ≠ V2.fin ⟨0, 0⟩) : AEPt μ e S fun x => (Rev.normalize (v x)).1 := by
  have hsum := (hv.1.mul hv.1).add (hv.2.mul hv.2)
  obtain ⟨f, hf, -⟩ := id hv.1
  obtain ⟨g, hg, -⟩ := id hv.2
  have hval : ∀ x ∈ S, ((v x).x * (v x).x + (v x).y * (v x).y).val = F.fin (f x * f x + g x * g x) := fun x hx => by simp [hf x hx, hg x hx]
  have hpos : ∀ x ∈ S, 0 < f x * f x + g x * g x := by
    intro x hx
    by_contra hn
    apply h x hx
    have h1 : f x = 0 := by nlinarith [mul_self_nonneg (f x), mul_self_nonneg (g x)]
    have h2 : g x = 0 := by nlinarith [mul_self_nonneg (f x), mul_self_nonneg (g x)]
    unfold Rev.valV V2.fin
    rw [hf x hx, hg x hx, h1, h2]
  have hn : AE μ e S fun x => Rev.norm (v x) := hsum.sqrt fun x hx w hw => by rw [hval x hx] at hw; rw [← F.fin.inj hw]; exact hpos x hx
  have hne : ∀ x ∈ S, (Rev.norm (v x)).val ≠ F.fin 0 := by
    intro x hx
    have : (Rev.norm (v x)).val = F.fin (Real.sqrt (f x * f x + g x * g x)) := by
      show F.sqrt ((v x).x * (v x).x + (v x).y * (v x).y).val = _
      rw [hval x hx, F.sqrt_fin (hpos x hx).le]
    rw [this]; intro e'; exact (Real.sqrt_pos.mpr (hpos x hx)).ne' (F.fin.inj e')
  have hz : ∀ x ∈ S, F.eq (Rev.norm (v x)).val 0 = false := by
    intro x hx
    by_contra h'; exact hne x hx (eq_zero_iff.mp (by simpa using h'))
  have hl : AE μ e S fun x => Rev.where_ (F.eq (Rev.norm (v x)).val 0) (Rev.const 1) (Rev.norm (v x)) :=
    (AE.where_ false .const_one hn).congr fun x hx => by rw [hz x hx]
  have hl0 : ∀ x ∈ S, (Rev.where_ (F.eq (Rev.norm (v x)).val 0) (Rev.const 1) (Rev.norm (v x))).val ≠ F.fin 0 := by
    intro x hx
    rw [hz x hx]
    simpa [F.where_] using hne x hx
  exact ⟨hv.1.div hl hl0, hv.2.div hl hl0⟩

theorem normal_ae {w : Pt × Pt} (hw : w.1 ≠ w.2) : AEPt μ e S fun _ => (cwall ι w).normal := by
  have ho : AEPt μ e S fun _ => (cwall ι w).origin := .const _
  have hd : AEPt μ e S fun _ => (cwall ι w).dest := .const _
  have ht : AEPt μ e S fun _ => (cwall ι w).t := hd.sub ho
  refine normalize_ae (v := fun _ => ⟨(cwall ι w).t.y, -(cwall ι w).t.x⟩) ⟨ht.2, ht.1.neg⟩ fun x _ e' => hw ?_
  have h1 : (F.fin (w.2.y - w.1.y)) = F.fin 0 := congrArg V2.x e'
  have h2 : (F.fin (-(w.2.x - w.1.x))) = F.fin 0 := congrArg V2.y e'
  have h1 := F.fin.inj h1
  have h2 := F.fin.inj h2
  ext <;> linarith

theorem evaluate_ae {w : Pt × Pt} (hw : w.1 ≠ w.2) {a b c : X → V2 (Rev ι)} (ha : AEPt μ e S a) (hb : AEPt μ e S b) (hc : AEPt μ e S c)
    (h1 : ∀ x ∈ S, Rev.valV (b x - a x) ≠ V2.fin ⟨0, 0⟩) (h2 : ∀ x ∈ S, Rev.valV (c x - b x) ≠ V2.fin ⟨0, 0⟩) : AE μ e S fun x => (cwall ι w).evaluate (a x) (b x) (c x) := by
  have hn := normal_ae (μ := μ) (e := e) (S := S) hw (ι := ι)
  have hi := normalize_ae (hb.sub ha) h1
  have hr := normalize_ae (hc.sub hb) h2
  have h2' : AE μ e S fun _ => (Rev.const 2 : Rev ι) := AE.const 2
  have he := hr.sub (hi.sub (hn.smul (h2'.mul (hi.dot hn))))
  exact he.dot he

theorem pathLoss_ae {ws : List (Pt × Pt)} (hw : ∀ w ∈ ws, w.1 ≠ w.2) {L : List (X → V2 (Rev ι))} (hL : ∀ q ∈ L, AEPt μ e S q) (hlen : L.length = ws.length + 2)
    (hmove : ∀ (i : ℕ) a b, L[i]? = some a → L[i + 1]? = some b → ws ≠ [] → ∀ x ∈ S, Rev.valV (b x - a x) ≠ V2.fin ⟨0, 0⟩) {l : X → Rev ι} (hl : AE μ e S l) :
    AE μ e S fun x => Rev.pathLoss (l x) (ws.map (cwall ι)) (L.map (· x)) := by
  induction ws generalizing l L with
  | nil => exact hl
  | cons w ws ih =>
    match L, hlen, hL, hmove with
    | a :: b :: c :: L, hlen, hL, hmove =>
      refine ih (fun w h => hw w (by simp [h])) (L := b :: c :: L) (fun q hq => hL q (by simp at hq ⊢; tauto)) (by simpa using hlen)
        (fun i a b ha hb _ => hmove (i + 1) a b ha hb (by simp)) (hl.add (evaluate_ae (hw w (by simp)) (hL a (by simp)) (hL b (by simp)) (hL c (by simp)) ?_ ?_))
      · exact hmove 0 a b rfl rfl (by simp)
      · exact hmove 1 b c rfl rfl (by simp)

end Haar

end DiffeRT2d
