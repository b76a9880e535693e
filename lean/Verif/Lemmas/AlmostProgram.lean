import Verif.Lemmas.AlmostAnalytic

/-! Tracing and validity of families of scenes are analytic near almost every parameter. -/

namespace DiffeRT2d
open Classical Spec MeasureTheory Filter Topology

variable {X : Type} [NormedAddCommGroup X] [NormedSpace ℝ X] [FiniteDimensional ℝ X] [MeasurableSpace X] [BorelSpace X] {μ : Measure X} [μ.IsAddHaarMeasure]

namespace Spec.AnalyticPt
variable {p q : X → V2 F} {c : X → F}

theorem add (hp : AnalyticPt μ p) (hq : AnalyticPt μ q) : AnalyticPt μ fun x => p x + q x := ⟨hp.1.add hq.1, hp.2.add hq.2⟩
theorem sub (hp : AnalyticPt μ p) (hq : AnalyticPt μ q) : AnalyticPt μ fun x => p x - q x := ⟨hp.1.sub hq.1, hp.2.sub hq.2⟩
theorem neg (hp : AnalyticPt μ p) : AnalyticPt μ fun x => -p x := ⟨hp.1.neg, hp.2.neg⟩
theorem smul (hc : AlmostAnalytic μ c) (hp : AnalyticPt μ p) : AnalyticPt μ fun x => V2.smul (c x) (p x) := ⟨hc.mul hp.1, hc.mul hp.2⟩
theorem sdiv (hp : AnalyticPt μ p) (hc : AlmostAnalytic μ c) : AnalyticPt μ fun x => V2.sdiv (p x) (c x) := ⟨hp.1.div hc, hp.2.div hc⟩
theorem dot (hp : AnalyticPt μ p) (hq : AnalyticPt μ q) : AlmostAnalytic μ fun x => V2.dot (p x) (q x) := (hp.1.mul hq.1).add (hp.2.mul hq.2)
theorem cross (hp : AnalyticPt μ p) (hq : AnalyticPt μ q) : AlmostAnalytic μ fun x => V2.cross (p x) (q x) := (hp.1.mul hq.2).sub (hp.2.mul hq.1)
theorem norm (hp : AnalyticPt μ p) : AlmostAnalytic μ fun x => V2.norm (p x) := ((hp.1.mul hp.1).add (hp.2.mul hp.2)).sqrt
theorem const (v : V2 F) : AnalyticPt μ fun _ : X => v := ⟨.const _, .const _⟩
theorem where_ {b : X → Bool} (hb : AlmostConstant μ b) (hp : AnalyticPt μ p) (hq : AnalyticPt μ q) : AnalyticPt μ fun x => F.where_ (b x) (p x) (q x) := by
  refine ⟨(AlmostAnalytic.where_ hb hp.1 hq.1).congr fun x => ?_, (AlmostAnalytic.where_ hb hp.2 hq.2).congr fun x => ?_⟩ <;> simp only [F.where_] <;> split <;> rfl
theorem normalize (hp : AnalyticPt μ p) : AnalyticPt μ fun x => (normalize (p x)).1 :=
  hp.sdiv (.where_ (hp.norm.eq (.const 0)) (.const 1) hp.norm)

end Spec.AnalyticPt

namespace Spec.AnalyticTruth
variable {T U : X → Truthy}

theorem of_bool {b : X → Bool} (h : AlmostConstant μ b) : AnalyticTruth μ fun x => .b (b x) := .inl ⟨b, h, fun _ => rfl⟩
theorem of_float {f : X → F} (h : AlmostAnalytic μ f) : AnalyticTruth μ fun x => .f (f x) := .inr ⟨f, h, fun _ => rfl⟩
theorem const (t : Truthy) : AnalyticTruth μ fun _ : X => t := by
  cases t with
  | b v => exact of_bool (.of_eq v)
  | f v => exact of_float (.const v)

theorem toF (h : AnalyticTruth μ T) : AlmostAnalytic μ fun x => (T x).toF := by
  rcases h with ⟨b, hb, e⟩ | ⟨f, hf, e⟩
  · exact .of_const ((hb.map fun b => (Truthy.b b).toF).mono fun x hx => hx.mono fun y hy => by simpa [e] using hy)
  · exact hf.congr fun x => by rw [e]; rfl

theorem toBool (h : AnalyticTruth μ T) : AlmostConstant μ fun x => (T x).toBool := by
  rcases h with ⟨b, hb, e⟩ | ⟨f, hf, e⟩
  · have : (fun x => (T x).toBool) = b := funext fun x => by rw [e]; rfl
    exact this ▸ hb
  · have : (fun x => (T x).toBool) = fun x => !(F.eq (f x) 0) := funext fun x => by rw [e]; rfl
    exact this ▸ (hf.eq (.const 0)).map (!·)

theorem congr (h : AnalyticTruth μ T) (e : ∀ x, U x = T x) : AnalyticTruth μ U := (funext e : U = T) ▸ h

theorem maximum (h : AnalyticTruth μ T) (h' : AnalyticTruth μ U) : AnalyticTruth μ fun x => (T x).maximum (U x) := by
  rcases id h with ⟨b, hb, e⟩ | ⟨f, hf, e⟩ <;> rcases id h' with ⟨b', hb', e'⟩ | ⟨f', hf', e'⟩
  · exact (of_bool (hb.map₂ hb' (· || ·))).congr fun x => by rw [e, e']; rfl
  · exact (of_float (h.toF.max h'.toF)).congr fun x => by rw [e, e']; rfl
  · exact (of_float (h.toF.max h'.toF)).congr fun x => by rw [e, e']; rfl
  · exact (of_float (h.toF.max h'.toF)).congr fun x => by rw [e, e']; rfl

theorem minimum (h : AnalyticTruth μ T) (h' : AnalyticTruth μ U) : AnalyticTruth μ fun x => (T x).minimum (U x) := by
  rcases id h with ⟨b, hb, e⟩ | ⟨f, hf, e⟩ <;> rcases id h' with ⟨b', hb', e'⟩ | ⟨f', hf', e'⟩
  · exact (of_bool (hb.map₂ hb' (· && ·))).congr fun x => by rw [e, e']; rfl
  · exact (of_float (h.toF.min h'.toF)).congr fun x => by rw [e, e']; rfl
  · exact (of_float (h.toF.min h'.toF)).congr fun x => by rw [e, e']; rfl
  · exact (of_float (h.toF.min h'.toF)).congr fun x => by rw [e, e']; rfl

theorem nanToNum (h : AnalyticTruth μ T) : AnalyticTruth μ fun x => (T x).nanToNum := by
  rcases h with ⟨b, hb, e⟩ | ⟨f, hf, e⟩
  · exact (of_bool hb).congr fun x => by rw [e]; rfl
  · exact (of_float hf.nanToNum).congr fun x => by rw [e]; rfl

variable {E : Env} {ap : Option Bool}

theorem or (h : AnalyticTruth μ T) (h' : AnalyticTruth μ U) : AnalyticTruth μ fun x => logicalOr E ap (T x) (U x) := by
  unfold logicalOr; split
  · exact h.maximum h'
  · exact of_bool (h.toBool.map₂ h'.toBool (· || ·))

theorem and (h : AnalyticTruth μ T) (h' : AnalyticTruth μ U) : AnalyticTruth μ fun x => logicalAnd E ap (T x) (U x) := by
  unfold logicalAnd; split
  · exact h.minimum h'
  · exact of_bool (h.toBool.map₂ h'.toBool (· && ·))

theorem not (h : AnalyticTruth μ T) : AnalyticTruth μ fun x => logicalNot E ap (T x) := by
  unfold logicalNot; split
  · exact of_float ((AlmostAnalytic.const 1).sub h.toF)
  · exact of_bool (h.toBool.map (!·))

end Spec.AnalyticTruth

/-- The comparisons. -/
structure Settings (μ : Measure X) (E : Env) (ap : Option Bool) (kw : X → ActKw) : Prop where
  kw : resolveApprox E ap = true → AnalyticKw μ kw

section Comparisons
variable {E : Env} {ap : Option Bool} {kw : X → ActKw} {f g : X → F}

theorem less_analytic (hk : Settings μ E ap kw) (hf : AlmostAnalytic μ f) (hg : AlmostAnalytic μ g) : AnalyticTruth μ fun x => less E ap (kw x) (f x) (g x) := by
  unfold less; split
  · exact .of_float (hk.kw ‹_› _ (hg.sub hf))
  · exact .of_bool (hf.lt hg)

theorem lessEqual_analytic (hk : Settings μ E ap kw) (hf : AlmostAnalytic μ f) (hg : AlmostAnalytic μ g) : AnalyticTruth μ fun x => lessEqual E ap (kw x) (f x) (g x) := by
  unfold lessEqual; split
  · exact .of_float (hk.kw ‹_› _ (hg.sub hf))
  · exact .of_bool (hf.le hg)

theorem greaterEqual_analytic (hk : Settings μ E ap kw) (hf : AlmostAnalytic μ f) (hg : AlmostAnalytic μ g) : AnalyticTruth μ fun x => greaterEqual E ap (kw x) (f x) (g x) := by
  unfold greaterEqual; split
  · exact .of_float (hk.kw ‹_› _ (hf.sub hg))
  · exact .of_bool (hg.le hf)

theorem segTest_analytic (hk : Settings μ E ap kw) {tol : X → F} (ht : AlmostAnalytic μ tol) (hf : AlmostAnalytic μ f) (hg : AlmostAnalytic μ g) :
    AnalyticTruth μ fun x => segTest E (tol x) ap (kw x) (f x) (g x) := by
  have h0 := hg.eq (.const 0)
  have ht' : AlmostAnalytic μ fun x => F.where_ (F.eq (g x) 0) F.pinf (f x / F.where_ (F.eq (g x) 0) 1 (g x)) := .where_ h0 (.const _) (hf.div (.where_ h0 (.const 1) hg))
  exact (greaterEqual_analytic hk ht' ht.neg).and (lessEqual_analytic hk ht' ((AlmostAnalytic.const 1).add ht))

theorem segmentsIntersect_analytic (hk : Settings μ E ap kw) {tol : X → F} (ht : AlmostAnalytic μ tol) {P1 P2 P3 P4 : X → V2 F} (h1 : AnalyticPt μ P1) (h2 : AnalyticPt μ P2)
    (h3 : AnalyticPt μ P3) (h4 : AnalyticPt μ P4) : AnalyticTruth μ fun x => segmentsIntersect E (P1 x) (P2 x) (P3 x) (P4 x) (tol x) ap (kw x) := by
  have A := h2.sub h1
  have B := h3.sub h4
  have C := h1.sub h3
  have a := (B.2.mul C.1).sub (B.1.mul C.2)
  have b := (A.1.mul C.2).sub (A.2.mul C.1)
  have d := (A.2.mul B.1).sub (A.1.mul B.2)
  exact (segTest_analytic hk ht a d).and (segTest_analytic hk ht b d)

theorem trueValue_analytic : AnalyticTruth μ fun _ : X => trueValue E ap := .const _
theorem falseValue_analytic : AnalyticTruth μ fun _ : X => falseValue E ap := .const _

end Comparisons

/-! ## Objects -/

section Objects
variable {E : Env} {ap : Option Bool} {kw : X → ActKw} {w : X → Wall}

/-- Walls whose end points depend on a parameter. -/
def AnalyticWall (μ : Measure X) (w : X → Wall) : Prop := AnalyticPt μ (fun x => (w x).origin) ∧ AnalyticPt μ fun x => (w x).dest

theorem AnalyticWall.t (hw : AnalyticWall μ w) : AnalyticPt μ fun x => (w x).t := hw.2.sub hw.1

theorem AnalyticWall.normal (hw : AnalyticWall μ w) : AnalyticPt μ fun x => (w x).normal :=
  AnalyticPt.normalize (p := fun x => ⟨(w x).t.y, -(w x).t.x⟩) ⟨hw.t.2, hw.t.1.neg⟩

theorem AnalyticWall.toParam (hw : AnalyticWall μ w) {p : X → V2 F} (hp : AnalyticPt μ p) : AlmostAnalytic μ fun x => (w x).toParam (p x) := by
  have hsq := hw.t.dot hw.t
  exact (hw.t.dot (hp.sub hw.1)).div (.where_ (hsq.eq (.const 0)) (.const 1) hsq)

theorem wall_contains_analytic (hk : Settings μ E ap kw) {s : X → F} (hs : AlmostAnalytic μ s) : AnalyticTruth μ fun x => (w x).contains E ap (kw x) (s x) :=
  (greaterEqual_analytic hk hs (.const 0)).and (lessEqual_analytic hk hs (.const 1))

theorem AnalyticWall.intersects (hk : Settings μ E ap kw) (hw : AnalyticWall μ w) {patch : X → F} (hp : AlmostAnalytic μ patch) {r0 r1 : X → V2 F} (h0 : AnalyticPt μ r0) (h1 : AnalyticPt μ r1) :
    AnalyticTruth μ fun x => (w x).intersects E ap (kw x) (patch x) (r0 x) (r1 x) :=
  segmentsIntersect_analytic hk (.const SEG_TOL) (hw.1.sub (.smul hp hw.t)) (hw.2.add (.smul hp hw.t)) h0 h1

theorem AnalyticWall.evaluate (hw : AnalyticWall μ w) {a b c : X → V2 F} (ha : AnalyticPt μ a) (hb : AnalyticPt μ b) (hc : AnalyticPt μ c) :
    AlmostAnalytic μ fun x => (w x).evaluate (a x) (b x) (c x) := by
  have i := (hb.sub ha).normalize
  have r := (hc.sub hb).normalize
  have n := hw.normal
  have e := r.sub (i.sub (.smul ((AlmostAnalytic.const 2).mul (i.dot n)) n))
  exact e.dot e

theorem AnalyticWall.imageOf (hw : AnalyticWall μ w) {p : X → V2 F} (hp : AnalyticPt μ p) : AnalyticPt μ fun x => (w x).imageOf (p x) :=
  hp.sub (.smul ((AlmostAnalytic.const 2.0).mul ((hp.sub hw.1).dot hw.normal)) hw.normal)

theorem ris_evaluate_analytic {w : X → RIS} (hw : AnalyticWall μ fun x => (w x).toWall) (hphi : AlmostAnalytic μ fun x => (w x).phi) {a b c : X → V2 F} (hb : AnalyticPt μ b) (hc : AnalyticPt μ c) :
    AlmostAnalytic μ fun x => (w x).evaluate (a x) (b x) (c x) := by
  have r := (hc.sub hb).normalize.neg
  have n := hw.normal
  have s := (r.cross n).sub hphi.sin
  have t := (r.dot n).sub hphi.cos
  exact (s.mul s).add (t.mul t)

/-- What is asked of an object when tracing. -/
structure AnalyticI (μ : Measure X) (E : Env) (ap : Option Bool) (kw : X → ActKw) (o : X → Interactable) : Prop where
  contains : ∀ p, AnalyticPt μ p → AnalyticTruth μ fun x => (o x).contains E ap (kw x) ((o x).toParam (p x))
  intersects : ∀ patch r0 r1, AlmostAnalytic μ patch → AnalyticPt μ r0 → AnalyticPt μ r1 → AnalyticTruth μ fun x => (o x).intersects E ap (kw x) (patch x) (r0 x) (r1 x)
  evaluate : ∀ a b c, AnalyticPt μ a → AnalyticPt μ b → AnalyticPt μ c → AlmostAnalytic μ fun x => (o x).evaluate (a x) (b x) (c x)

theorem interact_analytic (hk : Settings μ E ap kw) {o : X → Obj} (h : AnalyticObj μ o) : AnalyticI μ E ap kw fun x => (o x).interact := by
  rcases h with ⟨w, h0, h1, e⟩ | ⟨w, h0, h1, hp, e⟩ | ⟨w, -, e⟩
  · have e' : (fun x => (o x).interact) = fun x => (w x).interact := funext fun x => by rw [e]; rfl
    have hw : AnalyticWall μ w := ⟨h0, h1⟩
    rw [e']
    exact ⟨fun p hp => wall_contains_analytic (w := w) hk (hw.toParam hp), fun patch r0 r1 hp h0 h1 => hw.intersects hk hp h0 h1, fun a b c ha hb hc => hw.evaluate ha hb hc⟩
  · have e' : (fun x => (o x).interact) = fun x => (w x).interact := funext fun x => by rw [e]; rfl
    have hw : AnalyticWall μ fun x => (w x).toWall := ⟨h0, h1⟩
    rw [e']
    exact ⟨fun p hp => wall_contains_analytic (w := fun x => (w x).toWall) hk (hw.toParam hp), fun patch r0 r1 hp h0 h1 => hw.intersects hk hp h0 h1, fun a b c ha hb hc => ris_evaluate_analytic (a := a) hw hp hb hc⟩
  · have e' : (fun x => (o x).interact) = fun x => (w x).interact := funext fun x => by rw [e]; rfl
    rw [e']
    exact ⟨fun p hp => trueValue_analytic, fun patch r0 r1 hp h0 h1 => falseValue_analytic, fun a b c ha hb hc => .const _⟩

end Objects

/-! ## Paths -/

section Paths
variable {E : Env} {ap : Option Bool} {kw : X → ActKw}

theorem nth_analytic {L : List (X → V2 F)} (h : ∀ p ∈ L, AnalyticPt μ p) (k : ℕ) : AnalyticPt μ fun x => nth (L.map (· x)) k := by
  unfold nth
  simp only [List.length_map, List.getD_eq_getElem?_getD, List.getElem?_map]
  cases hk : L[min k (L.length - 1)]? with
  | none => exact .const _
  | some p => exact h p (List.mem_of_getElem? hk)

theorem onObjects_analytic {L : List (X → V2 F)} (hL : ∀ p ∈ L, AnalyticPt μ p) {loss : X → F} (os : List (X → Interactable)) (ho : ∀ o ∈ os, AnalyticI μ E ap kw o) :
    AnalyticTruth μ fun x => (⟨L.map (· x), loss x⟩ : Path).onObjects E (os.map (· x)) ap (kw x) := by
  unfold Path.onObjects
  have key : ∀ (os : List (X → Interactable)) (k : ℕ) (T : X → Truthy), (∀ o ∈ os, AnalyticI μ E ap kw o) → AnalyticTruth μ T →
      AnalyticTruth μ fun x => ((os.map (· x)).zipIdx k).foldl (fun contains oi => logicalAnd E ap contains (oi.1.contains E ap (kw x) (oi.1.toParam (nth (L.map (· x)) (oi.2 + 1))))) (T x) := by
    intro os
    induction os with
    | nil => intro k T _ hT; exact hT
    | cons o os ih =>
      intro k T ho hT
      exact ih (k + 1) _ (fun o h => ho o (by simp [h])) (hT.and ((ho o (by simp)).contains _ (nth_analytic hL (k + 1))))
  exact key os 0 _ ho trueValue_analytic

theorem intersects_analytic {L : List (X → V2 F)} (hL : ∀ p ∈ L, AnalyticPt μ p) {loss : X → F} (os : List (X → Interactable)) (ho : ∀ o ∈ os, AnalyticI μ E ap kw o) (c : List ℤ)
    {patch : X → F} (hp : AlmostAnalytic μ patch) :
    (∃ e, ∀ x, (⟨L.map (· x), loss x⟩ : Path).intersectsWithObjects E (os.map (· x)) c (patch x) ap (kw x) = .error e) ∨
    ∃ T, AnalyticTruth μ T ∧ ∀ x, (⟨L.map (· x), loss x⟩ : Path).intersectsWithObjects E (os.map (· x)) c (patch x) ap (kw x) = .ok (T x) := by
  unfold Path.intersectsWithObjects
  simp only [List.length_map, ne_eq, List.map_eq_nil_iff]
  by_cases hlen : ¬os = [] ∧ (-1 :: c ++ [-1]).length < L.length
  · exact .inl ⟨.indexError, fun x => if_pos hlen⟩
  · refine .inr ⟨_, ?_, fun x => if_neg hlen⟩
    have inner : ∀ (i : ℕ) (os : List (X → Interactable)) (k : ℕ) (T : X → Truthy), (∀ o ∈ os, AnalyticI μ E ap kw o) → AnalyticTruth μ T →
        AnalyticTruth μ fun x => ((os.map (· x)).zipIdx k).foldl (fun intersects oj =>
          F.where_ (((oj.2 : ℤ) == (-1 :: c ++ [-1]).getD i 0) || ((oj.2 : ℤ) == (-1 :: c ++ [-1]).getD (i + 1) 0)) intersects
            (logicalOr E ap intersects (oj.1.intersects E ap (kw x) (patch x) (nth (L.map (· x)) i) (nth (L.map (· x)) (i + 1))))) (T x) := by
      intro i os
      induction os with
      | nil => intro k T _ hT; exact hT
      | cons o os ih =>
        intro k T ho hT
        refine ih (k + 1) (fun x => F.where_ (((k : ℤ) == (-1 :: c ++ [-1]).getD i 0) || ((k : ℤ) == (-1 :: c ++ [-1]).getD (i + 1) 0)) (T x)
            (logicalOr E ap (T x) ((o x).intersects E ap (kw x) (patch x) (nth (L.map (· x)) i) (nth (L.map (· x)) (i + 1))))) (fun o h => ho o (by simp [h])) ?_
        cases ((k : ℤ) == (-1 :: c ++ [-1]).getD i 0) || ((k : ℤ) == (-1 :: c ++ [-1]).getD (i + 1) 0)
        · exact hT.or ((ho o (by simp)).intersects _ _ _ hp (nth_analytic hL i) (nth_analytic hL (i + 1)))
        · exact hT
    have outer : ∀ (is : List ℕ) (T : X → Truthy), AnalyticTruth μ T →
        AnalyticTruth μ fun x => is.foldl (fun intersects i => ((os.map (· x)).zipIdx 0).foldl (fun intersects oj =>
          F.where_ (((oj.2 : ℤ) == (-1 :: c ++ [-1]).getD i 0) || ((oj.2 : ℤ) == (-1 :: c ++ [-1]).getD (i + 1) 0)) intersects
            (logicalOr E ap intersects (oj.1.intersects E ap (kw x) (patch x) (nth (L.map (· x)) i) (nth (L.map (· x)) (i + 1))))) intersects) (T x) := by
      intro is
      induction is with
      | nil => intro T hT; exact hT
      | cons i is ih => intro T hT; exact ih _ (inner i os 0 T ho hT)
    exact outer _ _ falseValue_analytic

theorem isValid_analytic (hk : Settings μ E ap kw) {L : List (X → V2 F)} (hL : ∀ p ∈ L, AnalyticPt μ p) {loss : X → F} (hl : AlmostAnalytic μ loss) (os ws : List (X → Interactable))
    (ho : ∀ o ∈ os, AnalyticI μ E ap kw o) (hw : ∀ o ∈ ws, AnalyticI μ E ap kw o) (c : List ℤ) {tol patch : X → F} (ht : AlmostAnalytic μ tol) (hp : AlmostAnalytic μ patch) :
    (∃ e, ∀ x, (⟨L.map (· x), loss x⟩ : Path).isValid E (os.map (· x)) c (ws.map (· x)) (tol x) (patch x) ap (kw x) = .error e) ∨
    ∃ T, AnalyticTruth μ T ∧ ∀ x, (⟨L.map (· x), loss x⟩ : Path).isValid E (os.map (· x)) c (ws.map (· x)) (tol x) (patch x) ap (kw x) = .ok (T x) := by
  rcases intersects_analytic (loss := loss) hL os ho c hp with ⟨e, he⟩ | ⟨T, hT, e⟩
  · refine .inl ⟨e, fun x => ?_⟩
    unfold Path.isValid
    rw [he x]; rfl
  · right
    have h1 := onObjects_analytic (loss := loss) hL ws hw
    have h2 : AnalyticTruth μ fun x => logicalNot E ap (T x) := hT.not
    have h3 := less_analytic hk hl ht
    by_cases hap : resolveApprox E ap = true
    · have all : ∀ A B C : X → Truthy, AnalyticTruth μ A → AnalyticTruth μ B → AnalyticTruth μ C →
          ∃ U, AnalyticTruth μ U ∧ ∀ x, logicalAll E ap [A x, B x, C x] = .ok (U x) := by
        intro A B C hA hB hC
        simp only [logicalAll, if_pos hap, jnpMin]
        have hm : AnalyticTruth μ fun x => .f (F.minOf (A x).toF ([B x, C x].map Truthy.toF)) := .of_float ((hA.toF.min hB.toF).min hC.toF)
        have hb : AnalyticTruth μ fun x => .b ([A x, B x, C x].all Truthy.toBool) := by
          refine .of_bool ?_
          simp only [List.all_cons, List.all_nil, Bool.and_true]
          exact hA.toBool.map₂ (hB.toBool.map₂ hC.toBool (· && ·)) (· && ·)
        rcases hA with ⟨a, -, ea⟩ | ⟨a, -, ea⟩ <;> rcases hB with ⟨b, -, eb⟩ | ⟨b, -, eb⟩ <;> rcases hC with ⟨c, -, ec⟩ | ⟨c, -, ec⟩ <;>
          first
          | (refine ⟨_, hb, fun x => if_pos ?_⟩; simp [ea, eb, ec, Truthy.isB]; done)
          | (refine ⟨_, hm, fun x => if_neg ?_⟩; simp [ea, eb, ec, Truthy.isB]; done)
      obtain ⟨U, hU, eU⟩ := all _ _ _ h1 h2 h3
      refine ⟨fun x => (U x).nanToNum, hU.nanToNum, fun x => ?_⟩
      unfold Path.isValid
      rw [e x]
      simp only [Bind.bind, Except.bind]
      rw [eU x]; rfl
    · have hb := h1.toBool.map₂ (h2.toBool.map₂ h3.toBool fun a b => a && b) fun a b => a && b
      refine ⟨_, .of_bool hb, fun x => ?_⟩
      unfold Path.isValid
      rw [e x]
      simp only [Bind.bind, Except.bind, logicalAll, if_neg hap, List.all_cons, List.all_nil, Bool.and_true]
      rfl

theorem pathLoss_analytic (os : List (X → Interactable)) (ho : ∀ o ∈ os, AnalyticI μ E ap kw o) {L : List (X → V2 F)} (hL : ∀ p ∈ L, AnalyticPt μ p) {l : X → F} (hl : AlmostAnalytic μ l) :
    AlmostAnalytic μ fun x => pathLoss (l x) (os.map (· x)) (L.map (· x)) := by
  induction os generalizing L l with
  | nil => exact hl
  | cons o os ih =>
    match L, hL with
    | [], _ => exact .const F.nan
    | [_], _ => exact .const F.nan
    | [_, _], _ => exact .const F.nan
    | a :: b :: c :: L, hL =>
      exact ih (fun o h => ho o (by simp [h])) (L := b :: c :: L) (fun p h => hL p (by simp at h ⊢; tauto))
        (hl.add ((ho o (by simp)).evaluate _ _ _ (hL a (by simp)) (hL b (by simp)) (hL c (by simp))))

theorem images_analytic (ws : List (X → Wall)) (hw : ∀ w ∈ ws, AnalyticWall μ w) {im : X → V2 F} (hi : AnalyticPt μ im) :
    ∃ L : List (X → V2 F), (∀ p ∈ L, AnalyticPt μ p) ∧ ∀ x, images (im x) (ws.map (· x)) = L.map (· x) := by
  induction ws generalizing im with
  | nil => exact ⟨[], by simp, fun x => rfl⟩
  | cons w ws ih =>
    have h1 := (hw w (by simp)).imageOf hi
    obtain ⟨L, hL, e⟩ := ih (fun w h => hw w (by simp [h])) h1
    exact ⟨_ :: L, by simpa using ⟨h1, hL⟩, fun x => by simp only [List.map_cons, images, e x]⟩

theorem backStep_analytic {w : X → Wall} (hw : AnalyticWall μ w) {im p : X → V2 F} (hi : AnalyticPt μ im) (hp : AnalyticPt μ p) : AnalyticPt μ fun x => backStep (w x) (im x) (p x) := by
  have u := hp.sub hi
  have un := u.dot hw.normal
  have vn := (hw.1.sub hp).dot hw.normal
  exact hp.add (.where_ (un.eq (.const 0)) (.const _) ((AnalyticPt.smul vn u).sdiv un))

theorem backward_analytic {rx : X → V2 F} (hr : AnalyticPt μ rx) (ws : List ((X → Wall) × (X → V2 F))) (hw : ∀ w ∈ ws, AnalyticWall μ w.1 ∧ AnalyticPt μ w.2) :
    ∃ L : List (X → V2 F), (∀ p ∈ L, AnalyticPt μ p) ∧ ∀ x, backward (rx x) (ws.map fun w => (w.1 x, w.2 x)) = L.map (· x) := by
  induction ws with
  | nil => exact ⟨[], by simp, fun x => rfl⟩
  | cons w ws ih =>
    obtain ⟨L, hL, e⟩ := ih fun w h => hw w (by simp [h])
    have hh : AnalyticPt μ fun x => (L.map (· x)).headD (rx x) := by
      cases L with
      | nil => exact hr
      | cons p L => exact hL p (by simp)
    have h1 := backStep_analytic (hw w (by simp)).1 (hw w (by simp)).2 hh
    exact ⟨_ :: L, by simpa using ⟨h1, hL⟩, fun x => by simp only [List.map_cons, backward, e x]⟩

theorem imagePathCore_analytic {tx rx : X → V2 F} (ht : AnalyticPt μ tx) (hr : AnalyticPt μ rx) (ws : List (X → Wall)) (hw : ∀ w ∈ ws, AnalyticWall μ w)
    (os : List (X → Interactable)) (ho : ∀ o ∈ os, AnalyticI μ E ap kw o) :
    ∃ (L : List (X → V2 F)) (loss : X → F), (∀ p ∈ L, AnalyticPt μ p) ∧ AlmostAnalytic μ loss ∧ ∀ x, imagePathCore (tx x) (ws.map (· x)) (os.map (· x)) (rx x) = ⟨L.map (· x), loss x⟩ := by
  obtain ⟨I, hI, eI⟩ := images_analytic ws hw ht
  obtain ⟨B, hB, eB⟩ := backward_analytic hr (ws.zip I) fun w h => ⟨hw _ (List.of_mem_zip h).1, hI _ (List.of_mem_zip h).2⟩
  have hL : ∀ p ∈ tx :: B ++ [rx], AnalyticPt μ p := by
    intro p hp
    simp only [List.cons_append, List.mem_cons, List.mem_append, List.not_mem_nil, or_false] at hp
    rcases hp with rfl | hp | rfl
    · exact ht
    · exact hB p hp
    · exact hr
  refine ⟨tx :: B ++ [rx], _, hL, pathLoss_analytic os ho hL (.const 0), fun x => ?_⟩
  have e1 : (ws.map (· x)).zip (images (tx x) (ws.map (· x))) = (ws.zip I).map fun w => (w.1 x, w.2 x) := by
    rw [eI x, List.zip_map]; rfl
  unfold imagePathCore
  simp only [e1, eB x]
  simp

end Paths

/-! ## Tracing -/

theorem analyticObj_cls {o : X → Obj} (h : AnalyticObj μ o) : ∃ c, ∀ x, (o x).cls = c := by
  rcases h with ⟨w, -, -, e⟩ | ⟨w, -, -, -, e⟩ | ⟨w, -, e⟩
  · exact ⟨0, fun x => by rw [e]; rfl⟩
  · exact ⟨1, fun x => by rw [e]; rfl⟩
  · exact ⟨2, fun x => by rw [e]; rfl⟩

theorem asWall_analytic {o : X → Obj} (h : AnalyticObj μ o) : (∀ x, (o x).asWall = none) ∨ ∃ w, AnalyticWall μ w ∧ ∀ x, (o x).asWall = some (w x) := by
  rcases h with ⟨w, h0, h1, e⟩ | ⟨w, h0, h1, -, e⟩ | ⟨w, -, e⟩
  · exact .inr ⟨w, ⟨h0, h1⟩, fun x => by rw [e]; rfl⟩
  · exact .inr ⟨fun x => (w x).toWall, ⟨h0, h1⟩, fun x => by rw [e]; rfl⟩
  · exact .inl fun x => by rw [e]; rfl

theorem mapM_asWall_analytic (os : List (X → Obj)) (ho : ∀ o ∈ os, AnalyticObj μ o) :
    (∀ x, (os.map (· x)).mapM Obj.asWall = none) ∨ ∃ ws : List (X → Wall), (∀ w ∈ ws, AnalyticWall μ w) ∧ ∀ x, (os.map (· x)).mapM Obj.asWall = some (ws.map (· x)) := by
  induction os with
  | nil => exact .inr ⟨[], by simp, fun x => rfl⟩
  | cons o os ih =>
    rcases asWall_analytic (ho o (by simp)) with h | ⟨w, hw, e⟩
    · exact .inl fun x => by simp [h x]
    · rcases ih fun o h => ho o (by simp [h]) with h | ⟨ws, hws, e'⟩
      · exact .inl fun x => by simp [h x]
      · exact .inr ⟨w :: ws, by simpa using ⟨hw, hws⟩, fun x => by simp [e x, e' x]⟩

theorem interact_map {os : List (X → Obj)} (x : X) : (os.map (· x)).map Obj.interact = (os.map fun o x => (o x).interact).map (· x) := by
  simp [Function.comp_def]

theorem image_trace_analytic {E : Env} {ap : Option Bool} {kw : X → ActKw} (hk : Settings μ E ap kw) {tx rx : X → V2 F} (ht : AnalyticPt μ tx) (hr : AnalyticPt μ rx)
    (os : List (X → Obj)) (ho : ∀ o ∈ os, AnalyticObj μ o) :
    (∃ e, ∀ x, ImagePath.fromTxObjectsRx (tx x) (os.map (· x)) (rx x) = .error e) ∨
    ∃ (L : List (X → V2 F)) (loss : X → F), (∀ p ∈ L, AnalyticPt μ p) ∧ AlmostAnalytic μ loss ∧ ∀ x, ImagePath.fromTxObjectsRx (tx x) (os.map (· x)) (rx x) = .ok ⟨L.map (· x), loss x⟩ := by
  cases os with
  | nil => exact .inr ⟨[tx, rx], fun _ => 0, by simpa using ⟨ht, hr⟩, .const _, fun x => rfl⟩
  | cons o os =>
    by_cases hcls : ∀ x, (os.map (· x)).all (fun o' => o'.cls == (o x).cls) = true
    · rcases mapM_asWall_analytic (o :: os) ho with h | ⟨ws, hws, e⟩
      · refine .inl ⟨.attributeError, fun x => ?_⟩
        simp only [ImagePath.fromTxObjectsRx, List.map_cons]
        rw [if_pos (hcls x)]
        have := h x
        simp only [List.map_cons] at this
        rw [this]
      · obtain ⟨L, loss, hL, hl, e'⟩ := imagePathCore_analytic ht hr ws hws ((o :: os).map fun o x => (o x).interact) (E := E) (ap := ap) (kw := kw) (by
          intro i hi
          obtain ⟨o', ho', rfl⟩ := List.mem_map.mp hi
          exact interact_analytic hk (ho o' ho'))
        refine .inr ⟨L, loss, hL, hl, fun x => ?_⟩
        have h1 := e x
        have h2 := e' x
        rw [← interact_map] at h2
        simp only [List.map_cons] at h1 h2
        simp only [ImagePath.fromTxObjectsRx, List.map_cons]
        rw [if_pos (hcls x), h1, ← h2]
    · refine .inl ⟨.valueError, fun x => ?_⟩
      simp only [ImagePath.fromTxObjectsRx, List.map_cons]
      rw [if_neg]
      intro h
      refine hcls fun y => ?_
      simp only [List.all_map, List.all_eq_true, Function.comp_apply, beq_iff_eq] at h ⊢
      intro o' ho'
      obtain ⟨c, hc⟩ := analyticObj_cls (ho o (by simp))
      obtain ⟨c', hc'⟩ := analyticObj_cls (ho o' (by simp [ho']))
      have := h o' ho'
      rw [hc, hc'] at this ⊢
      exact this

/-! ## The activations and the received power -/

theorem sigmoid_analytic {a : X → F} (ha : AlmostAnalytic μ a) : AnalyticKw μ fun x => ⟨a x, sigmoid⟩ := fun _ hf => (ha.mul hf).nnSigmoid

theorem hardSigmoid_analytic {a : X → F} (ha : AlmostAnalytic μ a) : AnalyticKw μ fun x => ⟨a x, hardSigmoid⟩ := fun _ hf =>
  ((((ha.mul hf).add (.const 3)).max (.const 0)).min (.const 6)).div (.const 6)

theorem diffs_analytic (L : List (X → V2 F)) (h : ∀ p ∈ L, AnalyticPt μ p) : ∃ D : List (X → V2 F), (∀ p ∈ D, AnalyticPt μ p) ∧ ∀ x, diffs (L.map (· x)) = D.map (· x) := by
  induction L with
  | nil => exact ⟨[], by simp, fun x => rfl⟩
  | cons p L ih =>
    cases L with
    | nil => exact ⟨[], by simp, fun x => rfl⟩
    | cons q L =>
      obtain ⟨D, hD, e⟩ := ih fun p hp => h p (by simp [hp])
      refine ⟨_ :: D, by simpa using ⟨(h q (by simp)).sub (h p (by simp)), hD⟩, fun x => ?_⟩
      have := e x
      simp only [List.map_cons] at this ⊢
      rw [diffs, this]

theorem pathLength_analytic (E : Env) (L : List (X → V2 F)) (h : ∀ p ∈ L, AnalyticPt μ p) : AlmostAnalytic μ fun x => pathLength E (L.map (· x)) := by
  obtain ⟨D, hD, e⟩ := diffs_analytic L h
  refine (AlmostAnalytic.sum (D.map fun p x => V2.norm (p x + ⟨F.fin E.eps, F.fin E.eps⟩)) ?_).congr fun x => ?_
  · intro f hf
    obtain ⟨p, hp, rfl⟩ := List.mem_map.mp hf
    exact ((hD p hp).add (.const _)).norm
  · unfold pathLength
    rw [e x]
    simp [Function.comp_def]

theorem receivedPower_analytic (E : Env) {coef height : X → F} (hc : AlmostAnalytic μ coef) (hh : AlmostAnalytic μ height) :
    AnalyticFun μ fun x tx rx path objs => receivedPower E tx rx path (objs.map Obj.interact) (coef x) (height x) := by
  intro tx rx pts loss objs _ _ hp _ _
  unfold receivedPower Path.length
  simp only [List.length_map]
  have hl := pathLength_analytic E pts hp
  exact (hc.ipow _).div ((hh.mul hh).add (hl.mul hl))

end DiffeRT2d
