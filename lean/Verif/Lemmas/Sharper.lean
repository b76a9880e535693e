import Verif.Spec.Sharper
import Verif.Lemmas.GenericShapes

/-! Hard and approximate evaluations of the same test, for two slopes. -/

namespace DiffeRT2d
open Classical Spec

namespace Spec

theorem Closer.and {a b : Bool} {v v' w w' : ℝ} (h : Closer a v v') (k : Closer b w w') :
    Closer (a && b) (min v w) (min v' w') := by
  unfold Closer at *
  cases a <;> cases b <;>
    simp only [Bool.false_eq_true, if_false, if_true, Bool.and_true, Bool.and_false] at * <;>
    obtain ⟨h1, h2, h3⟩ := h <;> obtain ⟨k1, k2, k3⟩ := k
  · exact ⟨le_min h1 k1, min_le_min h2 k2, (min_le_left _ _).trans h3⟩
  · exact ⟨le_min h1 (by linarith), le_min ((min_le_left _ _).trans h2) ((min_le_left _ _).trans (by linarith)), (min_le_left _ _).trans h3⟩
  · exact ⟨le_min (by linarith) k1, le_min ((min_le_right _ _).trans (by linarith)) ((min_le_right _ _).trans k2), (min_le_right _ _).trans k3⟩
  · exact ⟨le_min h1 k1, min_le_min h2 k2, (min_le_left _ _).trans h3⟩

theorem Closer.not {a : Bool} {v v' : ℝ} (h : Closer a v v') : Closer (!a) (1 - v) (1 - v') := by
  unfold Closer at *
  cases a <;> simp only [Bool.false_eq_true, if_false, if_true, Bool.not_true, Bool.not_false] at * <;>
    obtain ⟨h1, h2, h3⟩ := h <;> refine ⟨?_, ?_, ?_⟩ <;> linarith

theorem Closer.or {a b : Bool} {v v' w w' : ℝ} (h : Closer a v v') (k : Closer b w w') :
    Closer (a || b) (max v w) (max v' w') := by
  have := (h.not.and k.not).not
  have e : ∀ x y : ℝ, 1 - min (1 - x) (1 - y) = max x y := by
    intro x y
    rcases le_total x y with h | h
    · rw [max_eq_right h, min_eq_right (by linarith)]; ring
    · rw [max_eq_left h, min_eq_left (by linarith)]; ring
  simpa [e] using this

theorem Closer.range {a : Bool} {v v' : ℝ} (h : Closer a v v') : (0 ≤ v ∧ v ≤ 1) ∧ 0 ≤ v' ∧ v' ≤ 1 := by
  unfold Closer at h
  cases a <;> simp only [Bool.false_eq_true, if_false, if_true] at h <;> obtain ⟨h1, h2, h3⟩ := h <;>
    refine ⟨⟨?_, ?_⟩, ?_, ?_⟩ <;> linarith

theorem Closer.abs {a : Bool} {v v' : ℝ} (h : Closer a v v') : |v' - bit a| ≤ |v - bit a| ∧ |v - bit a| ≤ 1 / 2 := by
  unfold Closer at h
  unfold bit
  cases a <;> simp only [Bool.false_eq_true, if_false, if_true] at * <;> obtain ⟨h1, h2, h3⟩ := h
  · rw [abs_of_nonneg (by linarith), abs_of_nonneg (by linarith)]; constructor <;> linarith
  · rw [abs_of_nonpos (by linarith), abs_of_nonpos (by linarith)]; constructor <;> linarith

/-- The three runs of a program: exact, rough and fine. -/
structure Runs where
  (E E₁ E₂ : Env)
  (ap ap₁ ap₂ : Option Bool)
  (kw : ActKw)
  (step : F → F → F)
  (a b : ℝ)
  hard : Hard E ap
  soft₁ : Soft E₁ ap₁
  soft₂ : Soft E₂ ap₂
  good : SoftStep step
  pos : 0 < a
  le : a ≤ b

variable (R : Runs)

theorem Refined.and {x y z x' y' z' : Truthy} (h : Refined x y z) (h' : Refined x' y' z') :
    Refined (logicalAnd R.E R.ap x x') (logicalAnd R.E₁ R.ap₁ y y') (logicalAnd R.E₂ R.ap₂ z z') := by
  obtain ⟨b, v, w, rfl, rfl, rfl, h⟩ := h
  obtain ⟨b', v', w', rfl, rfl, rfl, h'⟩ := h'
  refine ⟨_, _, _, ?_, ?_, ?_, h.and h'⟩
  · simp [logicalAnd, R.hard.eq, Truthy.toBool]
  · simp [logicalAnd, R.soft₁.eq, Truthy.minimum, Truthy.toF]
  · simp [logicalAnd, R.soft₂.eq, Truthy.minimum, Truthy.toF]

theorem Refined.or {x y z x' y' z' : Truthy} (h : Refined x y z) (h' : Refined x' y' z') :
    Refined (logicalOr R.E R.ap x x') (logicalOr R.E₁ R.ap₁ y y') (logicalOr R.E₂ R.ap₂ z z') := by
  obtain ⟨b, v, w, rfl, rfl, rfl, h⟩ := h
  obtain ⟨b', v', w', rfl, rfl, rfl, h'⟩ := h'
  refine ⟨_, _, _, ?_, ?_, ?_, h.or h'⟩
  · simp [logicalOr, R.hard.eq, Truthy.toBool]
  · simp [logicalOr, R.soft₁.eq, Truthy.maximum, Truthy.toF]
  · simp [logicalOr, R.soft₂.eq, Truthy.maximum, Truthy.toF]

theorem Refined.not {x y z : Truthy} (h : Refined x y z) :
    Refined (logicalNot R.E R.ap x) (logicalNot R.E₁ R.ap₁ y) (logicalNot R.E₂ R.ap₂ z) := by
  obtain ⟨b, v, w, rfl, rfl, rfl, h⟩ := h
  refine ⟨_, _, _, ?_, ?_, ?_, h.not⟩
  · simp [logicalNot, R.hard.eq, Truthy.toBool]
  · simp [logicalNot, R.soft₁.eq, Truthy.toF]
  · simp [logicalNot, R.soft₂.eq, Truthy.toF]

theorem Refined.true : Refined (trueValue R.E R.ap) (trueValue R.E₁ R.ap₁) (trueValue R.E₂ R.ap₂) := by
  refine ⟨Bool.true, 1, 1, ?_, ?_, ?_, ?_⟩
  · simp [trueValue, R.hard.eq]
  · simp [trueValue, R.soft₁.eq]
  · simp [trueValue, R.soft₂.eq]
  · simp only [Closer, if_true]; norm_num

theorem Refined.false : Refined (falseValue R.E R.ap) (falseValue R.E₁ R.ap₁) (falseValue R.E₂ R.ap₂) := by
  refine ⟨Bool.false, 0, 0, ?_, ?_, ?_, ?_⟩
  · simp [falseValue, R.hard.eq]
  · simp [falseValue, R.soft₁.eq]
  · simp [falseValue, R.soft₂.eq]
  · simp only [Closer, Bool.false_eq_true, if_false]; norm_num

theorem Refined.foldl {ι : Type*} (op₀ op₁ op₂ : Truthy → Truthy → Truthy)
    (hop : ∀ {x y z x' y' z'}, Refined x y z → Refined x' y' z' → Refined (op₀ x x') (op₁ y y') (op₂ z z'))
    (xs : List ι) (g₀ g₁ g₂ : ι → Truthy) (h : ∀ i ∈ xs, Refined (g₀ i) (g₁ i) (g₂ i))
    {x y z : Truthy} (h0 : Refined x y z) :
    Refined ((xs.map g₀).foldl op₀ x) ((xs.map g₁).foldl op₁ y) ((xs.map g₂).foldl op₂ z) := by
  induction xs generalizing x y z with
  | nil => exact h0
  | cons i xs ih =>
    simp only [List.map_cons, List.foldl_cons]
    exact ih (fun j hj => h j (by simp [hj])) (hop h0 (h i (by simp)))

/-- A comparison with zero, strict or not. -/
theorem closer_step {s : ℝ → ℝ → ℝ} (hs : SoftStepReal s) {a b : ℝ} (ha : 0 < a) (hab : a ≤ b) (x : ℝ) (v : Bool)
    (h1 : 0 < x → v = Bool.true) (h2 : x < 0 → v = Bool.false) : Closer v (s a x) (s b x) := by
  have hb : 0 < b := ha.trans_le hab
  have hsh := hs.sharpen a b x ha hab
  rcases lt_trichotomy x 0 with hx | rfl | hx
  · rw [h2 hx]
    have e1 : s a x < 1 / 2 ∨ s a x = 1 / 2 := by
      rcases lt_trichotomy (s a x) (1 / 2) with h | h | h
      · exact .inl h
      · exact .inr h
      · exact absurd ((hs.above a x ha).mp h) (not_lt.mpr hx.le)
    have e2 : s b x ≤ 1 / 2 := by
      by_contra h; exact absurd ((hs.above b x hb).mp (not_le.mp h)) (not_lt.mpr hx.le)
    have e3 : s a x ≤ 1 / 2 := by rcases e1 with h | h <;> linarith
    rw [abs_of_nonpos (by linarith), abs_of_nonpos (by linarith)] at hsh
    simp only [Closer, Bool.false_eq_true, if_false]
    exact ⟨(hs.range b x hb).1, by linarith, e3⟩
  · rw [hs.half a ha, hs.half b hb]
    unfold Closer; split <;> norm_num
  · rw [h1 hx]
    have e1 := (hs.above a x ha).mpr hx
    have e2 := (hs.above b x hb).mpr hx
    rw [abs_of_nonneg (by linarith), abs_of_nonneg (by linarith)] at hsh
    simp only [Closer, if_true]
    exact ⟨e1.le, by linarith, (hs.range b x hb).2⟩

/-- The two soft settings. -/
def Runs.kw₁ : ActKw := ⟨F.fin R.a, R.step⟩
def Runs.kw₂ : ActKw := ⟨F.fin R.b, R.step⟩

theorem Refined.ge (x y : ℝ) : Refined (greaterEqual R.E R.ap R.kw (F.fin x) (F.fin y))
    (greaterEqual R.E₁ R.ap₁ R.kw₁ (F.fin x) (F.fin y)) (greaterEqual R.E₂ R.ap₂ R.kw₂ (F.fin x) (F.fin y)) := by
  obtain ⟨s, hs, h1, -⟩ := R.good
  refine ⟨decide (y ≤ x), s R.a (x - y), s R.b (x - y), ?_, ?_, ?_, closer_step hs R.pos R.le _ _ (fun h => ?_) (fun h => ?_)⟩
  · simp [greaterEqual, R.hard.eq]
  · simp [greaterEqual, R.soft₁.eq, activation, Runs.kw₁, h1 R.a _ R.pos]
  · simp [greaterEqual, R.soft₂.eq, activation, Runs.kw₂, h1 R.b _ (R.pos.trans_le R.le)]
  · simp; linarith
  · simp; linarith

theorem Refined.le (x y : ℝ) : Refined (lessEqual R.E R.ap R.kw (F.fin x) (F.fin y))
    (lessEqual R.E₁ R.ap₁ R.kw₁ (F.fin x) (F.fin y)) (lessEqual R.E₂ R.ap₂ R.kw₂ (F.fin x) (F.fin y)) := by
  obtain ⟨s, hs, h1, -⟩ := R.good
  refine ⟨decide (x ≤ y), s R.a (y - x), s R.b (y - x), ?_, ?_, ?_, closer_step hs R.pos R.le _ _ (fun h => ?_) (fun h => ?_)⟩
  · simp [lessEqual, R.hard.eq]
  · simp [lessEqual, R.soft₁.eq, activation, Runs.kw₁, h1 R.a _ R.pos]
  · simp [lessEqual, R.soft₂.eq, activation, Runs.kw₂, h1 R.b _ (R.pos.trans_le R.le)]
  · simp; linarith
  · simp; linarith

/-- `less` of any two floats, up to NaN. -/
theorem less_refined (x y : F) : ∃ v : Bool, less R.E R.ap R.kw x y = .b v ∧
    ((v = Bool.false ∧ less R.E₁ R.ap₁ R.kw₁ x y = .f F.nan ∧ less R.E₂ R.ap₂ R.kw₂ x y = .f F.nan) ∨
      Refined (less R.E R.ap R.kw x y) (less R.E₁ R.ap₁ R.kw₁ x y) (less R.E₂ R.ap₂ R.kw₂ x y)) := by
  have hb := R.pos.trans_le R.le
  obtain ⟨s, hs, h1, h2⟩ := R.good
  obtain ⟨p1, n1, m1⟩ := h2 R.a R.pos
  obtain ⟨p2, n2, m2⟩ := h2 R.b hb
  have e0 : less R.E R.ap R.kw x y = .b (F.lt x y) := by simp [less, R.hard.eq]
  have e1 : less R.E₁ R.ap₁ R.kw₁ x y = .f (R.step (y - x) (F.fin R.a)) := by simp [less, R.soft₁.eq, activation, Runs.kw₁]
  have e2 : less R.E₂ R.ap₂ R.kw₂ x y = .f (R.step (y - x) (F.fin R.b)) := by simp [less, R.soft₂.eq, activation, Runs.kw₂]
  refine ⟨_, e0, ?_⟩
  rw [e0, e1, e2]
  have top : F.lt x y = Bool.true → y - x = F.pinf → Refined (.b (F.lt x y)) (.f (R.step (y - x) (F.fin R.a))) (.f (R.step (y - x) (F.fin R.b))) := by
    intro h e
    rw [h, e, p1, p2]
    exact ⟨_, _, _, rfl, rfl, rfl, by simp only [Closer, if_true]; norm_num⟩
  have bot : F.lt x y = Bool.false → y - x = F.ninf → Refined (.b (F.lt x y)) (.f (R.step (y - x) (F.fin R.a))) (.f (R.step (y - x) (F.fin R.b))) := by
    intro h e
    rw [h, e, n1, n2]
    exact ⟨_, _, _, rfl, rfl, rfl, by simp only [Closer, Bool.false_eq_true, if_false]; norm_num⟩
  have non : F.lt x y = Bool.false → y - x = F.nan → (F.lt x y = Bool.false ∧ Truthy.f (R.step (y - x) (F.fin R.a)) = .f F.nan ∧
      Truthy.f (R.step (y - x) (F.fin R.b)) = .f F.nan) := by
    intro h e
    rw [e, m1, m2]; exact ⟨h, rfl, rfl⟩
  cases x with
  | nan => exact .inl (non (by simp) (by simp))
  | fin x =>
    cases y with
    | nan => exact .inl (non (by simp) (by simp))
    | fin y =>
      right
      rw [F.fin_sub, h1 _ _ R.pos, h1 _ _ hb]
      exact ⟨_, _, _, rfl, rfl, rfl, closer_step hs R.pos R.le _ _ (fun h => by simp; linarith) (fun h => by simp; linarith)⟩
    | pinf => exact .inr (top rfl rfl)
    | ninf => exact .inr (bot rfl rfl)
  | pinf =>
    cases y with
    | nan => exact .inl (non (by simp) (by simp))
    | fin y => exact .inr (bot rfl rfl)
    | pinf => exact .inl (non rfl rfl)
    | ninf => exact .inr (bot rfl rfl)
  | ninf =>
    cases y with
    | nan => exact .inl (non (by simp) (by simp))
    | fin y => exact .inr (top rfl rfl)
    | pinf => exact .inr (top rfl rfl)
    | ninf => exact .inl (non rfl rfl)

theorem Refined.segTest (tol x y : ℝ) : Refined (segTest R.E (F.fin tol) R.ap R.kw (F.fin x) (F.fin y))
    (segTest R.E₁ (F.fin tol) R.ap₁ R.kw₁ (F.fin x) (F.fin y)) (segTest R.E₂ (F.fin tol) R.ap₂ R.kw₂ (F.fin x) (F.fin y)) := by
  by_cases hy : y = 0
  · subst hy
    have hb := R.pos.trans_le R.le
    obtain ⟨s, hs, h1, h2⟩ := R.good
    obtain ⟨p1, n1, m1⟩ := h2 R.a R.pos
    obtain ⟨p2, n2, m2⟩ := h2 R.b hb
    refine ⟨_, _, _, segTest_hard R.hard _ _ _ _, segTest_soft R.soft₁ (kw := R.kw₁) (s := s R.a) (fun x => h1 _ x R.pos) p1 n1 _ _ _,
      segTest_soft R.soft₂ (kw := R.kw₂) (s := s R.b) (fun x => h1 _ x hb) p2 n2 _ _ _, ?_⟩
    simp [Closer]
  · rw [segTest_ne _ _ _ _ _ _ hy, segTest_ne _ _ _ _ _ _ hy, segTest_ne _ _ _ _ _ _ hy]
    simp only [F.fin_neg, F.one_eq, F.fin_add]
    exact (Refined.ge R _ _).and R (Refined.le R _ _)

theorem Refined.intersect (p1 p2 p3 p4 : Pt) (tol : ℝ) :
    Refined (segmentsIntersect R.E (V2.fin p1) (V2.fin p2) (V2.fin p3) (V2.fin p4) (F.fin tol) R.ap R.kw)
      (segmentsIntersect R.E₁ (V2.fin p1) (V2.fin p2) (V2.fin p3) (V2.fin p4) (F.fin tol) R.ap₁ R.kw₁)
      (segmentsIntersect R.E₂ (V2.fin p1) (V2.fin p2) (V2.fin p3) (V2.fin p4) (F.fin tol) R.ap₂ R.kw₂) := by
  rw [segmentsIntersect_fin, segmentsIntersect_fin, segmentsIntersect_fin]
  exact (Refined.segTest R _ _ _).and R (Refined.segTest R _ _ _)

theorem Refined.shape_on (sh : Shape) (q : Pt) :
    Refined (sh.obj.interact.contains R.E R.ap R.kw (sh.obj.interact.toParam (V2.fin q)))
      (sh.obj.interact.contains R.E₁ R.ap₁ R.kw₁ (sh.obj.interact.toParam (V2.fin q)))
      (sh.obj.interact.contains R.E₂ R.ap₂ R.kw₂ (sh.obj.interact.toParam (V2.fin q))) := by
  have key : ∀ o d : Pt, Refined ((Wall.ofPts o d).contains R.E R.ap R.kw (F.fin (rpar o d q)))
      ((Wall.ofPts o d).contains R.E₁ R.ap₁ R.kw₁ (F.fin (rpar o d q))) ((Wall.ofPts o d).contains R.E₂ R.ap₂ R.kw₂ (F.fin (rpar o d q))) := by
    intro o d
    simp only [Wall.contains, F.zero_eq, F.one_eq]
    exact (Refined.ge R _ _).and R (Refined.le R _ _)
  cases sh with
  | wall o d => simpa [Shape.obj, Obj.interact, Wall.interact, toParam_fin] using key o d
  | ris o d φ => simpa [Shape.obj, Obj.interact, RIS.interact, Wall.interact, toParam_fin] using key o d
  | vertex p => exact Refined.true R

theorem Refined.shape_hit (sh : Shape) (patch : ℝ) (a b : Pt) :
    Refined (sh.obj.interact.intersects R.E R.ap R.kw (F.fin patch) (V2.fin a) (V2.fin b))
      (sh.obj.interact.intersects R.E₁ R.ap₁ R.kw₁ (F.fin patch) (V2.fin a) (V2.fin b))
      (sh.obj.interact.intersects R.E₂ R.ap₂ R.kw₂ (F.fin patch) (V2.fin a) (V2.fin b)) := by
  have key : ∀ o d : Pt, Refined ((Wall.ofPts o d).intersects R.E R.ap R.kw (F.fin patch) (V2.fin a) (V2.fin b))
      ((Wall.ofPts o d).intersects R.E₁ R.ap₁ R.kw₁ (F.fin patch) (V2.fin a) (V2.fin b))
      ((Wall.ofPts o d).intersects R.E₂ R.ap₂ R.kw₂ (F.fin patch) (V2.fin a) (V2.fin b)) := by
    intro o d
    rw [patched, patched, patched, segTol_eq]
    exact Refined.intersect R _ _ _ _ _
  cases sh with
  | wall o d => exact key o d
  | ris o d φ => exact key o d
  | vertex p => exact Refined.false R

end Spec

/-- The (segment, object) pairs tested. -/
noncomputable def objPairs (n : ℕ) (os : List Interactable) (candidate : List ℤ) : List (ℕ × Interactable × ℕ) :=
  (List.range (n - 1)).flatMap fun i =>
    (os.zipIdx.filter fun oj =>
      !(((oj.2 : ℤ) == (-1 :: candidate ++ [-1]).getD i 0) || ((oj.2 : ℤ) == (-1 :: candidate ++ [-1]).getD (i + 1) 0))).map fun oj => (i, oj)

theorem hitVals_pairs (p : Path) (E : Env) (os : List Interactable) (candidate : List ℤ) (patch : F) (ap kw) :
    hitVals p E os candidate patch ap kw =
      (objPairs p.xys.length os candidate).map fun x => x.2.1.intersects E ap kw patch (nth p.xys x.1) (nth p.xys (x.1 + 1)) := by
  unfold hitVals objPairs
  rw [List.map_flatMap]
  congr 1
  funext i
  rw [List.map_map]
  rfl

theorem mem_objPairs {n : ℕ} {os : List Interactable} {candidate : List ℤ} {x : ℕ × Interactable × ℕ}
    (h : x ∈ objPairs n os candidate) : x.1 + 1 < n ∧ x.2.1 ∈ os := by
  obtain ⟨i, o, j⟩ := x
  simp only [objPairs, List.mem_flatMap, List.mem_range, List.mem_map, List.mem_filter] at h
  obtain ⟨i', hi, ⟨o', j'⟩, ⟨h1, -⟩, h4⟩ := h
  simp only [Prod.mk.injEq] at h4
  obtain ⟨rfl, rfl, rfl⟩ := h4
  exact ⟨by simp only; omega, List.mem_of_getElem? (List.mem_zipIdx_iff_getElem?.mp h1)⟩

end DiffeRT2d
