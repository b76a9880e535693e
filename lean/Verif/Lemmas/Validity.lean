import Verif.Lemmas.Geometry
import Verif.Model.Paths

/-! Folds used by `on_objects`, `intersects_with_objects`, `is_valid`. -/

namespace DiffeRT2d
open Classical Spec

/-- The values `on_objects` combines. -/
noncomputable def onVals (p : Path) (E : Env) (objects : List Interactable) (ap : Option Bool) (kw : ActKw) :
    List Truthy :=
  objects.zipIdx.map fun oi => oi.1.contains E ap kw (oi.1.toParam (nth p.xys (oi.2 + 1)))

/-- The values `intersects_with_objects` combines, for segment `i`. -/
noncomputable def hitVals (p : Path) (E : Env) (objects : List Interactable) (candidate : List ℤ)
    (patch : F) (ap : Option Bool) (kw : ActKw) : List Truthy :=
  (List.range (p.xys.length - 1)).flatMap fun i =>
    (objects.zipIdx.filter fun oj =>
      !(((oj.2 : ℤ) == (-1 :: candidate ++ [-1]).getD i 0) ||
        ((oj.2 : ℤ) == (-1 :: candidate ++ [-1]).getD (i + 1) 0))).map fun oj =>
      oj.1.intersects E ap kw patch (nth p.xys i) (nth p.xys (i + 1))

theorem onObjects_eq (p : Path) (E : Env) (objects : List Interactable) (ap : Option Bool) (kw : ActKw) :
    p.onObjects E objects ap kw = (onVals p E objects ap kw).foldl (logicalAnd E ap) (trueValue E ap) := by
  simp [Path.onObjects, onVals, List.foldl_map]

theorem foldl_where {α : Type*} (g : α → Bool) (f : Truthy → α → Truthy) (xs : List α) (z : Truthy) :
    xs.foldl (fun acc x => F.where_ (g x) acc (f acc x)) z = (xs.filter fun x => !g x).foldl f z := by
  induction xs generalizing z with
  | nil => rfl
  | cons x xs ih =>
    simp only [List.foldl_cons, ih]
    cases h : g x <;> simp [h, F.where_]

theorem intersects_eq (p : Path) (E : Env) (objects : List Interactable) (candidate : List ℤ)
    (patch : F) (ap : Option Bool) (kw : ActKw) (hlen : p.xys.length ≤ candidate.length + 2) :
    p.intersectsWithObjects E objects candidate patch ap kw =
      .ok ((hitVals p E objects candidate patch ap kw).foldl (logicalOr E ap) (falseValue E ap)) := by
  unfold Path.intersectsWithObjects hitVals
  have : ¬ (objects ≠ [] ∧ (-1 :: candidate ++ [-1]).length < p.xys.length) := by
    rintro ⟨-, h⟩; simp at h; omega
  simp only [this, if_false]
  rw [List.foldl_flatMap]
  congr 2
  funext acc i
  rw [foldl_where, List.foldl_map]

/-! ### Hard mode -/

theorem foldl_and_hard {E : Env} {ap : Option Bool} (h : Hard E ap) (xs : List Truthy) (z : Bool) :
    xs.foldl (logicalAnd E ap) (.b z) = .b (z && xs.all Truthy.toBool) := by
  induction xs generalizing z with
  | nil => simp
  | cons x xs ih =>
    have : logicalAnd E ap (.b z) x = .b (z && x.toBool) := by simp [logicalAnd, h.eq, Truthy.toBool]
    rw [List.foldl_cons, this, ih, List.all_cons, Bool.and_assoc]

theorem foldl_or_hard {E : Env} {ap : Option Bool} (h : Hard E ap) (xs : List Truthy) (z : Bool) :
    xs.foldl (logicalOr E ap) (.b z) = .b (z || xs.any Truthy.toBool) := by
  induction xs generalizing z with
  | nil => simp
  | cons x xs ih =>
    have : logicalOr E ap (.b z) x = .b (z || x.toBool) := by simp [logicalOr, h.eq, Truthy.toBool]
    rw [List.foldl_cons, this, ih, List.any_cons, Bool.or_assoc]

/-! ### Approximate mode -/

theorem foldl_and_soft {E : Env} {ap : Option Bool} (h : Soft E ap) (xs : List Truthy) (z : F) :
    xs.foldl (logicalAnd E ap) (.f z) = .f (F.minOf z (xs.map Truthy.toF)) := by
  unfold F.minOf
  induction xs generalizing z with
  | nil => rfl
  | cons x xs ih =>
    have : logicalAnd E ap (.f z) x = .f (F.min z x.toF) := by
      simp only [logicalAnd, h.eq, if_true]; cases x <;> rfl
    rw [List.foldl_cons, this, ih]; rfl

theorem foldl_or_soft {E : Env} {ap : Option Bool} (h : Soft E ap) (xs : List Truthy) (z : F) :
    xs.foldl (logicalOr E ap) (.f z) = .f (F.maxOf z (xs.map Truthy.toF)) := by
  unfold F.maxOf
  induction xs generalizing z with
  | nil => rfl
  | cons x xs ih =>
    have : logicalOr E ap (.f z) x = .f (F.max z x.toF) := by
      simp only [logicalOr, h.eq, if_true]; cases x <;> rfl
    rw [List.foldl_cons, this, ih]; rfl

/-- A truth value that is a degree in `[0,1]` or NaN. -/
def DegNan (x : F) : Prop := x = F.nan ∨ ∃ r : ℝ, x = F.fin r ∧ 0 ≤ r ∧ r ≤ 1

theorem DegNan.min {x y : F} (hx : DegNan x) (hy : DegNan y) : DegNan (F.min x y) := by
  rcases hx with rfl | ⟨r, rfl, h0, h1⟩
  · left; simp [F.min, F.isNan]
  rcases hy with rfl | ⟨s, rfl, h2, h3⟩
  · left; simp [F.min, F.isNan]
  · right; exact ⟨Min.min r s, by simp, le_min h0 h2, (min_le_left _ _).trans h1⟩

theorem DegNan.max {x y : F} (hx : DegNan x) (hy : DegNan y) : DegNan (F.max x y) := by
  rcases hx with rfl | ⟨r, rfl, h0, h1⟩
  · left; simp [F.max, F.isNan]
  rcases hy with rfl | ⟨s, rfl, h2, h3⟩
  · left; simp [F.max, F.isNan]
  · right; exact ⟨Max.max r s, by simp, h0.trans (le_max_left _ _), max_le h1 h3⟩

theorem DegNan.minOf {z : F} {xs : List F} (hz : DegNan z) (hx : ∀ x ∈ xs, DegNan x) :
    DegNan (F.minOf z xs) := by
  unfold F.minOf
  induction xs generalizing z with
  | nil => exact hz
  | cons x xs ih =>
    exact ih (hz.min (hx x (by simp))) (fun y hy => hx y (by simp [hy]))

theorem DegNan.maxOf {z : F} {xs : List F} (hz : DegNan z) (hx : ∀ x ∈ xs, DegNan x) :
    DegNan (F.maxOf z xs) := by
  unfold F.maxOf
  induction xs generalizing z with
  | nil => exact hz
  | cons x xs ih =>
    exact ih (hz.max (hx x (by simp))) (fun y hy => hx y (by simp [hy]))

theorem DegNan.of_fin {r : ℝ} (h0 : 0 ≤ r) (h1 : r ≤ 1) : DegNan (F.fin r) := .inr ⟨r, rfl, h0, h1⟩

theorem DegNan.one_sub {x : F} (hx : DegNan x) : DegNan (1 - x) := by
  rcases hx with rfl | ⟨r, rfl, h0, h1⟩
  · left; rfl
  · right; exact ⟨1 - r, by simp, by linarith, by linarith⟩

theorem F.minOf_nan {z : F} {xs : List F} (h : z = F.nan ∨ F.nan ∈ xs) : F.minOf z xs = F.nan := by
  unfold F.minOf
  have habs : ∀ xs : List F, xs.foldl F.min F.nan = F.nan := by
    intro xs
    induction xs with
    | nil => rfl
    | cons x xs ih => simpa [F.min, F.isNan] using ih
  induction xs generalizing z with
  | nil => simpa using h
  | cons x xs ih =>
    rcases h with rfl | h
    · exact habs _
    · rw [List.foldl_cons]
      rcases List.mem_cons.mp h with e | e
      · subst e
        have : F.min z F.nan = F.nan := by simp [F.min, F.isNan]
        rw [this]; exact habs _
      · exact ih (.inr e)

/-- `activation` of any float under good settings. -/
theorem Spec.GoodKw.degNan {kw : ActKw} (h : GoodKw kw) (x : F) : DegNan (activation kw x) := by
  obtain ⟨s, h1, h2, h3, h4, h5, -⟩ := h.real
  cases x with
  | nan => exact .inl h4
  | pinf => rw [h2]; exact .of_fin zero_le_one le_rfl
  | ninf => rw [h3]; exact .of_fin le_rfl zero_le_one
  | fin x => rw [h1]; exact .of_fin (h5 x).1 (h5 x).2

/-! ### `is_valid` -/

theorem logicalAll_hard {E : Env} {ap : Option Bool} (h : Hard E ap) (xs : List Truthy) :
    logicalAll E ap xs = .ok (.b (xs.all Truthy.toBool)) := by simp [logicalAll, h.eq]

theorem isValid_hard (p : Path) {E : Env} {ap : Option Bool} (h : Hard E ap) (objects : List Interactable)
    (candidate : List ℤ) (inter : List Interactable) (tol patch : F) (kw : ActKw)
    (hlen : p.xys.length ≤ candidate.length + 2) :
    p.isValid E objects candidate inter tol patch ap kw =
      .ok (.b ((onVals p E inter ap kw).all Truthy.toBool &&
        (!(hitVals p E objects candidate patch ap kw).any Truthy.toBool && F.lt p.loss tol))) := by
  unfold Path.isValid
  rw [intersects_eq _ _ _ _ _ _ _ hlen, onObjects_eq]
  have t : trueValue E ap = .b true := by simp [trueValue, h.eq]
  have f : falseValue E ap = .b false := by simp [falseValue, h.eq]
  rw [t, f, foldl_and_hard h, foldl_or_hard h]
  simp only [bind, Except.bind, logicalAll_hard h, pure, Except.pure, Truthy.nanToNum]
  simp [logicalNot, less, h.eq, Truthy.toBool]

theorem isValid_soft (p : Path) {E : Env} {ap : Option Bool} (h : Soft E ap) (objects : List Interactable)
    (candidate : List ℤ) (inter : List Interactable) (tol patch : F) (kw : ActKw)
    (hlen : p.xys.length ≤ candidate.length + 2) :
    p.isValid E objects candidate inter tol patch ap kw =
      .ok (.f (F.minOf (F.minOf 1 ((onVals p E inter ap kw).map Truthy.toF))
        [1 - F.maxOf 0 ((hitVals p E objects candidate patch ap kw).map Truthy.toF),
          activation kw (tol - p.loss)]).nanToNum) := by
  unfold Path.isValid
  rw [intersects_eq _ _ _ _ _ _ _ hlen, onObjects_eq]
  have t : trueValue E ap = .f 1 := by simp [trueValue, h.eq]
  have f : falseValue E ap = .f 0 := by simp [falseValue, h.eq]
  rw [t, f, foldl_and_soft h, foldl_or_soft h]
  simp only [bind, Except.bind, logicalAll, h.eq, if_true, pure, Except.pure, logicalNot, less, jnpMin,
    List.all_cons, Truthy.isB, Bool.false_and, Bool.false_eq_true, if_false, Truthy.nanToNum,
    List.map_cons, List.map_nil, Truthy.toF]

/-! ### Membership -/

theorem nth_eq {xys : List (V2 F)} {i : ℕ} {p : V2 F} (h : xys[i]? = some p) : nth xys i = p := by
  obtain ⟨hlt, he⟩ := List.getElem?_eq_some_iff.mp h
  have : min i (xys.length - 1) = i := by omega
  rw [nth, this]; simp [List.getD_eq_getElem?_getD, h]

theorem mem_onVals {p : Path} {E : Env} {objects : List Interactable} {ap : Option Bool} {kw : ActKw}
    (hlen : objects.length + 1 ≤ p.xys.length) {v : Truthy} :
    v ∈ onVals p E objects ap kw ↔ ∃ i o q, objects[i]? = some o ∧ p.xys[i + 1]? = some q ∧
      v = o.contains E ap kw (o.toParam q) := by
  simp only [onVals, List.mem_map, Prod.exists, List.mem_zipIdx_iff_getElem?]
  constructor
  · rintro ⟨o, i, h, rfl⟩
    obtain ⟨hlt, -⟩ := List.getElem?_eq_some_iff.mp h
    have hq : p.xys[i + 1]? = some (p.xys[i + 1]'(by omega)) := List.getElem?_eq_getElem _
    exact ⟨i, o, _, h, hq, by rw [nth_eq hq]⟩
  · rintro ⟨i, o, q, h, hq, rfl⟩
    exact ⟨o, i, h, by rw [nth_eq hq]⟩

theorem cand_getD (candidate : List ℤ) (i j : ℕ) (h : i ≤ candidate.length) :
    ((((j : ℤ) == (-1 :: candidate ++ [-1]).getD i 0) = true) ↔ ∃ k, i = k + 1 ∧ candidate[k]? = some (j : ℤ)) ∧
    ((((j : ℤ) == (-1 :: candidate ++ [-1]).getD (i + 1) 0) = true) ↔ candidate[i]? = some (j : ℤ)) := by
  constructor
  · cases i with
    | zero => simp
    | succ k =>
      have hk : k < candidate.length := by omega
      simp [List.getD_eq_getElem?_getD, List.getElem?_append, hk]
      constructor <;> intro e <;> exact e.symm
  · simp only [List.cons_append, List.getD_eq_getElem?_getD, List.getElem?_cons_succ, List.getElem?_append]
    by_cases hk : i < candidate.length
    · simp [hk]; constructor <;> intro e <;> exact e.symm
    · have : i = candidate.length := by omega
      subst this; simp

theorem mem_hitVals {p : Path} {E : Env} {objects : List Interactable} {candidate : List ℤ} {patch : F}
    {ap : Option Bool} {kw : ActKw} (hlen : p.xys.length ≤ candidate.length + 2) {v : Truthy} :
    v ∈ hitVals p E objects candidate patch ap kw ↔
      ∃ (i j : ℕ) (o : Interactable) (a b : V2 F), p.xys[i]? = some a ∧ p.xys[i + 1]? = some b ∧ objects[j]? = some o ∧
        (¬ ∃ k, i = k + 1 ∧ candidate[k]? = some (j : ℤ)) ∧ candidate[i]? ≠ some (j : ℤ) ∧
        v = o.intersects E ap kw patch a b := by
  simp only [hitVals, List.mem_flatMap, List.mem_range, List.mem_map, List.mem_filter, Prod.exists,
    List.mem_zipIdx_iff_getElem?, Bool.not_eq_true', Bool.or_eq_false_iff]
  constructor
  · rintro ⟨i, hi, o, j, ⟨h1, h2, h3⟩, rfl⟩
    have ha : p.xys[i]? = some (p.xys[i]'(by omega)) := List.getElem?_eq_getElem _
    have hb : p.xys[i + 1]? = some (p.xys[i + 1]'(by omega)) := List.getElem?_eq_getElem _
    have hc := cand_getD candidate i j (by omega)
    refine ⟨i, j, o, _, _, ha, hb, h1, ?_, ?_, by rw [nth_eq ha, nth_eq hb]⟩
    · rw [← hc.1, h2]; simp
    · rw [ne_eq, ← hc.2, h3]; simp
  · rintro ⟨i, j, o, a, b, ha, hb, h1, h2, h3, rfl⟩
    obtain ⟨hlt, -⟩ := List.getElem?_eq_some_iff.mp hb
    have hc := cand_getD candidate i j (by omega)
    refine ⟨i, by omega, o, j, ⟨h1, ?_, ?_⟩, by rw [nth_eq ha, nth_eq hb]⟩
    · rw [← hc.1] at h2; simpa using h2
    · rw [ne_eq, ← hc.2] at h3; simpa using h3

end DiffeRT2d
