import Verif.Lemmas.Ieee
import Verif.Props.Validity

/-! # Lemmas about `is_valid` in rounded arithmetic -/

namespace DiffeRT2d
open Classical Spec

variable {A : FloatOps}

theorem lt_min_iff' {a b c : F} : Lt c (F.min a b) ↔ Lt c a ∧ Lt c b := by
  rw [← F.lt_iff, ← F.lt_iff, ← F.lt_iff]
  cases a <;> cases b <;> cases c <;> simp [F.lt, F.min, F.isNan] <;> split_ifs <;> simp_all <;> (try intros) <;> linarith
theorem max_lt_iff' {a b c : F} : Lt (F.max a b) c ↔ Lt a c ∧ Lt b c := by
  rw [← F.lt_iff, ← F.lt_iff, ← F.lt_iff]
  cases a <;> cases b <;> cases c <;> simp [F.lt, F.max, F.isNan] <;> split_ifs <;> simp_all <;> (try intros) <;> linarith
theorem min_lt' {a b c : F} (h : Lt (F.min a b) c) : Lt a c ∨ Lt b c := by
  unfold F.min at h
  split_ifs at h with h1 h2
  · exact absurd rfl h.left
  · exact .inr h
  · exact .inl h
theorem lt_max' {a b c : F} (h : Lt c (F.max a b)) : Lt c a ∨ Lt c b := by
  unfold F.max at h
  split_ifs at h with h1 h2
  · exact absurd rfl h.right
  · exact .inr h
  · exact .inl h
theorem lt_minOf {c z : F} {xs : List F} : Lt c (F.minOf z xs) ↔ Lt c z ∧ ∀ x ∈ xs, Lt c x := by
  unfold F.minOf
  induction xs generalizing z with
  | nil => simp
  | cons x xs ih =>
    rw [List.foldl_cons, ih, lt_min_iff']; simp [and_assoc]
theorem maxOf_lt {c z : F} {xs : List F} : Lt (F.maxOf z xs) c ↔ Lt z c ∧ ∀ x ∈ xs, Lt x c := by
  unfold F.maxOf
  induction xs generalizing z with
  | nil => simp
  | cons x xs ih =>
    rw [List.foldl_cons, ih, max_lt_iff']; simp [and_assoc]
theorem minOf_lt {c z : F} {xs : List F} (h : Lt (F.minOf z xs) c) : Lt z c ∨ ∃ x ∈ xs, Lt x c := by
  unfold F.minOf at h
  induction xs generalizing z with
  | nil => exact .inl h
  | cons x xs ih =>
    rw [List.foldl_cons] at h
    rcases ih h with h | ⟨y, hy, h⟩
    · rcases min_lt' h with h | h
      · exact .inl h
      · exact .inr ⟨x, by simp, h⟩
    · exact .inr ⟨y, by simp [hy], h⟩
theorem lt_maxOf {c z : F} {xs : List F} (h : Lt c (F.maxOf z xs)) : Lt c z ∨ ∃ x ∈ xs, Lt c x := by
  unfold F.maxOf at h
  induction xs generalizing z with
  | nil => exact .inl h
  | cons x xs ih =>
    rw [List.foldl_cons] at h
    rcases ih h with h | ⟨y, hy, h⟩
    · rcases lt_max' h with h | h
      · exact .inl h
      · exact .inr ⟨x, by simp, h⟩
    · exact .inr ⟨y, by simp [hy], h⟩

/-! ## Comparisons -/

/-- An activated difference above 1/2 means that the difference is positive. -/
theorem sub_above (hA : FloatContract A) {kw : ActKw} (hk : FloatStep kw) {x y : F} (h : Lt (F.fin (1 / 2)) (activation kw (A.sub x y))) : Lt y x := by
  have hn : A.sub x y ≠ F.nan := by intro e; rw [e, hk.nan] at h; exact h.right rfl
  have hd : x - y ≠ F.nan := by intro e; exact hn (by simp [FloatOps.sub, e])
  have hx : x ≠ F.nan := by rintro rfl; exact hd (by simp)
  have hy : y ≠ F.nan := by rintro rfl; exact hd (by simp)
  by_contra hc
  rcases F.sub_le_zero (Spec.Le.of_not_lt hy hx hc) with e | e
  · exact hd e
  · have := e.round hA
    rw [round_fin, hA.zero] at this
    exact h.not_le (hk.low this)
theorem sub_below (hA : FloatContract A) {kw : ActKw} (hk : FloatStep kw) {x y : F} (h : Lt (activation kw (A.sub x y)) (F.fin (1 / 2))) : Lt x y := by
  have hn : A.sub x y ≠ F.nan := by intro e; rw [e, hk.nan] at h; exact h.left rfl
  have hd : x - y ≠ F.nan := by intro e; exact hn (by simp [FloatOps.sub, e])
  have hx : x ≠ F.nan := by rintro rfl; exact hd (by simp)
  have hy : y ≠ F.nan := by rintro rfl; exact hd (by simp)
  by_contra hc
  rcases F.zero_le_sub (Spec.Le.of_not_lt hx hy hc) with e | e
  · exact hd e
  · have := e.round hA
    rw [round_fin, hA.zero] at this
    exact h.not_le (hk.high this)

theorem Spec.Lt.le' {a b : F} (h : Lt a b) : F.le a b = true := by
  rw [← F.lt_iff] at h; simp [F.le, h]
theorem Spec.Lt.not_le' {a b : F} (h : Lt a b) : F.le b a = false := by
  rw [← Bool.not_eq_true, F.le_iff]; exact h.not_le

/-- What the two modes say of the same values: above 1/2 is true, below 1/2 is false. -/
structure Agree (soft hard : Truthy) : Prop where
  above : Lt (F.fin (1 / 2)) soft.toF → hard = .b true
  below : Lt soft.toF (F.fin (1 / 2)) → hard = .b false
  hard : ∃ v, hard = .b v

variable {E E' : Env} {ap ap' : Option Bool} {kw kw' : ActKw}

theorem agree_greaterEqual (hA : FloatContract A) (hk : FloatStep kw) (hs : Soft E ap) (hh : Hard E' ap') (x y : F) :
    Agree (A.greaterEqual E ap kw x y) (A.greaterEqual E' ap' kw' x y) := by
  simp only [FloatOps.greaterEqual, hs.eq, hh.eq, if_true, Bool.false_eq_true, if_false]
  refine ⟨fun h => ?_, fun h => ?_, ⟨_, rfl⟩⟩
  · rw [(sub_above hA hk h).le']
  · rw [(sub_below hA hk h).not_le']
theorem agree_lessEqual (hA : FloatContract A) (hk : FloatStep kw) (hs : Soft E ap) (hh : Hard E' ap') (x y : F) :
    Agree (A.lessEqual E ap kw x y) (A.lessEqual E' ap' kw' x y) := by
  simp only [FloatOps.lessEqual, hs.eq, hh.eq, if_true, Bool.false_eq_true, if_false]
  refine ⟨fun h => ?_, fun h => ?_, ⟨_, rfl⟩⟩
  · rw [(sub_above hA hk h).le']
  · rw [(sub_below hA hk h).not_le']
theorem agree_less (hA : FloatContract A) (hk : FloatStep kw) (hs : Soft E ap) (hh : Hard E' ap') (x y : F) :
    Agree (A.less E ap kw x y) (A.less E' ap' kw' x y) := by
  simp only [FloatOps.less, hs.eq, hh.eq, if_true, Bool.false_eq_true, if_false]
  refine ⟨fun h => ?_, fun h => ?_, ⟨_, rfl⟩⟩
  · rw [(F.lt_iff _ _).mpr (sub_above hA hk h)]
  · have := sub_below hA hk h
    rw [Truthy.b.injEq, ← Bool.not_eq_true, F.lt_iff]
    intro h'
    obtain ⟨a, b, h1, h2, h3⟩ := h'
    obtain ⟨c, d, h4, h5, h6⟩ := this
    rw [h1] at h5; rw [h2] at h4
    obtain rfl := Option.some.inj h4; obtain rfl := Option.some.inj h5
    exact absurd h3 h6.not_gt

/-- A soft value that is a float. -/
def IsF (x : Truthy) : Prop := ∃ v, x = .f v

theorem soft_and (hs : Soft E ap) {x y : Truthy} (hx : IsF x) : logicalAnd E ap x y = .f (F.min x.toF y.toF) := by
  obtain ⟨v, rfl⟩ := hx
  simp [logicalAnd, hs.eq, Truthy.minimum, Truthy.toF]

theorem agree_and (hs : Soft E ap) (hh : Hard E' ap') {x y x' y' : Truthy} (hx : IsF x) (h : Agree x x') (h' : Agree y y') :
    Agree (logicalAnd E ap x y) (logicalAnd E' ap' x' y') ∧ IsF (logicalAnd E ap x y) := by
  obtain ⟨v, rfl⟩ := h.hard
  obtain ⟨w, rfl⟩ := h'.hard
  rw [soft_and hs hx]
  simp only [logicalAnd, hh.eq, Bool.false_eq_true, if_false, Truthy.toBool]
  refine ⟨⟨fun hl => ?_, fun hl => ?_, ⟨_, rfl⟩⟩, ⟨_, rfl⟩⟩
  · obtain ⟨h1, h2⟩ := lt_min_iff'.mp hl
    have e1 := h.above h1; have e2 := h'.above h2
    simp only [Truthy.b.injEq] at e1 e2; simp [e1, e2]
  · rcases min_lt' hl with h1 | h1
    · have e1 := h.below h1; simp only [Truthy.b.injEq] at e1; simp [e1]
    · have e1 := h'.below h1; simp only [Truthy.b.injEq] at e1; simp [e1]

theorem isF_greaterEqual (hs : Soft E ap) (x y : F) : IsF (A.greaterEqual E ap kw x y) := ⟨_, by simp [FloatOps.greaterEqual, hs.eq]; rfl⟩

/-! ## Objects -/

/-- The two modes agree about an object, as far as its tests are decided. -/
structure ObjAgree (E E' : Env) (ap ap' : Option Bool) (kw kw' : ActKw) (o : Interactable) : Prop where
  contains : ∀ q, Agree (o.contains E ap kw (o.toParam q)) (o.contains E' ap' kw' (o.toParam q))
  intersects : ∀ patch a b, Agree (o.intersects E ap kw patch a b) (o.intersects E' ap' kw' patch a b)

theorem agree_segTest (hA : FloatContract A) (hk : FloatStep kw) (hs : Soft E ap) (hh : Hard E' ap') (tol num den : F) :
    Agree (A.segTest E tol ap kw num den) (A.segTest E' tol ap' kw' num den) ∧ IsF (A.segTest E tol ap kw num den) :=
  agree_and hs hh (isF_greaterEqual hs _ _) (agree_greaterEqual hA hk hs hh _ _) (agree_lessEqual hA hk hs hh _ _)

theorem agree_segmentsIntersect (hA : FloatContract A) (hk : FloatStep kw) (hs : Soft E ap) (hh : Hard E' ap') (P1 P2 P3 P4 : V2 F) (tol : F) :
    Agree (A.segmentsIntersect E P1 P2 P3 P4 tol ap kw) (A.segmentsIntersect E' P1 P2 P3 P4 tol ap' kw') :=
  (agree_and hs hh (agree_segTest (kw' := kw') hA hk hs hh _ _ _).2 (agree_segTest hA hk hs hh _ _ _).1 (agree_segTest hA hk hs hh _ _ _).1).1

theorem agree_true (hs : Soft E ap) (hh : Hard E' ap') : Agree (trueValue E ap) (trueValue E' ap') := by
  simp only [trueValue, hs.eq, hh.eq, if_true, Bool.false_eq_true, if_false]
  refine ⟨fun _ => rfl, fun h => ?_, ⟨_, rfl⟩⟩
  rw [Truthy.toF, F.one_eq, Spec.Lt.fin] at h; norm_num at h
theorem agree_false (hs : Soft E ap) (hh : Hard E' ap') : Agree (falseValue E ap) (falseValue E' ap') := by
  simp only [falseValue, hs.eq, hh.eq, if_true, Bool.false_eq_true, if_false]
  refine ⟨fun h => ?_, fun _ => rfl, ⟨_, rfl⟩⟩
  rw [Truthy.toF, F.zero_eq, Spec.Lt.fin] at h; norm_num at h

theorem objAgree_wall (hA : FloatContract A) (hk : FloatStep kw) (hs : Soft E ap) (hh : Hard E' ap') (w : Wall) :
    ObjAgree E E' ap ap' kw kw' (A.wallInteract w) :=
  ⟨fun _ => (agree_and hs hh (isF_greaterEqual hs _ _) (agree_greaterEqual hA hk hs hh _ _) (agree_lessEqual hA hk hs hh _ _)).1,
   fun _ _ _ => agree_segmentsIntersect hA hk hs hh _ _ _ _ _⟩

theorem objAgree (hA : FloatContract A) (hk : FloatStep kw) (hs : Soft E ap) (hh : Hard E' ap') (o : Obj) (ho : ∀ c i b, o ≠ .user c i b) :
    ObjAgree E E' ap ap' kw kw' (A.interact o) := by
  cases o with
  | wall w => exact objAgree_wall hA hk hs hh w
  | ris r => exact ⟨(objAgree_wall hA hk hs hh r.toWall).contains, (objAgree_wall hA hk hs hh r.toWall).intersects⟩
  | vertex v => exact ⟨fun _ => agree_true hs hh, fun _ _ _ => agree_false hs hh⟩
  | user c i b => exact absurd rfl (ho c i b)

/-! ## `is_valid` -/

theorem rounded_isValid_hard (p : Path) (h : Hard E ap) (objects : List Interactable) (candidate : List ℤ) (inter : List Interactable) (tol patch : F) (kw : ActKw)
    (hlen : p.xys.length ≤ candidate.length + 2) :
    A.isValid p E objects candidate inter tol patch ap kw =
      .ok (.b ((onVals p E inter ap kw).all Truthy.toBool &&
        (!(hitVals p E objects candidate patch ap kw).any Truthy.toBool && F.lt p.loss tol))) := by
  unfold FloatOps.isValid
  rw [intersects_eq _ _ _ _ _ _ _ hlen, onObjects_eq]
  have t : trueValue E ap = .b true := by simp [trueValue, h.eq]
  have f : falseValue E ap = .b false := by simp [falseValue, h.eq]
  rw [t, f, foldl_and_hard h, foldl_or_hard h]
  simp only [bind, Except.bind, logicalAll_hard h, pure, Except.pure, Truthy.nanToNum]
  simp [FloatOps.logicalNot, FloatOps.less, h.eq, Truthy.toBool]

theorem rounded_isValid_soft (p : Path) (h : Soft E ap) (objects : List Interactable)
    (candidate : List ℤ) (inter : List Interactable) (tol patch : F) (kw : ActKw)
    (hlen : p.xys.length ≤ candidate.length + 2) :
    A.isValid p E objects candidate inter tol patch ap kw =
      .ok (.f (F.minOf (F.minOf 1 ((onVals p E inter ap kw).map Truthy.toF))
        [A.sub 1 (F.maxOf 0 ((hitVals p E objects candidate patch ap kw).map Truthy.toF)),
          activation kw (A.sub tol p.loss)]).nanToNum) := by
  unfold FloatOps.isValid
  rw [intersects_eq _ _ _ _ _ _ _ hlen, onObjects_eq]
  have t : trueValue E ap = .f 1 := by simp [trueValue, h.eq]
  have f : falseValue E ap = .f 0 := by simp [falseValue, h.eq]
  rw [t, f, foldl_and_soft h, foldl_or_soft h]
  simp only [bind, Except.bind, logicalAll, h.eq, if_true, pure, Except.pure, FloatOps.logicalNot, FloatOps.less, jnpMin,
    List.all_cons, Truthy.isB, Bool.false_and, Bool.false_eq_true, if_false, Truthy.nanToNum,
    List.map_cons, List.map_nil, Truthy.toF]

theorem DegNan.rsub (hA : FloatContract A) {x : F} (hx : DegNan x) : DegNan (A.sub 1 x) := by
  rcases hx with rfl | ⟨r, rfl, h0, h1⟩
  · left; simp [FloatOps.sub]
  · right
    have l0 := hA.mono 0 (1 - r) (by linarith)
    have l1 := hA.mono (1 - r) 1 (by linarith)
    rw [hA.zero] at l0; rw [hA.lit 1 2 (by norm_num) (by norm_num)] at l1
    have e : A.sub 1 (F.fin r) = A.rnd (1 - r) := by simp [FloatOps.sub]
    rw [e]
    cases e : A.rnd (1 - r) with
    | fin s => rw [e] at l0 l1; exact ⟨s, rfl, Spec.Le.fin.mp l0, Spec.Le.fin.mp l1⟩
    | nan => exact absurd e (hA.number _)
    | pinf => rw [e, ← F.le_iff] at l1; simp [F.le, F.lt, F.eq] at l1
    | ninf => rw [e, ← F.le_iff] at l0; simp [F.le, F.lt, F.eq] at l0

theorem not_above (hA : FloatContract A) {x : F} (h : Lt (F.fin (1 / 2)) (A.sub 1 x)) : Lt x (F.fin (1 / 2)) := by
  have hx : x ≠ F.nan := by rintro rfl; exact h.right (by simp [FloatOps.sub])
  by_contra hc
  have h1 := Spec.Le.of_not_lt hx (by simp) hc
  have h2 := (h1.neg.add_const 1).round hA
  rw [F.neg_fin', F.fin_add, round_fin, show -(1 / 2 : ℝ) + 1 = 1 / 2 by norm_num, hA.lit (1 / 2) 1 (by norm_num) (by norm_num)] at h2
  have e : A.sub 1 x = A.round (-x + F.fin 1) := by
    unfold FloatOps.sub; rw [F.add_comm', ← F.one_eq]; rfl
  rw [e] at h
  exact h.not_le h2
theorem not_below (hA : FloatContract A) {x : F} (h : Lt (A.sub 1 x) (F.fin (1 / 2))) : Lt (F.fin (1 / 2)) x := by
  have hx : x ≠ F.nan := by rintro rfl; exact h.left (by simp [FloatOps.sub])
  by_contra hc
  have h1 := Spec.Le.of_not_lt (by simp) hx hc
  have h2 := (h1.neg.add_const 1).round hA
  rw [F.neg_fin', F.fin_add, round_fin, show -(1 / 2 : ℝ) + 1 = 1 / 2 by norm_num, hA.lit (1 / 2) 1 (by norm_num) (by norm_num)] at h2
  have e : A.sub 1 x = A.round (-x + F.fin 1) := by
    unfold FloatOps.sub; rw [F.add_comm', ← F.one_eq]; rfl
  rw [e] at h
  exact h.not_le h2

end DiffeRT2d
