import Verif.Lemmas.GradTame

/-! Validity in approximate mode, under differentiation: where the path does not stand still, finite cotangents stay finite; where it does, NaN is
sent back. -/

namespace DiffeRT2d
open Classical Spec

variable {ι : Type} {i : ι} {E : Env} {ap : Option Bool} {kw : Rev.ActKw ι}

/-- A truth value with finite cotangents. -/
def TameT (t : RevTruthy ι) : Prop := Tame t.toF

/-- A point with finite cotangents. -/
def TamePt (p : V2 (Rev ι)) : Prop := Tame p.x ∧ Tame p.y

/-- A wall with finite cotangents. -/
def TameWall (w : Rev.RWall ι) : Prop := TamePt w.origin ∧ TamePt w.dest

theorem tameT_b (b : Bool) : TameT (.b b : RevTruthy ι) := by
  cases b
  · exact .const_zero
  · exact .const_one

theorem TameT.minimum {x y : RevTruthy ι} (hx : TameT x) (hy : TameT y) : TameT (x.minimum y) := by
  rcases x with x | x <;> rcases y with y | y
  · exact tameT_b _
  · exact Tame.min hx hy
  · exact Tame.min hx hy
  · exact Tame.min hx hy

theorem TameT.maximum {x y : RevTruthy ι} (hx : TameT x) (hy : TameT y) : TameT (x.maximum y) := by
  rcases x with x | x <;> rcases y with y | y
  · exact tameT_b _
  · exact Tame.max hx hy
  · exact Tame.max hx hy
  · exact Tame.max hx hy

theorem TameT.and {x y : RevTruthy ι} (hx : TameT x) (hy : TameT y) : TameT (Rev.logicalAnd E ap x y) := by
  unfold Rev.logicalAnd; split
  · exact hx.minimum hy
  · exact tameT_b _

theorem TameT.or {x y : RevTruthy ι} (hx : TameT x) (hy : TameT y) : TameT (Rev.logicalOr E ap x y) := by
  unfold Rev.logicalOr; split
  · exact hx.maximum hy
  · exact tameT_b _

theorem TameT.not {x : RevTruthy ι} (hx : TameT x) : TameT (Rev.logicalNot E ap x) := by
  unfold Rev.logicalNot; split
  · exact Tame.const_one.sub hx
  · exact tameT_b _

theorem tameT_true : TameT (Rev.trueValue E ap : RevTruthy ι) := by
  unfold Rev.trueValue; split
  · exact .const_one
  · exact tameT_b _

theorem tameT_false : TameT (Rev.falseValue E ap : RevTruthy ι) := by
  unfold Rev.falseValue; split
  · exact .const_zero
  · exact tameT_b _

theorem TameT.ge (hk : TameKw kw) {x y : Rev ι} (hx : Tame x) (hy : Tame y) : TameT (Rev.greaterEqual E ap kw x y) := by
  unfold Rev.greaterEqual; split
  · exact hk.real _ (hx.sub hy)
  · exact tameT_b _

theorem TameT.le (hk : TameKw kw) {x y : Rev ι} (hx : Tame x) (hy : Tame y) : TameT (Rev.lessEqual E ap kw x y) := by
  unfold Rev.lessEqual; split
  · exact hk.real _ (hy.sub hx)
  · exact tameT_b _

theorem TameT.lt (hk : TameKw kw) {x y : Rev ι} (hx : Tame x) (hy : Tame y) : TameT (Rev.less E ap kw x y) := by
  unfold Rev.less; split
  · exact hk.real _ (hy.sub hx)
  · exact tameT_b _

theorem TameT.whereT (c : Bool) {x y : RevTruthy ι} (hx : TameT x) (hy : TameT y) : TameT (Rev.whereTruthy c x y) := by
  rcases x with x | x <;> rcases y with y | y
  · cases c <;> first | exact hx | exact hy
  · cases c <;> first | exact hx | exact hy
  · cases c <;> first | exact hx | exact hy
  · exact Tame.where_ c hx hy

theorem TameT.nanToNum {x : RevTruthy ι} (hx : TameT x) : TameT x.nanToNum := by
  rcases x with x | x
  · exact hx
  · exact Tame.nanToNum hx

theorem TameT.foldl {α : Type} {f : RevTruthy ι → α → RevTruthy ι} (l : List α) (h : ∀ t, ∀ a ∈ l, TameT t → TameT (f t a)) {z : RevTruthy ι} (hz : TameT z) :
    TameT (l.foldl f z) := by
  induction l generalizing z with
  | nil => exact hz
  | cons a l ih => exact ih (fun t a ha => h t a (by simp [ha])) (h z a (by simp) hz)

theorem TamePt.sub {p q : V2 (Rev ι)} (hp : TamePt p) (hq : TamePt q) : TamePt (p - q) := ⟨hp.1.sub hq.1, hp.2.sub hq.2⟩
theorem TamePt.add {p q : V2 (Rev ι)} (hp : TamePt p) (hq : TamePt q) : TamePt (p + q) := ⟨hp.1.add hq.1, hp.2.add hq.2⟩
theorem TamePt.dot {p q : V2 (Rev ι)} (hp : TamePt p) (hq : TamePt q) : Tame (V2.dot p q) := (hp.1.mul hq.1).add (hp.2.mul hq.2)
theorem TamePt.smul {k : Rev ι} {p : V2 (Rev ι)} (hk : Tame k) (hp : TamePt p) : TamePt (V2.smul k p) := ⟨hk.mul hp.1, hk.mul hp.2⟩

theorem eq_zero_iff {x : F} : F.eq x 0 = true ↔ x = F.fin 0 := by
  rw [F.zero_eq]
  cases x <;> simp [F.eq]

theorem segTest_tame (hk : TameKw kw) (tol : ℝ) {num den : Rev ι} (hn : Tame num) (hd : Tame den) : TameT (Rev.segTest E (F.fin tol) ap kw num den) := by
  unfold Rev.segTest
  by_cases h0 : den.val = F.fin 0
  · have hz : F.eq den.val 0 = true := eq_zero_iff.mpr h0
    simp only [hz]
    have hden : Tame (Rev.where_ true (Rev.const 1) den) := Tame.where_ _ .const_one hd
    have hq : Tame (num / Rev.where_ true (Rev.const 1) den) := hn.div hden (by simp [F.where_, F.one_eq])
    have hdead : Dead (Rev.where_ true (Rev.const F.pinf) (num / Rev.where_ true (Rev.const 1) den)) := by
      intro c i
      show (Rev.const F.pinf).pull _ i + (_ / _ : Rev ι).pull (F.where_ true 0 c) i = _
      simp only [F.where_, if_true]
      rw [hq.pull_zero i, Dead.const _ _ i, F.fin_add, add_zero]
    have hv : (Rev.where_ true (Rev.const F.pinf) (num / Rev.where_ true (Rev.const 1) den)).val = F.pinf := rfl
    refine TameT.and ?_ ?_
    · unfold Rev.greaterEqual; split
      · refine hk.far _ (hdead.sub (.const _)) (.inl ?_)
        rw [Rev.val_sub, hv]; rfl
      · exact tameT_b _
    · unfold Rev.lessEqual; split
      · refine hk.far _ ((Dead.const _).sub hdead) (.inr ?_)
        rw [Rev.val_sub, hv]; rfl
      · exact tameT_b _
  · have hz : F.eq den.val 0 = false := by
      by_contra h; exact h0 (eq_zero_iff.mp (by simpa using h))
    simp only [hz]
    have hden : Tame (Rev.where_ false (Rev.const 1) den) := Tame.where_ _ .const_one hd
    have hq : Tame (num / Rev.where_ false (Rev.const 1) den) := hn.div hden (by simpa [F.where_] using h0)
    have ht : Tame (Rev.where_ false (Rev.const F.pinf) (num / Rev.where_ false (Rev.const 1) den)) := hq.where_false fun i => Dead.const _ _ i
    refine TameT.and (TameT.ge hk ht ?_) (TameT.le hk ht ?_)
    · rw [F.fin_neg]; exact .const _
    · rw [F.one_eq, F.fin_add]; exact .const _

theorem intersects_tame (hk : TameKw kw) (patch : ℝ) {w : Rev.RWall ι} (hw : TameWall w) {a b : V2 (Rev ι)} (ha : TamePt a) (hb : TamePt b) :
    TameT (w.intersects E ap kw (F.fin patch) a b) := by
  have ht : TamePt w.t := hw.2.sub hw.1
  have h1 : TamePt (w.origin - V2.smul (Rev.const (F.fin patch)) w.t) := hw.1.sub (ht.smul (.const _))
  have h2 : TamePt (w.dest + V2.smul (Rev.const (F.fin patch)) w.t) := hw.2.add (ht.smul (.const _))
  have hA := h2.sub h1
  have hB := ha.sub hb
  have hC := h1.sub ha
  obtain ⟨τ, hτ⟩ : ∃ τ : ℝ, SEG_TOL = F.fin τ := by unfold SEG_TOL; exact ⟨_, F.ofScientific_eq ..⟩
  unfold Rev.RWall.intersects Rev.segmentsIntersect
  rw [hτ]
  refine TameT.and (segTest_tame hk τ ?_ ?_) (segTest_tame hk τ ?_ ?_)
  · exact (hB.2.mul hC.1).sub (hB.1.mul hC.2)
  · exact (hA.2.mul hB.1).sub (hA.1.mul hB.2)
  · exact (hA.1.mul hC.2).sub (hA.2.mul hC.1)
  · exact (hA.2.mul hB.1).sub (hA.1.mul hB.2)

theorem toParam_tame {w : Rev.RWall ι} (hw : TameWall w) {p : V2 (Rev ι)} (hp : TamePt p) : Tame (w.toParam p) := by
  have ht : TamePt w.t := hw.2.sub hw.1
  unfold Rev.RWall.toParam
  refine Tame.div (ht.dot (hp.sub hw.1)) (Tame.where_ _ .const_one (ht.dot ht)) ?_
  intro h
  simp only [Rev.val_where] at h
  by_cases hz : F.eq (V2.dot w.t w.t).val 0 = true
  · rw [hz] at h; simp [F.where_, F.one_eq] at h
  · rw [Bool.not_eq_true] at hz
    rw [hz] at h
    simp only [F.where_, Bool.false_eq_true, if_false] at h
    rw [eq_zero_iff.mpr h] at hz; cases hz

theorem contains_tame (hk : TameKw kw) {s : Rev ι} (hs : Tame s) : TameT (Rev.RWall.contains E ap kw s) :=
  TameT.and (TameT.ge hk hs .const_zero) (TameT.le hk hs .const_one)

theorem nth_tame {xys : List (V2 (Rev ι))} (h0 : xys ≠ []) (h : ∀ p ∈ xys, TamePt p) (k : ℕ) : TamePt (Rev.nth xys k) := by
  have hl : 0 < xys.length := List.length_pos_iff.mpr h0
  have : Nat.min k (xys.length - 1) < xys.length := lt_of_le_of_lt (Nat.min_le_right _ _) (by omega)
  unfold Rev.nth
  rw [List.getD_eq_getElem?_getD, List.getElem?_eq_getElem this]
  exact h _ (List.getElem_mem _)

theorem onObjects_tame (hk : TameKw kw) {p : Rev.RPath ι} (h0 : p.xys ≠ []) (h : ∀ q ∈ p.xys, TamePt q) {ws : List (Rev.RWall ι)} (hw : ∀ w ∈ ws, TameWall w) :
    TameT (p.onObjects E ws ap kw) := by
  unfold Rev.RPath.onObjects
  refine TameT.foldl _ (fun t a ha ht => ht.and (contains_tame hk (toParam_tame (hw _ ?_) (nth_tame h0 h _)))) tameT_true
  exact (List.mem_zipIdx' ha).2 ▸ List.getElem_mem _

theorem intersectsWithObjects_tame (hk : TameKw kw) (patch : ℝ) {p : Rev.RPath ι} (h0 : p.xys ≠ []) (h : ∀ q ∈ p.xys, TamePt q) {ws : List (Rev.RWall ι)} (hw : ∀ w ∈ ws, TameWall w)
    {c : List ℤ} {t : RevTruthy ι} (ht : p.intersectsWithObjects E ws c (F.fin patch) ap kw = .ok t) : TameT t := by
  unfold Rev.RPath.intersectsWithObjects at ht
  simp only at ht
  split at ht
  · cases ht
  · rw [← Except.ok.inj ht]
    refine TameT.foldl _ (fun t a _ ht => ?_) tameT_false
    refine TameT.foldl _ (fun t a ha ht => TameT.whereT _ ht (ht.or (intersects_tame hk patch (hw _ ?_) (nth_tame h0 h _) (nth_tame h0 h _)))) ht
    exact (List.mem_zipIdx' ha).2 ▸ List.getElem_mem _

theorem isValid_tame (hk : TameKw kw) (tol patch : ℝ) {p : Rev.RPath ι} (h0 : p.xys ≠ []) (h : ∀ q ∈ p.xys, TamePt q) (hl : Tame p.loss)
    {ws : List (Rev.RWall ι)} (hw : ∀ w ∈ ws, TameWall w) {ins : List (Rev.RWall ι)} (hi : ∀ w ∈ ins, TameWall w) {c : List ℤ} {t : RevTruthy ι}
    (ht : p.isValid E ws c ins (F.fin tol) (F.fin patch) ap kw = .ok t) : TameT t := by
  unfold Rev.RPath.isValid at ht
  cases h1 : p.intersectsWithObjects E ws c (F.fin patch) ap kw with
  | error e => rw [h1] at ht; cases ht
  | ok u =>
    rw [h1] at ht
    simp only [Bind.bind, Except.bind, Pure.pure, Except.pure] at ht
    have hu := intersectsWithObjects_tame hk patch h0 h hw h1
    have ho := onObjects_tame (E := E) (ap := ap) hk h0 h hi
    have hL : TameT (Rev.less E ap kw p.loss (Rev.const (F.fin tol))) := TameT.lt hk hl (.const _)
    cases h2 : Rev.logicalAll E ap [p.onObjects E ins ap kw, Rev.logicalNot E ap u, Rev.less E ap kw p.loss (Rev.const (F.fin tol))] with
    | error e => rw [h2] at ht; cases ht
    | ok r =>
      rw [h2] at ht
      rw [← Except.ok.inj ht]
      refine TameT.nanToNum ?_
      unfold Rev.logicalAll at h2
      split at h2
      · simp only at h2
        split at h2
        · rw [← Except.ok.inj h2]; exact tameT_b _
        · rw [← Except.ok.inj h2]
          refine Tame.minOf fun y hy => ?_
          simp only [List.map_cons, List.map_nil, List.mem_cons, List.not_mem_nil, or_false] at hy
          rcases hy with rfl | rfl | rfl
          · exact ho
          · exact hu.not
          · exact hL
      · rw [← Except.ok.inj h2]; exact tameT_b _

/-! ### The loss -/

theorem normalize_tame {v : V2 (Rev ι)} (hv : TamePt v) (h : Rev.valV v ≠ V2.fin ⟨0, 0⟩) : TamePt (Rev.normalize v).1 := by
  have hs : Tame (v.x * v.x + v.y * v.y) := (hv.1.mul hv.1).add (hv.2.mul hv.2)
  obtain ⟨x, -, hx, -⟩ := id hv.1
  obtain ⟨y, -, hy, -⟩ := id hv.2
  have hval : (v.x * v.x + v.y * v.y).val = F.fin (x * x + y * y) := by simp [hx, hy]
  have hpos : 0 < x * x + y * y := by
    by_contra hn
    have h1 : x = 0 := by nlinarith [mul_self_nonneg x, mul_self_nonneg y]
    have h2 : y = 0 := by nlinarith [mul_self_nonneg x, mul_self_nonneg y]
    apply h
    unfold Rev.valV V2.fin
    rw [hx, hy, h1, h2]
  have hn : Tame (Rev.norm v) := hs.sqrt fun w hw => by rw [hval] at hw; rw [← F.fin.inj hw]; exact hpos
  have hnv : (Rev.norm v).val = F.fin (Real.sqrt (x * x + y * y)) := by
    show F.sqrt (v.x * v.x + v.y * v.y).val = _
    rw [hval, F.sqrt_fin hpos.le]
  have hne : (Rev.norm v).val ≠ F.fin 0 := by
    rw [hnv]; intro e; exact (Real.sqrt_pos.mpr hpos).ne' (F.fin.inj e)
  have hz : F.eq (Rev.norm v).val 0 = false := by
    by_contra h'; exact hne (eq_zero_iff.mp (by simpa using h'))
  have hl : Tame (Rev.where_ false (Rev.const 1) (Rev.norm v)) := Tame.where_ _ .const_one hn
  unfold Rev.normalize
  simp only [hz]
  exact ⟨hv.1.div hl (by simpa [F.where_] using hne), hv.2.div hl (by simpa [F.where_] using hne)⟩

theorem normal_tame {w : Rev.RWall ι} (hw : TameWall w) (h : w.val.origin ≠ w.val.dest) : TamePt w.normal := by
  have ht : TamePt w.t := hw.2.sub hw.1
  refine normalize_tame ⟨ht.2, ht.1.neg⟩ fun e => h ?_
  obtain ⟨⟨a, -, ha, -⟩, ⟨b, -, hb, -⟩⟩ := id hw.1
  obtain ⟨⟨c, -, hc, -⟩, ⟨d, -, hd, -⟩⟩ := id hw.2
  have h1 : (w.dest.y - w.origin.y).val = F.fin 0 := congrArg V2.x e
  have h2 : (-(w.dest.x - w.origin.x)).val = F.fin 0 := congrArg V2.y e
  simp only [Rev.val_sub, Rev.val_neg, ha, hb, hc, hd, F.fin_sub, F.fin_neg] at h1 h2
  have h1 := F.fin.inj h1
  have h2 := F.fin.inj h2
  simp only [Rev.RWall.val, Rev.valV, ha, hb, hc, hd]
  congr 2 <;> linarith

theorem valV_ne_zero {a b : V2 (Rev ι)} {p q : Pt} (ha : Rev.valV a = V2.fin p) (hb : Rev.valV b = V2.fin q) (h : p ≠ q) : Rev.valV (b - a) ≠ V2.fin ⟨0, 0⟩ := by
  have e : Rev.valV (b - a) = Rev.valV b - Rev.valV a := rfl
  rw [e, ha, hb, V2.fin_sub]
  intro e
  have e := V2.fin_inj.mp e
  apply h
  have h1 : q.x - p.x = 0 := congrArg V2.x e
  have h2 : q.y - p.y = 0 := congrArg V2.y e
  ext <;> linarith

theorem evaluate_tame {w : Rev.RWall ι} (hw : TamePt w.normal) {a b c : V2 (Rev ι)} (ha : TamePt a) (hb : TamePt b) (hc : TamePt c)
    (h1 : Rev.valV (b - a) ≠ V2.fin ⟨0, 0⟩) (h2 : Rev.valV (c - b) ≠ V2.fin ⟨0, 0⟩) : Tame (w.evaluate a b c) := by
  have hi := normalize_tame (hb.sub ha) h1
  have hr := normalize_tame (hc.sub hb) h2
  have h2' : Tame (Rev.const 2 : Rev ι) := Tame.const 2
  have he := hr.sub (hi.sub (hw.smul (h2'.mul (hi.dot hw))))
  exact he.dot he

theorem pathLoss_tame {ws : List (Rev.RWall ι)} (hw : ∀ w ∈ ws, TamePt w.normal) {xys : List (V2 (Rev ι))} {pts : List Pt} (h : ∀ q ∈ xys, TamePt q)
    (hv : xys.map Rev.valV = pts.map V2.fin) (hlen : pts.length = ws.length + 2) (hn : ws ≠ [] → NoPause pts) {l : Rev ι} (hl : Tame l) :
    Tame (Rev.pathLoss l ws xys) := by
  induction ws generalizing l xys pts with
  | nil => exact hl
  | cons w ws ih =>
    have hnp := hn (by simp)
    have hle : xys.length = (w :: ws).length + 2 := by simpa [hlen] using congrArg List.length hv
    match xys, pts, hle, hlen, hv, h, hnp with
    | a :: b :: c :: xys, p :: q :: r :: pts, _, hlen, hv, h, hnp =>
      simp only [List.map_cons, List.cons.injEq] at hv
      obtain ⟨va, vb, vc, vr⟩ := hv
      refine ih (fun w h => hw w (by simp [h])) (fun q hq => h q (by simp at hq ⊢; tauto)) (pts := q :: r :: pts) (by simp [vb, vc, vr]) (by simpa using hlen)
        (fun _ i a b ha hb => hnp (i + 1) a b ha hb) (hl.add (evaluate_tame (hw w (by simp)) (h a (by simp)) (h b (by simp)) (h c (by simp)) ?_ ?_))
      · exact valV_ne_zero va vb (hnp 0 p q rfl rfl)
      · exact valV_ne_zero vb vc (hnp 1 q r rfl rfl)

/-! ### Standing still -/

theorem normalize_nans {v : V2 (Rev ι)} (hv : Rev.valV v = V2.fin ⟨0, 0⟩) (h : PassesPt i v) : Nans i (Rev.normalize v).1.x := by
  exact Nans.div_right (Nans.where_right _ (norm_zero hv h))

theorem evaluate_nans_left {w : Rev.RWall ι} {a b c : V2 (Rev ι)} (h : Rev.valV (b - a) = V2.fin ⟨0, 0⟩) (hp : PassesPt i (b - a)) : Nans i (w.evaluate a b c) :=
  Nans.add_left (Nans.mul_left (Nans.sub_right (Nans.sub_left (normalize_nans h hp))))

theorem evaluate_nans_right {w : Rev.RWall ι} {a b c : V2 (Rev ι)} (h : Rev.valV (c - b) = V2.fin ⟨0, 0⟩) (hp : PassesPt i (c - b)) : Nans i (w.evaluate a b c) :=
  Nans.add_left (Nans.mul_left (Nans.sub_left (normalize_nans h hp)))

theorem pathLoss_nans_acc {ws : List (Rev.RWall ι)} {xys : List (V2 (Rev ι))} (hlen : xys.length = ws.length + 2) {l : Rev ι} (h : Nans i l) :
    Nans i (Rev.pathLoss l ws xys) := by
  induction ws generalizing l xys with
  | nil => exact h
  | cons w ws ih =>
    match xys, hlen with
    | a :: b :: c :: xys, hlen => exact ih (by simpa using hlen) h.add_left

/-- A step of length zero makes the loss send NaN back. -/
theorem pathLoss_nans {ws : List (Rev.RWall ι)} (h0 : ws ≠ []) {xys : List (V2 (Rev ι))} (hlen : xys.length = ws.length + 2) {k : ℕ} {a b : V2 (Rev ι)}
    (ha : xys[k]? = some a) (hb : xys[k + 1]? = some b) (hz : Rev.valV (b - a) = V2.fin ⟨0, 0⟩) (hp : PassesPt i (b - a)) (l : Rev ι) :
    Nans i (Rev.pathLoss l ws xys) := by
  induction ws generalizing l xys k with
  | nil => exact absurd rfl h0
  | cons w ws ih =>
    match xys, hlen with
    | p :: q :: r :: xys, hlen =>
      simp only [Rev.pathLoss]
      match k with
      | 0 =>
        simp only [List.getElem?_cons_zero, List.getElem?_cons_succ, zero_add, Option.some.injEq] at ha hb
        subst ha hb
        exact pathLoss_nans_acc (by simpa using hlen) (Nans.add_right (evaluate_nans_left hz hp))
      | k + 1 =>
        simp only [List.getElem?_cons_succ] at ha hb
        by_cases hws : ws = []
        · subst hws
          have hx : xys = [] := by simpa using hlen
          subst hx
          have hk : k = 0 := by
            have := (List.getElem?_eq_some_iff.mp hb).1
            simp at this; omega
          subst hk
          simp at ha hb
          subst ha hb
          exact pathLoss_nans_acc (by simp) (Nans.add_right (evaluate_nans_right hz hp))
        · exact ih hws (by simpa using hlen) (by simpa using ha) (by simpa using hb) _

/-- A loss that sends NaN back makes validity do so, in approximate mode. -/
theorem isValid_nans (hs : Soft E ap) (hk : TameKw kw) {tol patch : F} {p : Rev.RPath ι} {ws ins : List (Rev.RWall ι)} {c : List ℤ} (hl : Nans i p.loss)
    {t : RevTruthy ι} (ht : p.isValid E ws c ins tol patch ap kw = .ok t) : Nans i t.toF := by
  unfold Rev.RPath.isValid at ht
  cases h1 : p.intersectsWithObjects E ws c patch ap kw with
  | error e => rw [h1] at ht; cases ht
  | ok u =>
    rw [h1] at ht
    simp only [Bind.bind, Except.bind, Pure.pure, Except.pure] at ht
    unfold Rev.logicalAll Rev.less at ht
    simp only [hs.eq, if_true] at ht
    rw [if_neg (by simp [RevTruthy.val, Truthy.isB])] at ht
    rw [← Except.ok.inj ht]
    exact Nans.nanToNum (Nans.minOf ⟨_, by simp; right; right; rfl, hk.nans _ i (Nans.sub_right hl)⟩)

end DiffeRT2d
