import Verif.Lemmas.Validity
import Verif.Lemmas.ImageSym
import Verif.Spec.Paths
import Mathlib.Topology.Order.Lattice
import Mathlib.Topology.Algebra.Group.Basic

/-! Validity as a formula over comparisons. -/

namespace DiffeRT2d
open Classical Spec Filter

/-- Formulas over comparisons `0 < x`. -/
inductive Fm where
  | top | bot
  | atom (x : ℝ)
  | and (a b : Fm) | or (a b : Fm)
  | not (a : Fm)

namespace Fm
/-- Truth degree for the activation `s`. -/
noncomputable def eval (s : ℝ → ℝ) : Fm → ℝ
  | top => 1
  | bot => 0
  | atom x => s x
  | and a b => min (a.eval s) (b.eval s)
  | or a b => max (a.eval s) (b.eval s)
  | not a => 1 - a.eval s

/-- Crisp truth value. -/
noncomputable def hv : Fm → Bool
  | top => true
  | bot => false
  | atom x => decide (0 < x)
  | and a b => a.hv && b.hv
  | or a b => a.hv || b.hv
  | not a => !a.hv

/-- No comparison is a tie. -/
def NoTie : Fm → Prop
  | atom x => x ≠ 0
  | and a b => a.NoTie ∧ b.NoTie
  | or a b => a.NoTie ∧ b.NoTie
  | not a => a.NoTie
  | _ => True

theorem eval_range {s : ℝ → ℝ} (hs : ∀ x, 0 ≤ s x ∧ s x ≤ 1) (φ : Fm) : 0 ≤ φ.eval s ∧ φ.eval s ≤ 1 := by
  induction φ with
  | top => simp [eval]
  | bot => simp [eval]
  | atom x => exact hs x
  | and a b iha ihb => exact ⟨le_min iha.1 ihb.1, (min_le_left _ _).trans iha.2⟩
  | or a b iha ihb => exact ⟨iha.1.trans (le_max_left _ _), max_le iha.2 ihb.2⟩
  | not a ih => simp only [eval]; constructor <;> linarith [ih.1, ih.2]

theorem eval_half {s : ℝ → ℝ} (hpos : ∀ x, 1 / 2 < s x ↔ 0 < x) (hneg : ∀ x, s x < 1 / 2 ↔ x < 0) (φ : Fm)
    (h : φ.NoTie) : if φ.hv then 1 / 2 < φ.eval s else φ.eval s < 1 / 2 := by
  induction φ with
  | top => simp only [hv, eval, if_true]; norm_num
  | bot => simp only [hv, eval, Bool.false_eq_true, if_false]; norm_num
  | atom x =>
    simp only [hv, eval, decide_eq_true_eq]
    by_cases hx : 0 < x
    · rw [if_pos hx]; exact (hpos x).mpr hx
    · rw [if_neg hx]; exact (hneg x).mpr (lt_of_le_of_ne (not_lt.mp hx) h)
  | and a b iha ihb =>
    have ha := iha h.1
    have hb := ihb h.2
    simp only [hv, eval]
    by_cases ea : a.hv = true <;> by_cases eb : b.hv = true <;> simp_all
  | or a b iha ihb =>
    have ha := iha h.1
    have hb := ihb h.2
    simp only [hv, eval]
    by_cases ea : a.hv = true <;> by_cases eb : b.hv = true <;> simp_all
  | not a ih =>
    have ha := ih h
    simp only [hv, eval]
    by_cases ea : a.hv = true <;> simp_all <;> linarith

theorem eval_limit {s : ℝ → ℝ → ℝ} (hpos : ∀ x, 0 < x → Tendsto (fun a => s a x) atTop (nhds 1))
    (hneg : ∀ x, x < 0 → Tendsto (fun a => s a x) atTop (nhds 0)) (φ : Fm) (h : φ.NoTie) :
    Tendsto (fun a => φ.eval (s a)) atTop (nhds (if φ.hv then 1 else 0)) := by
  induction φ with
  | top => simp [eval, hv]
  | bot => simp [eval, hv]
  | atom x =>
    simp only [hv, eval, decide_eq_true_eq]
    by_cases hx : 0 < x
    · rw [if_pos hx]; exact hpos x hx
    · rw [if_neg hx]; exact hneg x (lt_of_le_of_ne (not_lt.mp hx) h)
  | and a b iha ihb =>
    have := (iha h.1).min (ihb h.2)
    simp only [hv, eval]
    by_cases ea : a.hv = true <;> by_cases eb : b.hv = true <;> simpa [ea, eb] using this
  | or a b iha ihb =>
    have := (iha h.1).max (ihb h.2)
    simp only [hv, eval]
    by_cases ea : a.hv = true <;> by_cases eb : b.hv = true <;> simpa [ea, eb] using this
  | not a ih =>
    have := (ih h).const_sub 1
    simp only [hv, eval]
    by_cases ea : a.hv = true <;> simpa [ea] using this

theorem eval_eventually {s : ℝ → ℝ → ℝ} (hpos : ∀ x, 0 < x → ∀ᶠ a in atTop, s a x = 1)
    (hneg : ∀ x, x < 0 → ∀ᶠ a in atTop, s a x = 0) (φ : Fm) (h : φ.NoTie) :
    ∀ᶠ a in atTop, φ.eval (s a) = if φ.hv then 1 else 0 := by
  induction φ with
  | top => simp [eval, hv]
  | bot => simp [eval, hv]
  | atom x =>
    simp only [hv, eval, decide_eq_true_eq]
    by_cases hx : 0 < x
    · rw [if_pos hx]; exact hpos x hx
    · rw [if_neg hx]; exact hneg x (lt_of_le_of_ne (not_lt.mp hx) h)
  | and a b iha ihb =>
    filter_upwards [iha h.1, ihb h.2] with x h1 h2
    simp only [hv, eval, h1, h2]
    by_cases ea : a.hv = true <;> by_cases eb : b.hv = true <;> simp [ea, eb]
  | or a b iha ihb =>
    filter_upwards [iha h.1, ihb h.2] with x h1 h2
    simp only [hv, eval, h1, h2]
    by_cases ea : a.hv = true <;> by_cases eb : b.hv = true <;> simp [ea, eb]
  | not a ih =>
    filter_upwards [ih h] with x h1
    simp only [hv, eval, h1]
    by_cases ea : a.hv = true <;> simp [ea]

/-- Conjunction of a list. -/
def conj (φs : List Fm) : Fm := φs.foldl and top
/-- Disjunction of a list. -/
def disj (φs : List Fm) : Fm := φs.foldl or bot

theorem eval_foldl_and (s : ℝ → ℝ) (φs : List Fm) (z : Fm) :
    (φs.foldl and z).eval s = (φs.map (eval s)).foldl min (z.eval s) := by
  induction φs generalizing z with
  | nil => rfl
  | cons a l ih => simp [ih, eval]
theorem eval_foldl_or (s : ℝ → ℝ) (φs : List Fm) (z : Fm) :
    (φs.foldl or z).eval s = (φs.map (eval s)).foldl max (z.eval s) := by
  induction φs generalizing z with
  | nil => rfl
  | cons a l ih => simp [ih, eval]
theorem hv_foldl_and (φs : List Fm) (z : Fm) : (φs.foldl and z).hv = (z.hv && φs.all hv) := by
  induction φs generalizing z with
  | nil => simp
  | cons a l ih => simp [ih, hv, Bool.and_assoc]
theorem hv_foldl_or (φs : List Fm) (z : Fm) : (φs.foldl or z).hv = (z.hv || φs.any hv) := by
  induction φs generalizing z with
  | nil => simp
  | cons a l ih => simp [ih, hv, Bool.or_assoc]
theorem noTie_foldl_and (φs : List Fm) (z : Fm) : (φs.foldl and z).NoTie ↔ z.NoTie ∧ ∀ φ ∈ φs, φ.NoTie := by
  induction φs generalizing z with
  | nil => simp
  | cons a l ih => simp [ih, NoTie, and_assoc]
theorem noTie_foldl_or (φs : List Fm) (z : Fm) : (φs.foldl or z).NoTie ↔ z.NoTie ∧ ∀ φ ∈ φs, φ.NoTie := by
  induction φs generalizing z with
  | nil => simp
  | cons a l ih => simp [ih, NoTie, and_assoc]
end Fm

/-! ### Walls and finite paths -/

/-- `nth` over the reals. -/
noncomputable def rnth (pts : List Pt) (i : ℕ) : Pt := pts.getD (min i (pts.length - 1)) ⟨0, 0⟩

theorem nth_fin (pts : List Pt) (i : ℕ) (h : pts ≠ []) : nth (pts.map V2.fin) i = V2.fin (rnth pts i) := by
  have hl : 0 < pts.length := List.length_pos_iff.mpr h
  have hi : min i (pts.length - 1) < pts.length := by omega
  simp [nth, rnth, List.getD_eq_getElem?_getD, hi]

theorem rnth_eq {pts : List Pt} {i : ℕ} (h : i < pts.length) : pts[i]? = some (rnth pts i) := by
  have : min i (pts.length - 1) = i := by omega
  simp [rnth, this, h, List.getD_eq_getElem?_getD]

/-- The (segment, wall) pairs tested. -/
noncomputable def hitPairs (n : ℕ) (ws : List RWall) (candidate : List ℤ) : List (ℕ × RWall × ℕ) :=
  (List.range (n - 1)).flatMap fun i =>
    (ws.zipIdx.filter fun oj =>
      !(((oj.2 : ℤ) == (-1 :: candidate ++ [-1]).getD i 0) ||
        ((oj.2 : ℤ) == (-1 :: candidate ++ [-1]).getD (i + 1) 0))).map fun oj => (i, oj)

theorem mem_hitPairs {n : ℕ} {ws : List RWall} {candidate : List ℤ} (hn : n ≤ candidate.length + 2)
    {x : ℕ × RWall × ℕ} (h : x ∈ hitPairs n ws candidate) :
    x.1 + 1 < n ∧ ws[x.2.2]? = some x.2.1 ∧ ¬ Adjacent candidate x.1 x.2.2 := by
  obtain ⟨i, w, j⟩ := x
  simp only [hitPairs, List.mem_flatMap, List.mem_range, List.mem_map, List.mem_filter,
    Bool.not_eq_true', Bool.or_eq_false_iff] at h
  obtain ⟨i', hi, ⟨w', j'⟩, ⟨h1, h2, h3⟩, h4⟩ := h
  rw [List.mem_zipIdx_iff_getElem?] at h1
  simp only [Prod.mk.injEq] at h4
  obtain ⟨rfl, rfl, rfl⟩ := h4
  have hc := cand_getD candidate i' j' (by omega)
  refine ⟨by simp only; omega, h1, ?_⟩
  rintro (h | h)
  · rw [← hc.2, h3] at h; cases h
  · rw [← hc.1, h2] at h; cases h

theorem onVals_walls (pts : List Pt) (loss : F) (hne : pts ≠ []) (E : Env) (ws : List RWall) (ap kw) :
    onVals ⟨pts.map V2.fin, loss⟩ E ((wallsOf ws).map Obj.interact) ap kw =
      ws.zipIdx.map fun x => (Wall.ofPts x.1.1 x.1.2).contains E ap kw
        (F.fin (rpar x.1.1 x.1.2 (rnth pts (x.2 + 1)))) := by
  unfold onVals
  rw [wallsOf, List.map_map, List.zipIdx_map, List.map_map]
  apply List.map_congr_left
  rintro ⟨w, i⟩ -
  simp [Obj.interact, Wall.interact, nth_fin _ _ hne, toParam_fin]

theorem hitVals_walls (pts : List Pt) (loss : F) (hne : pts ≠ []) (E : Env) (ws : List RWall)
    (candidate : List ℤ) (patch : F) (ap kw) :
    hitVals ⟨pts.map V2.fin, loss⟩ E ((wallsOf ws).map Obj.interact) candidate patch ap kw =
      (hitPairs pts.length ws candidate).map fun x =>
        (Wall.ofPts x.2.1.1 x.2.1.2).intersects E ap kw patch (V2.fin (rnth pts x.1))
          (V2.fin (rnth pts (x.1 + 1))) := by
  unfold hitVals hitPairs
  rw [List.map_flatMap, List.length_map]
  congr 1
  funext i
  rw [wallsOf, List.map_map, List.zipIdx_map, List.filter_map, List.map_map, List.map_map]
  apply List.map_congr_left
  rintro ⟨w, j⟩ -
  simp [Obj.interact, Wall.interact, nth_fin _ _ hne]

theorem patched (o d : Pt) (patch : ℝ) (E : Env) (ap kw) (a b : Pt) :
    (Wall.ofPts o d).intersects E ap kw (F.fin patch) (V2.fin a) (V2.fin b) =
      segmentsIntersect E (V2.fin (pointAt o d (-patch))) (V2.fin (pointAt o d (1 + patch))) (V2.fin a)
        (V2.fin b) SEG_TOL ap kw := by
  unfold Wall.intersects
  congr 1
  · ext <;> simp [Wall.ofPts, Wall.t, pointAt] <;> ring
  · ext <;> simp [Wall.ofPts, Wall.t, pointAt] <;> ring

theorem segTol_eq : SEG_TOL = F.fin (1 / 200) := by
  simp only [SEG_TOL, OfScientific.ofScientific]; norm_num

/-! ### Formulas for the tests -/

/-- Containment. -/
noncomputable def fmOn (o d q : Pt) : Fm := .and (.atom (rpar o d q)) (.atom (1 - rpar o d q))

/-- Crossing of two segments with tolerance. -/
noncomputable def fmSeg (p1 p2 p3 p4 : Pt) (tol : ℝ) : Fm :=
  match segParams p1 p2 p3 p4 with
  | none => .bot
  | some (s, t) =>
    .and (.and (.atom (s + tol)) (.atom (1 + tol - s))) (.and (.atom (t + tol)) (.atom (1 + tol - t)))

theorem fmOn_soft {E : Env} {ap : Option Bool} (h : Soft E ap) {kw : ActKw} {s : ℝ → ℝ}
    (hs : ∀ x : ℝ, activation kw (F.fin x) = F.fin (s x)) (o d q : Pt) :
    ((Wall.ofPts o d).contains E ap kw (F.fin (rpar o d q))).toF = F.fin ((fmOn o d q).eval s) := by
  rw [contains_soft h _ hs]; rfl

theorem fmOn_hard {E : Env} {ap : Option Bool} (h : Hard E ap) (kw : ActKw) (o d q : Pt)
    (hn : (fmOn o d q).NoTie) :
    ((Wall.ofPts o d).contains E ap kw (F.fin (rpar o d q))).toBool = (fmOn o d q).hv := by
  rw [contains_hard h]
  simp only [fmOn, Fm.NoTie, Fm.hv, Truthy.toBool] at *
  rw [Bool.eq_iff_iff]
  simp only [decide_eq_true_eq, Bool.and_eq_true]
  refine and_congr ?_ ?_
  · exact ⟨fun h' => lt_of_le_of_ne h' hn.1.symm, le_of_lt⟩
  · exact ⟨fun h' => lt_of_le_of_ne (by linarith) hn.2.symm, fun h' => by linarith⟩

theorem fmSeg_soft {E : Env} {ap : Option Bool} (h : Soft E ap) {kw : ActKw} {s : ℝ → ℝ}
    (hs : ∀ x : ℝ, activation kw (F.fin x) = F.fin (s x)) (hp : activation kw F.pinf = F.fin 1)
    (hn : activation kw F.ninf = F.fin 0) (p1 p2 p3 p4 : Pt) (tol : ℝ) :
    (segmentsIntersect E (V2.fin p1) (V2.fin p2) (V2.fin p3) (V2.fin p4) (F.fin tol) ap kw).toF =
      F.fin ((fmSeg p1 p2 p3 p4 tol).eval s) := by
  rw [segmentsIntersect_fin, segTest_soft h hs hp hn, segTest_soft h hs hp hn]
  unfold fmSeg segParams
  by_cases hd : segD p1 p2 p3 p4 = 0
  · simp [hd, Fm.eval, logicalAnd, h.eq, Truthy.minimum, Truthy.toF]
  · simp [hd, Fm.eval, logicalAnd, h.eq, Truthy.minimum, Truthy.toF]

theorem fmSeg_hard {E : Env} {ap : Option Bool} (h : Hard E ap) (kw : ActKw) (p1 p2 p3 p4 : Pt) (tol : ℝ)
    (hn : (fmSeg p1 p2 p3 p4 tol).NoTie) :
    (segmentsIntersect E (V2.fin p1) (V2.fin p2) (V2.fin p3) (V2.fin p4) (F.fin tol) ap kw).toBool =
      (fmSeg p1 p2 p3 p4 tol).hv := by
  rw [segmentsIntersect_fin, segTest_hard h, segTest_hard h]
  unfold fmSeg segParams at *
  by_cases hd : segD p1 p2 p3 p4 = 0
  · simp [hd, Fm.hv, logicalAnd, h.eq, Truthy.toBool]
  · simp only [hd, if_false, Fm.NoTie] at hn
    simp only [hd, if_false, Fm.hv, logicalAnd, h.eq, Truthy.toBool, ne_eq, not_false_eq_true, true_and,
      Bool.false_eq_true]
    obtain ⟨⟨n1, n2⟩, n3, n4⟩ := hn
    rw [Bool.eq_iff_iff]
    simp only [decide_eq_true_eq, Bool.and_eq_true]
    refine and_congr (and_congr ?_ ?_) (and_congr ?_ ?_)
    · exact ⟨fun h' => lt_of_le_of_ne (by linarith) n1.symm, fun h' => by linarith⟩
    · exact ⟨fun h' => lt_of_le_of_ne (by linarith) n2.symm, fun h' => by linarith⟩
    · exact ⟨fun h' => lt_of_le_of_ne (by linarith) n3.symm, fun h' => by linarith⟩
    · exact ⟨fun h' => lt_of_le_of_ne (by linarith) n4.symm, fun h' => by linarith⟩

/-- The formula of `is_valid`. -/
noncomputable def fmValid (ws scene : List RWall) (candidate : List ℤ) (pts : List Pt) (loss tol patch : ℝ) : Fm :=
  .and (.and (Fm.conj (ws.zipIdx.map fun x => fmOn x.1.1 x.1.2 (rnth pts (x.2 + 1))))
    (.not (Fm.disj ((hitPairs pts.length scene candidate).map fun x =>
      fmSeg (pointAt x.2.1.1 x.2.1.2 (-patch)) (pointAt x.2.1.1 x.2.1.2 (1 + patch)) (rnth pts x.1)
        (rnth pts (x.1 + 1)) (1 / 200)))))
    (.atom (tol - loss))

theorem map_toF_fin {α : Type*} (xs : List α) (g : α → Truthy) (φ : α → Fm) (s : ℝ → ℝ)
    (h : ∀ x, (g x).toF = F.fin ((φ x).eval s)) :
    (xs.map g).map Truthy.toF = ((xs.map φ).map (Fm.eval s)).map F.fin := by
  simp only [List.map_map]
  apply List.map_congr_left
  intro x _; simp [h]

theorem fmValid_soft {E : Env} {ap : Option Bool} (h : Soft E ap) {kw : ActKw} {s : ℝ → ℝ}
    (hs : ∀ x : ℝ, activation kw (F.fin x) = F.fin (s x)) (hp : activation kw F.pinf = F.fin 1)
    (hn : activation kw F.ninf = F.fin 0) (ws scene : List RWall) (candidate : List ℤ) (pts : List Pt)
    (loss tol patch : ℝ) (hlen : pts.length = candidate.length + 2) :
    (finitePath pts loss).isValid E ((wallsOf scene).map Obj.interact) candidate
      ((wallsOf ws).map Obj.interact) (F.fin tol) (F.fin patch) ap kw =
      .ok (.f (F.fin ((fmValid ws scene candidate pts loss tol patch).eval s))) := by
  have hne : pts ≠ [] := by intro e; simp [e] at hlen
  unfold finitePath
  rw [isValid_soft _ h _ _ _ _ _ _ (by simp [hlen]), onVals_walls _ _ hne, hitVals_walls _ _ hne]
  rw [map_toF_fin _ _ (fun x : RWall × ℕ => fmOn x.1.1 x.1.2 (rnth pts (x.2 + 1))) s (fun x => fmOn_soft h hs x.1.1 x.1.2 _)]
  rw [map_toF_fin _ _ (fun x : ℕ × RWall × ℕ => fmSeg (pointAt x.2.1.1 x.2.1.2 (-patch)) (pointAt x.2.1.1 x.2.1.2 (1 + patch))
    (rnth pts x.1) (rnth pts (x.1 + 1)) (1 / 200)) s
    (fun x => by rw [patched, segTol_eq]; exact fmSeg_soft h hs hp hn _ _ _ _ _)]
  simp only [F.one_eq, F.zero_eq, F.minOf_fin, F.maxOf_fin, F.fin_sub, hs]
  rw [show ([F.fin (1 - _), F.fin (s (tol - loss))] : List F) = [1 - _, s (tol - loss)].map F.fin from rfl, F.minOf_fin]
  simp only [F.nanToNum, fmValid, Fm.eval, Fm.conj, Fm.disj, Fm.eval_foldl_and, Fm.eval_foldl_or,
    List.foldl_cons, List.foldl_nil]

theorem fmValid_hard {E : Env} {ap : Option Bool} (h : Hard E ap) (kw : ActKw)
    (ws scene : List RWall) (candidate : List ℤ) (pts : List Pt)
    (loss tol patch : ℝ) (hlen : pts.length = candidate.length + 2)
    (hn : (fmValid ws scene candidate pts loss tol patch).NoTie) :
    (finitePath pts loss).isValid E ((wallsOf scene).map Obj.interact) candidate
      ((wallsOf ws).map Obj.interact) (F.fin tol) (F.fin patch) ap kw =
      .ok (.b (fmValid ws scene candidate pts loss tol patch).hv) := by
  have hne : pts ≠ [] := by intro e; simp [e] at hlen
  unfold finitePath
  rw [isValid_hard _ h _ _ _ _ _ _ (by simp [hlen]), onVals_walls _ _ hne, hitVals_walls _ _ hne]
  simp only [fmValid, Fm.NoTie, Fm.conj, Fm.disj, Fm.noTie_foldl_and, Fm.noTie_foldl_or, List.mem_map,
    forall_exists_index, and_imp, true_and, forall_apply_eq_imp_iff₂] at hn
  obtain ⟨⟨h1, h2⟩, h3⟩ := hn
  simp only [fmValid, Fm.hv, Fm.conj, Fm.disj, Fm.hv_foldl_and, Fm.hv_foldl_or, Bool.true_and, Bool.false_or,
    List.all_map, List.any_map, F.lt, Bool.and_assoc]
  have e1 : (ws.zipIdx.all (Truthy.toBool ∘ fun x => (Wall.ofPts x.1.1 x.1.2).contains E ap kw
        (F.fin (rpar x.1.1 x.1.2 (rnth pts (x.2 + 1)))))) =
      ws.zipIdx.all (Fm.hv ∘ fun x => fmOn x.1.1 x.1.2 (rnth pts (x.2 + 1))) := by
    rw [Bool.eq_iff_iff, List.all_eq_true, List.all_eq_true]
    refine forall_congr' fun x => forall_congr' fun hx => ?_
    simp only [Function.comp]
    rw [fmOn_hard h kw _ _ _ (h1 x hx)]
  have e2 : ((hitPairs pts.length scene candidate).any (Truthy.toBool ∘ fun x =>
        (Wall.ofPts x.2.1.1 x.2.1.2).intersects E ap kw (F.fin patch) (V2.fin (rnth pts x.1))
          (V2.fin (rnth pts (x.1 + 1))))) =
      (hitPairs pts.length scene candidate).any (Fm.hv ∘ fun x =>
        fmSeg (pointAt x.2.1.1 x.2.1.2 (-patch)) (pointAt x.2.1.1 x.2.1.2 (1 + patch)) (rnth pts x.1)
        (rnth pts (x.1 + 1)) (1 / 200)) := by
    rw [Bool.eq_iff_iff, List.any_eq_true, List.any_eq_true]
    refine exists_congr fun x => and_congr_right fun hx => ?_
    simp only [Function.comp]
    rw [patched, segTol_eq, fmSeg_hard h kw _ _ _ _ _ (h2 x hx)]
  rw [e1, e2]
  simp only [sub_pos]

end DiffeRT2d
