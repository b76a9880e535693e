import Verif.Lemmas.Generic
import Verif.Spec.Shapes

/-! Validity as a formula, for walls, RIS and vertices. -/

namespace DiffeRT2d
open Classical Spec Filter

/-- The formula of containment in an object. -/
noncomputable def Spec.Shape.fmOn (s : Shape) (q : Pt) : Fm :=
  match s.ends with
  | some w => DiffeRT2d.fmOn w.1 w.2 q
  | none => .top

/-- The formula of being hit by an object. -/
noncomputable def Spec.Shape.fmHit (s : Shape) (patch : ℝ) (a b : Pt) : Fm :=
  match s.ends with
  | some w => fmSeg (pointAt w.1 w.2 (-patch)) (pointAt w.1 w.2 (1 + patch)) a b (1 / 200)
  | none => .bot

variable {E : Env} {ap : Option Bool}

theorem shape_on_soft (h : Soft E ap) {kw : ActKw} {s : ℝ → ℝ} (hs : ∀ x : ℝ, activation kw (F.fin x) = F.fin (s x)) (sh : Shape) (q : Pt) :
    (sh.obj.interact.contains E ap kw (sh.obj.interact.toParam (V2.fin q))).toF = F.fin ((sh.fmOn q).eval s) := by
  cases sh with
  | wall o d =>
    have := fmOn_soft h hs o d q
    simpa [Shape.obj, Obj.interact, Wall.interact, toParam_fin, Shape.fmOn, Shape.ends] using this
  | ris o d φ =>
    have := fmOn_soft h hs o d q
    simpa [Shape.obj, Obj.interact, RIS.interact, Wall.interact, toParam_fin, Shape.fmOn, Shape.ends] using this
  | vertex p => simp [Shape.obj, Obj.interact, Vertex.interact, Shape.fmOn, Shape.ends, Fm.eval, trueValue, h.eq, Truthy.toF]

theorem shape_on_hard (h : Hard E ap) (kw : ActKw) (sh : Shape) (q : Pt) (hn : (sh.fmOn q).NoTie) :
    (sh.obj.interact.contains E ap kw (sh.obj.interact.toParam (V2.fin q))).toBool = (sh.fmOn q).hv := by
  cases sh with
  | wall o d =>
    have := fmOn_hard h kw o d q hn
    simpa [Shape.obj, Obj.interact, Wall.interact, toParam_fin, Shape.fmOn, Shape.ends] using this
  | ris o d φ =>
    have := fmOn_hard h kw o d q hn
    simpa [Shape.obj, Obj.interact, RIS.interact, Wall.interact, toParam_fin, Shape.fmOn, Shape.ends] using this
  | vertex p => simp [Shape.obj, Obj.interact, Vertex.interact, Shape.fmOn, Shape.ends, Fm.hv, trueValue, h.eq, Truthy.toBool]

theorem shape_hit_soft (h : Soft E ap) {kw : ActKw} {s : ℝ → ℝ} (hs : ∀ x : ℝ, activation kw (F.fin x) = F.fin (s x))
    (hp : activation kw F.pinf = F.fin 1) (hn : activation kw F.ninf = F.fin 0) (sh : Shape) (patch : ℝ) (a b : Pt) :
    (sh.obj.interact.intersects E ap kw (F.fin patch) (V2.fin a) (V2.fin b)).toF = F.fin ((sh.fmHit patch a b).eval s) := by
  cases sh with
  | wall o d =>
    show ((Wall.ofPts o d).intersects E ap kw _ _ _).toF = _
    rw [patched, segTol_eq]; exact fmSeg_soft h hs hp hn _ _ _ _ _
  | ris o d φ =>
    show ((Wall.ofPts o d).intersects E ap kw _ _ _).toF = _
    rw [patched, segTol_eq]; exact fmSeg_soft h hs hp hn _ _ _ _ _
  | vertex p => simp [Shape.obj, Obj.interact, Vertex.interact, Shape.fmHit, Shape.ends, Fm.eval, falseValue, h.eq, Truthy.toF]

theorem shape_hit_hard (h : Hard E ap) (kw : ActKw) (sh : Shape) (patch : ℝ) (a b : Pt) (hn : (sh.fmHit patch a b).NoTie) :
    (sh.obj.interact.intersects E ap kw (F.fin patch) (V2.fin a) (V2.fin b)).toBool = (sh.fmHit patch a b).hv := by
  cases sh with
  | wall o d =>
    show ((Wall.ofPts o d).intersects E ap kw _ _ _).toBool = _
    rw [patched, segTol_eq]; exact fmSeg_hard h kw _ _ _ _ _ hn
  | ris o d φ =>
    show ((Wall.ofPts o d).intersects E ap kw _ _ _).toBool = _
    rw [patched, segTol_eq]; exact fmSeg_hard h kw _ _ _ _ _ hn
  | vertex p => simp [Shape.obj, Obj.interact, Vertex.interact, Shape.fmHit, Shape.ends, Fm.hv, falseValue, h.eq, Truthy.toBool]

/-- The (segment, object) pairs tested. -/
noncomputable def shapePairs (n : ℕ) (ws : List Shape) (candidate : List ℤ) : List (ℕ × Shape × ℕ) :=
  (List.range (n - 1)).flatMap fun i =>
    (ws.zipIdx.filter fun oj =>
      !(((oj.2 : ℤ) == (-1 :: candidate ++ [-1]).getD i 0) || ((oj.2 : ℤ) == (-1 :: candidate ++ [-1]).getD (i + 1) 0))).map fun oj => (i, oj)

theorem mem_shapePairs {n : ℕ} {ws : List Shape} {candidate : List ℤ} (hn : n ≤ candidate.length + 2)
    {x : ℕ × Shape × ℕ} (h : x ∈ shapePairs n ws candidate) :
    x.1 + 1 < n ∧ ws[x.2.2]? = some x.2.1 ∧ ¬ Adjacent candidate x.1 x.2.2 := by
  obtain ⟨i, w, j⟩ := x
  simp only [shapePairs, List.mem_flatMap, List.mem_range, List.mem_map, List.mem_filter,
    Bool.not_eq_true', Bool.or_eq_false_iff] at h
  obtain ⟨i', hi, ⟨w', j'⟩, ⟨h1, h2, h3⟩, h4⟩ := h
  rw [List.mem_zipIdx_iff_getElem?] at h1
  simp only [Prod.mk.injEq] at h4
  obtain ⟨rfl, rfl, rfl⟩ := h4
  have hc := cand_getD candidate i' j' (by omega)
  refine ⟨by simp only; omega, h1, ?_⟩
  rintro (h | h)
  · rw [← hc.2, h3] at h; cases h
  · rw [← hc.1, h2] at h; cases h

theorem onVals_shapes (pts : List Pt) (loss : F) (hne : pts ≠ []) (E : Env) (ws : List Shape) (ap kw) :
    onVals ⟨pts.map V2.fin, loss⟩ E (ws.map fun s => s.obj.interact) ap kw =
      ws.zipIdx.map fun x => x.1.obj.interact.contains E ap kw (x.1.obj.interact.toParam (V2.fin (rnth pts (x.2 + 1)))) := by
  unfold onVals
  rw [List.zipIdx_map, List.map_map]
  apply List.map_congr_left
  rintro ⟨w, i⟩ -
  simp [nth_fin _ _ hne]

theorem hitVals_shapes (pts : List Pt) (loss : F) (hne : pts ≠ []) (E : Env) (ws : List Shape) (candidate : List ℤ) (patch : F) (ap kw) :
    hitVals ⟨pts.map V2.fin, loss⟩ E (ws.map fun s => s.obj.interact) candidate patch ap kw =
      (shapePairs pts.length ws candidate).map fun x =>
        x.2.1.obj.interact.intersects E ap kw patch (V2.fin (rnth pts x.1)) (V2.fin (rnth pts (x.1 + 1))) := by
  unfold hitVals shapePairs
  rw [List.map_flatMap, List.length_map]
  congr 1
  funext i
  rw [List.zipIdx_map, List.filter_map, List.map_map, List.map_map]
  apply List.map_congr_left
  rintro ⟨w, j⟩ -
  simp [nth_fin _ _ hne]

/-- The formula of `is_valid`. -/
noncomputable def fmShapes (ws scene : List Shape) (candidate : List ℤ) (pts : List Pt) (loss tol patch : ℝ) : Fm :=
  .and (.and (Fm.conj (ws.zipIdx.map fun x => x.1.fmOn (rnth pts (x.2 + 1))))
    (.not (Fm.disj ((shapePairs pts.length scene candidate).map fun x => x.2.1.fmHit patch (rnth pts x.1) (rnth pts (x.1 + 1))))))
    (.atom (tol - loss))

theorem fmShapes_soft (h : Soft E ap) {kw : ActKw} {s : ℝ → ℝ}
    (hs : ∀ x : ℝ, activation kw (F.fin x) = F.fin (s x)) (hp : activation kw F.pinf = F.fin 1)
    (hn : activation kw F.ninf = F.fin 0) (ws scene : List Shape) (candidate : List ℤ) (pts : List Pt)
    (loss tol patch : ℝ) (hlen : pts.length = candidate.length + 2) :
    (finitePath pts loss).isValid E (scene.map fun s => s.obj.interact) candidate (ws.map fun s => s.obj.interact) (F.fin tol) (F.fin patch) ap kw =
      .ok (.f (F.fin ((fmShapes ws scene candidate pts loss tol patch).eval s))) := by
  have hne : pts ≠ [] := by intro e; simp [e] at hlen
  unfold finitePath
  rw [isValid_soft _ h _ _ _ _ _ _ (by simp [hlen]), onVals_shapes _ _ hne, hitVals_shapes _ _ hne]
  rw [map_toF_fin _ _ (fun x : Shape × ℕ => x.1.fmOn (rnth pts (x.2 + 1))) s (fun x => shape_on_soft h hs x.1 _)]
  rw [map_toF_fin _ _ (fun x : ℕ × Shape × ℕ => x.2.1.fmHit patch (rnth pts x.1) (rnth pts (x.1 + 1))) s (fun x => shape_hit_soft h hs hp hn _ _ _ _)]
  simp only [F.one_eq, F.zero_eq, F.minOf_fin, F.maxOf_fin, F.fin_sub, hs]
  rw [show ([F.fin (1 - _), F.fin (s (tol - loss))] : List F) = [1 - _, s (tol - loss)].map F.fin from rfl, F.minOf_fin]
  simp only [F.nanToNum, fmShapes, Fm.eval, Fm.conj, Fm.disj, Fm.eval_foldl_and, Fm.eval_foldl_or, List.foldl_cons, List.foldl_nil]

theorem fmShapes_hard (h : Hard E ap) (kw : ActKw) (ws scene : List Shape) (candidate : List ℤ) (pts : List Pt)
    (loss tol patch : ℝ) (hlen : pts.length = candidate.length + 2) (hn : (fmShapes ws scene candidate pts loss tol patch).NoTie) :
    (finitePath pts loss).isValid E (scene.map fun s => s.obj.interact) candidate (ws.map fun s => s.obj.interact) (F.fin tol) (F.fin patch) ap kw =
      .ok (.b (fmShapes ws scene candidate pts loss tol patch).hv) := by
  have hne : pts ≠ [] := by intro e; simp [e] at hlen
  unfold finitePath
  rw [isValid_hard _ h _ _ _ _ _ _ (by simp [hlen]), onVals_shapes _ _ hne, hitVals_shapes _ _ hne]
  simp only [fmShapes, Fm.NoTie, Fm.conj, Fm.disj, Fm.noTie_foldl_and, Fm.noTie_foldl_or, List.mem_map,
    forall_exists_index, and_imp, true_and, forall_apply_eq_imp_iff₂] at hn
  obtain ⟨⟨h1, h2⟩, h3⟩ := hn
  simp only [fmShapes, Fm.hv, Fm.conj, Fm.disj, Fm.hv_foldl_and, Fm.hv_foldl_or, Bool.true_and, Bool.false_or,
    List.all_map, List.any_map, F.lt, Bool.and_assoc]
  have e1 : (ws.zipIdx.all (Truthy.toBool ∘ fun x => x.1.obj.interact.contains E ap kw (x.1.obj.interact.toParam (V2.fin (rnth pts (x.2 + 1)))))) =
      ws.zipIdx.all (Fm.hv ∘ fun x => x.1.fmOn (rnth pts (x.2 + 1))) := by
    rw [Bool.eq_iff_iff, List.all_eq_true, List.all_eq_true]
    refine forall_congr' fun x => forall_congr' fun hx => ?_
    simp only [Function.comp]
    rw [shape_on_hard h kw _ _ (h1 x hx)]
  have e2 : ((shapePairs pts.length scene candidate).any (Truthy.toBool ∘ fun x =>
        x.2.1.obj.interact.intersects E ap kw (F.fin patch) (V2.fin (rnth pts x.1)) (V2.fin (rnth pts (x.1 + 1))))) =
      (shapePairs pts.length scene candidate).any (Fm.hv ∘ fun x => x.2.1.fmHit patch (rnth pts x.1) (rnth pts (x.1 + 1))) := by
    rw [Bool.eq_iff_iff, List.any_eq_true, List.any_eq_true]
    refine exists_congr fun x => and_congr_right fun hx => ?_
    simp only [Function.comp]
    rw [shape_hit_hard h kw _ _ _ _ (h2 x hx)]
  rw [e1, e2]
  simp only [sub_pos]

theorem fmOn_noTie {w : Pt × Pt} {q : Pt} (h : NotLevelWithEnds w q) : (fmOn w.1 w.2 q).NoTie := by
  obtain ⟨h1, h2⟩ := h
  have hne : dp (w.2 - w.1) (w.2 - w.1) ≠ 0 := by
    intro e
    have := (dp_self_eq_zero w.1 w.2).mp e
    apply h1; rw [this]; simp [Orthogonal]
  simp only [fmOn, Fm.NoTie, rpar, if_neg hne]
  refine ⟨div_ne_zero ?_ hne, ?_⟩
  · intro e; apply h1
    simp only [dp, V2.sub_x, V2.sub_y] at e; simpa [Orthogonal] using e
  · intro e
    rw [sub_eq_zero, eq_comm, div_eq_iff hne, one_mul] at e
    apply h2
    simp only [dp, V2.sub_x, V2.sub_y] at e
    simp only [Orthogonal]; linarith

theorem fmSeg_noTie {p1 p2 p3 p4 : Pt} {tol : ℝ} (hg : NotCrossingAtEnds p1 p2 p3 p4 tol) : (fmSeg p1 p2 p3 p4 tol).NoTie := by
  simp only [fmSeg, segParams]
  split
  · trivial
  · rename_i s t e
    split at e
    · cases e
    · rename_i hd
      simp only [Option.some.injEq, Prod.mk.injEq] at e
      rcases hg with hg | hg
      · exact absurd ((segD_eq_zero _ _ _ _).mpr hg) hd
      · obtain ⟨⟨g1, g2⟩, g3, g4⟩ := hg s t ((cross_iff hd s t).mpr ⟨e.1.symm, e.2.symm⟩)
        refine ⟨⟨?_, ?_⟩, ?_, ?_⟩
        · intro e; apply g1; linarith
        · intro e; apply g2; linarith
        · intro e; apply g3; linarith
        · intro e; apply g4; linarith

theorem genericShapes_noTie {ws scene : List Shape} {candidate : List ℤ} {pts : List Pt} {loss tol patch : ℝ}
    (hlen : pts.length = candidate.length + 2) (hws : ws.length = candidate.length)
    (h : GenericShapes ws scene candidate pts loss tol patch) : (fmShapes ws scene candidate pts loss tol patch).NoTie := by
  simp only [fmShapes, Fm.NoTie, Fm.conj, Fm.disj, Fm.noTie_foldl_and, Fm.noTie_foldl_or, List.mem_map,
    forall_exists_index, and_imp, true_and, forall_apply_eq_imp_iff₂]
  refine ⟨⟨?_, ?_⟩, sub_ne_zero.mpr h.loss.symm⟩
  · rintro ⟨s, i⟩ hx
    rw [List.mem_zipIdx_iff_getElem?] at hx
    obtain ⟨hlt, -⟩ := List.getElem?_eq_some_iff.mp hx
    unfold Shape.fmOn
    split
    · rename_i w hw
      exact fmOn_noTie (h.on i s w _ hx hw (rnth_eq (by simp only at hlt; omega)))
    · trivial
  · rintro ⟨i, s, j⟩ hx
    obtain ⟨h1, h2, h3⟩ := mem_shapePairs hlen.le hx
    simp only at h1 h2 h3
    unfold Shape.fmHit
    split
    · rename_i w hw
      exact fmSeg_noTie (h.hit i j s w _ _ (rnth_eq (by omega)) (rnth_eq h1) h2 hw h3)
    · trivial

end DiffeRT2d
