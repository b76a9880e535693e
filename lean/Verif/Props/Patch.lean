import Verif.Props.Laws
import Verif.Lemmas.Generic

/-! # C79: the patch, in both modes -/

namespace DiffeRT2d.Props
open Classical Spec

theorem patch_ends (o d : Pt) (p : ℝ) : (Wall.ofPts o d).origin - V2.smul (F.fin p) (Wall.ofPts o d).t = V2.fin (pointAt o d (-p)) ∧
    (Wall.ofPts o d).dest + V2.smul (F.fin p) (Wall.ofPts o d).t = V2.fin (pointAt o d (1 + p)) := by
  constructor <;> ext <;> simp [Wall.ofPts, Wall.t, pointAt] <;> ring

/-- The degree of a crossing in approximate mode grows with the patch. -/
theorem wall_patch_soft {E : Env} {ap : Option Bool} (h : Soft E ap) {kw : ActKw} (hk : GoodKw kw) (o d a b : Pt) {p p' : ℝ}
    (hp : -(1 / 2) ≤ p) (hpp : p ≤ p') : ∃ r r' : ℝ, 0 ≤ r ∧ r ≤ r' ∧ r' ≤ 1 ∧
      (Wall.ofPts o d).intersects E ap kw (F.fin p) (V2.fin a) (V2.fin b) = .f (F.fin r) ∧
      (Wall.ofPts o d).intersects E ap kw (F.fin p') (V2.fin a) (V2.fin b) = .f (F.fin r') := by
  obtain ⟨s, h1, h2, h3, -, hr, hm, -⟩ := hk.real
  have e3 : SEG_TOL = F.fin (5 / 1000) := by simp [SEG_TOL]; norm_num
  have val : ∀ q : ℝ, (Wall.ofPts o d).intersects E ap kw (F.fin q) (V2.fin a) (V2.fin b) =
      .f (F.fin (if (1 + 2 * q) * segD o d a b = 0 then 0 else
        min (min (s ((segA o d a b / segD o d a b + q) / (1 + 2 * q) + 5 / 1000)) (s (1 + 5 / 1000 - (segA o d a b / segD o d a b + q) / (1 + 2 * q))))
          (min (s (segB o d a b / segD o d a b + 5 / 1000)) (s (1 + 5 / 1000 - segB o d a b / segD o d a b))))) := by
    intro q
    obtain ⟨q1, q2⟩ := patch_ends o d q
    unfold Wall.intersects
    rw [q1, q2, e3, segmentsIntersect_fin, segTest_soft h h1 h2 h3, segTest_soft h h1 h2 h3]
    have d1 : segD (pointAt o d (-q)) (pointAt o d (1 + q)) a b = (1 + 2 * q) * segD o d a b := by simp only [segD, pointAt]; ring
    have d2 : segA (pointAt o d (-q)) (pointAt o d (1 + q)) a b = segA o d a b + q * segD o d a b := by simp only [segD, segA, pointAt]; ring
    have d3 : segB (pointAt o d (-q)) (pointAt o d (1 + q)) a b = (1 + 2 * q) * segB o d a b := by simp only [segB, pointAt]; ring
    rw [d1, d2, d3]
    by_cases hz : (1 + 2 * q) * segD o d a b = 0
    · simp [hz, logicalAnd, h.eq, Truthy.minimum, Truthy.toF]
    · have hq : 1 + 2 * q ≠ 0 := left_ne_zero_of_mul hz
      have hd : segD o d a b ≠ 0 := right_ne_zero_of_mul hz
      have f1 : (segA o d a b + q * segD o d a b) / ((1 + 2 * q) * segD o d a b) = (segA o d a b / segD o d a b + q) / (1 + 2 * q) := by
        field_simp
      have f2 : (1 + 2 * q) * segB o d a b / ((1 + 2 * q) * segD o d a b) = segB o d a b / segD o d a b := by
        field_simp
      rw [f1, f2]
      simp [hq, hd, logicalAnd, h.eq, Truthy.minimum, Truthy.toF]
  refine ⟨_, _, ?_, ?_, ?_, val p, val p'⟩
  · split_ifs
    · exact le_rfl
    · exact le_min (le_min (hr _).1 (hr _).1) (le_min (hr _).1 (hr _).1)
  · by_cases hz : (1 + 2 * p) * segD o d a b = 0
    · rw [if_pos hz]
      split_ifs
      · exact le_rfl
      · exact le_min (le_min (hr _).1 (hr _).1) (le_min (hr _).1 (hr _).1)
    · have hd : segD o d a b ≠ 0 := right_ne_zero_of_mul hz
      have hq : 0 < 1 + 2 * p := lt_of_le_of_ne (by linarith) (left_ne_zero_of_mul hz).symm
      have hq' : 0 < 1 + 2 * p' := by linarith
      rw [if_neg hz, if_neg (mul_ne_zero hq'.ne' hd)]
      refine min_le_min ?_ le_rfl
      generalize segA o d a b / segD o d a b = u
      have c : ∀ q : ℝ, 0 < 1 + 2 * q → (u + q) / (1 + 2 * q) = 1 / 2 + (u - 1 / 2) / (1 + 2 * q) := by
        intro q hq
        have hq' : 1 + 2 * q ≠ 0 := hq.ne'
        rw [div_eq_iff hq', add_mul, div_mul_cancel₀ _ hq']; ring
      rw [c p hq, c p' hq']
      have key : |(u - 1 / 2) / (1 + 2 * p')| ≤ |(u - 1 / 2) / (1 + 2 * p)| := by
        rw [abs_div, abs_div, abs_of_pos hq, abs_of_pos hq']
        exact div_le_div_of_nonneg_left (abs_nonneg _) hq (by linarith)
      generalize (u - 1 / 2) / (1 + 2 * p') = y at key
      generalize (u - 1 / 2) / (1 + 2 * p) = x at key
      have lo : ∀ z : ℝ, min (s (1 / 2 + z + 5 / 1000)) (s (1 + 5 / 1000 - (1 / 2 + z))) = s (1 / 2 + 5 / 1000 - |z|) := by
        intro z
        rcases le_total 0 z with hz | hz
        · rw [abs_of_nonneg hz, min_eq_right (hm (by linarith))]; congr 1; ring
        · rw [abs_of_nonpos hz, min_eq_left (hm (by linarith))]; congr 1; ring
      rw [lo, lo]
      exact hm (by linarith)
  · split_ifs
    · exact zero_le_one
    · exact (min_le_left _ _).trans ((min_le_left _ _).trans (hr _).2)

/-- A crossing of a wall, a RIS or a vertex is truer with a larger patch. -/
theorem shape_patch (E : Env) (ap : Option Bool) (kw : ActKw) (x : Shape) (a b : Pt) {p p' : ℝ} (hp : -(1 / 2) ≤ p) (hpp : p ≤ p') :
    (Hard E ap → ∃ u v : Bool, (u = true → v = true) ∧ x.obj.interact.intersects E ap kw (F.fin p) (V2.fin a) (V2.fin b) = .b u ∧
      x.obj.interact.intersects E ap kw (F.fin p') (V2.fin a) (V2.fin b) = .b v) ∧
    (Soft E ap → GoodKw kw → ∃ u v : ℝ, 0 ≤ u ∧ u ≤ v ∧ v ≤ 1 ∧ x.obj.interact.intersects E ap kw (F.fin p) (V2.fin a) (V2.fin b) = .f (F.fin u) ∧
      x.obj.interact.intersects E ap kw (F.fin p') (V2.fin a) (V2.fin b) = .f (F.fin v)) := by
  have wall : ∀ o d : Pt, Hard E ap → ∃ u v : Bool, (u = true → v = true) ∧ (Wall.ofPts o d).intersects E ap kw (F.fin p) (V2.fin a) (V2.fin b) = .b u ∧
      (Wall.ofPts o d).intersects E ap kw (F.fin p') (V2.fin a) (V2.fin b) = .b v := by
    intro o d h
    obtain ⟨u, hu, -⟩ := C20_extended E ap h kw o d a b p
    obtain ⟨v, hv, -⟩ := C20_extended E ap h kw o d a b p'
    refine ⟨u, v, fun e => ?_, hu, hv⟩
    subst e
    have := C20_monotone E ap h kw o d a b p p' hp hpp hu
    rw [hv] at this
    simpa using this
  cases x with
  | wall o d => exact ⟨fun h => wall o d h, fun h hk => wall_patch_soft h hk o d a b hp hpp⟩
  | ris o d φ => exact ⟨fun h => wall o d h, fun h hk => wall_patch_soft h hk o d a b hp hpp⟩
  | vertex q =>
    refine ⟨fun h => ⟨false, false, by simp, ?_, ?_⟩, fun h _ => ⟨0, 0, le_rfl, le_rfl, zero_le_one, ?_, ?_⟩⟩ <;>
      simp [Shape.obj, Obj.interact, Vertex.interact, falseValue, h.eq]

theorem hitVals_patch (pts : List Pt) (loss : F) (h0 : pts ≠ []) (E : Env) (shapes : List Shape) (c : List ℤ) (ap : Option Bool) (kw : ActKw) {p p' : ℝ}
    (R : Truthy → Truthy → Prop)
    (hR : ∀ x : Shape, ∀ a b : Pt, R (x.obj.interact.intersects E ap kw (F.fin p) (V2.fin a) (V2.fin b))
      (x.obj.interact.intersects E ap kw (F.fin p') (V2.fin a) (V2.fin b))) :
    List.Forall₂ R (hitVals ⟨pts.map V2.fin, loss⟩ E ((shapes.map Shape.obj).map Obj.interact) c (F.fin p) ap kw)
      (hitVals ⟨pts.map V2.fin, loss⟩ E ((shapes.map Shape.obj).map Obj.interact) c (F.fin p') ap kw) := by
  unfold hitVals
  have fm : ∀ (l : List ℕ) (f g : ℕ → List Truthy), (∀ i, List.Forall₂ R (f i) (g i)) → List.Forall₂ R (l.flatMap f) (l.flatMap g) := by
    intro l f g h
    induction l with
    | nil => exact .nil
    | cons i l ih => rw [List.flatMap_cons, List.flatMap_cons]; exact List.rel_append (h i) ih
  refine fm _ _ _ fun i => ?_
  rw [List.forall₂_map_left_iff, List.forall₂_map_right_iff, List.forall₂_same]
  rintro ⟨o, j⟩ ho
  have : o ∈ (shapes.map Shape.obj).map Obj.interact := by
    have := (List.mem_filter.mp ho).1
    rw [List.mem_zipIdx_iff_getElem?] at this; exact List.mem_of_getElem? this
  rw [List.map_map] at this
  obtain ⟨x, -, rfl⟩ := List.mem_map.mp this
  simp only
  rw [nth_fin _ _ h0, nth_fin _ _ h0]
  exact hR x _ _

theorem any_patch {l l' : List Truthy} (h : List.Forall₂ (fun x y => x.toBool = true → y.toBool = true) l l') :
    l.any Truthy.toBool = true → l'.any Truthy.toBool = true := by
  induction h with
  | nil => simp
  | cons hab _ ih =>
    simp only [List.any_cons, Bool.or_eq_true]
    rintro (h | h)
    · exact .inl (hab h)
    · exact .inr (ih h)

theorem max_patch {l l' : List Truthy} (h : List.Forall₂ (fun x y => ∃ u v : ℝ, 0 ≤ u ∧ u ≤ v ∧ v ≤ 1 ∧ x.toF = F.fin u ∧ y.toF = F.fin v) l l') :
    ∀ z z' : ℝ, z ≤ z' → ∃ u v : ℝ, u ≤ v ∧ F.maxOf (F.fin z) (l.map Truthy.toF) = F.fin u ∧ F.maxOf (F.fin z') (l'.map Truthy.toF) = F.fin v := by
  unfold F.maxOf
  induction h with
  | nil => intro z z' hz; exact ⟨z, z', hz, rfl, rfl⟩
  | @cons x y l l' hab _ ih =>
    intro z z' hz
    obtain ⟨u, v, -, huv, -, e1, e2⟩ := hab
    simp only [List.map_cons, List.foldl_cons, e1, e2]
    have : ∀ a b : ℝ, F.max (F.fin a) (F.fin b) = F.fin (max a b) := fun a b => by simp
    rw [this, this]
    exact ih _ _ (max_le_max hz huv)

/-- The validity of a path of finite points decreases with the patch. -/
theorem isValid_patch (pts : List Pt) (loss : F) (E : Env) (shapes inter : List Shape) (c : List ℤ) (hl : pts.length = c.length + 2)
    (tol : F) {p p' : ℝ} (hp : -(1 / 2) ≤ p) (hpp : p ≤ p') (ap : Option Bool) (kw : ActKw) (hmode : Hard E ap ∨ (Soft E ap ∧ GoodKw kw)) :
    ∃ v v', Path.isValid ⟨pts.map V2.fin, loss⟩ E ((shapes.map Shape.obj).map Obj.interact) c ((inter.map Shape.obj).map Obj.interact) tol (F.fin p) ap kw = .ok v ∧
      Path.isValid ⟨pts.map V2.fin, loss⟩ E ((shapes.map Shape.obj).map Obj.interact) c ((inter.map Shape.obj).map Obj.interact) tol (F.fin p') ap kw = .ok v' ∧
      Le v'.toF v.toF := by
  have h0 : pts ≠ [] := by intro e; rw [e] at hl; simp at hl
  have hlen : (⟨pts.map V2.fin, loss⟩ : Path).xys.length ≤ c.length + 2 := by simp [hl]
  rcases hmode with hh | ⟨hh, hk⟩
  · rw [isValid_hard _ hh _ _ _ _ _ _ hlen, isValid_hard _ hh _ _ _ _ _ _ hlen]
    refine ⟨_, _, rfl, rfl, le_toF_bool ?_⟩
    have := any_patch (hitVals_patch pts loss h0 E shapes c ap kw (p := p) (p' := p') (fun x y => x.toBool = true → y.toBool = true) (by
      intro x a b
      obtain ⟨u, v, huv, e1, e2⟩ := (shape_patch E ap kw x a b hp hpp).1 hh
      rw [e1, e2]; exact huv))
    simp only [Bool.and_eq_true, Bool.not_eq_true']
    rintro ⟨g1, g2, g3⟩
    refine ⟨g1, ?_, g3⟩
    rw [← Bool.not_eq_true] at g2 ⊢
    exact fun g => g2 (this g)
  · rw [isValid_soft _ hh _ _ _ _ _ _ hlen, isValid_soft _ hh _ _ _ _ _ _ hlen]
    refine ⟨_, _, rfl, rfl, ?_⟩
    obtain ⟨u, v, huv, e1, e2⟩ := max_patch (hitVals_patch pts loss h0 E shapes c ap kw (p := p) (p' := p')
      (fun x y => ∃ u v : ℝ, 0 ≤ u ∧ u ≤ v ∧ v ≤ 1 ∧ x.toF = F.fin u ∧ y.toF = F.fin v) (by
      intro x a b
      obtain ⟨u, v, h1, h2, h3, e1, e2⟩ := (shape_patch E ap kw x a b hp hpp).2 hh hk
      exact ⟨u, v, h1, h2, h3, by rw [e1]; rfl, by rw [e2]; rfl⟩)) 0 0 le_rfl
    rw [← F.zero_eq] at e1 e2
    rw [e1, e2]
    simp only [F.minOf, List.foldl_cons, List.foldl_nil, Truthy.toF]
    have comm : ∀ a b c : F, F.min (F.min a b) c = F.min (F.min a c) b := by
      intro a b c
      cases a <;> cases b <;> cases c <;> simp [F.min, F.isNan, F.lt] <;> split_ifs <;> simp_all <;> linarith
    rw [comm _ (1 - F.fin v), comm _ (1 - F.fin u)]
    refine min_tolerance _ _ _ (.inr ⟨1 - v, 1 - u, by simp, by simp, by linarith⟩)

theorem mapM_all {α β : Type} (f : α → Except PyErr β) (P : β → Prop) (hf : ∀ a b, f a = .ok b → P b) (l : List α) (out : List β)
    (h : l.mapM f = .ok out) : ∀ b ∈ out, P b := by
  induction l generalizing out with
  | nil =>
    obtain rfl := Except.ok.inj h
    simp
  | cons a l ih =>
    rw [List.mapM_cons] at h
    cases ha : f a with
    | error e => rw [ha] at h; cases h
    | ok b =>
    cases hl : l.mapM f with
    | error e => rw [ha, hl] at h; cases h
    | ok bs =>
    rw [ha, hl] at h
    obtain rfl := Except.ok.inj h
    intro x hx
    rcases List.mem_cons.mp hx with rfl | hx
    · exact hf _ _ ha
    · exact ih bs hl x hx

/-- The objects of the interactions are objects of the scene. -/
theorem interacting_mem (s : Scene) (c : List ℤ) (os : List Obj) (h : s.getInteractingObjects c = .ok os) : ∀ o ∈ os, o ∈ s.objects := by
  unfold Scene.getInteractingObjects at h
  split_ifs at h with hif
  · refine mapM_all _ _ ?_ c os h
    intro i o ho
    unfold Scene.getObject at ho
    cases hs : s.objects with
    | nil => rw [hs] at ho; cases ho
    | cons x xs =>
      rw [hs] at ho
      simp only at ho
      split_ifs at ho
      obtain rfl := Except.ok.inj ho
      rw [List.getD_eq_getElem?_getD, List.getElem?_eq_getElem (by simp)]
      exact List.getElem_mem _
  · refine mapM_all _ _ ?_ c os h
    intro i o ho
    unfold Scene.pyIndex at ho
    simp only at ho
    generalize (if i < 0 then i + (s.objects.length : ℤ) else i) = j at ho
    split_ifs at ho
    cases hx : s.objects[j.toNat]? with
    | none => rw [hx] at ho; cases ho
    | some x =>
      rw [hx] at ho
      obtain rfl := Except.ok.inj ho
      exact List.mem_of_getElem? hx

theorem interacting_shapes (s : Scene) (shapes : List Shape) (hobj : s.objects = shapes.map Shape.obj) (c : List ℤ) (os : List Obj)
    (h : s.getInteractingObjects c = .ok os) : ∃ inter : List Shape, os = inter.map Shape.obj := by
  have := interacting_mem s c os h
  rw [hobj] at this
  clear h
  induction os with
  | nil => exact ⟨[], rfl⟩
  | cons o os ih =>
    obtain ⟨inter, rfl⟩ := ih fun o ho => this o (List.mem_cons_of_mem _ ho)
    obtain ⟨x, -, rfl⟩ := List.mem_map.mp (this o List.mem_cons_self)
    exact ⟨x :: inter, rfl⟩

/-- **C79.** With a larger patch (at least -1/2), every path keeps its points, names and candidate, and its validity (false counted as
0 and true as 1) does not increase: scenes of walls, RIS and vertices, any path class, random key and orders, when the traced points
are finite and one per interaction; in hard mode, or in approximate mode with a good activation. -/
theorem C79_patch_validity {Key : Type} (G : GraphLib) (s : Scene) (hs : IsScene s) (shapes : List Shape) (hobj : s.objects = shapes.map Shape.obj)
    (o : Scene.Orders) (split : Key → ℕ → List Key) (key : Option Key) (m : Scene.PathMethod Key)
    (E : Env) (approx : Option Bool) (kw : ActKw) (hmode : Hard E approx ∨ (Soft E approx ∧ GoodKw kw)) (tol : F) (patch patch' : ℝ)
    (hp : -(1 / 2) ≤ patch) (hpp : patch ≤ patch') (ts : List Scene.Traced)
    (e : s.allPaths G split m o ⟨E, tol, F.fin patch, approx, kw⟩ key = .ok ts)
    (hfin : ∀ t ∈ ts, ∃ pts : List Pt, t.path.xys = pts.map V2.fin ∧ pts.length = t.candidate.length + 2) :
    ∃ ts', s.allPaths G split m o ⟨E, tol, F.fin patch', approx, kw⟩ key = .ok ts' ∧
      List.Forall₂ (fun t t' : Scene.Traced => t'.tx = t.tx ∧ t'.rx = t.rx ∧ t'.path = t.path ∧ t'.candidate = t.candidate ∧
        Le t'.valid.toF t.valid.toF) ts ts' := by
  refine allPaths_settings G s hs o split key m _ _ (fun x x' => Le x'.toF x.toF) ts e ?_
  intro t ht os x hos hx
  obtain ⟨pts, e1, hl⟩ := hfin t ht
  have hsub : ∃ inter : List Shape, os = inter.map Shape.obj := by
    refine interacting_shapes s shapes hobj _ _ hos
  obtain ⟨inter, rfl⟩ := hsub
  obtain ⟨v, v', h1, h2, h3⟩ := isValid_patch pts t.path.loss E shapes inter t.candidate hl tol hp hpp approx kw hmode
  have hpath : t.path = ⟨pts.map V2.fin, t.path.loss⟩ := by rw [← e1]
  unfold Scene.validity at hx ⊢
  rw [hpath, hobj] at hx ⊢
  simp only at hx ⊢
  rw [h1] at hx
  obtain rfl := Except.ok.inj hx
  exact ⟨v', h2, h3⟩

theorem allPaths_bool {Key : Type} (G : GraphLib) (s : Scene) (hs : IsScene s) (o : Scene.Orders) (split : Key → ℕ → List Key)
    (key : Option Key) (m : Scene.PathMethod Key) (v : Scene.ValidOpts) (ts : List Scene.Traced) (e : s.allPaths G split m o v key = .ok ts)
    (hh : Hard v.E v.approx) : ∀ t ∈ ts, ∃ b, t.valid = .b b := by
  obtain ⟨ts', e', hF⟩ := allPaths_settings G s hs o split key m v v (fun x x' => x' = x ∧ ∃ b, x = .b b) ts e
    (fun t _ os x _ hx => ⟨x, hx, rfl, isValid_bool hh hx⟩)
  intro t ht
  rw [List.forall₂_iff_get] at hF
  obtain ⟨i, hi, rfl⟩ := List.mem_iff_getElem.mp ht
  exact (hF.2 i hi (hF.1 ▸ hi)).2.2.2.2.2

/-- **C79.** A larger patch (at least -1/2) only removes valid paths: the new list is a sublist of the former one. -/
theorem C79_patch {Key : Type} (G : GraphLib) (s : Scene) (hs : IsScene s) (shapes : List Shape) (hobj : s.objects = shapes.map Shape.obj)
    (o : Scene.Orders) (split : Key → ℕ → List Key) (key : Option Key) (m : Scene.PathMethod Key)
    (E : Env) (approx : Option Bool) (kw : ActKw) (hmode : Hard E approx ∨ (Soft E approx ∧ GoodKw kw)) (tol : F) (patch patch' : ℝ)
    (hp : -(1 / 2) ≤ patch) (hpp : patch ≤ patch') (ts : List Scene.Traced)
    (e : s.allPaths G split m o ⟨E, tol, F.fin patch, approx, kw⟩ key = .ok ts)
    (hfin : ∀ t ∈ ts, ∃ pts : List Pt, t.path.xys = pts.map V2.fin ∧ pts.length = t.candidate.length + 2) :
    ∃ out out', s.allValidPaths G split m o ⟨E, tol, F.fin patch, approx, kw⟩ key = .ok out ∧
      s.allValidPaths G split m o ⟨E, tol, F.fin patch', approx, kw⟩ key = .ok out' ∧ out'.Sublist out := by
  obtain ⟨ts', e', hF⟩ := C79_patch_validity G s hs shapes hobj o split key m E approx kw hmode tol patch patch' hp hpp ts e hfin
  have hb := allPaths_bool G s hs o split key m _ ts e
  have hb' := allPaths_bool G s hs o split key m _ ts' e'
  rw [C57_valid G s hs, C57_valid G s hs, e, e']
  refine ⟨_, _, rfl, rfl, filter_sublist (fun t : Scene.Traced => Accepted E approx t.valid) _ ?_⟩
  rw [List.forall₂_iff_get] at hF ⊢
  refine ⟨hF.1.symm, fun i h1 h2 => ?_⟩
  obtain ⟨g1, g2, g3, g4, g5⟩ := hF.2 i h2 h1
  exact ⟨by rw [g1, g2, g3, g4], toF_le_accepted (fun hh => ⟨hb' hh _ (List.get_mem _ _), hb hh _ (List.get_mem _ _)⟩) g5⟩

/-- The traversal of a scene of walls with the image method satisfies the hypotheses of C79. -/
example (G : GraphLib) (hG : GraphContract G) (Key : Type) (tx rx : PyDict Pt) (ht : Distinct tx) (hr : Distinct rx) (walls : List (Pt × Pt))
    (lo hi : ℤ) (hlo : 0 ≤ lo) (split : Key → ℕ → List Key) (key : Option Key) (E : Env) (approx : Option Bool) (kw : ActKw) (tol : F) (patch : ℝ) :
    ∃ ts, IsScene (wallScene tx rx walls) ∧ (wallScene tx rx walls).objects = (walls.map fun w => Shape.wall w.1 w.2).map Shape.obj ∧
      (wallScene tx rx walls).allPaths G split (imageMethod Key) { minOrder := lo, maxOrder := hi } ⟨E, tol, F.fin patch, approx, kw⟩ key = .ok ts ∧
      ∀ t ∈ ts, ∃ pts : List Pt, t.path.xys = pts.map V2.fin ∧ pts.length = t.candidate.length + 2 := by
  have hfin : ∀ d : PyDict Pt, Distinct d → Distinct (finPoints d) := by
    intro d hd; simpa [Distinct, finPoints, Function.comp_def] using hd
  have hS : IsScene (wallScene tx rx walls) := ⟨⟨_, hfin tx ht, rfl⟩, ⟨_, hfin rx hr, rfl⟩⟩
  have hobj := wallScene_objects tx rx walls
  obtain ⟨ts, hts⟩ := C56_image_total G hG Key _ hS (by
    intro o ho
    rw [hobj] at ho
    obtain ⟨w, -, rfl⟩ := List.mem_map.mp ho; exact ⟨_, rfl⟩) { minOrder := lo, maxOrder := hi } hlo split key ⟨E, tol, F.fin patch, approx, kw⟩
  refine ⟨ts, hS, by rw [hobj]; simp [wallsOf, Shape.obj], hts, fun y hy => ?_⟩
  obtain ⟨cs, hcs, hcd, hcm, -⟩ := C53_sound_complete G hG (wallScene tx rx walls) lo hi hlo
  obtain ⟨m1, -, -⟩ := traversal_mem G hG _ _ _ (hfin tx ht) (hfin rx hr) rfl rfl { minOrder := lo, maxOrder := hi } hlo split key cs hcs hcd _ _ ts hts
  obtain ⟨k, t, r, htm, hrm, hc, htr, -⟩ := m1 y hy
  obtain ⟨⟨tn, t⟩, -, hte⟩ := List.mem_map.mp htm
  obtain ⟨⟨rn, r⟩, -, hre⟩ := List.mem_map.mp hrm
  simp only [Prod.mk.injEq] at hte hre
  obtain ⟨-, rfl⟩ := hte
  obtain ⟨-, rfl⟩ := hre
  have hlen := onePointEach_image Key _ _ _ _ _ htr
  rw [objectsAt_length _ _ ((hcm _).mp hc).1] at hlen
  rw [objectsAt_walls] at htr
  obtain ⟨inner, loss, -, e⟩ := C33_finite t r (wallsAt walls y.candidate)
  have htr : traceImage t (wallsAt walls y.candidate) r = .ok y.path := htr
  rw [htr] at e
  have e1 := congrArg Path.xys (Except.ok.inj e)
  refine ⟨_, e1, ?_⟩
  rw [e1] at hlen
  simpa [finitePath] using hlen

end DiffeRT2d.Props
