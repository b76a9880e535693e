import Verif.Spec.Paths
import Verif.Lemmas.Validity
import Verif.Props.ImagePath

/-! # Properties C36–C40: validity of a path -/

namespace DiffeRT2d.Props
open Classical Spec

/-! ## C36 — on_objects -/

theorem C36_hard (p : Path) (E : Env) (ap : Option Bool) (h : Hard E ap) (kw : ActKw)
    (objects : List Interactable) (hlen : objects.length + 1 ≤ p.xys.length) :
    ∃ v, p.onObjects E objects ap kw = .b v ∧
      (v = true ↔ ∀ i o q, objects[i]? = some o → p.xys[i + 1]? = some q →
        Holds (o.contains E ap kw (o.toParam q))) := by
  rw [onObjects_eq, show trueValue E ap = .b true by simp [trueValue, h.eq], foldl_and_hard h]
  refine ⟨_, rfl, ?_⟩
  simp only [Bool.true_and, List.all_eq_true, Truthy.toBool_iff]
  constructor
  · intro hh i o q ho hq; exact hh _ ((mem_onVals hlen).mpr ⟨i, o, q, ho, hq, rfl⟩)
  · intro hh v hv
    obtain ⟨i, o, q, ho, hq, rfl⟩ := (mem_onVals hlen).mp hv
    exact hh i o q ho hq

/-- Non-vacuity: a path over a wall and a vertex. -/
example (E : Env) (kw : ActKw) (w : Wall) (v : Vertex) (a b c d : V2 F) :=
  C36_hard ⟨[a, b, c, d], 0⟩ E (some false) (.inl rfl) kw [w.interact, v.interact] (by simp)

/-- Approximate mode: the least of the individual truth degrees, 1 if there is none. -/
theorem C36_soft (p : Path) (E : Env) (ap : Option Bool) (h : Soft E ap) (kw : ActKw)
    (objects : List Interactable) (hlen : objects.length + 1 ≤ p.xys.length)
    (hd : ∀ i o q, objects[i]? = some o → p.xys[i + 1]? = some q →
      ∃ r, Degree (o.contains E ap kw (o.toParam q)) r) :
    ∃ r, p.onObjects E objects ap kw = .f (F.fin r) ∧ r ≤ 1 ∧
      (∀ i o q s, objects[i]? = some o → p.xys[i + 1]? = some q →
        Degree (o.contains E ap kw (o.toParam q)) s → r ≤ s) ∧
      (r = 1 ∨ ∃ i o q, objects[i]? = some o ∧ p.xys[i + 1]? = some q ∧
        Degree (o.contains E ap kw (o.toParam q)) r) := by
  have hd' : ∀ v ∈ onVals p E objects ap kw, ∃ r, Degree v r := by
    intro v hv
    obtain ⟨i, o, q, ho, hq, rfl⟩ := (mem_onVals hlen).mp hv
    exact hd i o q ho hq
  obtain ⟨rs, h1, h2⟩ := exists_degrees hd'
  rw [onObjects_eq, show trueValue E ap = .f 1 by simp [trueValue, h.eq], foldl_and_soft h, h2, F.one_eq,
    F.minOf_fin]
  obtain ⟨hm, hl⟩ := foldl_min_spec 1 rs
  refine ⟨_, rfl, hl 1 (by simp), ?_, ?_⟩
  · intro i o q s ho hq hs
    obtain ⟨y, hy, hy'⟩ := forall₂_mem_right h1 ((mem_onVals hlen).mpr ⟨i, o, q, ho, hq, rfl⟩)
    rw [hs.unique hy']; exact hl y (by simp [hy])
  · rcases List.mem_cons.mp hm with e | e
    · exact .inl e
    · right
      obtain ⟨x, hx, hx'⟩ := forall₂_mem_left h1 e
      obtain ⟨i, o, q, ho, hq, rfl⟩ := (mem_onVals hlen).mp hx
      exact ⟨i, o, q, ho, hq, hx'⟩

/-- For walls and points on the walls' lines: every point is on its wall. -/
theorem C36_walls (E : Env) (ap : Option Bool) (h : Hard E ap) (kw : ActKw) (ws : List (Pt × Pt))
    (tx rx : Pt) (inner : List Pt) (loss : ℝ) (hnd : ∀ w ∈ ws, w.1 ≠ w.2)
    (hon : List.Forall₂ (fun w q => OnLine w.1 w.2 q) ws inner) :
    (finitePath (tx :: inner ++ [rx]) loss).onObjects E ((wallsOf ws).map Obj.interact) ap kw = .b true ↔
      List.Forall₂ (fun w q => OnSegment w.1 w.2 q) ws inner := by
  have hlen := hon.length_eq
  obtain ⟨v, hv, hiff⟩ := C36_hard (finitePath (tx :: inner ++ [rx]) loss) E ap h kw
    ((wallsOf ws).map Obj.interact) (by simp [finitePath, wallsOf, hlen])
  rw [hv]
  have key : ∀ (w : Pt × Pt) (q : Pt), w.1 ≠ w.2 → OnLine w.1 w.2 q →
      (Holds ((Wall.ofPts w.1 w.2).interact.contains E ap kw
        ((Wall.ofPts w.1 w.2).interact.toParam (V2.fin q))) ↔ OnSegment w.1 w.2 q) := by
    rintro w q hne ⟨s, rfl⟩
    simp only [Wall.interact, List.headD_cons, toParam_fin, contains_hard h, rpar_pointAt hne, Holds,
      decide_eq_true_eq]
    constructor
    · rintro ⟨h0, h1⟩; exact ⟨s, h0, h1, rfl⟩
    · rintro ⟨t, h0, h1, e⟩
      have : s = t := by rw [← rpar_pointAt hne s, e, rpar_pointAt hne]
      subst this; exact ⟨h0, h1⟩
  rw [Truthy.b.injEq, hiff, List.forall₂_iff_get]
  constructor
  · intro hh
    refine ⟨hlen, fun i h1 h2 => ?_⟩
    have hw : ((wallsOf ws).map Obj.interact)[i]? = some ((Wall.ofPts (ws.get ⟨i, h1⟩).1 (ws.get ⟨i, h1⟩).2).interact) := by
      simp [wallsOf, h1, Obj.interact]
    have hq : (finitePath (tx :: inner ++ [rx]) loss).xys[i + 1]? = some (V2.fin (inner.get ⟨i, h2⟩)) := by
      simp [finitePath, List.getElem?_append, h2]
    have hl := (List.forall₂_iff_get.mp hon).2 i h1 h2
    exact (key _ _ (hnd _ (List.get_mem _ _)) hl).mp (hh i _ _ hw hq)
  · rintro ⟨-, hh⟩ i o q ho hq
    have h1 : i < ws.length := by
      obtain ⟨hlt, -⟩ := List.getElem?_eq_some_iff.mp ho
      simpa [wallsOf] using hlt
    have h2 : i < inner.length := by omega
    have hw : ((wallsOf ws).map Obj.interact)[i]? = some ((Wall.ofPts (ws.get ⟨i, h1⟩).1 (ws.get ⟨i, h1⟩).2).interact) := by
      simp [wallsOf, h1, Obj.interact]
    have hq' : (finitePath (tx :: inner ++ [rx]) loss).xys[i + 1]? = some (V2.fin (inner.get ⟨i, h2⟩)) := by
      simp [finitePath, List.getElem?_append, h2]
    rw [hw] at ho; rw [hq'] at hq
    simp only [Option.some.injEq] at ho hq
    subst ho hq
    have hl := (List.forall₂_iff_get.mp hon).2 i h1 h2
    exact (key _ _ (hnd _ (List.get_mem _ _)) hl).mpr (hh i h1 h2)

/-- Non-vacuity: the middle of a wall is on it. -/
example (E : Env) (kw : ActKw) : (finitePath [⟨0, 1⟩, ⟨1, 0⟩, ⟨2, 1⟩] 0).onObjects E ((wallsOf [(⟨0, 0⟩, ⟨2, 0⟩)]).map Obj.interact)
    (some false) kw = .b true :=
  (C36_walls E (some false) (.inl rfl) kw [(⟨0, 0⟩, ⟨2, 0⟩)] ⟨0, 1⟩ ⟨2, 1⟩ [⟨1, 0⟩] 0 (by simp)
    (.cons ⟨1 / 2, by ext <;> norm_num [pointAt]⟩ .nil)).2
    (.cons ⟨1 / 2, by norm_num, by norm_num, by ext <;> norm_num [pointAt]⟩ .nil)

/-- Non-vacuity: the reflection point `(1, 0)` is on the line of the wall. -/
example : List.Forall₂ (fun (w : Pt × Pt) q => OnLine w.1 w.2 q) [(⟨0, 0⟩, ⟨3, 0⟩)] [⟨1, 0⟩] :=
  .cons ⟨1 / 3, by ext <;> norm_num [pointAt]⟩ .nil

/-! ## C37 — intersects_with_objects -/

theorem not_adjacent (candidate : List ℤ) (i j : ℕ) : ¬ Adjacent candidate i j ↔
    (¬ ∃ k, i = k + 1 ∧ candidate[k]? = some (j : ℤ)) ∧ candidate[i]? ≠ some (j : ℤ) := by
  rw [Adjacent, not_or, and_comm]

theorem C37_hard (p : Path) (E : Env) (ap : Option Bool) (h : Hard E ap) (kw : ActKw)
    (objects : List Interactable) (candidate : List ℤ) (patch : F)
    (hlen : p.xys.length ≤ candidate.length + 2) :
    ∃ v, p.intersectsWithObjects E objects candidate patch ap kw = .ok (.b v) ∧
      (v = true ↔ ∃ i j o a b, p.xys[i]? = some a ∧ p.xys[i + 1]? = some b ∧ objects[j]? = some o ∧
        ¬ Adjacent candidate i j ∧ Holds (o.intersects E ap kw patch a b)) := by
  rw [intersects_eq _ _ _ _ _ _ _ hlen, show falseValue E ap = .b false by simp [falseValue, h.eq],
    foldl_or_hard h]
  refine ⟨_, rfl, ?_⟩
  simp only [Bool.false_or, List.any_eq_true, Truthy.toBool_iff]
  constructor
  · rintro ⟨v, hv, hh⟩
    obtain ⟨i, j, o, a, b, ha, hb, ho, h1, h2, rfl⟩ := (mem_hitVals hlen).mp hv
    exact ⟨i, j, o, a, b, ha, hb, ho, (not_adjacent _ _ _).mpr ⟨h1, h2⟩, hh⟩
  · rintro ⟨i, j, o, a, b, ha, hb, ho, hadj, hh⟩
    obtain ⟨h1, h2⟩ := (not_adjacent _ _ _).mp hadj
    exact ⟨_, (mem_hitVals hlen).mpr ⟨i, j, o, a, b, ha, hb, ho, h1, h2, rfl⟩, hh⟩

/-- Non-vacuity: a direct path in a scene with a wall. -/
example (E : Env) (kw : ActKw) (w : Wall) (a b : V2 F) :=
  C37_hard ⟨[a, b], 0⟩ E (some false) (.inl rfl) kw [w.interact] [] 0 (by simp)

theorem C37_soft (p : Path) (E : Env) (ap : Option Bool) (h : Soft E ap) (kw : ActKw)
    (objects : List Interactable) (candidate : List ℤ) (patch : F)
    (hlen : p.xys.length ≤ candidate.length + 2)
    (hd : ∀ i j o a b, p.xys[i]? = some a → p.xys[i + 1]? = some b → objects[j]? = some o →
      ¬ Adjacent candidate i j → ∃ r, Degree (o.intersects E ap kw patch a b) r) :
    ∃ r, p.intersectsWithObjects E objects candidate patch ap kw = .ok (.f (F.fin r)) ∧ 0 ≤ r ∧
      (∀ i j o a b s, p.xys[i]? = some a → p.xys[i + 1]? = some b → objects[j]? = some o →
        ¬ Adjacent candidate i j → Degree (o.intersects E ap kw patch a b) s → s ≤ r) ∧
      (r = 0 ∨ ∃ i j o a b, p.xys[i]? = some a ∧ p.xys[i + 1]? = some b ∧ objects[j]? = some o ∧
        ¬ Adjacent candidate i j ∧ Degree (o.intersects E ap kw patch a b) r) := by
  have hd' : ∀ v ∈ hitVals p E objects candidate patch ap kw, ∃ r, Degree v r := by
    intro v hv
    obtain ⟨i, j, o, a, b, ha, hb, ho, h1, h2, rfl⟩ := (mem_hitVals hlen).mp hv
    exact hd i j o a b ha hb ho ((not_adjacent _ _ _).mpr ⟨h1, h2⟩)
  obtain ⟨rs, h1, h2⟩ := exists_degrees hd'
  rw [intersects_eq _ _ _ _ _ _ _ hlen, show falseValue E ap = .f 0 by simp [falseValue, h.eq],
    foldl_or_soft h, h2, F.zero_eq, F.maxOf_fin]
  obtain ⟨hm, hl⟩ := foldl_max_spec 0 rs
  refine ⟨_, rfl, hl 0 (by simp), ?_, ?_⟩
  · intro i j o a b s ha hb ho hadj hs
    obtain ⟨g1, g2⟩ := (not_adjacent _ _ _).mp hadj
    obtain ⟨y, hy, hy'⟩ := forall₂_mem_right h1
      ((mem_hitVals hlen).mpr ⟨i, j, o, a, b, ha, hb, ho, g1, g2, rfl⟩)
    rw [hs.unique hy']; exact hl y (by simp [hy])
  · rcases List.mem_cons.mp hm with e | e
    · exact .inl e
    · right
      obtain ⟨x, hx, hx'⟩ := forall₂_mem_left h1 e
      obtain ⟨i, j, o, a, b, ha, hb, ho, g1, g2, rfl⟩ := (mem_hitVals hlen).mp hx
      exact ⟨i, j, o, a, b, ha, hb, ho, (not_adjacent _ _ _).mpr ⟨g1, g2⟩, hx'⟩

/-- Adding objects at the end of the scene can only obstruct more. -/
theorem C37_monotone (p : Path) (E : Env) (ap : Option Bool) (h : Hard E ap) (kw : ActKw)
    (objects more : List Interactable) (candidate : List ℤ) (patch : F)
    (hlen : p.xys.length ≤ candidate.length + 2)
    (hi : p.intersectsWithObjects E objects candidate patch ap kw = .ok (.b true)) :
    p.intersectsWithObjects E (objects ++ more) candidate patch ap kw = .ok (.b true) := by
  obtain ⟨v, h1, h2⟩ := C37_hard p E ap h kw objects candidate patch hlen
  obtain ⟨w, h3, h4⟩ := C37_hard p E ap h kw (objects ++ more) candidate patch hlen
  rw [h1] at hi; rw [h3]
  simp only [Except.ok.injEq, Truthy.b.injEq] at hi ⊢
  obtain ⟨i, j, o, a, b, ha, hb, ho, hadj, hh⟩ := h2.mp hi
  refine h4.mpr ⟨i, j, o, a, b, ha, hb, ?_, hadj, hh⟩
  obtain ⟨hlt, -⟩ := List.getElem?_eq_some_iff.mp ho
  rw [List.getElem?_append_left hlt, ho]

theorem C37_monotone_soft (p : Path) (E : Env) (ap : Option Bool) (h : Soft E ap) (kw : ActKw)
    (objects more : List Interactable) (candidate : List ℤ) (patch : F) (r r' : ℝ)
    (hlen : p.xys.length ≤ candidate.length + 2)
    (hd : ∀ o ∈ objects ++ more, ∀ a b, ∃ r, Degree (o.intersects E ap kw patch a b) r)
    (h1 : p.intersectsWithObjects E objects candidate patch ap kw = .ok (.f (F.fin r)))
    (h2 : p.intersectsWithObjects E (objects ++ more) candidate patch ap kw = .ok (.f (F.fin r'))) :
    r ≤ r' := by
  obtain ⟨s, g1, g2, g3, g4⟩ := C37_soft p E ap h kw objects candidate patch hlen
    (fun i j o a b _ _ ho _ => hd o (by simp [List.mem_of_getElem? ho]) a b)
  obtain ⟨s', k1, k2, k3, k4⟩ := C37_soft p E ap h kw (objects ++ more) candidate patch hlen
    (fun i j o a b _ _ ho _ => hd o (List.mem_of_getElem? ho) a b)
  rw [h1] at g1; rw [h2] at k1
  simp only [Except.ok.injEq, Truthy.f.injEq, F.fin.injEq] at g1 k1
  subst g1 k1
  rcases g4 with rfl | ⟨i, j, o, a, b, ha, hb, ho, hadj, hdg⟩
  · exact k2
  · obtain ⟨hlt, -⟩ := List.getElem?_eq_some_iff.mp ho
    exact k3 i j o a b _ ha hb (by rw [List.getElem?_append_left hlt, ho]) hadj hdg

/-- A candidate that is too short for the path is an error, not a verdict. -/
theorem C37_too_short (p : Path) (E : Env) (ap : Option Bool) (kw : ActKw)
    (objects : List Interactable) (candidate : List ℤ) (patch : F)
    (hne : objects ≠ []) (hlen : candidate.length + 2 < p.xys.length) :
    p.intersectsWithObjects E objects candidate patch ap kw = .error .indexError := by
  unfold Path.intersectsWithObjects
  rw [if_pos ⟨hne, by simpa using hlen⟩]

/-- Non-vacuity: a path with one interaction, and the candidate of the direct path. -/
example (E : Env) (ap : Option Bool) (kw : ActKw) (w : Wall) (a b c : V2 F) :=
  C37_too_short ⟨[a, b, c], 0⟩ E ap kw [w.interact] [] 0 (by simp) (by simp)

/-- Non-vacuity of the length hypotheses, and of `Adjacent`. -/
example : Adjacent [2, 5] 0 2 ∧ Adjacent [2, 5] 1 2 ∧ Adjacent [2, 5] 1 5 ∧ Adjacent [2, 5] 2 5 ∧
    ¬ Adjacent [2, 5] 0 5 ∧ ¬ Adjacent [2, 5] 2 2 := by
  refine ⟨.inl rfl, .inr ⟨0, rfl, rfl⟩, .inl rfl, .inr ⟨1, rfl, rfl⟩, ?_, ?_⟩
  · rintro (h | ⟨k, h, -⟩)
    · simp at h
    · simp at h
  · rintro (h | ⟨k, h, h'⟩)
    · simp at h
    · obtain rfl : k = 1 := by omega
      simp at h'

/-! ## C38 — is_valid -/

theorem C38_hard (p : Path) (E : Env) (ap : Option Bool) (h : Hard E ap) (kw : ActKw)
    (objects inter : List Interactable) (candidate : List ℤ) (tol patch : F)
    (hlen : p.xys.length = candidate.length + 2) (hint : inter.length = candidate.length) :
    ∃ v, p.isValid E objects candidate inter tol patch ap kw = .ok (.b v) ∧
      (v = true ↔
        (∀ i o q, inter[i]? = some o → p.xys[i + 1]? = some q →
          Holds (o.contains E ap kw (o.toParam q))) ∧
        (¬ ∃ i j o a b, p.xys[i]? = some a ∧ p.xys[i + 1]? = some b ∧ objects[j]? = some o ∧
          ¬ Adjacent candidate i j ∧ Holds (o.intersects E ap kw patch a b)) ∧
        Lt p.loss tol) := by
  obtain ⟨u, hu, hu'⟩ := C36_hard p E ap h kw inter (by omega)
  obtain ⟨v, hv, hv'⟩ := C37_hard p E ap h kw objects candidate patch hlen.le
  unfold Path.isValid
  rw [hu, hv]
  refine ⟨u && (!v && F.lt p.loss tol), ?_, ?_⟩
  · simp only [bind, Except.bind, logicalAll_hard h, pure, Except.pure, Truthy.nanToNum]
    simp [logicalNot, less, h.eq, Truthy.toBool]
  · rw [Bool.and_eq_true, Bool.and_eq_true, Bool.not_eq_true', F.lt_iff, hu', ← hv', Bool.not_eq_true]

/-- Non-vacuity: a path over the first of two walls. -/
example (E : Env) (kw : ActKw) (w w' : Wall) (a b c : V2 F) :=
  C38_hard ⟨[a, b, c], 0⟩ E (some false) (.inl rfl) kw [w.interact, w'.interact] [w.interact] [0] VALID_TOL DEFAULT_PATCH (by simp) (by simp)

/-- The three requirements as the user sees them. -/
theorem C38_hard_parts (p : Path) (E : Env) (ap : Option Bool) (h : Hard E ap) (kw : ActKw)
    (objects inter : List Interactable) (candidate : List ℤ) (tol patch : F)
    (hlen : p.xys.length ≤ candidate.length + 2) :
    p.isValid E objects candidate inter tol patch ap kw = .ok (.b true) ↔
      p.onObjects E inter ap kw = .b true ∧
      p.intersectsWithObjects E objects candidate patch ap kw = .ok (.b false) ∧
      Lt p.loss tol := by
  rw [isValid_hard p h _ _ _ _ _ _ hlen, intersects_eq _ _ _ _ _ _ _ hlen, onObjects_eq,
    show trueValue E ap = .b true by simp [trueValue, h.eq],
    show falseValue E ap = .b false by simp [falseValue, h.eq], foldl_and_hard h, foldl_or_hard h,
    ← F.lt_iff]
  simp only [Except.ok.injEq, Truthy.b.injEq, Bool.and_eq_true, Bool.not_eq_true', Bool.true_and, Bool.false_or]

theorem degNan_of {x : Truthy} (h : DegreeOrNan x) : DegNan x.toF := by
  rcases h with rfl | ⟨r, h⟩
  · exact .inl rfl
  · exact .inr ⟨r, h.toF, h.1, h.2.1⟩

/-- Approximate mode: always a number in `[0,1]`, never a NaN, and at most each part. -/
theorem C38_soft (p : Path) (E : Env) (ap : Option Bool) (h : Soft E ap) (kw : ActKw) (hk : GoodKw kw)
    (objects inter : List Interactable) (candidate : List ℤ) (tol patch : F)
    (hlen : p.xys.length ≤ candidate.length + 2)
    (ho : ∀ o ∈ objects, FuzzyObject E ap kw o) (hi : ∀ o ∈ inter, FuzzyObject E ap kw o) :
    ∃ r, p.isValid E objects candidate inter tol patch ap kw = .ok (.f (F.fin r)) ∧ 0 ≤ r ∧ r ≤ 1 ∧
      (∀ s, p.onObjects E inter ap kw = .f (F.fin s) → r ≤ s) ∧
      (∀ s, p.intersectsWithObjects E objects candidate patch ap kw = .ok (.f (F.fin s)) → r ≤ 1 - s) ∧
      (∀ s, less E ap kw p.loss tol = .f (F.fin s) → r ≤ s) := by
  rw [isValid_soft p h _ _ _ _ _ _ hlen, intersects_eq _ _ _ _ _ _ _ hlen, onObjects_eq,
    show trueValue E ap = .f 1 by simp [trueValue, h.eq],
    show falseValue E ap = .f 0 by simp [falseValue, h.eq], foldl_and_soft h, foldl_or_soft h]
  have hA : DegNan (F.minOf 1 ((onVals p E inter ap kw).map Truthy.toF)) := by
    apply DegNan.minOf (by rw [F.one_eq]; exact .of_fin zero_le_one le_rfl)
    intro x hx
    simp only [onVals, List.map_map, List.mem_map] at hx
    obtain ⟨⟨o, i⟩, hm, rfl⟩ := hx
    have : o ∈ inter := by
      rw [List.mem_zipIdx_iff_getElem?] at hm; exact List.mem_of_getElem? hm
    exact degNan_of ((hi o this).1 _)
  have hB : DegNan (F.maxOf 0 ((hitVals p E objects candidate patch ap kw).map Truthy.toF)) := by
    apply DegNan.maxOf (by rw [F.zero_eq]; exact .of_fin le_rfl zero_le_one)
    intro x hx
    simp only [List.mem_map] at hx
    obtain ⟨v, hv, rfl⟩ := hx
    obtain ⟨i, j, o, a, b, -, -, hj, -, -, rfl⟩ := (mem_hitVals hlen).mp hv
    exact degNan_of ((ho o (List.mem_of_getElem? hj)).2 _ _ _)
  have hC : DegNan (activation kw (tol - p.loss)) := hk.degNan _
  simp only [Truthy.f.injEq, Except.ok.injEq, less, h.eq, if_true]
  generalize F.minOf 1 ((onVals p E inter ap kw).map Truthy.toF) = A at *
  generalize F.maxOf 0 ((hitVals p E objects candidate patch ap kw).map Truthy.toF) = B at *
  generalize activation kw (tol - p.loss) = C at *
  have zero : F.minOf A [1 - B, C] = F.nan →
      ∃ r, (F.minOf A [1 - B, C]).nanToNum = F.fin r ∧ 0 ≤ r ∧ r ≤ 1 ∧ (∀ s, A = F.fin s → r ≤ s) ∧
        (∀ s, B = F.fin s → r ≤ 1 - s) ∧ (∀ s, C = F.fin s → r ≤ s) := by
    intro e
    refine ⟨0, by rw [e]; rfl, le_rfl, zero_le_one, ?_, ?_, ?_⟩
    · rintro s rfl; rcases hA with e | ⟨c, e, h0, -⟩
      · cases e
      · rw [F.fin_inj.mp e]; exact h0
    · rintro s rfl; rcases hB with e | ⟨c, e, -, h0⟩
      · cases e
      · rw [F.fin_inj.mp e]; linarith
    · rintro s rfl; rcases hC with e | ⟨c, e, h0, -⟩
      · cases e
      · rw [F.fin_inj.mp e]; exact h0
  rcases hA with rfl | ⟨a, rfl, ha0, ha1⟩
  · exact zero (F.minOf_nan (.inl rfl))
  rcases hB with rfl | ⟨b, rfl, hb0, hb1⟩
  · exact zero (F.minOf_nan (.inr (by simp [show (1 : F) - F.nan = F.nan from rfl])))
  rcases hC with rfl | ⟨c, rfl, hc0, hc1⟩
  · exact zero (F.minOf_nan (.inr (by simp)))
  · refine ⟨min (min a (1 - b)) c, ?_, ?_, ?_, ?_, ?_, ?_⟩
    · simp [F.minOf, F.nanToNum]
    · exact le_min (le_min ha0 (by linarith)) hc0
    · exact (min_le_left _ _).trans ((min_le_left _ _).trans ha1)
    · intro s e; rw [F.fin_inj.mp e] at *
      exact (min_le_left _ _).trans (min_le_left _ _)
    · intro s e; rw [F.fin_inj.mp e] at *
      exact (min_le_left _ _).trans (min_le_right _ _)
    · intro s e; rw [F.fin_inj.mp e] at *
      exact min_le_right _ _

/-- The built-in objects satisfy the hypothesis of `C38_soft`, whatever their coordinates (NaN and
infinities included). -/
theorem C38_builtin (E : Env) (ap : Option Bool) (h : Soft E ap) (kw : ActKw) (hk : GoodKw kw) :
    (∀ w : Wall, FuzzyObject E ap kw w.interact) ∧ (∀ r : RIS, FuzzyObject E ap kw r.interact) ∧
    (∀ v : Vertex, FuzzyObject E ap kw v.interact) := by
  have hdn : ∀ x : F, DegNan x → DegreeOrNan (.f x) := by
    rintro x (rfl | ⟨r, rfl, h0, h1⟩)
    · exact .inl rfl
    · exact .inr ⟨r, .of_f h0 h1⟩
  have hand : ∀ x y : F, DegNan x → DegNan y → logicalAnd E ap (.f x) (.f y) = .f (F.min x y) ∧ DegNan (F.min x y) :=
    fun x y hx hy => ⟨by simp [logicalAnd, h.eq, Truthy.minimum, Truthy.toF], hx.min hy⟩
  have hw : ∀ w : Wall, FuzzyObject E ap kw w.interact := by
    intro w
    constructor
    · intro q
      simp only [Wall.interact, Wall.contains, greaterEqual, lessEqual, h.eq, if_true]
      obtain ⟨e, hd⟩ := hand _ _ (hk.degNan ((w.toParam q) - 0)) (hk.degNan (1 - w.toParam q))
      simp only [List.headD_cons]
      rw [e]; exact hdn _ hd
    · intro patch a b
      have hseg : ∀ x y : F, ∃ z, segTest E SEG_TOL ap kw x y = .f z ∧ DegNan z := by
        intro x y
        simp only [segTest, greaterEqual, lessEqual, h.eq, if_true]
        obtain ⟨e, hd⟩ := hand _ _ (hk.degNan _) (hk.degNan _)
        exact ⟨_, e, hd⟩
      simp only [Wall.interact, Wall.intersects, segmentsIntersect]
      generalize hx : segTest E SEG_TOL ap kw _ _ = u
      generalize hy : segTest E SEG_TOL ap kw _ _ = v
      obtain ⟨z, hz, hz'⟩ := hseg _ _
      obtain ⟨z2, hz2, hz2'⟩ := hseg _ _
      rw [← hx, ← hy, hz, hz2, (hand _ _ hz' hz2').1]
      exact hdn _ (hz'.min hz2')
  refine ⟨hw, fun r => hw r.toWall, fun v => ⟨fun q => ?_, fun patch a b => ?_⟩⟩
  · simp only [Vertex.interact, trueValue, h.eq, if_true, F.one_eq]
    exact .inr ⟨1, .of_f zero_le_one le_rfl⟩
  · simp only [Vertex.interact, falseValue, h.eq, if_true, F.zero_eq]
    exact .inr ⟨0, .of_f le_rfl zero_le_one⟩

/-- Non-vacuity of `C36_soft`, `C37_soft` and `C38_soft`: a path over a wall, in a scene with a vertex, any coordinates. -/
example (E : Env) (w : Wall) (v : Vertex) (a b c : V2 F) := C38_soft ⟨[a, b, c], 0⟩ E (some true) (.inl rfl) {} goodKw_default
  [w.interact, v.interact] [w.interact] [0] VALID_TOL DEFAULT_PATCH (by simp)
  (by
    obtain ⟨h1, -, h3⟩ := C38_builtin E (some true) (.inl rfl) {} goodKw_default
    simpa using ⟨h1 w, h3 v⟩)
  (by simpa using (C38_builtin E (some true) (.inl rfl) {} goodKw_default).1 w)

example (E : Env) (v : Vertex) (a b c : V2 F) := C36_soft ⟨[a, b, c], 0⟩ E (some true) (.inl rfl) {} [v.interact] (by simp) (by
    intro i o q ho _
    have : o = v.interact := by
      rcases i with _ | i <;> simp_all
    subst this
    exact ⟨1, by norm_num, le_rfl, .inl (by simp [Vertex.interact, trueValue, resolveApprox, F.one_eq])⟩)

example (E : Env) (v : Vertex) (a b : V2 F) := C37_soft ⟨[a, b], 0⟩ E (some true) (.inl rfl) {} [v.interact] [] 0 (by simp) (by
    intro i j o a b _ _ ho _
    have : o = v.interact := by
      rcases j with _ | j <;> simp_all
    subst this
    exact ⟨0, le_rfl, by norm_num, .inl (by simp [Vertex.interact, falseValue, resolveApprox, F.zero_eq])⟩)

example (E : Env) (kw : ActKw) (hk : GoodKw kw) := C38_builtin E (some true) (.inl rfl) kw hk

/-- Non-vacuity: the direct path in an empty scene is valid in both modes (loss 0 < tol 0.01): fully so
in approximate mode only up to `activation(0.01)`. -/
example (E : Env) (kw : ActKw) :
    (⟨[V2.fin ⟨0, 0⟩, V2.fin ⟨1, 0⟩], 0⟩ : Path).isValid E [] [] [] VALID_TOL DEFAULT_PATCH (some false) kw =
      .ok (.b true) := by
  rw [C38_hard_parts _ _ _ (.inl rfl) _ _ _ _ _ _ (by simp)]
  refine ⟨by simp [Path.onObjects, trueValue, resolveApprox],
    by simp [Path.intersectsWithObjects, falseValue, resolveApprox, List.range_succ], ?_⟩
  rw [← F.lt_iff, VALID_TOL, F.zero_eq]
  simp only [F.lt, OfScientific.ofScientific]
  norm_num

/-! ## C40 — NaN data -/

theorem C40_loss (p : Path) (E : Env) (ap : Option Bool) (kw : ActKw) (hk : GoodKw kw)
    (objects inter : List Interactable) (candidate : List ℤ) (tol patch : F)
    (hlen : p.xys.length ≤ candidate.length + 2) (hn : p.loss = F.nan) :
    (Hard E ap → p.isValid E objects candidate inter tol patch ap kw = .ok (.b false)) ∧
    (Soft E ap → p.isValid E objects candidate inter tol patch ap kw = .ok (.f (F.fin 0))) := by
  refine ⟨fun h => ?_, fun h => ?_⟩
  · rw [isValid_hard p h _ _ _ _ _ _ hlen, hn]
    have : F.lt F.nan tol = false := by cases tol <;> rfl
    rw [this]; simp
  · rw [isValid_soft p h _ _ _ _ _ _ hlen, hn]
    obtain ⟨s, -, -, -, h4, -⟩ := hk.real
    have : tol - F.nan = F.nan := by cases tol <;> rfl
    rw [this, h4, F.minOf_nan (.inr (by simp))]; rfl

/-- Non-vacuity: a path without a loss. -/
example (E : Env) (ap : Option Bool) (w : Wall) (a b c : V2 F) :=
  C40_loss ⟨[a, b, c], F.nan⟩ E ap {} goodKw_default [w.interact] [w.interact] [0] VALID_TOL DEFAULT_PATCH (by simp) rfl

theorem toParam_nan (w : Wall) (q : V2 F) (hq : q.x = F.nan ∨ q.y = F.nan) : w.toParam q = F.nan := by
  have m1 : ∀ a : F, a * F.nan = F.nan := by intro a; cases a <;> rfl
  have a1 : ∀ a : F, a + F.nan = F.nan := by intro a; cases a <;> rfl
  have a2 : ∀ a : F, F.nan + a = F.nan := by intro a; cases a <;> rfl
  have s1 : ∀ a : F, F.nan - a = F.nan := by intro a; cases a <;> rfl
  have d1 : ∀ a : F, F.nan / a = F.nan := by intro a; cases a <;> rfl
  simp only [Wall.toParam, V2.dot, V2.sub_x, V2.sub_y]
  rcases hq with hq | hq <;> rw [hq, s1, m1] <;> simp only [a1, a2, d1]

/-- A NaN coordinate of the interaction point on a wall or a RIS. -/
theorem C40_point (p : Path) (E : Env) (ap : Option Bool) (kw : ActKw) (hk : GoodKw kw)
    (objects inter : List Interactable) (candidate : List ℤ) (tol patch : F)
    (hlen : p.xys.length ≤ candidate.length + 2) (hint : inter.length + 1 ≤ p.xys.length)
    (i : ℕ) (o : Interactable) (q : V2 F) (ho : inter[i]? = some o) (hq : p.xys[i + 1]? = some q)
    (hw : (∃ w : Wall, o = w.interact) ∨ ∃ r : RIS, o = r.interact)
    (hn : q.x = F.nan ∨ q.y = F.nan) :
    (Hard E ap → p.isValid E objects candidate inter tol patch ap kw = .ok (.b false)) ∧
    (Soft E ap → p.isValid E objects candidate inter tol patch ap kw = .ok (.f (F.fin 0))) := by
  have hv : o.contains E ap kw (o.toParam q) ∈ onVals p E inter ap kw :=
    (mem_onVals hint).mpr ⟨i, o, q, ho, hq, rfl⟩
  have hc : ∃ w : Wall, o.contains E ap kw (o.toParam q) = w.contains E ap kw F.nan := by
    rcases hw with ⟨w, rfl⟩ | ⟨r, rfl⟩
    · exact ⟨w, by simp [Wall.interact, toParam_nan w q hn]⟩
    · exact ⟨r.toWall, by simp [RIS.interact, Wall.interact, toParam_nan r.toWall q hn]⟩
  obtain ⟨w, hc⟩ := hc
  rw [hc] at hv
  refine ⟨fun h => ?_, fun h => ?_⟩
  · rw [isValid_hard p h _ _ _ _ _ _ hlen]
    have : (w.contains E ap kw F.nan) = .b false := by
      simp [Wall.contains, logicalAnd, greaterEqual, lessEqual, h.eq, Truthy.toBool, F.le, F.lt, F.eq]
    rw [this] at hv
    have : (onVals p E inter ap kw).all Truthy.toBool = false :=
      List.all_eq_false.mpr ⟨_, hv, by simp [Truthy.toBool]⟩
    rw [this]; simp
  · rw [isValid_soft p h _ _ _ _ _ _ hlen]
    obtain ⟨s, -, -, -, h4, -⟩ := hk.real
    have : (w.contains E ap kw F.nan) = .f F.nan := by
      have e1 : F.nan - (0 : F) = F.nan := rfl
      have e2 : (1 : F) - F.nan = F.nan := rfl
      simp only [Wall.contains, logicalAnd, greaterEqual, lessEqual, h.eq, if_true, e1, e2, h4,
        Truthy.minimum, Truthy.toF, F.min, F.isNan, Bool.or_self]
    rw [this] at hv
    have : F.nan ∈ (onVals p E inter ap kw).map Truthy.toF := List.mem_map.mpr ⟨_, hv, rfl⟩
    rw [F.minOf_nan (.inl (F.minOf_nan (.inr this)))]; rfl

/-- Non-vacuity: a path through a NaN point on a wall. -/
example (E : Env) (ap : Option Bool) (w : Wall) (a b : V2 F) :=
  C40_point ⟨[a, V2.nan, b], 0⟩ E ap {} goodKw_default [w.interact] [w.interact] [0] VALID_TOL DEFAULT_PATCH (by simp) (by simp) 0 w.interact
    V2.nan rfl rfl (.inl ⟨w, rfl⟩) (.inl rfl)

/-- What is *not* detected: a NaN end point. A direct path (no interaction) from a NaN transmitter is
reported valid in hard mode, whatever the scene. -/
theorem C40_endpoint_counterexample : ∃ p : Path, V2.nan ∈ p.xys ∧
    ∀ (E : Env) (kw : ActKw) (ws : List (Pt × Pt)),
      p.isValid E ((wallsOf ws).map Obj.interact) [] [] VALID_TOL DEFAULT_PATCH (some false) kw =
        .ok (.b true) := by
  refine ⟨⟨[V2.nan, V2.fin ⟨1, 0⟩], 0⟩, by simp, fun E kw ws => ?_⟩
  have h : Hard E (some false) := .inl rfl
  rw [isValid_hard _ h _ _ _ _ _ _ (by simp)]
  have h1 : (hitVals ⟨[V2.nan, V2.fin ⟨1, 0⟩], 0⟩ E ((wallsOf ws).map Obj.interact) [] DEFAULT_PATCH
      (some false) kw).any Truthy.toBool = false := by
    rw [List.any_eq_false]
    intro v hv
    obtain ⟨i, j, o, a, b, ha, hb, hj, -, -, rfl⟩ := (mem_hitVals (by simp)).mp hv
    have hi : i = 0 := by
      cases i with
      | zero => rfl
      | succ i => simp at hb
    subst hi
    simp at ha hb
    subst ha hb
    simp only [wallsOf, List.map_map, List.getElem?_map, Option.map_eq_some_iff] at hj
    obtain ⟨w, -, rfl⟩ := hj
    have m0 : ∀ a : F, a * F.nan = F.nan := by intro a; cases a <;> rfl
    have m1 : ∀ a : F, F.nan * a = F.nan := by intro a; cases a <;> rfl
    have s0 : ∀ a : F, a - F.nan = F.nan := by intro a; cases a <;> rfl
    have s1 : ∀ a : F, F.nan - a = F.nan := by intro a; cases a <;> rfl
    have d1 : ∀ a : F, F.nan / a = F.nan := by intro a; cases a <;> rfl
    simp [Obj.interact, Wall.interact, Wall.intersects, segmentsIntersect, V2.nan, s1, s0, m0, m1, segTest, F.where_,
      d1, logicalAnd, greaterEqual, lessEqual, h.eq, Truthy.toBool, F.le, F.lt, F.eq]
  rw [h1]
  have h2 : F.lt 0 VALID_TOL = true := by
    rw [VALID_TOL, F.zero_eq]; simp only [F.lt, OfScientific.ofScientific]; norm_num
  rw [F.zero_eq] at h2
  simp [onVals, h2]

/-- Non-vacuity of `C40_point`: a path through a NaN point on a wall. -/
example : ((⟨[V2.fin ⟨0, 0⟩, V2.nan, V2.fin ⟨1, 0⟩], 0⟩ : Path).xys[0 + 1]?) = some V2.nan ∧
    (V2.nan : V2 F).x = F.nan := ⟨rfl, rfl⟩

end DiffeRT2d.Props
