import Verif.Spec.Scene
import Verif.Lemmas.Candidates
import Verif.Lemmas.BBox

/-! # Lemmas on mappings and scenes -/

namespace DiffeRT2d
open Spec

section
variable {V : Type*}

theorem lookup_eq_some {m : PyDict V} (h : Distinct m) {k : String} {v : V} :
    m.lookup k = some v ↔ (k, v) ∈ m := by
  induction m with
  | nil => simp
  | cons kv m ih =>
    obtain ⟨k', v'⟩ := kv
    simp only [Distinct, List.map_cons, List.nodup_cons] at h ih
    rw [List.lookup_cons]
    by_cases e : k = k'
    · subst e
      simp only [beq_self_eq_true, Option.some.injEq, List.mem_cons, Prod.mk.injEq, true_and]
      constructor
      · intro h; exact Or.inl h.symm
      · rintro (h' | h')
        · exact h'.symm
        · exact absurd (List.mem_map_of_mem h') h.1
    · have : (k == k') = false := by simp [e]
      simp only [this, List.mem_cons, Prod.mk.injEq, e, false_and, false_or]
      exact ih h.2

theorem lookup_eq_none {m : PyDict V} {k : String} : m.lookup k = none ↔ k ∉ m.map Prod.fst := by
  induction m with
  | nil => simp
  | cons kv m ih =>
    obtain ⟨k', v'⟩ := kv
    rw [List.lookup_cons]
    by_cases e : k = k'
    · subst e; simp
    · have : (k == k') = false := by simp [e]
      simp only [this, ih, List.map_cons, List.mem_cons, e, false_or]

theorem getItem_cons (k' : String) (v' : V) (m : PyDict V) (k : String) :
    (PyTreeDict.fromMapping ((k', v') :: m)).getItem k =
      if k = k' then .ok v' else (PyTreeDict.fromMapping m).getItem k := by
  unfold PyTreeDict.getItem PyTreeDict.fromMapping
  simp only [List.map_cons, List.idxOf?_cons]
  by_cases e : k = k'
  · subst e; simp
  · have : (k' == k) = false := by simp [Ne.symm e]
    simp only [this, if_neg e]
    cases (List.map Prod.fst m).idxOf? k <;> simp

theorem getItem_eq (m : PyDict V) (k : String) : (PyTreeDict.fromMapping m).getItem k =
    match m.lookup k with
    | some v => .ok v
    | none => .error .keyError := by
  induction m with
  | nil => rfl
  | cons kv m ih =>
    obtain ⟨k', v'⟩ := kv
    rw [getItem_cons, List.lookup_cons]
    by_cases e : k = k'
    · subst e; simp
    · have : (k == k') = false := by simp [e]
      rw [if_neg e, ih, this]

theorem items_eq {m : PyDict V} (h : Distinct m) : (PyTreeDict.fromMapping m).items = .ok m := by
  unfold PyTreeDict.items PyTreeDict.iter
  have h1 : (PyTreeDict.fromMapping m).keys = m.map Prod.fst := rfl
  rw [h1]
  have : ∀ m' : PyDict V, (∀ kv ∈ m', kv ∈ m) →
      (m'.map Prod.fst).mapM (fun key => ((PyTreeDict.fromMapping m).getItem key).map fun v => (key, v))
        = .ok m' := by
    intro m' hm
    induction m' with
    | nil => rfl
    | cons kv m' ih =>
      rw [List.map_cons, List.mapM_cons, ih (fun x hx => hm x (by simp [hx])), getItem_eq,
        (lookup_eq_some h).mpr (hm kv (by simp))]
      rfl
  exact this m fun _ h => h

theorem set_keys (d : PyDict V) (k : String) (v : V) :
    (d.set k v).map Prod.fst = appendNew (d.map Prod.fst) [k] := by
  unfold PyDict.set appendNew
  split_ifs with h
  · have e : (d.map fun kv => if kv.1 = k then (k, v) else kv).map Prod.fst = d.map Prod.fst := by
      rw [List.map_map]
      apply List.map_congr_left
      intro kv _
      simp only [Function.comp]
      split_ifs with e
      · exact e.symm
      · rfl
    simp only [e, List.filter_cons, h, not_true_eq_false, decide_false, Bool.false_eq_true, if_false,
      List.filter_nil, List.append_nil]
  · simp [List.filter_cons, h]

theorem set_lookup (d : PyDict V) (k : String) (v : V) (k' : String) :
    (d.set k v).lookup k' = if k' = k then some v else d.lookup k' := by
  unfold PyDict.set
  split_ifs with h e e
  · subst e
    induction d with
    | nil => simp at h
    | cons kv d ih =>
      obtain ⟨a, b⟩ := kv
      simp only [List.map_cons]
      by_cases ea : a = k'
      · subst ea; simp
      · have : (k' == a) = false := by simp [Ne.symm ea]
        rw [if_neg ea, List.lookup_cons, this]
        have h' : k' ∈ d.map Prod.fst := by
          simp only [List.map_cons, List.mem_cons] at h
          rcases h with h | h
          · exact absurd h.symm ea
          · exact h
        exact ih h'
  · clear h
    induction d with
    | nil => rfl
    | cons kv d ih =>
      obtain ⟨a, b⟩ := kv
      simp only [List.map_cons]
      by_cases ea : a = k
      · subst ea
        have : (k' == a) = false := by simp [e]
        simp only [if_true, List.lookup_cons, this]
        exact ih
      · simp only [if_neg ea, List.lookup_cons, ih]
  · subst e
    rw [List.lookup_append, lookup_eq_none.mpr h]; simp
  · rw [List.lookup_append]
    have : (k' == k) = false := by simp [e]
    simp [List.lookup_cons, this]

theorem appendNew_cons (old : List String) (k : String) (ks : List String) (h : k ∉ ks) :
    appendNew (appendNew old [k]) ks = appendNew old (k :: ks) := by
  unfold appendNew
  by_cases hk : k ∈ old
  · simp [List.filter_cons, hk]
  · simp only [List.filter_cons, hk, not_false_eq_true, decide_true, if_true, List.filter_nil,
      List.append_assoc, List.cons_append, List.nil_append]
    congr 2
    apply List.filter_congr
    intro x hx
    have : x ≠ k := fun e => h (e ▸ hx)
    simp [this]

theorem merge_keys (d e : PyDict V) (h : Distinct e) :
    (d.merge e).map Prod.fst = appendNew (d.map Prod.fst) (e.map Prod.fst) := by
  unfold PyDict.merge
  induction e generalizing d with
  | nil => simp [appendNew]
  | cons kv e ih =>
    simp only [Distinct, List.map_cons, List.nodup_cons] at h
    rw [List.foldl_cons, ih _ h.2, set_keys, List.map_cons, appendNew_cons _ _ _ h.1]

theorem merge_lookup (d e : PyDict V) (h : Distinct e) (k : String) :
    (d.merge e).lookup k = (e.lookup k).or (d.lookup k) := by
  unfold PyDict.merge
  induction e generalizing d with
  | nil => rfl
  | cons kv e ih =>
    obtain ⟨a, b⟩ := kv
    simp only [Distinct, List.map_cons, List.nodup_cons] at h
    rw [List.foldl_cons, ih _ h.2, set_lookup, List.lookup_cons]
    by_cases ea : k = a
    · subst ea
      simp [lookup_eq_none.mpr h.1]
    · have : (k == a) = false := by simp [ea]
      simp [this, ea]

theorem appendNew_nodup {old new : List String} (h1 : old.Nodup) (h2 : new.Nodup) : (appendNew old new).Nodup := by
  unfold appendNew
  rw [List.nodup_append]
  refine ⟨h1, h2.filter _, ?_⟩
  intro a ha b hb e
  subst e
  simpa [ha] using (List.mem_filter.mp hb).2

theorem merge_distinct {d e : PyDict V} (h1 : Distinct d) (h2 : Distinct e) : Distinct (d.merge e) := by
  unfold Distinct
  rw [merge_keys _ _ h2]
  exact appendNew_nodup h1 h2

end

/-! ## Bounding boxes -/

theorem mergeBoxes_tight (b : BBox) (bs : List BBox) (ps : List Pt) (pss : List (List Pt))
    (h : TightBox b ps) (hs : List.Forall₂ TightBox bs pss) :
    TightBox (Scene.mergeBoxes b bs) (ps ++ pss.flatten) := by
  classical
  -- explicit corners
  have hc : ∃ cs : List (Pt × Pt), bs = cs.map (fun c => ⟨V2.fin c.1, V2.fin c.2⟩) ∧
      List.Forall₂ (fun c ps => TightBox ⟨V2.fin c.1, V2.fin c.2⟩ ps) cs pss := by
    induction hs with
    | nil => exact ⟨[], rfl, .nil⟩
    | cons h1 _ ih =>
      obtain ⟨cs, rfl, hcs⟩ := ih
      obtain ⟨lo, hi, rfl, h2⟩ := h1
      exact ⟨(lo, hi) :: cs, rfl, .cons ⟨lo, hi, rfl, h2⟩ hcs⟩
  obtain ⟨cs, rfl, hcs⟩ := hc
  obtain ⟨lo, hi, rfl, hb⟩ := h
  have all : List.Forall₂ (fun (c : Pt × Pt) ps => TightBox ⟨V2.fin c.1, V2.fin c.2⟩ ps) ((lo, hi) :: cs) (ps :: pss) :=
    .cons ⟨lo, hi, rfl, hb⟩ hcs
  have un : ∀ (lo hi : Pt) (qs : List Pt), TightBox ⟨V2.fin lo, V2.fin hi⟩ qs →
    (∀ p ∈ qs, lo.x ≤ p.x ∧ p.x ≤ hi.x ∧ lo.y ≤ p.y ∧ p.y ≤ hi.y) ∧
    (∃ p ∈ qs, p.x = lo.x) ∧ (∃ p ∈ qs, p.x = hi.x) ∧ (∃ p ∈ qs, p.y = lo.y) ∧ (∃ p ∈ qs, p.y = hi.y) := by
    rintro lo hi qs ⟨lo', hi', e, h⟩
    injection e with e1 e2
    rw [V2.fin_inj.mp e1, V2.fin_inj.mp e2]
    exact h
  have wit : ∀ c ∈ (lo, hi) :: cs, ∃ qs, TightBox ⟨V2.fin c.1, V2.fin c.2⟩ qs ∧ ∀ q ∈ qs, q ∈ ps ++ pss.flatten := by
    intro c hcm
    obtain ⟨i, hi', rfl⟩ := List.mem_iff_getElem.mp hcm
    have hl := all.length_eq
    refine ⟨(ps :: pss)[i]'(by omega), List.Forall₂.get all (by omega) (by omega), ?_⟩
    intro q hq
    rw [← List.flatten_cons]
    exact List.mem_flatten.mpr ⟨_, List.getElem_mem _, hq⟩
  have cov : ∀ q ∈ ps ++ pss.flatten, ∃ c ∈ (lo, hi) :: cs,
      c.1.x ≤ q.x ∧ q.x ≤ c.2.x ∧ c.1.y ≤ q.y ∧ q.y ≤ c.2.y := by
    intro q hq
    rw [← List.flatten_cons] at hq
    obtain ⟨qs, hqs, hq⟩ := List.mem_flatten.mp hq
    obtain ⟨i, hi', rfl⟩ := List.mem_iff_getElem.mp hqs
    have hl := all.length_eq
    exact ⟨((lo, hi) :: cs)[i]'(by omega), List.getElem_mem _,
      (un _ _ _ (List.Forall₂.get all (by omega) (by omega))).1 q hq⟩
  obtain ⟨hx1, hx2⟩ := foldl_min_spec lo.x (cs.map fun c => c.1.x)
  obtain ⟨hx3, hx4⟩ := foldl_max_spec hi.x (cs.map fun c => c.2.x)
  obtain ⟨hy1, hy2⟩ := foldl_min_spec lo.y (cs.map fun c => c.1.y)
  obtain ⟨hy3, hy4⟩ := foldl_max_spec hi.y (cs.map fun c => c.2.y)
  have r1 : lo.x :: cs.map (fun c => c.1.x) = ((lo, hi) :: cs).map fun c => c.1.x := rfl
  have r2 : hi.x :: cs.map (fun c => c.2.x) = ((lo, hi) :: cs).map fun c => c.2.x := rfl
  have r3 : lo.y :: cs.map (fun c => c.1.y) = ((lo, hi) :: cs).map fun c => c.1.y := rfl
  have r4 : hi.y :: cs.map (fun c => c.2.y) = ((lo, hi) :: cs).map fun c => c.2.y := rfl
  rw [r1] at hx1 hx2
  rw [r2] at hx3 hx4
  rw [r3] at hy1 hy2
  rw [r4] at hy3 hy4
  refine ⟨⟨(cs.map fun c => c.1.x).foldl min lo.x, (cs.map fun c => c.1.y).foldl min lo.y⟩,
    ⟨(cs.map fun c => c.2.x).foldl max hi.x, (cs.map fun c => c.2.y).foldl max hi.y⟩, ?_, ?_, ?_, ?_, ?_, ?_⟩
  · have e1 : (cs.map fun c => (⟨V2.fin c.1, V2.fin c.2⟩ : BBox)).map (fun b => b.lo.x) = (cs.map fun c => c.1.x).map F.fin := by simp
    have e2 : (cs.map fun c => (⟨V2.fin c.1, V2.fin c.2⟩ : BBox)).map (fun b => b.lo.y) = (cs.map fun c => c.1.y).map F.fin := by simp
    have e3 : (cs.map fun c => (⟨V2.fin c.1, V2.fin c.2⟩ : BBox)).map (fun b => b.hi.x) = (cs.map fun c => c.2.x).map F.fin := by simp
    have e4 : (cs.map fun c => (⟨V2.fin c.1, V2.fin c.2⟩ : BBox)).map (fun b => b.hi.y) = (cs.map fun c => c.2.y).map F.fin := by simp
    simp only [Scene.mergeBoxes, e1, e2, e3, e4, V2.fin_x, V2.fin_y, F.minOf_fin, F.maxOf_fin]
    rfl
  · intro q hq
    obtain ⟨c, hc, h1, h2, h3, h4⟩ := cov q hq
    have a1 := hx2 _ (List.mem_map_of_mem (f := fun c : Pt × Pt => c.1.x) hc)
    have a2 := hx4 _ (List.mem_map_of_mem (f := fun c : Pt × Pt => c.2.x) hc)
    have a3 := hy2 _ (List.mem_map_of_mem (f := fun c : Pt × Pt => c.1.y) hc)
    have a4 := hy4 _ (List.mem_map_of_mem (f := fun c : Pt × Pt => c.2.y) hc)
    exact ⟨a1.trans h1, h2.trans a2, a3.trans h3, h4.trans a4⟩
  · obtain ⟨c, hc, e⟩ := List.mem_map.mp hx1
    obtain ⟨qs, hqs, hsub⟩ := wit c hc
    obtain ⟨p, hp, he⟩ := (un _ _ _ hqs).2.1
    exact ⟨p, hsub p hp, he.trans e⟩
  · obtain ⟨c, hc, e⟩ := List.mem_map.mp hx3
    obtain ⟨qs, hqs, hsub⟩ := wit c hc
    obtain ⟨p, hp, he⟩ := (un _ _ _ hqs).2.2.1
    exact ⟨p, hsub p hp, he.trans e⟩
  · obtain ⟨c, hc, e⟩ := List.mem_map.mp hy1
    obtain ⟨qs, hqs, hsub⟩ := wit c hc
    obtain ⟨p, hp, he⟩ := (un _ _ _ hqs).2.2.2.1
    exact ⟨p, hsub p hp, he.trans e⟩
  · obtain ⟨c, hc, e⟩ := List.mem_map.mp hy3
    obtain ⟨qs, hqs, hsub⟩ := wit c hc
    obtain ⟨p, hp, he⟩ := (un _ _ _ hqs).2.2.2.2
    exact ⟨p, hsub p hp, he.trans e⟩

/-! ## Renaming -/

theorem foldl_set_keys (f : String → String) (items acc : PyDict (V2 F)) :
    (items.foldl (fun d kv => d.set (f kv.1) kv.2) acc).map Prod.fst =
      ((items.map Prod.fst).map f).foldl (fun ks k => appendNew ks [k]) (acc.map Prod.fst) := by
  induction items generalizing acc with
  | nil => rfl
  | cons kv items ih => rw [List.foldl_cons, ih, set_keys]; rfl

theorem foldl_set_append (f : String → String) (items acc : PyDict (V2 F))
    (h : (acc.map Prod.fst ++ (items.map Prod.fst).map f).Nodup) :
    items.foldl (fun d kv => d.set (f kv.1) kv.2) acc = acc ++ items.map fun kv => (f kv.1, kv.2) := by
  induction items generalizing acc with
  | nil => simp
  | cons kv items ih =>
    have h' : f kv.1 ∉ acc.map Prod.fst := by
      rw [List.nodup_append] at h
      intro hm
      exact h.2.2 _ hm (f kv.1) (by simp) rfl
    have e : acc.set (f kv.1) kv.2 = acc ++ [(f kv.1, kv.2)] := by
      unfold PyDict.set; rw [if_neg h']
    rw [List.foldl_cons, e, ih]
    · simp
    · simpa [List.append_assoc] using h

theorem appendNew_foldl_mem (ks acc : List String) (x : String) :
    x ∈ ks.foldl (fun ks k => appendNew ks [k]) acc ↔ x ∈ acc ∨ x ∈ ks := by
  induction ks generalizing acc with
  | nil => simp
  | cons k ks ih =>
    rw [List.foldl_cons, ih]
    unfold appendNew
    by_cases h : k ∈ acc
    · simp only [List.filter_cons, h, not_true_eq_false, decide_false, Bool.false_eq_true, if_false,
        List.filter_nil, List.append_nil, List.mem_cons]
      constructor
      · rintro (h' | h')
        · exact Or.inl h'
        · exact Or.inr (Or.inr h')
      · rintro (h' | rfl | h')
        · exact Or.inl h'
        · exact Or.inl h
        · exact Or.inr h'
    · simp [List.filter_cons, h, or_assoc]

theorem appendNew_foldl_nodup (ks acc : List String) (h : acc.Nodup) :
    (ks.foldl (fun ks k => appendNew ks [k]) acc).Nodup := by
  induction ks generalizing acc with
  | nil => exact h
  | cons k ks ih => exact ih _ (appendNew_nodup h (by simp))

end DiffeRT2d
