import Verif.Lemmas.Scene
import Verif.Props.Candidates
import Verif.Props.Length
import Verif.Props.BBox

/-! # Properties C48–C52, C55, and the scene parts of C15 and C25 -/

namespace DiffeRT2d.Props
open Spec

/-! ## C48 — mappings -/

/-- **C48.** `PyTreeDict.from_mapping(m)`: same keys in the same order, same length; indexing finds each value
and raises `KeyError` for every other key; `in` and `items` agree. -/
theorem C48_mapping {V : Type*} (m : PyDict V) (h : Distinct m) :
    (PyTreeDict.fromMapping m).iter = m.map Prod.fst ∧
    (PyTreeDict.fromMapping m).len = m.length ∧
    (∀ k v, (k, v) ∈ m → (PyTreeDict.fromMapping m).getItem k = .ok v) ∧
    (∀ k, (∀ v, (k, v) ∉ m) → (PyTreeDict.fromMapping m).getItem k = .error .keyError) ∧
    (∀ k, (PyTreeDict.fromMapping m).contains k = true ↔ ∃ v, (k, v) ∈ m) ∧
    (PyTreeDict.fromMapping m).items = .ok m := by
  have hnone : ∀ k, (∀ v, (k, v) ∉ m) → m.lookup k = none := by
    intro k hk
    rw [lookup_eq_none]
    intro hm
    obtain ⟨⟨a, b⟩, h1, rfl⟩ := List.mem_map.mp hm
    exact hk b h1
  refine ⟨rfl, by simp [PyTreeDict.len, PyTreeDict.fromMapping], ?_, ?_, ?_, items_eq h⟩
  · intro k v hkv
    rw [getItem_eq, (lookup_eq_some h).mpr hkv]
  · intro k hk
    rw [getItem_eq, hnone k hk]
  · intro k
    unfold PyTreeDict.contains
    rw [getItem_eq]
    constructor
    · intro hc
      by_contra hk
      rw [hnone k (fun v hv => hk ⟨v, hv⟩)] at hc
      simp at hc
    · rintro ⟨v, hv⟩
      rw [(lookup_eq_some h).mpr hv]

/-- Non-vacuity: two names. -/
example := C48_mapping [("a", 1), ("b", 2)] (by simp [Distinct])

/-- **C48.** The constructor rejects different numbers of keys and values, and only these. -/
theorem C48_mismatch {V : Type*} (keys : List String) (values : List V) :
    PyTreeDict.make keys values = .error .valueError ↔ keys.length ≠ values.length := by
  unfold PyTreeDict.make
  split_ifs with h
  · simp [h]
  · simp [h]

/-- **C48.** What the constructor accepts with distinct keys is the mapping that pairs keys and values. -/
theorem C48_make {V : Type*} (keys : List String) (values : List V) (h : keys.length = values.length) :
    PyTreeDict.make keys values = .ok (.fromMapping (keys.zip values)) := by
  unfold PyTreeDict.make PyTreeDict.fromMapping
  rw [if_neg (by simp [h]), List.map_fst_zip h.le, List.map_snd_zip h.ge]

/-- Non-vacuity: as many keys as values. -/
example := C48_make (V := ℕ) ["a", "b"] [1, 2] (by simp)

/-- **C48.** Converting twice changes nothing (a scene converts its arguments, whatever mapping they are). -/
theorem C48_idempotent {V : Type*} (d : PyTreeDict V) (h : IsMapping d) :
    ∃ m, d.items = .ok m ∧ PyTreeDict.fromMapping m = d := by
  obtain ⟨m, hm, rfl⟩ := h
  exact ⟨m, items_eq hm, rfl⟩

/-- Non-vacuity: a mapping with two names. -/
example := C48_idempotent (.fromMapping [("a", 1), ("b", 2)]) ⟨_, by simp [Distinct], rfl⟩

example : (PyTreeDict.fromMapping [("a", 1), ("b", 2)] : PyTreeDict ℕ).getItem "b" = .ok 2 := by rfl
example : (PyTreeDict.fromMapping [("a", 1), ("b", 2)] : PyTreeDict ℕ).getItem "c" = .error .keyError := by rfl
example : Distinct [("a", 1), ("b", 2)] := by simp [Distinct]

/-! ## C49 — editing -/

theorem bindKwargs_ok {V : Type*} {m : PyDict V} (h : "self" ∉ m.map Prod.fst) : Scene.bindKwargs m = .ok m := by
  unfold Scene.bindKwargs; rw [if_neg h]

theorem found_getItem (m : PyDict (V2 F)) (k : String) :
    found ((PyTreeDict.fromMapping m).getItem k) = m.lookup k := by
  rw [getItem_eq]; cases m.lookup k <;> rfl

theorem viewOf_make (a b : PyDict (V2 F)) (objs : List Obj) :
    viewOf ⟨.fromMapping a, .fromMapping b, objs⟩ =
      ⟨a.map Prod.fst, fun k => a.lookup k, b.map Prod.fst, fun k => b.lookup k, objs⟩ := by
  unfold viewOf
  congr 1
  · funext k; exact found_getItem a k
  · funext k; exact found_getItem b k

/-- **C49.** Each operation, called with possible keyword arguments on a scene, gives a scene, and has the intended
effect (`Edit.effect`): the named part is replaced, merged (new points win, old names keep their place),
extended or filtered; all other parts are as before. -/
theorem C49_edit (e : Edit) (s : Scene) (hs : IsScene s) (he : e.Legal) :
    ∃ s', e.call s = .ok s' ∧ IsScene s' ∧ viewOf s' = e.effect (viewOf s) := by
  obtain ⟨⟨mt, ht, ht'⟩, ⟨mr, hr, hr'⟩⟩ := hs
  obtain ⟨tx, rx, objs⟩ := s
  simp only at ht' hr'
  subst ht' hr'
  cases e with
  | withTransmitters m =>
    refine ⟨⟨.fromMapping m, .fromMapping mr, objs⟩, ?_, ⟨⟨m, he.1, rfl⟩, ⟨mr, hr, rfl⟩⟩, ?_⟩
    · simp only [Edit.call, Scene.withTransmitters, bindKwargs_ok he.2]; rfl
    · simp only [viewOf_make, Edit.effect]
  | withReceivers m =>
    refine ⟨⟨.fromMapping mt, .fromMapping m, objs⟩, ?_, ⟨⟨mt, ht, rfl⟩, ⟨m, he.1, rfl⟩⟩, ?_⟩
    · simp only [Edit.call, Scene.withReceivers, bindKwargs_ok he.2]; rfl
    · simp only [viewOf_make, Edit.effect]
  | withObjects os => exact ⟨_, rfl, ⟨⟨mt, ht, rfl⟩, ⟨mr, hr, rfl⟩⟩, rfl⟩
  | filterObjects keep => exact ⟨_, rfl, ⟨⟨mt, ht, rfl⟩, ⟨mr, hr, rfl⟩⟩, rfl⟩
  | addObjects os => exact ⟨_, rfl, ⟨⟨mt, ht, rfl⟩, ⟨mr, hr, rfl⟩⟩, rfl⟩
  | updateTransmitters m =>
    refine ⟨⟨.fromMapping (mt.merge m), .fromMapping mr, objs⟩, ?_,
      ⟨⟨_, merge_distinct ht he.1, rfl⟩, ⟨mr, hr, rfl⟩⟩, ?_⟩
    · simp only [Edit.call, Scene.updateTransmitters, bindKwargs_ok he.2, items_eq ht]; rfl
    · simp only [viewOf_make, Edit.effect, merge_keys _ _ he.1, merge_lookup _ _ he.1]
      rfl
  | updateReceivers m =>
    refine ⟨⟨.fromMapping mt, .fromMapping (mr.merge m), objs⟩, ?_,
      ⟨⟨mt, ht, rfl⟩, ⟨_, merge_distinct hr he.1, rfl⟩⟩, ?_⟩
    · simp only [Edit.call, Scene.updateReceivers, bindKwargs_ok he.2, items_eq hr]; rfl
    · simp only [viewOf_make, Edit.effect, merge_keys _ _ he.1, merge_lookup _ _ he.1]
      rfl

/-- Non-vacuity: an update that overwrites one name and adds another. -/
example := C49_edit (.updateTransmitters [("b", ⟨1, 1⟩), ("c", ⟨2, 2⟩)]) (.make [("a", ⟨0, 0⟩), ("b", ⟨5, 5⟩)] [] [])
  ⟨⟨_, by simp [Distinct], rfl⟩, ⟨[], by simp [Distinct], rfl⟩⟩ ⟨by simp [Distinct], by simp⟩

/-- **C49.** The same for any sequence of operations: the effects compose. -/
theorem C49_history (es : List Edit) (s : Scene) (hs : IsScene s) (he : ∀ e ∈ es, e.Legal) :
    ∃ s', calls es s = .ok s' ∧ IsScene s' ∧ viewOf s' = es.foldl (fun v e => e.effect v) (viewOf s) := by
  induction es generalizing s with
  | nil => exact ⟨s, rfl, hs, rfl⟩
  | cons e es ih =>
    obtain ⟨s1, h1, hs1, hv1⟩ := C49_edit e s hs (he e (by simp))
    obtain ⟨s2, h2, hs2, hv2⟩ := ih s1 hs1 (fun e' h' => he e' (by simp [h']))
    refine ⟨s2, ?_, hs2, ?_⟩
    · unfold calls; rw [h1]; exact h2
    · rw [hv2, hv1]; rfl

/-- Non-vacuity: an update, an addition of an object and a filter that removes it. -/
example := C49_history [.updateTransmitters [("b", ⟨1, 1⟩), ("c", ⟨2, 2⟩)], .addObjects [.vertex ⟨⟨3, 3⟩⟩], .filterObjects (fun | .wall _ => true | _ => false)]
  (.make [("a", ⟨0, 0⟩), ("b", ⟨5, 5⟩)] [] []) ⟨⟨_, by simp [Distinct], rfl⟩, ⟨[], by simp [Distinct], rfl⟩⟩
  (by
    intro e he
    simp only [List.mem_cons, List.not_mem_nil, or_false] at he
    rcases he with rfl | rfl | rfl
    · exact ⟨by simp [Distinct], by simp⟩
    · trivial
    · trivial)

/-- **C49.** Two scenes that look the same to their user are the same: the view misses nothing. -/
theorem C49_view_faithful (s s' : Scene) (hs : IsScene s) (hs' : IsScene s') (h : viewOf s = viewOf s') :
    s = s' := by
  have key : ∀ m m' : PyDict (V2 F), Distinct m → Distinct m' → m.map Prod.fst = m'.map Prod.fst →
      (∀ k, m.lookup k = m'.lookup k) → m = m' := by
    intro m m' hm hm' hk hl
    apply List.ext_getElem?
    intro i
    have hk' := congrArg (fun l => l[i]?) hk
    simp only [List.getElem?_map] at hk'
    cases e : m[i]? with
    | none => rw [e] at hk'; cases e' : m'[i]? with
      | none => rfl
      | some x => rw [e'] at hk'; simp at hk'
    | some x =>
      rw [e] at hk'
      cases e' : m'[i]? with
      | none => rw [e'] at hk'; simp at hk'
      | some y =>
        rw [e'] at hk'
        simp only [Option.map_some, Option.some.injEq] at hk'
        have h1 := (lookup_eq_some hm (k := x.1) (v := x.2)).mpr (List.mem_of_getElem? e)
        have h2 := (lookup_eq_some hm' (k := y.1) (v := y.2)).mpr (List.mem_of_getElem? e')
        rw [hl, hk', h2] at h1
        simp only [Option.some.injEq] at h1 ⊢
        exact Prod.ext hk' h1.symm
  obtain ⟨⟨mt, ht, ht'⟩, ⟨mr, hr, hr'⟩⟩ := hs
  obtain ⟨⟨mt2, ht2, ht2'⟩, ⟨mr2, hr2, hr2'⟩⟩ := hs'
  obtain ⟨tx, rx, objs⟩ := s
  obtain ⟨tx2, rx2, objs2⟩ := s'
  simp only at ht' hr' ht2' hr2'
  subst ht' hr' ht2' hr2'
  simp only [viewOf, View.mk.injEq] at h
  obtain ⟨h1, h2, h3, h4, h5⟩ := h
  have e1 : mt = mt2 := key mt mt2 ht ht2 h1 (fun k => by
    have := congrFun h2 k; rwa [found_getItem, found_getItem] at this)
  have e2 : mr = mr2 := key mr mr2 hr hr2 h3 (fun k => by
    have := congrFun h4 k; rwa [found_getItem, found_getItem] at this)
  subst e1 e2 h5
  rfl

/-- Non-vacuity: adding nothing to a scene gives a scene that looks the same. -/
example : (Scene.make [("a", ⟨0, 0⟩)] [] [.vertex ⟨⟨3, 3⟩⟩]).addObjects [] = Scene.make [("a", ⟨0, 0⟩)] [] [.vertex ⟨⟨3, 3⟩⟩] :=
  C49_view_faithful _ _ ⟨⟨[("a", ⟨0, 0⟩)], by simp [Distinct], rfl⟩, ⟨[], by simp [Distinct], rfl⟩⟩
    ⟨⟨[("a", ⟨0, 0⟩)], by simp [Distinct], rfl⟩, ⟨[], by simp [Distinct], rfl⟩⟩ rfl

/-- A name that is not a possible keyword argument: the call is rejected. -/
theorem C49_self (s : Scene) (m : PyDict (V2 F)) (h : "self" ∈ m.map Prod.fst) :
    s.withTransmitters m = .error .typeError ∧ s.withReceivers m = .error .typeError ∧
    s.updateTransmitters m = .error .typeError ∧ s.updateReceivers m = .error .typeError := by
  have : Scene.bindKwargs m = .error .typeError := by unfold Scene.bindKwargs; rw [if_pos h]
  simp only [Scene.withTransmitters, Scene.withReceivers, Scene.updateTransmitters, Scene.updateReceivers, this]
  exact ⟨rfl, rfl, rfl, rfl⟩

/-- Non-vacuity: a point named `self`. -/
example (s : Scene) := C49_self s [("a", ⟨0, 0⟩), ("self", ⟨1, 1⟩)] (by simp)

/-- Non-vacuity: a history with an update that overwrites one name and adds another. -/
example : ∃ s', calls [.updateTransmitters [("b", ⟨1, 1⟩), ("c", ⟨2, 2⟩)], .addObjects [.vertex ⟨⟨3, 3⟩⟩]]
      (.make [("a", ⟨0, 0⟩), ("b", ⟨5, 5⟩)] [] []) = .ok s' ∧
    s'.transmitters.iter = ["a", "b", "c"] ∧ s'.transmitters.getItem "b" = .ok ⟨1, 1⟩ :=
  ⟨_, rfl, rfl, rfl⟩

/-! ## C50 — renaming -/

theorem rename_calls (s : Scene) (m : PyDict (V2 F)) (hm : Distinct m) (names : PyDict String)
    (hn : "self" ∉ names.map Prod.fst) :
    (s.transmitters = .fromMapping m → s.renameTransmitters names = s.withTransmitters (Scene.renamed names m)) ∧
    (s.receivers = .fromMapping m → s.renameReceivers names = s.withReceivers (Scene.renamed names m)) := by
  constructor
  · intro h
    unfold Scene.renameTransmitters
    rw [bindKwargs_ok hn, h, items_eq hm]; rfl
  · intro h
    unfold Scene.renameReceivers
    rw [bindKwargs_ok hn, h, items_eq hm]; rfl

/-- **C50 (partial).** When the new names do not collide (and none is `self`), renaming keeps every point, in
order, each reachable under its new name, and nothing else. The full property has no such condition;
see `C50_refuted`. -/
theorem C50_transmitters_partial (s : Scene) (m : PyDict (V2 F)) (hm : Distinct m)
    (h : s.transmitters = .fromMapping m) (names : PyDict String) (hn : "self" ∉ names.map Prod.fst)
    (inj : ((m.map Prod.fst).map (newName names)).Nodup) (hs : "self" ∉ (m.map Prod.fst).map (newName names)) :
    s.renameTransmitters names =
      .ok { s with transmitters := .fromMapping (m.map fun kv => (newName names kv.1, kv.2)) } := by
  rw [(rename_calls s m hm names hn).1 h]
  have e : Scene.renamed names m = m.map fun kv => (newName names kv.1, kv.2) := by
    unfold Scene.renamed
    have := foldl_set_append (newName names) m [] (by simpa using inj)
    simpa [newName] using this
  unfold Scene.withTransmitters
  rw [e, bindKwargs_ok (by simpa [List.map_map, Function.comp_def] using hs)]
  rfl

/-- Non-vacuity: two names are exchanged. -/
example := C50_transmitters_partial (.make [("a", ⟨0, 0⟩), ("b", ⟨1, 1⟩)] [] []) [("a", ⟨0, 0⟩), ("b", ⟨1, 1⟩)] (by simp [Distinct]) rfl
  [("a", "b"), ("b", "a")] (by simp) (by simp [newName, List.lookup]) (by simp [newName, List.lookup])

theorem C50_receivers_partial (s : Scene) (m : PyDict (V2 F)) (hm : Distinct m)
    (h : s.receivers = .fromMapping m) (names : PyDict String) (hn : "self" ∉ names.map Prod.fst)
    (inj : ((m.map Prod.fst).map (newName names)).Nodup) (hs : "self" ∉ (m.map Prod.fst).map (newName names)) :
    s.renameReceivers names =
      .ok { s with receivers := .fromMapping (m.map fun kv => (newName names kv.1, kv.2)) } := by
  rw [(rename_calls s m hm names hn).2 h]
  have e : Scene.renamed names m = m.map fun kv => (newName names kv.1, kv.2) := by
    unfold Scene.renamed
    have := foldl_set_append (newName names) m [] (by simpa using inj)
    simpa [newName] using this
  unfold Scene.withReceivers
  rw [e, bindKwargs_ok (by simpa [List.map_map, Function.comp_def] using hs)]
  rfl

/-- Non-vacuity: two names are exchanged. -/
example := C50_receivers_partial (.make [] [("a", ⟨0, 0⟩), ("b", ⟨1, 1⟩)] []) [("a", ⟨0, 0⟩), ("b", ⟨1, 1⟩)] (by simp [Distinct]) rfl
  [("a", "b"), ("b", "a")] (by simp) (by simp [newName, List.lookup]) (by simp [newName, List.lookup])

/-- **C50.** Exactly when it goes wrong: renaming never fails and never adds points, and it keeps the number of
points if and only if no two points get the same name. -/
theorem C50_count_iff (s : Scene) (m : PyDict (V2 F)) (hm : Distinct m)
    (h : s.transmitters = .fromMapping m) (names : PyDict String) (hn : "self" ∉ names.map Prod.fst)
    (hs : "self" ∉ (m.map Prod.fst).map (newName names)) :
    ∃ s', s.renameTransmitters names = .ok s' ∧ s'.receivers = s.receivers ∧ s'.objects = s.objects ∧
      (∀ k, k ∈ s'.transmitters.iter ↔ ∃ k' ∈ s.transmitters.iter, k = newName names k') ∧
      (s'.transmitters.len = s.transmitters.len ↔ ((m.map Prod.fst).map (newName names)).Nodup) := by
  have hkeys := foldl_set_keys (newName names) m []
  have hmem : ∀ x, x ∈ (Scene.renamed names m).map Prod.fst ↔ x ∈ (m.map Prod.fst).map (newName names) := by
    intro x
    have := appendNew_foldl_mem ((m.map Prod.fst).map (newName names)) [] x
    rw [show Scene.renamed names m = m.foldl (fun (d : PyDict (V2 F)) kv => PyDict.set d (newName names kv.1) kv.2) [] from rfl, hkeys]
    simpa using this
  have hnd : ((Scene.renamed names m).map Prod.fst).Nodup := by
    rw [show Scene.renamed names m = m.foldl (fun (d : PyDict (V2 F)) kv => PyDict.set d (newName names kv.1) kv.2) [] from rfl, hkeys]
    exact appendNew_foldl_nodup _ _ (by simp)
  refine ⟨{ s with transmitters := .fromMapping (Scene.renamed names m) }, ?_, rfl, rfl, ?_, ?_⟩
  · rw [(rename_calls s m hm names hn).1 h]
    unfold Scene.withTransmitters
    rw [bindKwargs_ok (fun hx => hs ((hmem _).mp hx))]
    rfl
  · intro k
    show k ∈ (Scene.renamed names m).map Prod.fst ↔ _
    rw [hmem, h]
    simp only [List.mem_map, PyTreeDict.iter, PyTreeDict.fromMapping]
    constructor
    · rintro ⟨k', hk, rfl⟩; exact ⟨k', hk, rfl⟩
    · rintro ⟨k', hk, rfl⟩; exact ⟨k', hk, rfl⟩
  · show ((Scene.renamed names m).map Prod.fst).length = _ ↔ _
    rw [h]
    show _ = (m.map Prod.fst).length ↔ _
    set new := (m.map Prod.fst).map (newName names) with hnew
    have hl : (m.map Prod.fst).length = new.length := by simp [hnew]
    rw [hl]
    have hperm : ((Scene.renamed names m).map Prod.fst).Perm new.dedup := by
      rw [List.perm_ext_iff_of_nodup hnd new.nodup_dedup]
      intro x; rw [hmem, List.mem_dedup]
    rw [hperm.length_eq]
    constructor
    · intro he
      have := (List.dedup_sublist new).eq_of_length he
      rw [← this]; exact new.nodup_dedup
    · intro hd; rw [List.Nodup.dedup hd]

/-- Non-vacuity: a renaming onto a name that exists. -/
example := C50_count_iff (.make [("a", ⟨0, 0⟩), ("b", ⟨1, 1⟩)] [] []) [("a", ⟨0, 0⟩), ("b", ⟨1, 1⟩)] (by simp [Distinct]) rfl
  [("a", "b")] (by simp) (by simp [newName, List.lookup])

/-- **C50.** Unknown old names are ignored: only the new names of existing points matter. -/
theorem C50_unknown (s : Scene) (m : PyDict (V2 F)) (hm : Distinct m) (h : s.transmitters = .fromMapping m)
    (names names' : PyDict String) (hn : "self" ∉ names.map Prod.fst) (hn' : "self" ∉ names'.map Prod.fst)
    (heq : ∀ k ∈ m.map Prod.fst, newName names k = newName names' k) :
    s.renameTransmitters names = s.renameTransmitters names' := by
  rw [(rename_calls s m hm names hn).1 h, (rename_calls s m hm names' hn').1 h]
  congr 1
  have : ∀ (l acc : PyDict (V2 F)), (∀ kv ∈ l, kv.1 ∈ m.map Prod.fst) →
      l.foldl (fun d kv => d.set ((names.lookup kv.1).getD kv.1) kv.2) acc =
      l.foldl (fun d kv => d.set ((names'.lookup kv.1).getD kv.1) kv.2) acc := by
    intro l
    induction l with
    | nil => intros; rfl
    | cons kv l ih =>
      intro acc hl
      have e := heq kv.1 (hl kv (by simp))
      unfold newName at e
      rw [List.foldl_cons, List.foldl_cons, e]
      exact ih _ (fun x hx => hl x (by simp [hx]))
  exact this m [] (fun kv hkv => List.mem_map_of_mem hkv)

/-- Non-vacuity: the name `z` does not exist. -/
example := C50_unknown (.make [("a", ⟨0, 0⟩), ("b", ⟨1, 1⟩)] [] []) [("a", ⟨0, 0⟩), ("b", ⟨1, 1⟩)] (by simp [Distinct]) rfl
  [("a", "c"), ("z", "b")] [("a", "c")] (by simp) (by simp) (by simp [newName, List.lookup])

/-- **C50.** Exactly when it goes wrong: renaming never fails and never adds points, and it keeps the number of
points if and only if no two points get the same name. -/
theorem C50_receivers_count_iff (s : Scene) (m : PyDict (V2 F)) (hm : Distinct m)
    (h : s.receivers = .fromMapping m) (names : PyDict String) (hn : "self" ∉ names.map Prod.fst)
    (hs : "self" ∉ (m.map Prod.fst).map (newName names)) :
    ∃ s', s.renameReceivers names = .ok s' ∧ s'.transmitters = s.transmitters ∧ s'.objects = s.objects ∧
      (∀ k, k ∈ s'.receivers.iter ↔ ∃ k' ∈ s.receivers.iter, k = newName names k') ∧
      (s'.receivers.len = s.receivers.len ↔ ((m.map Prod.fst).map (newName names)).Nodup) := by
  have hkeys := foldl_set_keys (newName names) m []
  have hmem : ∀ x, x ∈ (Scene.renamed names m).map Prod.fst ↔ x ∈ (m.map Prod.fst).map (newName names) := by
    intro x
    have := appendNew_foldl_mem ((m.map Prod.fst).map (newName names)) [] x
    rw [show Scene.renamed names m = m.foldl (fun (d : PyDict (V2 F)) kv => PyDict.set d (newName names kv.1) kv.2) [] from rfl, hkeys]
    simpa using this
  have hnd : ((Scene.renamed names m).map Prod.fst).Nodup := by
    rw [show Scene.renamed names m = m.foldl (fun (d : PyDict (V2 F)) kv => PyDict.set d (newName names kv.1) kv.2) [] from rfl, hkeys]
    exact appendNew_foldl_nodup _ _ (by simp)
  refine ⟨{ s with receivers := .fromMapping (Scene.renamed names m) }, ?_, rfl, rfl, ?_, ?_⟩
  · rw [(rename_calls s m hm names hn).2 h]
    unfold Scene.withReceivers
    rw [bindKwargs_ok (fun hx => hs ((hmem _).mp hx))]
    rfl
  · intro k
    show k ∈ (Scene.renamed names m).map Prod.fst ↔ _
    rw [hmem, h]
    simp only [List.mem_map, PyTreeDict.iter, PyTreeDict.fromMapping]
    constructor
    · rintro ⟨k', hk, rfl⟩; exact ⟨k', hk, rfl⟩
    · rintro ⟨k', hk, rfl⟩; exact ⟨k', hk, rfl⟩
  · show ((Scene.renamed names m).map Prod.fst).length = _ ↔ _
    rw [h]
    show _ = (m.map Prod.fst).length ↔ _
    set new := (m.map Prod.fst).map (newName names) with hnew
    have hl : (m.map Prod.fst).length = new.length := by simp [hnew]
    rw [hl]
    have hperm : ((Scene.renamed names m).map Prod.fst).Perm new.dedup := by
      rw [List.perm_ext_iff_of_nodup hnd new.nodup_dedup]
      intro x; rw [hmem, List.mem_dedup]
    rw [hperm.length_eq]
    constructor
    · intro he
      have := (List.dedup_sublist new).eq_of_length he
      rw [← this]; exact new.nodup_dedup
    · intro hd; rw [List.Nodup.dedup hd]

/-- Non-vacuity: a renaming onto a name that exists. -/
example := C50_receivers_count_iff (.make [] [("a", ⟨0, 0⟩), ("b", ⟨1, 1⟩)] []) [("a", ⟨0, 0⟩), ("b", ⟨1, 1⟩)] (by simp [Distinct]) rfl
  [("a", "b")] (by simp) (by simp [newName, List.lookup])

/-- **C50.** Unknown old names are ignored: only the new names of existing points matter. -/
theorem C50_receivers_unknown (s : Scene) (m : PyDict (V2 F)) (hm : Distinct m) (h : s.receivers = .fromMapping m)
    (names names' : PyDict String) (hn : "self" ∉ names.map Prod.fst) (hn' : "self" ∉ names'.map Prod.fst)
    (heq : ∀ k ∈ m.map Prod.fst, newName names k = newName names' k) :
    s.renameReceivers names = s.renameReceivers names' := by
  rw [(rename_calls s m hm names hn).2 h, (rename_calls s m hm names' hn').2 h]
  congr 1
  have : ∀ (l acc : PyDict (V2 F)), (∀ kv ∈ l, kv.1 ∈ m.map Prod.fst) →
      l.foldl (fun d kv => d.set ((names.lookup kv.1).getD kv.1) kv.2) acc =
      l.foldl (fun d kv => d.set ((names'.lookup kv.1).getD kv.1) kv.2) acc := by
    intro l
    induction l with
    | nil => intros; rfl
    | cons kv l ih =>
      intro acc hl
      have e := heq kv.1 (hl kv (by simp))
      unfold newName at e
      rw [List.foldl_cons, List.foldl_cons, e]
      exact ih _ (fun x hx => hl x (by simp [hx]))
  exact this m [] (fun kv hkv => List.mem_map_of_mem hkv)

/-- Non-vacuity: the name `z` does not exist. -/
example := C50_receivers_unknown (.make [] [("a", ⟨0, 0⟩), ("b", ⟨1, 1⟩)] []) [("a", ⟨0, 0⟩), ("b", ⟨1, 1⟩)] (by simp [Distinct]) rfl
  [("a", "c"), ("z", "b")] [("a", "c")] (by simp) (by simp) (by simp [newName, List.lookup])

/-- **C50 is false in general**: swapping a name onto another existing one drops a point. -/
theorem C50_refuted : ∃ (s s' : Scene) (names : PyDict String), IsScene s ∧ Distinct names ∧
    s.renameTransmitters names = .ok s' ∧ s.transmitters.len = 2 ∧ s'.transmitters.len = 1 ∧
    s.transmitters.getItem "a" = .ok ⟨0, 0⟩ ∧ ∀ k, s'.transmitters.getItem k ≠ .ok ⟨0, 0⟩ := by
  refine ⟨.make [("a", ⟨0, 0⟩), ("b", ⟨1, 1⟩)] [] [], .make [("b", ⟨1, 1⟩)] [] [], [("a", "b")], ⟨⟨_, ?_, rfl⟩, ⟨[], ?_, rfl⟩⟩, ?_, rfl, rfl, rfl, rfl, ?_⟩
  · simp [Distinct]
  · simp [Distinct]
  · simp [Distinct]
  · intro k
    show (PyTreeDict.fromMapping [("b", (⟨1, 1⟩ : V2 F))]).getItem k ≠ _
    rw [getItem_eq, List.lookup_cons]
    cases (k == "b") with
    | true => simp
    | false => simp

/-- Non-vacuity of the partial theorems: two names are swapped. -/
example : (Scene.make [("a", ⟨0, 0⟩), ("b", ⟨1, 1⟩)] [] []).renameTransmitters [("a", "b"), ("b", "a")] =
    .ok (.make [("b", ⟨0, 0⟩), ("a", ⟨1, 1⟩)] [] []) := by rfl

/-! ## C51, C52 — object lookup -/

/-- **C51.** In a scene whose objects all have one class, `get_object(i)` is the object at index `i` clamped to
`[0, n - 1]`. -/
theorem C51_get_object (s : Scene) (hne : s.objects ≠ []) (hh : Homogeneous s) (i : ℤ) :
    ∃ (j : ℕ) (o : Obj), (j : ℤ) = max 0 (min i (s.objects.length - 1)) ∧ s.objects[j]? = some o ∧
      s.getObject i = .ok o := by
  obtain ⟨tx, rx, objs⟩ := s
  match objs, hne with
  | o :: os, _ =>
    have hall : os.all (fun o' => o'.cls == o.cls) = true := by
      rw [List.all_eq_true]
      intro o' ho'
      simpa using hh o' (by simp [ho']) o (by simp)
    have hj : min i.toNat os.length < (o :: os).length := by simp
    refine ⟨min i.toNat os.length, (o :: os)[min i.toNat os.length], ?_, List.getElem?_eq_getElem hj, ?_⟩
    · simp only [List.length_cons]; omega
    · unfold Scene.getObject
      simp only [hall, if_true, List.getD_eq_getElem?_getD, List.getElem?_eq_getElem hj, Option.getD_some]

/-- Non-vacuity: two walls, an index beyond the end. -/
example := C51_get_object (.make [] [] [.wall ⟨⟨0, 0⟩, ⟨1, 1⟩⟩, .wall ⟨⟨0, 0⟩, ⟨1, 0⟩⟩]) (by simp [Scene.make])
  (by
    intro o ho o' ho'
    simp [Scene.make] at ho ho'
    rcases ho with rfl | rfl <;> rcases ho' with rfl | rfl <;> rfl) 7

/-- **C51.** It raises when there is no object, or when the classes differ. -/
theorem C51_get_object_error (s : Scene) (i : ℤ) :
    (s.objects = [] → s.getObject i = .error .valueError) ∧
    (¬ Homogeneous s → s.getObject i = .error .typeError) := by
  obtain ⟨tx, rx, objs⟩ := s
  constructor
  · intro h; simp only at h; subst h; rfl
  · intro h
    match objs with
    | [] => exact absurd (fun o ho => by simp at ho) h
    | o :: os =>
      unfold Scene.getObject
      simp only
      rw [if_neg]
      intro hall
      rw [List.all_eq_true] at hall
      have h1 : ∀ x ∈ o :: os, x.cls = o.cls := by
        intro x hx
        rcases List.mem_cons.mp hx with rfl | hx
        · rfl
        · simpa using hall x hx
      exact h fun a ha b hb => (h1 a ha).trans (h1 b hb).symm

theorem homogeneous_test (s : Scene) :
    (s.objects.length < 2 ∨ s.objects.all (fun o => some o.cls == s.objects.head?.map Obj.cls) = true) ↔ Homogeneous s := by
  obtain ⟨tx, rx, objs⟩ := s
  match objs with
  | [] => simp [Homogeneous]
  | o :: os =>
    constructor
    · intro h a ha b hb
      simp only at ha hb
      rcases h with h | h
      · have : os = [] := by simpa using h
        subst this
        simp only [List.mem_singleton] at ha hb
        rw [ha, hb]
      · simp only [List.head?_cons, Option.map_some, List.all_eq_true] at h
        have h1 := h a ha
        have h2 := h b hb
        simp at h1 h2
        rw [h1, h2]
    · intro h
      right
      simp only [List.head?_cons, Option.map_some, List.all_eq_true]
      intro a ha
      simpa using h a ha o (by simp)

/-- **C51.** For every path candidate, `get_interacting_objects` returns exactly the objects with these indices,
in order, whether or not the objects all have one class. -/
theorem C51_interacting (s : Scene) (c : List ℤ) (hc : IsCandidate s.objects.length c) :
    ∃ os, s.getInteractingObjects c = .ok os ∧ os.length = c.length ∧
      ∀ (k : ℕ) (i : ℤ), c[k]? = some i → ∃ o, os[k]? = some o ∧ s.objects[i.toNat]? = some o := by
  have hget : ∀ i ∈ c, ∃ o, s.objects[i.toNat]? = some o ∧
      (Homogeneous s → s.getObject i = .ok o) ∧ Scene.pyIndex s.objects i = .ok o := by
    intro i hi
    have hb := hc.1 i hi
    have hlt : i.toNat < s.objects.length := by omega
    refine ⟨s.objects[i.toNat], List.getElem?_eq_getElem hlt, ?_, ?_⟩
    · intro hh
      obtain ⟨j, o, hj, ho, he⟩ := C51_get_object s (by rintro h; simp [h] at hlt) hh i
      have : j = i.toNat := by omega
      subst this
      rw [List.getElem?_eq_getElem hlt] at ho
      cases ho
      exact he
    · unfold Scene.pyIndex
      simp only [if_neg (show ¬ i < 0 by omega), List.getElem?_eq_getElem hlt]
  have gen : ∀ f : ℤ → Except PyErr Obj, (∀ i ∈ c, ∃ o, s.objects[i.toNat]? = some o ∧ f i = .ok o) →
      ∃ os, c.mapM f = .ok os ∧ os.length = c.length ∧
        ∀ (k : ℕ) (i : ℤ), c[k]? = some i → ∃ o, os[k]? = some o ∧ s.objects[i.toNat]? = some o := by
    intro f hf
    have hD : ∀ i, ∃ o, i ∈ c → s.objects[i.toNat]? = some o ∧ f i = .ok o := by
      intro i
      by_cases hi : i ∈ c
      · obtain ⟨o, h⟩ := hf i hi; exact ⟨o, fun _ => h⟩
      · exact ⟨.vertex ⟨⟨F.nan, F.nan⟩⟩, fun h => absurd h hi⟩
    choose g hg using hD
    refine ⟨c.map g, mapM_pure f g c (fun i hi => (hg i hi).2), by simp, ?_⟩
    intro k i hk
    exact ⟨g i, by rw [List.getElem?_map, hk]; rfl, (hg i (List.mem_of_getElem? hk)).1⟩
  unfold Scene.getInteractingObjects
  split_ifs with h
  · have hh := (homogeneous_test s).mp h
    exact gen _ fun i hi => by obtain ⟨o, h1, h2, _⟩ := hget i hi; exact ⟨o, h1, h2 hh⟩
  · exact gen _ fun i hi => by obtain ⟨o, h1, _, h3⟩ := hget i hi; exact ⟨o, h1, h3⟩

/-- Non-vacuity: a mixed scene, the second object then the first. -/
example := C51_interacting (.make [] [] [.vertex ⟨⟨0, 0⟩⟩, .wall ⟨⟨0, 0⟩, ⟨1, 1⟩⟩]) [1, 0]
  ((isCandidate_iff _ _).2 ⟨[1, 0], by simp [Scene.make], by simp, rfl⟩)

/-- **C51.** In particular for the candidates that `all_path_candidates` produces, with or without a filter. -/
theorem C51_candidates (G : GraphLib) (hG : GraphContract G) (s : Scene) (lo hi : ℤ) (hlo : 0 ≤ lo)
    (f : Option (Obj → Bool)) (cs : List (List ℤ))
    (h : s.allPathCandidates G { minOrder := lo, maxOrder := hi, filter := f } = .ok cs) (c : List ℤ) (hc : c ∈ cs) :
    ∃ os, s.getInteractingObjects c = .ok os ∧ os.length = c.length ∧
      ∀ (k : ℕ) (i : ℤ), c[k]? = some i → ∃ o, os[k]? = some o ∧ s.objects[i.toNat]? = some o := by
  apply C51_interacting
  obtain ⟨cs0, e0, _, hm0, _⟩ := C53_sound_complete G hG s lo hi hlo
  cases f with
  | none => rw [e0] at h; cases h; exact ((hm0 c).mp hc).1
  | some keep =>
    obtain ⟨cs', fs, e1, e2, _, _, hm⟩ := C54_filter G hG s lo hi hlo keep
    rw [e2] at h; cases h
    rw [e0] at e1; cases e1
    exact ((hm0 c).mp ((hm c).mp hc).1).1

/-- Non-vacuity: the candidates of order 2 in a mixed scene. -/
example : ∃ os, (Scene.make [] [] [.vertex ⟨⟨0, 0⟩⟩, .wall ⟨⟨0, 0⟩, ⟨1, 1⟩⟩]).getInteractingObjects [1, 0] = .ok os ∧ os.length = 2 := by
  obtain ⟨os, h, hl, -⟩ := C51_candidates refLib refLib_contract (.make [] [] [.vertex ⟨⟨0, 0⟩⟩, .wall ⟨⟨0, 0⟩, ⟨1, 1⟩⟩]) 2 2 (by norm_num) none
    [[0, 1], [1, 0]] rfl [1, 0] (by simp)
  exact ⟨os, h, hl⟩

/-- Non-vacuity: a mixed scene. -/
example : (Scene.make [] [] [.vertex ⟨⟨0, 0⟩⟩, .wall ⟨⟨0, 0⟩, ⟨1, 1⟩⟩]).getInteractingObjects [1, 0] =
    .ok [.wall ⟨⟨0, 0⟩, ⟨1, 1⟩⟩, .vertex ⟨⟨0, 0⟩⟩] := by rfl

/-- **C52 (partial).** What negative indices designate: the first object when all objects have one class, the
object counted from the end otherwise (down to `-n`; `IndexError` below). The property, that the
meaning does not depend on the classes, is false: see `C52_refuted`. -/
theorem C52_partial (s : Scene) (hne : s.objects ≠ []) (k : ℕ) (hk : 1 ≤ k) :
    (Homogeneous s → ∃ o, s.objects.head? = some o ∧ s.getInteractingObjects [-(k : ℤ)] = .ok [o]) ∧
    (¬ Homogeneous s → k ≤ s.objects.length →
      ∃ o, s.objects[s.objects.length - k]? = some o ∧ s.getInteractingObjects [-(k : ℤ)] = .ok [o]) ∧
    (¬ Homogeneous s → s.objects.length < k → s.getInteractingObjects [-(k : ℤ)] = .error .indexError) := by
  refine ⟨?_, ?_, ?_⟩
  · intro hh
    obtain ⟨j, o, hj, ho, he⟩ := C51_get_object s hne hh (-(k : ℤ))
    have hlen : 0 < s.objects.length := List.length_pos_iff.mpr hne
    have : j = 0 := by omega
    subst this
    refine ⟨o, by rw [List.head?_eq_getElem?]; exact ho, ?_⟩
    unfold Scene.getInteractingObjects
    rw [if_pos ((homogeneous_test s).mpr hh), List.mapM_cons, he]
    rfl
  · intro hh hle
    have hlt : s.objects.length - k < s.objects.length := by omega
    refine ⟨s.objects[s.objects.length - k], List.getElem?_eq_getElem hlt, ?_⟩
    unfold Scene.getInteractingObjects
    rw [if_neg (fun h => hh ((homogeneous_test s).mp h)), List.mapM_cons]
    have : Scene.pyIndex s.objects (-(k : ℤ)) = .ok s.objects[s.objects.length - k] := by
      unfold Scene.pyIndex
      simp only [if_pos (show -(k : ℤ) < 0 by omega)]
      rw [if_neg (by omega), show (-(k : ℤ) + s.objects.length).toNat = s.objects.length - k by omega,
        List.getElem?_eq_getElem hlt]
    rw [this]; rfl
  · intro hh hlt
    unfold Scene.getInteractingObjects
    rw [if_neg (fun h => hh ((homogeneous_test s).mp h)), List.mapM_cons]
    have : Scene.pyIndex s.objects (-(k : ℤ)) = .error .indexError := by
      unfold Scene.pyIndex
      simp only [if_pos (show -(k : ℤ) < 0 by omega)]
      rw [if_pos (by omega)]
    rw [this]; rfl

/-- Non-vacuity: the last object of a mixed scene. -/
example := C52_partial (.make [] [] [.vertex ⟨⟨0, 0⟩⟩, .wall ⟨⟨0, 0⟩, ⟨1, 1⟩⟩]) (by simp [Scene.make]) 1 le_rfl

/-- **C52 is false**: index `-1` is the last object of a mixed scene, but the first object of a scene of vertices. -/
theorem C52_refuted : ∃ (s s' : Scene) (a b c : Obj), s.objects = [a, b] ∧ s'.objects = [a, c] ∧ a ≠ b ∧ a ≠ c ∧
    s.getInteractingObjects [-1] = .ok [a] ∧ s'.getInteractingObjects [-1] = .ok [c] :=
  ⟨.make [] [] [.vertex ⟨⟨0, 0⟩⟩, .vertex ⟨⟨1, 1⟩⟩], .make [] [] [.vertex ⟨⟨0, 0⟩⟩, .wall ⟨⟨0, 0⟩, ⟨1, 1⟩⟩],
    .vertex ⟨⟨0, 0⟩⟩, .vertex ⟨⟨1, 1⟩⟩, .wall ⟨⟨0, 0⟩, ⟨1, 1⟩⟩, rfl, rfl,
    by simp, by simp, rfl, rfl⟩

/-! ## C55 — pairs -/

/-- **C55.** All pairs, transmitters first: the pair at position `i * (number of receivers) + j` is the `i`-th
transmitter with the `j`-th receiver; there are no others, and none occurs twice. -/
theorem C55_pairs (s : Scene) (tx rx : PyDict (V2 F)) (ht : Distinct tx) (hr : Distinct rx)
    (h1 : s.transmitters = .fromMapping tx) (h2 : s.receivers = .fromMapping rx) :
    ∃ ps, s.allTransmitterReceiverPairs = .ok ps ∧ ps.length = tx.length * rx.length ∧ ps.Nodup ∧
      (∀ t r, (t, r) ∈ ps ↔ t ∈ tx ∧ r ∈ rx) ∧
      ∀ (i j : ℕ) (t r : String × V2 F), tx[i]? = some t → rx[j]? = some r →
        ps[i * rx.length + j]? = some (t, r) := by
  refine ⟨tx ×ˢ rx, ?_, by simp [List.length_product], ?_, ?_, ?_⟩
  · unfold Scene.allTransmitterReceiverPairs
    rw [h1, h2, items_eq ht, items_eq hr]; rfl
  · exact List.Nodup.product (List.Nodup.of_map _ ht) (List.Nodup.of_map _ hr)
  · intro t r; simp [List.mem_product]
  · intro i j t r hi hj
    clear h1 h2 ht hr
    have hjl : j < rx.length := (List.getElem?_eq_some_iff.mp hj).1
    induction tx generalizing i with
    | nil => simp at hi
    | cons x tx ih =>
      rw [List.product_cons]
      cases i with
      | zero =>
        simp only [List.getElem?_cons_zero, Option.some.injEq] at hi
        subst hi
        rw [List.getElem?_append_left (by simpa using hjl)]
        simp [hj]
      | succ i =>
        rw [List.getElem?_append_right (by simp; nlinarith)]
        simp only [List.length_map]
        rw [show (i + 1) * rx.length + j - rx.length = i * rx.length + j by
          rw [Nat.succ_mul]; omega]
        exact ih i (by simpa using hi)

/-- Non-vacuity: two transmitters (at the same place) and one receiver. -/
example := C55_pairs (.make [("a", ⟨0, 0⟩), ("b", ⟨0, 0⟩)] [("c", ⟨1, 1⟩)] []) [("a", ⟨0, 0⟩), ("b", ⟨0, 0⟩)] [("c", ⟨1, 1⟩)] (by simp [Distinct])
  (by simp [Distinct]) rfl rfl

example : Distinct [("a", (⟨0, 0⟩ : V2 F)), ("b", ⟨0, 0⟩)] := by simp [Distinct]

/-! ## C15 — nearest transmitters and receivers -/

/-- **C15.** The closest transmitter (receiver) is the first one, in insertion order, at minimal distance; its name
and distance are returned. -/
theorem C15_scene (s : Scene) (m : PyDict Pt) (hm : Distinct m) (hne : m ≠ []) (target : Pt) :
    ∃ (i : ℕ) (name : String) (p : Pt), m[i]? = some (name, p) ∧
      (∀ kv ∈ m, eucl p target ≤ eucl kv.2 target) ∧
      (∀ j, j < i → ∀ kv, m[j]? = some kv → eucl p target < eucl kv.2 target) ∧
      (s.transmitters = .fromMapping (finPoints m) →
        s.getClosestTransmitter (V2.fin target) = .ok (name, F.fin (eucl p target))) ∧
      (s.receivers = .fromMapping (finPoints m) →
        s.getClosestReceiver (V2.fin target) = .ok (name, F.fin (eucl p target))) := by
  obtain ⟨i, p, h1, h2, h3, h4⟩ := C15_closest (m.map Prod.snd) target (by simpa using hne)
  rw [List.getElem?_map] at h2
  obtain ⟨⟨name, p'⟩, hi, rfl⟩ := Option.map_eq_some_iff.mp h2
  have hfin : Distinct (finPoints m) := by
    simpa [Distinct, finPoints, List.map_map, Function.comp_def] using hm
  have hc : Scene.closestOf (finPoints m) (V2.fin target) = .ok (name, F.fin (eucl p' target)) := by
    unfold Scene.closestOf
    have : (finPoints m).map Prod.snd = (m.map Prod.snd).map V2.fin := by simp [finPoints]
    rw [this, h1]
    simp [finPoints, hi]
  refine ⟨i, name, p', hi, ?_, ?_, ?_, ?_⟩
  · intro kv hkv; exact h3 kv.2 (List.mem_map_of_mem hkv)
  · intro j hj kv hkv; exact h4 j hj kv.2 (by rw [List.getElem?_map, hkv]; rfl)
  · intro h
    unfold Scene.getClosestTransmitter
    rw [h, items_eq hfin]; exact hc
  · intro h
    unfold Scene.getClosestReceiver
    rw [h, items_eq hfin]; exact hc

/-- Non-vacuity: two points. -/
example (s : Scene) := C15_scene s [("a", ⟨0, 0⟩), ("b", ⟨3, 4⟩)] (by simp [Distinct]) (by simp) ⟨1, 1⟩

/-- **C15.** Without any transmitter (receiver) the query raises. -/
theorem C15_scene_empty (s : Scene) (target : V2 F) :
    (s.transmitters = .fromMapping [] → s.getClosestTransmitter target = .error .valueError) ∧
    (s.receivers = .fromMapping [] → s.getClosestReceiver target = .error .valueError) := by
  constructor <;> intro h
  · unfold Scene.getClosestTransmitter; rw [h]; rfl
  · unfold Scene.getClosestReceiver; rw [h]; rfl

/-! ## C25 — bounding box of a scene -/

theorem shape_tight (sh : Shape) : TightBox sh.obj.bbox sh.points := by
  cases sh with
  | wall o d => exact C25_wall o d
  | ris o d φ => exact C25_wall o d
  | vertex p => exact C25_point p

/-- **C25.** The bounding box of a scene is the smallest box that contains its transmitters, its receivers and the
ends of its objects. -/
theorem C25_scene (tx rx : PyDict Pt) (ht : Distinct tx) (hr : Distinct rx) (shapes : List Shape)
    (hne : ¬ (tx = [] ∧ rx = [] ∧ shapes = [])) :
    ∃ b, (sceneOf tx rx shapes).bbox = .ok b ∧
      TightBox b (tx.map Prod.snd ++ rx.map Prod.snd ++ shapes.flatMap Shape.points) := by
  have hfin : ∀ m : PyDict Pt, Distinct m → Distinct (finPoints m) := by
    intro m hm; simpa [Distinct, finPoints, List.map_map, Function.comp_def] using hm
  set boxes := (finPoints tx).map (fun kv => pointBBox kv.2) ++ (finPoints rx).map (fun kv => pointBBox kv.2) ++
    (shapes.map Shape.obj).map Obj.bbox with hboxes
  set pss : List (List Pt) := tx.map (fun kv => [kv.2]) ++ rx.map (fun kv => [kv.2]) ++ shapes.map Shape.points with hpss
  have hpt : ∀ m : PyDict Pt, List.Forall₂ TightBox ((finPoints m).map (fun kv => pointBBox kv.2)) (m.map fun kv => [kv.2]) := by
    intro m
    unfold finPoints
    induction m with
    | nil => exact .nil
    | cons kv m ih => exact .cons (C25_point kv.2) ih
  have hsh : List.Forall₂ TightBox ((shapes.map Shape.obj).map Obj.bbox) (shapes.map Shape.points) := by
    clear hne hboxes hpss boxes pss
    induction shapes with
    | nil => exact .nil
    | cons sh shapes ih => exact .cons (shape_tight sh) ih
  have hall : List.Forall₂ TightBox boxes pss := List.rel_append (List.rel_append (hpt tx) (hpt rx)) hsh
  have hflat : pss.flatten = tx.map Prod.snd ++ rx.map Prod.snd ++ shapes.flatMap Shape.points := by
    have e : ∀ m : PyDict Pt, (m.map fun kv => [kv.2]).flatten = m.map Prod.snd := by
      intro m; induction m with
      | nil => rfl
      | cons kv m ih => simp [ih]
    rw [hpss, List.flatten_append, List.flatten_append, e, e, List.flatMap_def]
  have hbb : ∀ b bs, boxes = b :: bs → (sceneOf tx rx shapes).bbox = .ok (Scene.mergeBoxes b bs) := by
    intro b bs hb
    unfold Scene.bbox
    have e1 : (sceneOf tx rx shapes).transmitters.items = .ok (finPoints tx) := items_eq (hfin tx ht)
    have e2 : (sceneOf tx rx shapes).receivers.items = .ok (finPoints rx) := items_eq (hfin rx hr)
    have e3 : (sceneOf tx rx shapes).objects = shapes.map Shape.obj := rfl
    rw [e1, e2, e3]
    show (match boxes with
      | [] => Except.error PyErr.valueError
      | b :: bs => .ok (Scene.mergeBoxes b bs)) = _
    clear_value boxes
    subst hb
    rfl
  rw [← hflat]
  cases hb : boxes with
  | nil =>
    exfalso
    apply hne
    rw [hboxes] at hb
    simpa [finPoints, and_assoc] using hb
  | cons b bs =>
    rw [hb] at hall
    cases hp : pss with
    | nil => rw [hp] at hall; cases hall
    | cons ps pss' =>
      rw [hp] at hall
      cases hall with
      | cons h1 h2 => exact ⟨_, hbb b bs hb, by rw [List.flatten_cons]; exact mergeBoxes_tight b bs ps pss' h1 h2⟩

/-- Non-vacuity: a transmitter, a wall and a vertex. -/
example := C25_scene [("a", ⟨0, 0⟩)] [] (by simp [Distinct]) (by simp [Distinct]) [.wall ⟨0, 0⟩ ⟨3, 4⟩, .vertex ⟨-1, 2⟩] (by simp)

/-- **C25.** An empty scene has no bounding box. -/
theorem C25_scene_empty : (sceneOf [] [] []).bbox = .error .valueError := rfl

end DiffeRT2d.Props
