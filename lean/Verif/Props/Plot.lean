import Verif.Spec.Plot
import Verif.Lemmas.Traversal
import Verif.Lemmas.Scene

/-! # Property C69: plotting -/

namespace DiffeRT2d.Props
open Classical Spec

/-! ## Lemmas -/

theorem bind_eq_ok {α β : Type} {x : Except PyErr α} {f : α → Except PyErr β} {b : β} :
    x >>= f = .ok b ↔ ∃ a, x = .ok a ∧ f a = .ok b := by
  cases x <;> simp [bind, Except.bind]

theorem lookup_append' {V : Type} (a b : PyDict V) (k : String) :
    List.lookup k (a ++ b) = (a.lookup k).or (b.lookup k) := by
  induction a with
  | nil => simp
  | cons kv a ih =>
    obtain ⟨k', v⟩ := kv
    by_cases h : k = k'
    · subst h; simp
    · simp [List.lookup_cons, beq_false_of_ne h, ih]

theorem lookup_filter {V : Type} (p : String → Prop) (d : PyDict V) (k : String) :
    List.lookup k (d.filter fun kv => decide (p kv.1)) = if p k then d.lookup k else none := by
  induction d with
  | nil => simp
  | cons kv d ih =>
    obtain ⟨k', v⟩ := kv
    by_cases hk : k = k'
    · subst hk
      by_cases hp : p k
      · simp [hp]
      · simp only [List.filter_cons, hp, decide_false, Bool.false_eq_true, if_false, ih]
    · by_cases hp : p k'
      · simp [hp, List.lookup_cons, beq_false_of_ne hk, ih]
      · simp only [List.filter_cons, hp, decide_false, Bool.false_eq_true, if_false, ih, List.lookup_cons, beq_false_of_ne hk]

theorem drawing_lookup (key : String) (d : PyDict Val) : (drawing d).lookup key =
    if (key ≠ "annotate" ∧ key ≠ "annotate_offset" ∧ key ≠ "annotate_kwargs") then d.lookup key else none := by
  have h := lookup_filter (fun k => k ≠ "annotate" ∧ k ≠ "annotate_offset" ∧ k ≠ "annotate_kwargs") d key
  have e : drawing d = d.filter fun kv =>
      @decide (kv.1 ≠ "annotate" ∧ kv.1 ≠ "annotate_offset" ∧ kv.1 ≠ "annotate_kwargs") (Classical.propDecidable _) := by
    unfold drawing
    apply List.filter_congr
    intro kv _
    simp
  rw [e, h]
  congr

theorem setdefault_lookup {V : Type} (d : PyDict V) (k : String) (v : V) (k' : String) :
    List.lookup k' (PyDict.setdefault d k v) = (d.lookup k').or (List.lookup k' [(k, v)]) := by
  unfold PyDict.setdefault
  split_ifs with h
  · by_cases hk : k' = k
    · subst hk
      cases hl : d.lookup k' with
      | none => exact absurd h (lookup_eq_none.1 hl)
      | some w => simp
    · simp [List.lookup_cons, beq_false_of_ne hk]
  · rw [lookup_append']

theorem setdefault_keys {V : Type} (d : PyDict V) (k : String) (v : V) (k' : String)
    (h : k' ∈ (PyDict.setdefault d k v).map Prod.fst) : k' ∈ d.map Prod.fst ∨ k' = k := by
  unfold PyDict.setdefault at h
  split_ifs at h
  · exact .inl h
  · simpa using h

theorem annotateOffset_spec {kw : PyDict Val} {off : V2 F} (h : annotateOffset kw = .ok off) :
    kw.lookup "annotate_offset" = some (.pair off) ∨
      kw.lookup "annotate_offset" = none ∧ off = ⟨F.fin 0, F.fin 0⟩ := by
  unfold annotateOffset at h
  split at h
  · next e =>
    simp only [Except.ok.injEq] at h
    refine .inr ⟨e, h.symm.trans ?_⟩
    show (⟨F.fin (OfScientific.ofScientific 0 true 1), F.fin (OfScientific.ofScientific 0 true 1)⟩ : V2 F) = _
    norm_num
  · next v e => simp only [Except.ok.injEq] at h; subst h; exact .inl e
  · simp at h

theorem annotateKwargs_spec {kw akw : PyDict Val} (h : annotateKwargs kw = .ok akw) :
    kw.lookup "annotate_kwargs" = some (.dict akw) ∨
      (kw.lookup "annotate_kwargs" = none ∨ kw.lookup "annotate_kwargs" = some .none) ∧ akw = [] := by
  unfold annotateKwargs at h
  split at h
  · next e => simp only [Except.ok.injEq] at h; exact .inr ⟨.inl e, h.symm⟩
  · next e => simp only [Except.ok.injEq] at h; exact .inr ⟨.inr e, h.symm⟩
  · next v e => simp only [Except.ok.injEq] at h; subst h; exact .inl e
  · simp at h

/-- What `Point.plot` draws. -/
theorem pointPlot_spec (xy : V2 F) (args : List Val) (kw : PyDict Val) (block : List Artist)
    (h : pointPlot xy args kw = .ok block) :
    ∃ m, Marker xy args kw [("marker", .str "o"), ("color", .str "red")] m ∧
      (∀ t, kw.lookup "annotate" = some (.str t) → t ≠ "" → ∃ l, Label t xy kw l ∧ block = [m, l]) ∧
      ((kw.lookup "annotate" = none ∨ kw.lookup "annotate" = some .none ∨ kw.lookup "annotate" = some (.str "")) →
        block = [m]) := by
  have hfil : ∀ d : PyDict Val, (d.filter fun kv => decide (kv.1 ∉ pointParams)) = drawing d := by
    intro d
    unfold drawing pointParams
    apply List.filter_congr
    intro kv _
    simp
  refine ⟨.scatter xy args (PyDict.setdefault (PyDict.setdefault (drawing kw) "marker" (.str "o")) "color" (.str "red")),
    ⟨_, ?_, rfl⟩, ?_, ?_⟩
  · intro key
    rw [setdefault_lookup, setdefault_lookup, Option.or_assoc, ← lookup_append']
    rfl
  · intro t ht hne
    unfold pointPlot at h
    obtain ⟨t', h1, h⟩ := bind_eq_ok.1 h
    obtain ⟨off, h2, h⟩ := bind_eq_ok.1 h
    obtain ⟨akw, h3, h⟩ := bind_eq_ok.1 h
    simp only [annotateText, ht, Except.ok.injEq] at h1
    subst h1
    simp only [ne_eq, hne, not_false_eq_true, if_true, pure, Except.pure, Except.ok.injEq, hfil] at h
    exact ⟨_, ⟨off, akw, annotateOffset_spec h2, annotateKwargs_spec h3, rfl⟩, h.symm⟩
  · intro ht
    unfold pointPlot at h
    obtain ⟨t', h1, h⟩ := bind_eq_ok.1 h
    obtain ⟨off, -, h⟩ := bind_eq_ok.1 h
    obtain ⟨akw, -, h⟩ := bind_eq_ok.1 h
    have : t' = "" := by
      rcases ht with ht | ht | ht <;> simp [annotateText, ht] at h1 <;> exact h1
    subst this
    simp only [ne_eq, not_true_eq_false, if_false, pure, Except.pure, Except.ok.injEq, hfil] at h
    exact h.symm

theorem bindPlot_iff (groups : List (PyDict Val)) (kw : PyDict Val) :
    bindPlot groups = .ok kw ↔ kw = groups.flatten ∧ Passable groups.flatten := by
  unfold bindPlot Passable Distinct
  dsimp only
  split_ifs with h
  · simp only [Except.ok.injEq]
    exact ⟨fun e => ⟨e.symm, h⟩, fun e => e.1.symm⟩
  · simp only [reduceCtorEq, false_iff]
    exact fun hh => h hh.2

/-- The keywords of a named point are passable if the user's are, and do not set `annotate`, nor `color` in
the general ones. -/
theorem passable_named (group kwargs : PyDict Val) (hg : Distinct group) (v : Val) (colour : String) :
    Passable [[("annotate", v)], PyDict.merge [("color", .str colour)] group, kwargs].flatten ↔
      Passable (group ++ kwargs) ∧ "annotate" ∉ (group ++ kwargs).map Prod.fst ∧ "color" ∉ kwargs.map Prod.fst := by
  have hk := merge_keys [("color", Val.str colour)] group hg
  have hmem : ∀ k, k ∈ (PyDict.merge [("color", Val.str colour)] group).map Prod.fst ↔
      k = "color" ∨ k ∈ group.map Prod.fst := by
    intro k
    rw [hk]
    simp only [appendNew, List.map_cons, List.map_nil, List.mem_append, List.mem_singleton, List.mem_filter,
      decide_eq_true_eq]
    tauto
  have hmd : Distinct (PyDict.merge [("color", Val.str colour)] group) := merge_distinct (by simp [Distinct]) hg
  set M := PyDict.merge [("color", Val.str colour)] group
  unfold Distinct at hg hmd
  simp only [Passable, Distinct, List.flatten_cons, List.flatten_nil, List.append_nil, List.cons_append, List.nil_append,
    List.map_cons, List.map_append, List.nodup_cons, List.nodup_append, List.mem_cons, List.mem_append, hmem]
  constructor
  · rintro ⟨⟨h1, -, h2, h3⟩, h4, h5⟩
    push Not at h1 h4 h5
    refine ⟨⟨⟨hg, h2, fun a ha b hb => h3 a (.inr ha) b hb⟩, ?_, ?_⟩, ?_, ?_⟩
    · push Not; exact ⟨h4.2.1.2, h4.2.2⟩
    · push Not; exact ⟨h5.2.1.2, h5.2.2⟩
    · push Not; exact ⟨h1.1.2, h1.2⟩
    · intro hc; exact h3 "color" (.inl rfl) "color" hc rfl
  · rintro ⟨⟨⟨-, h2, h3⟩, h4, h5⟩, h6, h7⟩
    push Not at h4 h5 h6
    refine ⟨⟨?_, hmd, h2, ?_⟩, ?_, ?_⟩
    · push Not; exact ⟨⟨by decide, h6.1⟩, h6.2⟩
    · rintro a (rfl | ha) b hb
      · intro e; exact h7 (e ▸ hb)
      · exact h3 a ha b hb
    · push Not; exact ⟨by decide, ⟨by decide, h4.1⟩, h4.2⟩
    · push Not; exact ⟨by decide, ⟨by decide, h5.1⟩, h5.2⟩

theorem plotNamed_spec (kv : String × V2 F) (groupArgs args : List Val) (annotate : Bool) (group kwargs : PyDict Val)
    (colour : String) (hg : Distinct group) (block : List Artist)
    (h : plotNamed kv groupArgs args annotate (PyDict.merge [("color", .str colour)] group) kwargs = .ok block) :
    NamedPoint annotate (groupArgs ++ args) (group ++ kwargs) colour kv block := by
  unfold plotNamed at h
  set v : Val := if annotate then .str kv.1 else .none with hv
  cases hb : bindPlot [[("annotate", v)], PyDict.merge [("color", .str colour)] group, kwargs] with
  | error e => simp [hb, bind, Except.bind] at h
  | ok kw =>
    simp only [hb, bind, Except.bind] at h
    obtain ⟨rfl, hpass⟩ := (bindPlot_iff _ _).1 hb
    obtain ⟨-, hann, hcol⟩ := (passable_named group kwargs hg v colour).1 hpass
    obtain ⟨m, ⟨kw, hset, rfl⟩, hlab, hnol⟩ := pointPlot_spec _ _ _ _ h
    have hlook : List.lookup "annotate"
        [[("annotate", v)], PyDict.merge [("color", .str colour)] group, kwargs].flatten = some v := by
      simp
    refine ⟨_, ⟨kw, ?_, rfl⟩, ?_⟩
    · intro key
      rw [hset key]
      have hd : ∀ d : PyDict Val, (drawing d).lookup key =
          if (key ≠ "annotate" ∧ key ≠ "annotate_offset" ∧ key ≠ "annotate_kwargs") then d.lookup key else none :=
        drawing_lookup key
      rw [hd, hd]
      have hm := merge_lookup [("color", Val.str colour)] group hg key
      by_cases hk : key ≠ "annotate" ∧ key ≠ "annotate_offset" ∧ key ≠ "annotate_kwargs"
      · simp only [hk, ne_eq, not_false_eq_true, and_self, if_true]
        simp only [List.flatten_cons, List.flatten_nil, List.append_nil, lookup_append', hm]
        have ha : List.lookup key [("annotate", v)] = none := by
          simp [List.lookup_cons, beq_false_of_ne hk.1]
        rw [ha]
        by_cases hc : key = "color"
        · subst hc
          rw [lookup_eq_none.2 hcol]
          simp [List.lookup_cons]
        · have hc' : List.lookup key [("color", Val.str colour)] = none := by
            simp [List.lookup_cons, beq_false_of_ne hc]
          rw [hc']
          simp [List.lookup_cons, beq_false_of_ne hc]
      · simp only [hk, if_false, Option.none_or]
        have : key ≠ "color" ∧ key ≠ "marker" := by
          constructor <;> (rintro rfl; exact hk (by decide))
        simp [List.lookup_cons, beq_false_of_ne this.1, beq_false_of_ne this.2]
    · split_ifs with hc
      · obtain ⟨ha, hne⟩ := hc
        obtain ⟨l, ⟨off, akw, ho, hk, rfl⟩, hb⟩ := hlab kv.1 (by rw [hlook, hv, ha]; rfl) hne
        have hl : ∀ k, k ≠ "annotate" → k ≠ "color" →
            List.lookup k [[("annotate", v)], PyDict.merge [("color", .str colour)] group, kwargs].flatten =
              (group ++ kwargs).lookup k := by
          intro k hk hc
          simp only [List.flatten_cons, List.flatten_nil, List.append_nil, lookup_append', merge_lookup _ _ hg]
          simp [List.lookup_cons, beq_false_of_ne hk, beq_false_of_ne hc]
        rw [hl _ (by decide) (by decide)] at ho hk
        exact ⟨_, ⟨off, akw, ho, hk, rfl⟩, hb⟩
      · apply hnol
        rw [hlook, hv]
        cases annotate
        · right; left; rfl
        · right; right
          have : kv.1 = "" := by
            by_contra hne; exact hc ⟨rfl, hne⟩
          simp [this]

theorem objPlot_spec (userPlot : UserPlot) (o : Obj) (args : List Val) (user : PyDict Val) (block : List Artist)
    (hann : "annotate" ∉ user.map Prod.fst) (h : o.plot userPlot args user = .ok block) :
    DrawnObject userPlot args user o block := by
  cases o with
  | wall w =>
    simp only [Obj.plot, rayPlot, Except.ok.injEq] at h
    exact ⟨_, fun key => setdefault_lookup _ _ _ _, h.symm⟩
  | ris r =>
    simp only [Obj.plot, rayPlot, Except.ok.injEq] at h
    refine ⟨_, fun key => ?_, h.symm⟩
    rw [setdefault_lookup, setdefault_lookup, Option.or_assoc]
    by_cases hc : key = "color" <;> simp [hc, List.lookup_cons, beq_false_of_ne]
  | vertex v =>
    simp only [Obj.plot] at h
    obtain ⟨m, ⟨kw, hset, rfl⟩, -, hnol⟩ := pointPlot_spec _ _ _ _ h
    refine ⟨_, hnol (.inl ?_), ⟨kw, ?_, rfl⟩⟩
    · simp only [setdefault_lookup, lookup_eq_none.2 hann]
      simp [List.lookup_cons]
    · intro key
      rw [hset key]
      have hd : ∀ d : PyDict Val, (drawing d).lookup key =
          if (key ≠ "annotate" ∧ key ≠ "annotate_offset" ∧ key ≠ "annotate_kwargs") then d.lookup key else none :=
        drawing_lookup key
      rw [hd, hd]
      by_cases hk : key ≠ "annotate" ∧ key ≠ "annotate_offset" ∧ key ≠ "annotate_kwargs"
      · simp only [hk, ne_eq, not_false_eq_true, and_self, if_true, setdefault_lookup, Option.or_assoc, ← lookup_append',
          List.append_assoc]
        rfl
      · simp only [hk, if_false, Option.none_or]
        have : key ≠ "color" ∧ key ≠ "marker" ∧ key ≠ "edgecolors" ∧ key ≠ "facecolors" ∧ key ≠ "linestyle" := by
          refine ⟨?_, ?_, ?_, ?_, ?_⟩ <;> (rintro rfl; exact hk (by decide))
        simp [List.lookup_cons, beq_false_of_ne this.1, beq_false_of_ne this.2.1, beq_false_of_ne this.2.2.1,
          beq_false_of_ne this.2.2.2.1, beq_false_of_ne this.2.2.2.2]
  | user c i b => exact h

/-! ## C69 -/

/-- The artists of the transmitters, then of the objects, then of the receivers, each in scene order, and only
for the enabled groups. A named point has one marker, and one label if annotations are on (and its name is
not empty), shifted by the user's offset and with the user's annotation settings; an object has one artist. Each artist has the user's settings, and the defaults only where the user
set nothing. -/
theorem C69_plot (userPlot : UserPlot) (s : Scene) (a : PlotArgs) (txs rxs : PyDict (V2 F)) (artists : List Artist)
    (hs : IsScene s) (htx : s.transmitters.items = .ok txs) (hrx : s.receivers.items = .ok rxs)
    (hdt : Distinct a.transmittersKwargs) (hdr : Distinct a.receiversKwargs)
    (hann : "annotate" ∉ (a.objectsKwargs ++ a.kwargs).map Prod.fst)
    (h : s.plot userPlot a = .ok artists) :
    ∃ txBlocks objBlocks rxBlocks : List (List Artist),
      artists = txBlocks.flatten ++ objBlocks.flatten ++ rxBlocks.flatten ∧
      List.Forall₂ (NamedPoint a.annotate (a.transmittersArgs ++ a.args) (a.transmittersKwargs ++ a.kwargs) "blue")
        (if a.transmitters then txs else []) txBlocks ∧
      List.Forall₂ (DrawnObject userPlot (a.objectsArgs ++ a.args) (a.objectsKwargs ++ a.kwargs))
        (if a.objects then s.objects else []) objBlocks ∧
      List.Forall₂ (NamedPoint a.annotate (a.receiversArgs ++ a.args) (a.receiversKwargs ++ a.kwargs) "green")
        (if a.receivers then rxs else []) rxBlocks := by
  unfold Scene.plot at h
  obtain ⟨tb, h1, h⟩ := bind_eq_ok.1 h
  obtain ⟨ob, h2, h⟩ := bind_eq_ok.1 h
  obtain ⟨rb, h3, h⟩ := bind_eq_ok.1 h
  simp only [pure, Except.pure, Except.ok.injEq] at h
  refine ⟨tb, ob, rb, by rw [← h]; simp, ?_, ?_, ?_⟩
  · unfold Scene.plotTransmitters at h1
    cases htr : a.transmitters with
    | false =>
      simp only [htr, Bool.false_eq_true, if_false, pure, Except.pure, Except.ok.injEq] at h1
      subst h1; exact .nil
    | true =>
      simp only [htr, htx, if_true, bind, Except.bind] at h1
      rw [mapM_iff] at h1
      exact h1.imp fun kv b hb => plotNamed_spec kv _ _ _ _ _ _ hdt b hb
  · unfold Scene.plotObjects at h2
    cases hob : a.objects with
    | false =>
      simp only [hob, Bool.false_eq_true, if_false, pure, Except.pure, Except.ok.injEq] at h2
      subst h2; exact .nil
    | true =>
      simp only [hob, if_true] at h2
      rw [mapM_iff] at h2
      refine h2.imp fun o b hb => ?_
      obtain ⟨kw, hkw, hb⟩ := bind_eq_ok.1 hb
      obtain ⟨rfl, -⟩ := (bindPlot_iff _ _).1 hkw
      simp only [List.flatten_cons, List.flatten_nil, List.append_nil] at hb
      exact objPlot_spec userPlot o _ _ b hann hb
  · unfold Scene.plotReceivers at h3
    cases hre : a.receivers with
    | false =>
      simp only [hre, Bool.false_eq_true, if_false, pure, Except.pure, Except.ok.injEq] at h3
      subst h3; exact .nil
    | true =>
      simp only [hre, hrx, if_true, bind, Except.bind] at h3
      rw [mapM_iff] at h3
      exact h3.imp fun kv b hb => plotNamed_spec kv _ _ _ _ _ _ hdr b hb

theorem pointPlot_total (xy : V2 F) (args : List Val) (kw : PyDict Val)
    (hann : kw.lookup "annotate" = none ∨ kw.lookup "annotate" = some .none ∨
      ∃ t, kw.lookup "annotate" = some (.str t)) (ht : AnnotationTypes kw) :
    ∃ block, pointPlot xy args kw = .ok block := by
  obtain ⟨h1, h2⟩ := ht
  have e1 : ∃ t, annotateText kw = .ok t := by
    unfold annotateText
    rcases hann with h | h | ⟨t, h⟩ <;> rw [h] <;> exact ⟨_, rfl⟩
  have e2 : ∃ v, annotateOffset kw = .ok v := by
    unfold annotateOffset
    cases h : kw.lookup "annotate_offset" with
    | none => exact ⟨_, rfl⟩
    | some v => obtain ⟨p, rfl⟩ := h1 v h; exact ⟨_, rfl⟩
  have e3 : ∃ d, annotateKwargs kw = .ok d := by
    unfold annotateKwargs
    cases h : kw.lookup "annotate_kwargs" with
    | none => exact ⟨_, rfl⟩
    | some v =>
      rcases h2 v h with rfl | ⟨d, rfl⟩ <;> exact ⟨_, rfl⟩
  obtain ⟨t, e1⟩ := e1
  obtain ⟨v, e2⟩ := e2
  obtain ⟨d, e3⟩ := e3
  unfold pointPlot
  simp only [e1, e2, e3, bind, Except.bind, pure, Except.pure]
  split <;> exact ⟨_, rfl⟩

theorem mapM_total {α β : Type} (f : α → Except PyErr β) (xs : List α) (h : ∀ x ∈ xs, ∃ y, f x = .ok y) :
    ∃ ys, xs.mapM f = .ok ys := by
  induction xs with
  | nil => exact ⟨[], rfl⟩
  | cons x xs ih =>
    obtain ⟨y, hy⟩ := h x (by simp)
    obtain ⟨ys, hys⟩ := ih fun z hz => h z (by simp [hz])
    exact ⟨y :: ys, by simp [List.mapM_cons, hy, hys, bind, Except.bind, pure, Except.pure]⟩

theorem plotNamed_total (kv : String × V2 F) (groupArgs args : List Val) (annotate : Bool) (group kwargs : PyDict Val)
    (colour : String) (hg : Distinct group) (hp : Passable (group ++ kwargs))
    (hann : "annotate" ∉ (group ++ kwargs).map Prod.fst) (hcol : "color" ∉ kwargs.map Prod.fst)
    (ht : AnnotationTypes (group ++ kwargs)) :
    ∃ block, plotNamed kv groupArgs args annotate (PyDict.merge [("color", .str colour)] group) kwargs = .ok block := by
  unfold plotNamed
  set v : Val := if annotate then .str kv.1 else .none with hv
  have hb := (bindPlot_iff [[("annotate", v)], PyDict.merge [("color", .str colour)] group, kwargs] _).2
    ⟨rfl, (passable_named group kwargs hg v colour).2 ⟨hp, hann, hcol⟩⟩
  have hl : ∀ k, k ≠ "annotate" → k ≠ "color" →
      List.lookup k [[("annotate", v)], PyDict.merge [("color", .str colour)] group, kwargs].flatten =
        (group ++ kwargs).lookup k := by
    intro k hk hc
    simp only [List.flatten_cons, List.flatten_nil, List.append_nil, lookup_append', merge_lookup _ _ hg]
    simp [List.lookup_cons, beq_false_of_ne hk, beq_false_of_ne hc]
  obtain ⟨block, h⟩ := pointPlot_total kv.2 (groupArgs ++ args)
    [[("annotate", v)], PyDict.merge [("color", .str colour)] group, kwargs].flatten (by
      have : List.lookup "annotate"
        [[("annotate", v)], PyDict.merge [("color", .str colour)] group, kwargs].flatten = some v := by simp
      rw [this, hv]
      cases annotate <;> simp) (by
      unfold AnnotationTypes
      rw [hl _ (by decide) (by decide), hl _ (by decide) (by decide)]
      exact ht)
  exact ⟨block, by simp only [hb, bind, Except.bind]; exact h⟩

/-- Plotting succeeds: the settings of a group and the general ones have different keywords, `color` is not
set in the general ones, and annotation settings have the expected types. -/
theorem C69_total (userPlot : UserPlot) (s : Scene) (a : PlotArgs) (hs : IsScene s)
    (hdt : Distinct a.transmittersKwargs) (hdr : Distinct a.receiversKwargs)
    (hpt : Passable (a.transmittersKwargs ++ a.kwargs)) (hpr : Passable (a.receiversKwargs ++ a.kwargs))
    (hpo : Passable (a.objectsKwargs ++ a.kwargs))
    (hat : "annotate" ∉ (a.transmittersKwargs ++ a.kwargs).map Prod.fst)
    (har : "annotate" ∉ (a.receiversKwargs ++ a.kwargs).map Prod.fst)
    (hao : "annotate" ∉ (a.objectsKwargs ++ a.kwargs).map Prod.fst)
    (hcol : "color" ∉ a.kwargs.map Prod.fst)
    (htt : AnnotationTypes (a.transmittersKwargs ++ a.kwargs)) (htr : AnnotationTypes (a.receiversKwargs ++ a.kwargs))
    (hto : AnnotationTypes (a.objectsKwargs ++ a.kwargs))
    (huser : ∀ o ∈ s.objects, ∀ c i b, o = .user c i b →
      ∃ block, userPlot o (a.objectsArgs ++ a.args) (a.objectsKwargs ++ a.kwargs) = .ok block) :
    ∃ artists, s.plot userPlot a = .ok artists := by
  obtain ⟨⟨txs, hdx, etx⟩, ⟨rxs, hdx', erx⟩⟩ := hs
  have h1 : ∃ tb, s.plotTransmitters a = .ok tb := by
    unfold Scene.plotTransmitters
    rw [etx, items_eq hdx]
    cases a.transmitters with
    | false => exact ⟨[], rfl⟩
    | true => exact mapM_total _ txs fun kv _ => plotNamed_total kv _ _ _ _ _ _ hdt hpt hat hcol htt
  have h3 : ∃ tb, s.plotReceivers a = .ok tb := by
    unfold Scene.plotReceivers
    rw [erx, items_eq hdx']
    cases a.receivers with
    | false => exact ⟨[], rfl⟩
    | true => exact mapM_total _ rxs fun kv _ => plotNamed_total kv _ _ _ _ _ _ hdr hpr har hcol htr
  have h2 : ∃ ob, s.plotObjects userPlot a = .ok ob := by
    unfold Scene.plotObjects
    cases a.objects with
    | false => exact ⟨[], rfl⟩
    | true =>
      refine mapM_total _ s.objects fun o ho => ?_
      have hb := (bindPlot_iff [a.objectsKwargs, a.kwargs] (a.objectsKwargs ++ a.kwargs)).2 (by simpa using hpo)
      simp only [hb, bind, Except.bind]
      cases o with
      | wall w => exact ⟨_, rfl⟩
      | ris r => exact ⟨_, rfl⟩
      | vertex v =>
        unfold Obj.plot
        apply pointPlot_total
        · left
          simp only [setdefault_lookup, lookup_eq_none.2 hao]
          simp [List.lookup_cons]
        · unfold AnnotationTypes
          simp only [setdefault_lookup]
          have := hto
          unfold AnnotationTypes at this
          simpa [List.lookup_cons] using this
      | user c i b => exact huser _ ho c i b rfl
  obtain ⟨tb, h1⟩ := h1
  obtain ⟨ob, h2⟩ := h2
  obtain ⟨rb, h3⟩ := h3
  exact ⟨_, by unfold Scene.plot; simp only [h1, h2, h3, bind, Except.bind]; rfl⟩

/-- A colour for the whole scene (`scene.plot(ax, color=...)`) is refused as soon as a transmitter or a
receiver is drawn, whatever the other settings. -/
theorem C69_color_refused (userPlot : UserPlot) (s : Scene) (a : PlotArgs) (hs : IsScene s)
    (hdt : Distinct a.transmittersKwargs) (hcol : "color" ∈ a.kwargs.map Prod.fst) (htx : a.transmitters = true)
    (hne : s.transmitters.len ≠ 0) : s.plot userPlot a = .error .typeError := by
  obtain ⟨⟨txs, hdx, etx⟩, -⟩ := hs
  have hlen : txs ≠ [] := by
    rintro rfl
    exact hne (by rw [etx]; rfl)
  have h1 : s.plotTransmitters a = .error .typeError := by
    unfold Scene.plotTransmitters
    rw [etx, items_eq hdx]
    simp only [htx, if_true, bind, Except.bind]
    obtain ⟨kv, rest, rfl⟩ := List.exists_cons_of_ne_nil hlen
    have hb : plotNamed kv a.transmittersArgs a.args a.annotate
        (PyDict.merge [("color", .str "blue")] a.transmittersKwargs) a.kwargs = .error .typeError := by
      unfold plotNamed
      have : bindPlot [[("annotate", if a.annotate = true then Val.str kv.1 else Val.none)],
          PyDict.merge [("color", .str "blue")] a.transmittersKwargs, a.kwargs] = .error .typeError := by
        unfold bindPlot
        dsimp only
        rw [if_neg]
        intro hp
        have := (passable_named a.transmittersKwargs a.kwargs hdt _ "blue").1 hp
        exact this.2.2 hcol
      simp only [this, bind, Except.bind]
    simp [List.mapM_cons, hb, bind, Except.bind]
  unfold Scene.plot
  simp only [h1, bind, Except.bind]

/-- Non-vacuity: one transmitter. -/
example := C69_color_refused (fun _ _ _ => .ok []) (sceneOf [("tx", ⟨0, 0⟩)] [] []) { kwargs := [("color", .str "red")] }
  ⟨⟨_, by simp [Distinct, finPoints], rfl⟩, ⟨_, by simp [Distinct, finPoints], rfl⟩⟩ (by simp [Distinct]) (by simp) rfl (by decide)

/-- The number of artists: one per enabled object, and one or two per enabled named point. -/
theorem C69_count (userPlot : UserPlot) (s : Scene) (a : PlotArgs) (txs rxs : PyDict (V2 F)) (artists : List Artist)
    (hs : IsScene s) (htx : s.transmitters.items = .ok txs) (hrx : s.receivers.items = .ok rxs)
    (hdt : Distinct a.transmittersKwargs) (hdr : Distinct a.receiversKwargs)
    (hann : "annotate" ∉ (a.objectsKwargs ++ a.kwargs).map Prod.fst)
    (hall : a.transmitters = true ∧ a.objects = true ∧ a.receivers = true)
    (hlib : ∀ o ∈ s.objects, ∀ c i b, o ≠ .user c i b)
    (hnames : ∀ kv ∈ txs ++ rxs, kv.1 ≠ "") (h : s.plot userPlot a = .ok artists) :
    artists.length = (if a.annotate then 2 else 1) * (txs.length + rxs.length) + s.objects.length := by
  obtain ⟨tb, ob, rb, rfl, h1, h2, h3⟩ := C69_plot userPlot s a txs rxs artists hs htx hrx hdt hdr hann h
  simp only [hall, if_true] at h1 h2 h3
  have hnamed : ∀ (args : List Val) (user : PyDict Val) (colour : String) (m : PyDict (V2 F)) (bs : List (List Artist)),
      (∀ kv ∈ m, kv.1 ≠ "") → List.Forall₂ (NamedPoint a.annotate args user colour) m bs →
      bs.flatten.length = (if a.annotate then 2 else 1) * m.length := by
    intro args user colour m bs hne hf
    induction hf with
    | nil => simp
    | @cons kv b m bs hb _ ih =>
      have ih := ih fun x hx => hne x (by simp [hx])
      obtain ⟨mk, -, hb⟩ := hb
      have hkv := hne kv (by simp)
      rw [List.flatten_cons, List.length_append, ih, List.length_cons]
      cases hanno : a.annotate with
      | false =>
        simp only [hanno, Bool.false_eq_true, false_and, if_false] at hb ⊢
        rw [hb]; simp; ring
      | true =>
        simp only [hanno, true_and, hkv, ne_eq, not_false_eq_true, if_true] at hb ⊢
        obtain ⟨l, -, rfl⟩ := hb
        simp; ring
  have hobj : ob.flatten.length = s.objects.length := by
    have key : ∀ (os : List Obj) (bs : List (List Artist)), (∀ o ∈ os, ∀ c i b, o ≠ .user c i b) →
        List.Forall₂ (DrawnObject userPlot (a.objectsArgs ++ a.args) (a.objectsKwargs ++ a.kwargs)) os bs →
        bs.flatten.length = os.length := by
      intro os bs hl hf
      induction hf with
      | nil => rfl
      | @cons o b os bs hb _ ih =>
        have ih := ih fun x hx => hl x (by simp [hx])
        rw [List.flatten_cons, List.length_append, ih, List.length_cons]
        have : b.length = 1 := by
          cases o with
          | wall w => obtain ⟨kw, -, rfl⟩ := hb; rfl
          | ris w => obtain ⟨kw, -, rfl⟩ := hb; rfl
          | vertex w => obtain ⟨m, rfl, -⟩ := hb; rfl
          | user c i bb => exact absurd rfl (hl _ (by simp) c i bb)
        omega
    exact key _ _ hlib h2
  rw [List.length_append, List.length_append, hobj,
    hnamed _ _ _ _ _ (fun kv hkv => hnames kv (by simp [hkv])) h1,
    hnamed _ _ _ _ _ (fun kv hkv => hnames kv (by simp [hkv])) h3]
  ring

/-- A path is one line through its points, orange unless the user chose a colour. -/
theorem C69_path (xys : List (V2 F)) (args : List Val) (user : PyDict Val) :
    ∃ kw, Settings kw user [("color", .str "orange")] ∧ pathPlot xys args user = [.line xys args kw] :=
  ⟨_, fun key => setdefault_lookup _ _ _ _, rfl⟩

/-- Non-vacuity: a scene with one transmitter, one wall and one receiver, with a red transmitter. -/
example : ∃ artists, (sceneOf [("tx", ⟨0, 0⟩)] [("rx", ⟨1, 1⟩)] [.wall ⟨0, 1⟩ ⟨1, 0⟩]).plot (fun _ _ _ => .ok [])
    { transmittersKwargs := [("color", .str "red")] } = .ok artists ∧ artists.length = 5 := by
  have hs : IsScene (sceneOf [("tx", ⟨0, 0⟩)] [("rx", ⟨1, 1⟩)] [.wall ⟨0, 1⟩ ⟨1, 0⟩]) :=
    ⟨⟨_, by simp [Distinct, finPoints], rfl⟩, ⟨_, by simp [Distinct, finPoints], rfl⟩⟩
  obtain ⟨artists, h⟩ := C69_total (fun _ _ _ => .ok []) _ { transmittersKwargs := [("color", .str "red")] } hs
    (by simp [Distinct]) (by simp [Distinct]) (by simp [Passable, Distinct]) (by simp [Passable, Distinct])
    (by simp [Passable, Distinct]) (by simp) (by simp) (by simp) (by simp)
    (by simp [AnnotationTypes, List.lookup_cons]) (by simp [AnnotationTypes]) (by simp [AnnotationTypes])
    (fun _ _ _ _ _ _ => ⟨[], rfl⟩)
  refine ⟨artists, h, ?_⟩
  have := C69_count _ _ _ (finPoints [("tx", ⟨0, 0⟩)]) (finPoints [("rx", ⟨1, 1⟩)]) artists hs rfl rfl
    (by simp [Distinct]) (by simp [Distinct]) (by simp) ⟨rfl, rfl, rfl⟩
    (by simp [sceneOf, Scene.make, Shape.obj]) (by simp [finPoints]) h
  simpa [finPoints, sceneOf, Scene.make] using this

end DiffeRT2d.Props
