import Verif.Props.Traversal

/-! # Lemmas on accumulations -/

namespace DiffeRT2d
open Spec Props
open Classical

/-- A pair of a transmitter and a receiver with their names. -/
abbrev NamedPair := (String × V2 F) × (String × V2 F)

theorem forall₂_mem {α β : Type*} {R : α → β → Prop} {xs : List α} {ys : List β} (h : List.Forall₂ R xs ys)
    {y : β} (hy : y ∈ ys) : ∃ x ∈ xs, R x y := by
  induction h with
  | nil => simp at hy
  | cons h1 _ ih =>
    rcases List.mem_cons.mp hy with rfl | hy
    · exact ⟨_, by simp, h1⟩
    · obtain ⟨x, hx, hr⟩ := ih hy
      exact ⟨x, by simp [hx], hr⟩

theorem product_blocks {β γ : Type*} {R : γ × β → Scene.Traced → Prop} (P : List γ) (cs : List β)
    (ts : List Scene.Traced) (h : List.Forall₂ R (P ×ˢ cs) ts) :
    ∃ bs : List (γ × List Scene.Traced), bs.map Prod.fst = P ∧ ts = (bs.map Prod.snd).flatten ∧
      ∀ b ∈ bs, List.Forall₂ (fun c x => R (b.1, c) x) cs b.2 := by
  induction P generalizing ts with
  | nil =>
    refine ⟨[], rfl, ?_, by simp⟩
    cases h; rfl
  | cons p P ih =>
    rw [List.product_cons] at h
    have h1 := List.forall₂_take (cs.map fun c => (p, c)).length h
    have h2 := List.forall₂_drop (cs.map fun c => (p, c)).length h
    rw [List.take_left] at h1
    rw [List.drop_left] at h2
    obtain ⟨bs, e1, e2, e3⟩ := ih _ h2
    refine ⟨(p, ts.take (cs.map fun c => (p, c)).length) :: bs, by simp [e1], ?_, ?_⟩
    · simp only [List.map_cons, List.flatten_cons]
      rw [← e2, List.take_append_drop]
    · intro b hb
      rcases List.mem_cons.mp hb with rfl | hb
      · rw [List.forall₂_map_left_iff] at h1
        exact h1
      · exact e3 b hb

section
variable {Key : Type} (s : Scene) (m : Scene.PathMethod Key) (v : Scene.ValidOpts)

/-- One turn with some key. -/
def SomeTurn (e : NamedPair × List ℤ) (x : Scene.Traced) : Prop := ∃ k, Turn s m v k e x

theorem tracePaths_some (split : Key → ℕ → List Key) (key : Option Key) (l : List (NamedPair × List ℤ))
    (ts : List Scene.Traced) (h : s.tracePaths split m v key l = .ok ts) :
    List.Forall₂ (SomeTurn s m v) l ts := by
  rw [tracePaths_ok] at h
  rw [List.forall₂_iff_get]
  refine ⟨h.1.symm, ?_⟩
  intro i h1 h2
  exact ⟨_, h.2 i _ _ (List.getElem?_eq_getElem h1) (List.getElem?_eq_getElem h2)⟩

/-- The pair of names of a traced path. -/
def names (t : Scene.Traced) : String × String := (t.tx, t.rx)

/-- The traced paths of one pair. -/
noncomputable def ofPair (ts : List Scene.Traced) (p : NamedPair) : List Scene.Traced :=
  ts.filter fun x => names x = (p.1.1, p.2.1)

theorem names_nodup {tx rx : PyDict (V2 F)} (ht : Distinct tx) (hr : Distinct rx) :
    ((tx ×ˢ rx).map fun p : NamedPair => (p.1.1, p.2.1)).Nodup := by
  have : ((tx ×ˢ rx).map fun p : NamedPair => (p.1.1, p.2.1)) = tx.map Prod.fst ×ˢ rx.map Prod.fst := by
    clear ht hr
    induction tx with
    | nil => rfl
    | cons t tx ih => simp [List.product_cons, ih, Function.comp_def]
  rw [this]
  exact List.Nodup.product ht hr

theorem blocks_eq {tx rx : PyDict (V2 F)} (ht : Distinct tx) (hr : Distinct rx) (cs : List (List ℤ))
    (ts : List Scene.Traced) (h : List.Forall₂ (SomeTurn s m v) ((tx ×ˢ rx) ×ˢ cs) ts) :
    ts = ((tx ×ˢ rx).map (ofPair ts)).flatten ∧
    (∀ p ∈ tx ×ˢ rx, List.Forall₂ (fun c x => SomeTurn s m v (p, c) x) cs (ofPair ts p)) ∧
    (cs ≠ [] → Scene.groupby (fun t : Scene.Traced => (t.tx, t.rx)) ts =
      (tx ×ˢ rx).map fun p : NamedPair => ((p.1.1, p.2.1), ofPair ts p)) := by
  obtain ⟨bs, e1, e2, e3⟩ := product_blocks _ _ _ h
  set bs' := bs.map (fun b => ((b.1.1.1, b.1.2.1), b.2)) with hbs'
  have hsnd : bs'.map Prod.snd = bs.map Prod.snd := by simp [hbs', Function.comp_def]
  have hfst : bs'.map Prod.fst = (tx ×ˢ rx).map fun p : NamedPair => (p.1.1, p.2.1) := by
    rw [← e1]; simp [hbs', Function.comp_def]
  have hk : ∀ b ∈ bs', ∀ x ∈ b.2, names x = b.1 := by
    intro b hb x hx
    obtain ⟨b0, hb0, rfl⟩ := List.mem_map.mp hb
    obtain ⟨c, hc, k, h1, h2, _⟩ := forall₂_mem (e3 b0 hb0) hx
    exact Prod.ext h1 h2
  have hd : (bs'.map Prod.fst).Nodup := by rw [hfst]; exact names_nodup ht hr
  have hof : ∀ b ∈ bs, ofPair ts b.1 = b.2 := by
    intro b hb
    have := filter_blocks names bs' hk hd ((b.1.1.1, b.1.2.1), b.2) (List.mem_map.mpr ⟨b, hb, rfl⟩)
    rw [hsnd, ← e2] at this
    exact this
  have hmap : (tx ×ˢ rx).map (ofPair ts) = bs.map Prod.snd := by
    rw [← e1, List.map_map]
    exact List.map_congr_left hof
  refine ⟨by rw [hmap]; exact e2, ?_, ?_⟩
  · intro p hp
    rw [← e1] at hp
    obtain ⟨b, hb, rfl⟩ := List.mem_map.mp hp
    rw [hof b hb]
    exact e3 b hb
  · intro hne
    have hg := groupby_blocks names bs' (by
      intro b hb
      obtain ⟨b0, hb0, rfl⟩ := List.mem_map.mp hb
      have := (e3 b0 hb0).length_eq
      intro e
      simp only at e
      rw [e] at this
      exact hne (List.length_eq_zero_iff.mp this)) hk hd
    rw [hsnd, ← e2] at hg
    show Scene.groupby names ts = _
    rw [hg, hbs', ← e1, List.map_map]
    apply List.map_congr_left
    intro b hb
    simp [hof b hb]

end

theorem getItem_mem {V : Type} {d : PyDict V} (h : Distinct d) {k : String} {x : V} (hm : (k, x) ∈ d) :
    (PyTreeDict.fromMapping d).getItem k = .ok x := by
  rw [getItem_eq, (lookup_eq_some h).mpr hm]

end DiffeRT2d
