import Verif.Props.Tracing

/-! # C28: the objects that `ImagePath` accepts -/

namespace DiffeRT2d.Props
open Spec

/-- The object provides the interface of a wall (it can mirror a point). -/
def Mirrors (o : Obj) : Prop := (∃ w, o = .wall w) ∨ ∃ r, o = .ris r

/-- The objects are all of one class. -/
def OneClass (objects : List Obj) : Prop := ∀ o ∈ objects, ∀ o' ∈ objects,
  (∃ w w', o = .wall w ∧ o' = .wall w') ∨ (∃ r r', o = .ris r ∧ o' = .ris r') ∨ (∃ v v', o = .vertex v ∧ o' = .vertex v') ∨
    ∃ c i i' b b', o = .user c i b ∧ o' = .user c i' b'

theorem cls_eq_iff (o o' : Obj) : o'.cls = o.cls ↔
    (∃ w w', o = .wall w ∧ o' = .wall w') ∨ (∃ r r', o = .ris r ∧ o' = .ris r') ∨ (∃ v v', o = .vertex v ∧ o' = .vertex v') ∨
      ∃ c i i' b b', o = .user c i b ∧ o' = .user c i' b' := by
  cases o <;> cases o' <;> simp [Obj.cls]

theorem oneClass_iff (o : Obj) (os : List Obj) : OneClass (o :: os) ↔ os.all (fun o' => o'.cls == o.cls) = true := by
  simp only [OneClass, ← cls_eq_iff, List.all_eq_true, beq_iff_eq]
  constructor
  · exact fun h o' ho' => h o (by simp) o' (by simp [ho'])
  · intro h a ha b hb
    have k : ∀ x ∈ o :: os, x.cls = o.cls := by
      intro x hx
      rcases List.mem_cons.mp hx with rfl | hx
      · rfl
      · exact h x hx
    rw [k a ha, k b hb]

theorem asWall_isSome_iff (o : Obj) : (∃ w, o.asWall = some w) ↔ Mirrors o := by
  cases o <;> simp [Obj.asWall, Mirrors]

theorem mapM_asWall_iff (os : List Obj) : (∃ ws, os.mapM Obj.asWall = some ws) ↔ ∀ o ∈ os, Mirrors o := by
  induction os with
  | nil => simp
  | cons o os ih =>
    rw [List.mapM_cons, List.forall_mem_cons, ← ih, ← asWall_isSome_iff]
    rcases h : o.asWall with _ | w
    · simp
    · rcases h' : os.mapM Obj.asWall with _ | ws <;> simp

/-- **C28.** The image method accepts the lists of walls and the lists of RIS, and no other: objects of different classes are a `ValueError`, even walls with
RIS, and objects that do not mirror points are an `AttributeError`. -/
theorem C28_image_errors (tx rx : V2 F) (objects : List Obj) :
    ((∃ p, ImagePath.fromTxObjectsRx tx objects rx = .ok p) ↔ (∀ o ∈ objects, ∃ w, o = .wall w) ∨ ∀ o ∈ objects, ∃ r, o = .ris r) ∧
    (ImagePath.fromTxObjectsRx tx objects rx = .error .valueError ↔ ¬OneClass objects) ∧
    (ImagePath.fromTxObjectsRx tx objects rx = .error .attributeError ↔ OneClass objects ∧ ∃ o ∈ objects, ¬Mirrors o) ∧
    ∀ e, ImagePath.fromTxObjectsRx tx objects rx = .error e → e = .valueError ∨ e = .attributeError := by
  have key : (∃ p, ImagePath.fromTxObjectsRx tx objects rx = .ok p) ∧ OneClass objects ∧ (∀ o ∈ objects, Mirrors o) ∨
      ImagePath.fromTxObjectsRx tx objects rx = .error .valueError ∧ ¬OneClass objects ∨
      ImagePath.fromTxObjectsRx tx objects rx = .error .attributeError ∧ OneClass objects ∧ ¬∀ o ∈ objects, Mirrors o := by
    cases objects with
    | nil => exact .inl ⟨⟨_, rfl⟩, by simp [OneClass], by simp⟩
    | cons o os =>
      by_cases h1 : OneClass (o :: os)
      · have h1' := (oneClass_iff o os).mp h1
        by_cases h2 : ∀ x ∈ o :: os, Mirrors x
        · obtain ⟨ws, hws⟩ := (mapM_asWall_iff _).mpr h2
          refine .inl ⟨⟨imagePathCore tx ws ((o :: os).map Obj.interact) rx, ?_⟩, h1, h2⟩
          unfold ImagePath.fromTxObjectsRx
          simp only [h1', if_true, hws]
        · have hn : (o :: os).mapM Obj.asWall = none := by
            rcases h : (o :: os).mapM Obj.asWall with _ | ws
            · rfl
            · exact absurd ((mapM_asWall_iff _).mp ⟨ws, h⟩) h2
          refine .inr (.inr ⟨?_, h1, h2⟩)
          unfold ImagePath.fromTxObjectsRx
          simp only [h1', if_true, hn]
      · have h1' : ¬os.all (fun o' => o'.cls == o.cls) = true := fun h => h1 ((oneClass_iff o os).mpr h)
        refine .inr (.inl ⟨?_, h1⟩)
        unfold ImagePath.fromTxObjectsRx
        simp only [if_neg h1']
  have hsame : ((∀ o ∈ objects, ∃ w, o = .wall w) ∨ ∀ o ∈ objects, ∃ r, o = .ris r) ↔ OneClass objects ∧ ∀ o ∈ objects, Mirrors o := by
    constructor
    · rintro (h | h)
      · refine ⟨fun a ha b hb => .inl ?_, fun o ho => .inl (h o ho)⟩
        obtain ⟨w, rfl⟩ := h a ha
        obtain ⟨w', rfl⟩ := h b hb
        exact ⟨w, w', rfl, rfl⟩
      · refine ⟨fun a ha b hb => .inr (.inl ?_), fun o ho => .inr (h o ho)⟩
        obtain ⟨w, rfl⟩ := h a ha
        obtain ⟨w', rfl⟩ := h b hb
        exact ⟨w, w', rfl, rfl⟩
    · rintro ⟨h1, h2⟩
      cases objects with
      | nil => simp
      | cons o os =>
        rcases h2 o (by simp) with ⟨w, rfl⟩ | ⟨r, rfl⟩
        · refine .inl fun x hx => ?_
          rcases h1 _ (List.mem_cons_self) x hx with ⟨_, w', _, h⟩ | ⟨_, _, h, _⟩ | ⟨_, _, h, _⟩ | ⟨_, _, _, _, _, h, _⟩
          · exact ⟨w', h⟩
          all_goals cases h
        · refine .inr fun x hx => ?_
          rcases h1 _ (List.mem_cons_self) x hx with ⟨_, _, h, _⟩ | ⟨_, w', _, h⟩ | ⟨_, _, h, _⟩ | ⟨_, _, _, _, _, h, _⟩
          · cases h
          · exact ⟨w', h⟩
          all_goals cases h
  have hex : (∃ o ∈ objects, ¬Mirrors o) ↔ ¬∀ o ∈ objects, Mirrors o := by push Not; rfl
  rw [hsame, hex]
  rcases key with ⟨⟨p, hp⟩, h1, h2⟩ | ⟨hp, h1⟩ | ⟨hp, h1, h2⟩
  · refine ⟨⟨fun _ => ⟨h1, h2⟩, fun _ => ⟨p, hp⟩⟩, ?_, ?_, ?_⟩ <;> simp [hp, h1] <;> simpa using h2
  · refine ⟨?_, ?_, ?_, ?_⟩ <;> simp [hp, h1]
  · refine ⟨?_, ?_, ?_, ?_⟩ <;> simp [hp, h1] <;> simpa using h2

/-- Non-vacuity of C28: a wall and a RIS together are refused, and so is a vertex. -/
example (tx rx : V2 F) (w : Wall) (r : RIS) (v : Vertex) : ImagePath.fromTxObjectsRx tx [.wall w, .ris r] rx = .error .valueError ∧
    ImagePath.fromTxObjectsRx tx [.vertex v] rx = .error .attributeError ∧ ∃ p, ImagePath.fromTxObjectsRx tx [.ris r, .ris r] rx = .ok p := by
  refine ⟨(C28_image_errors tx rx _).2.1.mpr fun h => ?_, (C28_image_errors tx rx _).2.2.1.mpr ⟨?_, .vertex v, by simp, by simp [Mirrors]⟩,
    (C28_image_errors tx rx _).1.mpr (.inr (by simp))⟩
  · rcases h (.wall w) (by simp) (.ris r) (by simp) with ⟨_, _, _, h⟩ | ⟨_, _, h, _⟩ | ⟨_, _, h, _⟩ | ⟨_, _, _, _, _, h, _⟩ <;> cases h
  · simp [OneClass]

end DiffeRT2d.Props
