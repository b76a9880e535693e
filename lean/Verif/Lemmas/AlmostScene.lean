import Verif.Lemmas.AlmostProgram

/-! Traversals of families of scenes. -/

namespace DiffeRT2d
open Classical Spec MeasureTheory Filter Topology

variable {X : Type}

namespace Spec.Outcome
variable {α β : Type} {P : (X → α) → Prop} {Q : (X → β) → Prop} {r : X → Except PyErr α}

theorem ok {a : X → α} (h : P a) : Outcome P fun x => .ok (a x) := .inr ⟨a, h, fun _ => rfl⟩

theorem error (e : PyErr) : Outcome P fun _ : X => .error e := .inl ⟨e, fun _ => rfl⟩

theorem congr {r' : X → Except PyErr α} (h : Outcome P r) (e : ∀ x, r' x = r x) : Outcome P r' := (funext e : r' = r) ▸ h

theorem bind {k : X → α → Except PyErr β} (h : Outcome P r) (hk : ∀ a, P a → Outcome Q fun x => k x (a x)) : Outcome Q fun x => Bind.bind (r x) (k x) := by
  rcases h with ⟨e, he⟩ | ⟨a, ha, e⟩
  · exact .inl ⟨e, fun x => by simp only [he]; rfl⟩
  · exact (hk a ha).congr fun x => by rw [e]; rfl

theorem mono {P' : (X → α) → Prop} (h : Outcome P r) (hP : ∀ a, P a → P' a) : Outcome P' r := by
  rcases h with h | ⟨a, ha, e⟩
  · exact .inl h
  · exact .inr ⟨a, hP a ha, e⟩

theorem map {φ : α → β} (h : Outcome P r) (hφ : ∀ a, P a → Q fun x => φ (a x)) : Outcome Q fun x => (r x).map φ := by
  rcases h with ⟨e, he⟩ | ⟨a, ha, e⟩
  · exact .inl ⟨e, fun x => by simp only [he]; rfl⟩
  · exact .inr ⟨_, hφ a ha, fun x => by simp only [e]; rfl⟩

theorem mapM (f : X → β → Except PyErr α) (bs : List β) (h : ∀ b ∈ bs, Outcome P fun x => f x b) : Outcome (AllOf P) fun x => bs.mapM (f x) := by
  induction bs with
  | nil => exact ok ⟨[], by simp, fun _ => rfl⟩
  | cons b bs ih =>
    refine congr (r := fun x => (f x b).bind fun a => (bs.mapM (f x)).bind fun as => .ok (a :: as)) ?_ fun x => by rw [List.mapM_cons]; rfl
    refine bind (h b (by simp)) fun a ha => bind (ih fun b hb => h b (by simp [hb])) fun as ⟨L, hL, e⟩ => ok ⟨a :: L, by simpa using ⟨ha, hL⟩, fun x => by simp [e x]⟩

theorem mapM_family {R : (X → β) → Prop} (f : X → β → Except PyErr α) {bs : X → List β} (hb : AllOf R bs) (h : ∀ b, R b → Outcome P fun x => f x (b x)) :
    Outcome (AllOf P) fun x => (bs x).mapM (f x) := by
  obtain ⟨L, hL, e⟩ := hb
  refine (mapM (fun x (b : X → β) => f x (b x)) L fun b hb => h b (hL b hb)).congr fun x => ?_
  rw [e x, List.mapM_map]
  rfl

end Spec.Outcome

theorem Spec.AllOf.map {α β : Type} {P : (X → α) → Prop} {Q : (X → β) → Prop} {l : X → List α} (φ : α → β) (h : AllOf P l) (hφ : ∀ a, P a → Q fun x => φ (a x)) : AllOf Q fun x => (l x).map φ := by
  obtain ⟨L, hL, e⟩ := h
  refine ⟨L.map fun a x => φ (a x), ?_, fun x => by simp [e x, Function.comp_def]⟩
  intro b hb
  obtain ⟨a, ha, rfl⟩ := List.mem_map.mp hb
  exact hφ a (hL a ha)

variable [NormedAddCommGroup X] [NormedSpace ℝ X] [FiniteDimensional ℝ X] [MeasurableSpace X] [BorelSpace X] {μ : Measure X} [μ.IsAddHaarMeasure]

/-! ## Objects of a scene -/

theorem cls_family (os : List (X → Obj)) (ho : ∀ o ∈ os, AnalyticObj μ o) : ∃ C : List ℕ, ∀ x, (os.map (· x)).map Obj.cls = C := by
  induction os with
  | nil => exact ⟨[], fun x => rfl⟩
  | cons o os ih =>
    obtain ⟨C, hC⟩ := ih fun o h => ho o (by simp [h])
    obtain ⟨c, hc⟩ := analyticObj_cls (ho o (by simp))
    exact ⟨c :: C, fun x => by rw [List.map_cons, List.map_cons, hc x, hC x]⟩

theorem getObject_family {s : X → Scene} {os : List (X → Obj)} (hs : ∀ x, (s x).objects = os.map (· x)) (ho : ∀ o ∈ os, AnalyticObj μ o) (i : ℤ) :
    Outcome (fun a => a ∈ os) fun x => (s x).getObject i := by
  unfold Scene.getObject
  simp only [hs]
  cases os with
  | nil => exact .error _
  | cons o os =>
    obtain ⟨c, hc⟩ := analyticObj_cls (ho o (by simp))
    obtain ⟨C, hC⟩ := cls_family os fun o h => ho o (by simp [h])
    have e : ∀ x, (os.map (· x)).all (fun o' => o'.cls == (o x).cls) = C.all (· == c) := by
      intro x
      rw [← hC x, hc x]; simp only [List.all_map, Function.comp_def]
    simp only [List.map_cons, e]
    by_cases h : C.all (· == c) = true
    · simp only [if_pos h, List.length_map]
      refine .inr ⟨(o :: os).getD (min i.toNat os.length) o, ?_, fun x => ?_⟩
      · rw [List.getD_eq_getElem?_getD]
        cases hk : (o :: os)[min i.toNat os.length]? with
        | none => simp
        | some a => exact List.mem_of_getElem? hk
      · show Except.ok (((o :: os).map (· x)).getD (min i.toNat os.length) (o x)) = _
        simp only [List.getD_eq_getElem?_getD, List.getElem?_map]
        cases (o :: os)[min i.toNat os.length]? <;> rfl
    · simp only [if_neg h]
      exact .error _

theorem pyIndex_family {α : Type} (os : List (X → α)) (i : ℤ) : Outcome (fun a => a ∈ os) fun x => Scene.pyIndex (os.map (· x)) i := by
  unfold Scene.pyIndex
  simp only [List.length_map]
  generalize (if i < 0 then i + (os.length : ℤ) else i) = j
  by_cases h : j < 0
  · simp only [if_pos h]
    exact .error _
  · simp only [if_neg h, List.getElem?_map]
    cases hk : os[j.toNat]? with
    | none => exact .error _
    | some a => exact .inr ⟨a, List.mem_of_getElem? hk, fun x => rfl⟩

theorem interacting_family {s : X → Scene} {os : List (X → Obj)} (hs : ∀ x, (s x).objects = os.map (· x)) (ho : ∀ o ∈ os, AnalyticObj μ o) (c : List ℤ) :
    Outcome (AllOf (AnalyticObj μ)) fun x => (s x).getInteractingObjects c := by
  unfold Scene.getInteractingObjects
  obtain ⟨C, hC⟩ := cls_family os ho
  have e : ∀ x, ((s x).objects.length < 2 ∨ (s x).objects.all (fun o => some o.cls == (s x).objects.head?.map Obj.cls) = true) ↔ (os.length < 2 ∨ C.all (fun c => some c == C.head?) = true) := by
    intro x
    rw [hs x, List.length_map, ← List.head?_map, hC x, ← hC x]
    simp only [List.all_map, Function.comp_def]
  simp only [e]
  by_cases h : os.length < 2 ∨ C.all (fun c => some c == C.head?) = true
  · simp only [if_pos h]
    exact Outcome.mapM (P := AnalyticObj μ) (fun x => (s x).getObject) c fun i _ => (getObject_family (s := s) (os := os) (μ := μ) hs ho i).mono (P := fun a => a ∈ os) (P' := AnalyticObj μ) ho
  · simp only [if_neg h, hs]
    let f : X → ℤ → Except PyErr Obj := fun x => Scene.pyIndex (os.map fun o => o x)
    have h1 : ∀ i ∈ c, Outcome (AnalyticObj μ) fun x => f x i := fun i _ => (pyIndex_family (α := Obj) os i).mono ho
    exact Outcome.mapM f c h1

theorem candidates_family {s : X → Scene} {os : List (X → Obj)} (hs : ∀ x, (s x).objects = os.map (· x)) (G : GraphLib) (o : Scene.Orders) (hf : FixedFilter o os) :
    Outcome (fun cs => ∃ c, ∀ x, cs x = c) fun x => (s x).allPathCandidates G o := by
  have key : ∀ x y, (s x).allPathCandidates G o = (s y).allPathCandidates G o := by
    intro x y
    unfold Scene.allPathCandidates
    simp only [hs, List.length_map]
    cases hk : o.filter with
    | none => rfl
    | some keep =>
      have : (((os.map (· x)).zipIdx.filter fun oi => !keep oi.1).map Prod.snd) = (((os.map (· y)).zipIdx.filter fun oi => !keep oi.1).map Prod.snd) := by
        have aux : ∀ (os : List (X → Obj)) (k : ℕ), (∀ b ∈ os, keep (b x) = keep (b y)) →
            ((((os.map (· x)).zipIdx k).filter fun oi => !keep oi.1).map Prod.snd) = ((((os.map (· y)).zipIdx k).filter fun oi => !keep oi.1).map Prod.snd) := by
          intro os
          induction os with
          | nil => intros; rfl
          | cons b os ih =>
            intro k h
            have h1 := ih (k + 1) fun b hb => h b (by simp [hb])
            have h2 := h b (by simp)
            simp only [List.map_cons, List.zipIdx_cons, List.filter_cons, h2]
            split <;> simp [h1]
        exact aux os 0 fun b hb => hf keep hk b hb x y
      simp only [this]
  by_cases hX : Nonempty X
  · obtain ⟨x0⟩ := hX
    cases h : (s x0).allPathCandidates G o with
    | error e => exact .inl ⟨e, fun x => by simp only [key x x0, h]⟩
    | ok cs => exact .inr ⟨fun _ => cs, ⟨cs, fun _ => rfl⟩, fun x => by simp only [key x x0, h]⟩
  · exact .inl ⟨.valueError, fun x => absurd ⟨x⟩ hX⟩

/-! ## Names -/

theorem getItem_family {V : Type} (d : PyDict (X → V)) (key : String) : Outcome (fun a => ∃ p ∈ d, p.2 = a) fun x => (PyTreeDict.fromMapping (d.map fun p => (p.1, p.2 x))).getItem key := by
  unfold PyTreeDict.getItem PyTreeDict.fromMapping
  simp only [List.map_map, Function.comp_def]
  cases (d.map fun p => p.1).idxOf? key with
  | none => exact .error _
  | some i =>
    simp only
    simp only [List.getElem?_map]
    cases hk : d[i]? with
    | none => exact .error _
    | some a => exact .inr ⟨a.2, ⟨a, List.mem_of_getElem? hk, rfl⟩, fun x => rfl⟩

end DiffeRT2d
