import Verif.Lemmas.Accumulate
import Verif.Props.Validity
import Verif.Props.Wall

/-! # Properties C47, C58–C62: accumulation over the paths of a scene -/

namespace DiffeRT2d.Props
open Spec
open Classical

/-! ## C58 — sums over paths -/

theorem accumulateResults_eq {Key : Type} (s : Scene) (tx rx : PyDict (V2 F))
    (ht : Distinct tx) (hr : Distinct rx) (h1 : s.transmitters = .fromMapping tx)
    (h2 : s.receivers = .fromMapping rx) (cs : List (List ℤ)) (hc : ∀ c ∈ cs, IsCandidate s.objects.length c)
    (hne : cs ≠ []) (m : Scene.PathMethod Key) (v : Scene.ValidOpts) (f : Scene.PathFun)
    (ts : List Scene.Traced) (h : List.Forall₂ (SomeTurn s m v) ((tx ×ˢ rx) ×ˢ cs) ts) :
    s.accumulateResults f ts = .ok ((tx ×ˢ rx).map fun p : NamedPair =>
      (p.1.1, p.2.1, F.sum ((ofPair ts p).map (weighted s f p.1.2 p.2.2)))) := by
  obtain ⟨-, hb, hg⟩ := blocks_eq s m v ht hr cs ts h
  unfold Scene.accumulateResults
  have hin : ∀ p ∈ tx ×ˢ rx, ∀ x ∈ ofPair ts p, s.getInteractingObjects x.candidate = .ok (objectsAt s x.candidate) := by
    intro p hp x hx
    obtain ⟨c, hcm, k, _, _, e, _⟩ := forall₂_mem (hb p hp) hx
    rw [e]
    exact interacting_eq s c (hc c hcm)
  rw [hg hne]
  rw [mapM_iff, List.forall₂_map_left_iff, List.forall₂_map_right_iff, List.forall₂_same]
  intro p hp
  obtain ⟨⟨tn, tp⟩, ⟨rn, rp⟩⟩ := p
  have hp' := List.mem_product.mp hp
  simp only [h1, h2, getItem_mem ht hp'.1, getItem_mem hr hp'.2, bind, Except.bind,
    accumulateGroup_ok s f tp rp 0 _ (fun x => objectsAt s x.candidate) (hin _ hp)]
  show Except.ok _ = Except.ok _
  congr 1
  simp only [Prod.mk.injEq, true_and]
  exact sum_eq_foldl (weighted s f tp rp) _

/-- **C58.** With at least one candidate, `accumulate_over_paths` gives one entry for each pair, in order, whose value
is the sum, over the tuples of `all_paths` for that pair, of the validity times the value of the
function; it fails only if `all_paths` does. -/
theorem C58_entries {Key : Type} (G : GraphLib) (hG : GraphContract G) (s : Scene) (tx rx : PyDict (V2 F))
    (ht : Distinct tx) (hr : Distinct rx) (h1 : s.transmitters = .fromMapping tx)
    (h2 : s.receivers = .fromMapping rx) (o : Scene.Orders) (ho : NonNegative o) (cs : List (List ℤ))
    (hcs : s.allPathCandidates G o = .ok cs) (hne : cs ≠ []) (split : Key → ℕ → List Key) (key : Option Key)
    (m : Scene.PathMethod Key) (v : Scene.ValidOpts) (f : Scene.PathFun) :
    s.accumulateOverPaths G split m o v key f = (s.allPaths G split m o v key).map fun ts =>
      (tx ×ˢ rx).map fun p => (p.1.1, p.2.1,
        F.sum ((ts.filter fun x => (x.tx, x.rx) = (p.1.1, p.2.1)).map (weighted s f p.1.2 p.2.2))) := by
  obtain ⟨cs', hcs', hc⟩ := orders_candidates G hG s o ho
  rw [hcs] at hcs'; cases hcs'
  unfold Scene.accumulateOverPaths
  cases hts : s.allPaths G split m o v key with
  | error e => rfl
  | ok ts =>
    rw [allPaths_eq G s tx rx ht hr h1 h2 o cs hcs] at hts
    exact accumulateResults_eq s tx rx ht hr h1 h2 cs hc hne m v f ts (tracePaths_some s m v split key _ ts hts)

/-- **C58.** The tuples summed in an entry are exactly the tuples of the pair, one for each candidate in order. -/
theorem C58_terms {Key : Type} (G : GraphLib) (s : Scene) (tx rx : PyDict (V2 F))
    (ht : Distinct tx) (hr : Distinct rx) (h1 : s.transmitters = .fromMapping tx)
    (h2 : s.receivers = .fromMapping rx) (o : Scene.Orders) (cs : List (List ℤ))
    (hcs : s.allPathCandidates G o = .ok cs) (split : Key → ℕ → List Key) (key : Option Key)
    (m : Scene.PathMethod Key) (v : Scene.ValidOpts) (ts : List Scene.Traced)
    (hts : s.allPaths G split m o v key = .ok ts) (p : (String × V2 F) × (String × V2 F)) (hp : p ∈ tx ×ˢ rx) :
    (ts.filter fun x => (x.tx, x.rx) = (p.1.1, p.2.1)).map (·.candidate) = cs := by
  rw [allPaths_eq G s tx rx ht hr h1 h2 o cs hcs] at hts
  obtain ⟨-, hb, -⟩ := blocks_eq s m v ht hr cs ts (tracePaths_some s m v split key _ ts hts)
  have := hb p hp
  have h3 : List.Forall₂ (fun c (x : Scene.Traced) => x.candidate = c) cs (ofPair ts p) :=
    this.imp fun c x ⟨k, _, _, e, _⟩ => e
  show (ofPair ts p).map (·.candidate) = cs
  generalize ofPair ts p = l at h3
  clear hcs hb this hts
  induction h3 with
  | nil => rfl
  | cons e _ ih => rw [List.map_cons, e, ih]

/-- **C58.** `reduce_all=True` returns the sum of the entries. -/
theorem C58_reduce {Key : Type} (G : GraphLib) (s : Scene) (o : Scene.Orders) (split : Key → ℕ → List Key)
    (key : Option Key) (m : Scene.PathMethod Key) (v : Scene.ValidOpts) (f : Scene.PathFun) :
    s.accumulateOverPathsAll G split m o v key f =
      (s.accumulateOverPaths G split m o v key f).map fun es => F.sum (es.map fun e => e.2.2) := by
  unfold Scene.accumulateOverPathsAll
  cases s.accumulateOverPaths G split m o v key f with
  | error e => rfl
  | ok es =>
    show Except.ok _ = Except.ok _
    congr 1
    exact sum_eq_foldl (fun e : String × String × F => e.2.2) es

/-! ## C59 — orders without candidates -/

/-- **C59.** Without candidates, `accumulate_over_paths` gives no entry at all. -/
theorem C59_no_candidates {Key : Type} (G : GraphLib) (s : Scene) (hs : IsScene s) (o : Scene.Orders)
    (hcs : s.allPathCandidates G o = .ok []) (split : Key → ℕ → List Key) (key : Option Key)
    (m : Scene.PathMethod Key) (v : Scene.ValidOpts) (f : Scene.PathFun) :
    s.accumulateOverPaths G split m o v key f = .ok [] := by
  obtain ⟨⟨tx, ht, h1⟩, ⟨rx, hr, h2⟩⟩ := hs
  unfold Scene.accumulateOverPaths
  rw [allPaths_eq G s tx rx ht hr h1 h2 o [] hcs, List.product_nil]
  rfl

/-- Non-vacuity: there is no path of one bounce in a scene without objects. -/
example (f : Scene.PathFun) := C59_no_candidates (Key := ℕ) refLib (Scene.make [("tx", ⟨0, 0⟩)] [("rx", ⟨1, 0⟩)] [])
  ⟨⟨_, by simp [Distinct], rfl⟩, ⟨_, by simp [Distinct], rfl⟩⟩ { minOrder := 1, maxOrder := 1 }
  (by
    obtain ⟨cs, e, _, hm, _⟩ := C53_sound_complete refLib refLib_contract
      (Scene.make [("tx", ⟨0, 0⟩)] [("rx", ⟨1, 0⟩)] []) 1 1 (by norm_num)
    rw [e]
    congr 1
    rw [List.eq_nil_iff_forall_not_mem]
    intro c hc
    obtain ⟨h1, h2, h3⟩ := (hm c).mp hc
    cases c with
    | nil => simp at h2
    | cons i c =>
      have := h1.1 i (by simp)
      simp [Scene.make] at this
      omega)
  (fun _ _ => []) none (imageMethod ℕ) ⟨⟨false, 0⟩, 0, 0, none, { }⟩ f

/-- **C59.** An entry for each pair is given if and only if there is no pair or there is some candidate (when
the paths can be traced). -/
theorem C59_partial {Key : Type} (G : GraphLib) (hG : GraphContract G) (s : Scene) (tx rx : PyDict (V2 F))
    (ht : Distinct tx) (hr : Distinct rx) (h1 : s.transmitters = .fromMapping tx)
    (h2 : s.receivers = .fromMapping rx) (o : Scene.Orders) (ho : NonNegative o) (cs : List (List ℤ))
    (hcs : s.allPathCandidates G o = .ok cs) (split : Key → ℕ → List Key) (key : Option Key)
    (m : Scene.PathMethod Key) (v : Scene.ValidOpts) (f : Scene.PathFun) (es : List (String × String × F))
    (h : s.accumulateOverPaths G split m o v key f = .ok es) :
    es.map (fun e => (e.1, e.2.1)) = (tx ×ˢ rx).map (fun p => (p.1.1, p.2.1)) ↔ tx = [] ∨ rx = [] ∨ cs ≠ [] := by
  by_cases hne : cs = []
  · subst hne
    rw [C59_no_candidates G s ⟨⟨tx, ht, h1⟩, ⟨rx, hr, h2⟩⟩ o hcs] at h
    cases h
    constructor
    · intro e
      have hl := congrArg List.length e
      simp only [List.length_map, List.length_nil, List.length_product] at hl
      rcases Nat.mul_eq_zero.mp hl.symm with e | e
      · exact Or.inl (List.length_eq_zero_iff.mp e)
      · exact Or.inr (Or.inl (List.length_eq_zero_iff.mp e))
    · rintro (rfl | rfl | h)
      · rfl
      · simp
      · exact absurd rfl h
  · refine iff_of_true ?_ (Or.inr (Or.inr hne))
    rw [C58_entries G hG s tx rx ht hr h1 h2 o ho cs hcs hne] at h
    cases hts : s.allPaths G split m o v key with
    | error e => rw [hts] at h; cases h
    | ok ts =>
      rw [hts] at h
      cases h
      simp [Function.comp_def]

/-- **C59 is false of the code.** One transmitter, one receiver, no object, `order=1`: no entry. -/
theorem C59_refuted : ∃ (G : GraphLib) (s : Scene) (o : Scene.Orders) (m : Scene.PathMethod ℕ) (v : Scene.ValidOpts),
    GraphContract G ∧ IsScene s ∧ NonNegative o ∧ s.transmitters.len = 1 ∧ s.receivers.len = 1 ∧
    ∀ f, s.accumulateOverPaths G (fun _ _ => []) m o v none f = .ok [] := by
  have hs : IsScene (Scene.make [("tx", ⟨0, 0⟩)] [("rx", ⟨1, 0⟩)] []) :=
    ⟨⟨_, by simp [Distinct], rfl⟩, ⟨_, by simp [Distinct], rfl⟩⟩
  obtain ⟨cs, e, _, hm, _⟩ := C53_sound_complete refLib refLib_contract
    (Scene.make [("tx", ⟨0, 0⟩)] [("rx", ⟨1, 0⟩)] []) 1 1 (by norm_num)
  have hnil : cs = [] := by
    rw [List.eq_nil_iff_forall_not_mem]
    intro c hc
    obtain ⟨h1, h2, h3⟩ := (hm c).mp hc
    cases c with
    | nil => simp at h2
    | cons i c =>
      have := h1.1 i (by simp)
      simp [Scene.make] at this
      omega
  subst hnil
  refine ⟨refLib, _, { minOrder := 0, maxOrder := 1, order := some 1 }, imageMethod ℕ, ⟨⟨false, 0⟩, 0, 0, none, { }⟩, refLib_contract, hs, by simp [NonNegative], rfl, rfl, ?_⟩
  intro f
  apply C59_no_candidates _ _ hs
  rw [C53_order]
  exact e


/-! ## C61 — invalid paths -/

/-- A finite term with zero validity does not change a sum. -/
theorem sum_filter (w : Scene.Traced → F) (ts : List Scene.Traced)
    (h : ∀ x ∈ ts, x.valid.toF = F.fin 0 → w x = F.fin 0) :
    F.sum (ts.map w) = F.sum ((ts.filter fun x => ¬ x.valid.toF = F.fin 0).map w) := by
  induction ts with
  | nil => rfl
  | cons x ts ih =>
    have ih := ih (fun y hy => h y (by simp [hy]))
    rw [List.map_cons, F.sum_cons, List.filter_cons]
    by_cases hx : x.valid.toF = F.fin 0
    · rw [if_neg (by simp [hx]), h x (by simp) hx, F.zero_add', ih]
    · rw [if_pos (by simp [hx]), List.map_cons, F.sum_cons, ih]

/-- **C61.** If the function is finite on the paths whose validity is false (or zero), then the accumulated values are
the sums over the other paths only. -/
theorem C61_partial {Key : Type} (G : GraphLib) (hG : GraphContract G) (s : Scene) (tx rx : PyDict (V2 F))
    (ht : Distinct tx) (hr : Distinct rx) (h1 : s.transmitters = .fromMapping tx)
    (h2 : s.receivers = .fromMapping rx) (o : Scene.Orders) (ho : NonNegative o) (cs : List (List ℤ))
    (hcs : s.allPathCandidates G o = .ok cs) (hne : cs ≠ []) (split : Key → ℕ → List Key) (key : Option Key)
    (m : Scene.PathMethod Key) (v : Scene.ValidOpts) (f : Scene.PathFun) (ts : List Scene.Traced)
    (hts : s.allPaths G split m o v key = .ok ts)
    (hf : ∀ x ∈ ts, x.valid.toF = F.fin 0 → ∀ p ∈ tx ×ˢ rx, ∃ q : ℝ,
      f p.1.2 p.2.2 x.path (objectsAt s x.candidate) = F.fin q) :
    s.accumulateOverPaths G split m o v key f = .ok ((tx ×ˢ rx).map fun p => (p.1.1, p.2.1,
      F.sum (((ts.filter fun x => ¬ x.valid.toF = F.fin 0).filter fun x => (x.tx, x.rx) = (p.1.1, p.2.1)).map
        (weighted s f p.1.2 p.2.2)))) := by
  rw [C58_entries G hG s tx rx ht hr h1 h2 o ho cs hcs hne, hts]
  show Except.ok _ = Except.ok _
  congr 1
  apply List.map_congr_left
  intro p hp
  simp only [Prod.mk.injEq, true_and]
  rw [sum_filter, List.filter_filter, List.filter_filter]
  · simp only [Bool.and_comm]
  · intro x hx hz
    obtain ⟨q, hq⟩ := hf x (List.mem_filter.mp hx).1 hz p hp
    rw [weighted, hz, hq]
    simp

/-- Two functions that agree on the other paths and are finite on those paths give the same result. -/
theorem C61_congr {Key : Type} (G : GraphLib) (hG : GraphContract G) (s : Scene) (tx rx : PyDict (V2 F))
    (ht : Distinct tx) (hr : Distinct rx) (h1 : s.transmitters = .fromMapping tx)
    (h2 : s.receivers = .fromMapping rx) (o : Scene.Orders) (ho : NonNegative o) (cs : List (List ℤ))
    (hcs : s.allPathCandidates G o = .ok cs) (hne : cs ≠ []) (split : Key → ℕ → List Key) (key : Option Key)
    (m : Scene.PathMethod Key) (v : Scene.ValidOpts) (f g : Scene.PathFun) (ts : List Scene.Traced)
    (hts : s.allPaths G split m o v key = .ok ts)
    (hfg : ∀ x ∈ ts, ∀ p ∈ tx ×ˢ rx, (x.valid.toF ≠ F.fin 0 →
        f p.1.2 p.2.2 x.path (objectsAt s x.candidate) = g p.1.2 p.2.2 x.path (objectsAt s x.candidate)) ∧
      (x.valid.toF = F.fin 0 → ∃ a b : ℝ, f p.1.2 p.2.2 x.path (objectsAt s x.candidate) = F.fin a ∧
        g p.1.2 p.2.2 x.path (objectsAt s x.candidate) = F.fin b)) :
    s.accumulateOverPaths G split m o v key f = s.accumulateOverPaths G split m o v key g := by
  rw [C61_partial G hG s tx rx ht hr h1 h2 o ho cs hcs hne split key m v f ts hts
      (fun x hx h p hp => by obtain ⟨a, b, h, _⟩ := (hfg x hx p hp).2 h; exact ⟨a, h⟩),
    C61_partial G hG s tx rx ht hr h1 h2 o ho cs hcs hne split key m v g ts hts
      (fun x hx h p hp => by obtain ⟨a, b, _, h⟩ := (hfg x hx p hp).2 h; exact ⟨b, h⟩)]
  congr 1
  apply List.map_congr_left
  intro p hp
  simp only [Prod.mk.injEq, true_and]
  congr 1
  apply List.map_congr_left
  intro x hx
  have hx1 := List.mem_filter.mp (List.mem_filter.mp hx).1
  rw [weighted, weighted, (hfg x hx1.1 p hp).1 (by simpa using hx1.2)]

/-- A transmitter and a receiver on both sides of a wall. -/
noncomputable def blockedScene : Scene := sceneOf [("tx", ⟨0, 0⟩)] [("rx", ⟨2, 0⟩)] [.wall ⟨1, -1⟩ ⟨1, 1⟩]

/-- Hard mode with default options. -/
noncomputable def hardOpts : Scene.ValidOpts := { E := ⟨false, 0⟩, approx := some false, kw := {} }

/-- The only candidate of order 0 is the direct path. -/
theorem candidates_zero (G : GraphLib) (hG : GraphContract G) (s : Scene) :
    s.allPathCandidates G { minOrder := 0, maxOrder := 0 } = .ok [[]] := by
  obtain ⟨cs, e, hnd, hm, _⟩ := C53_sound_complete G hG s 0 0 le_rfl
  rw [e]
  congr 1
  have hall : ∀ c ∈ cs, c = [] := by
    intro c hc
    have := ((hm c).mp hc).2.2
    exact List.length_eq_zero_iff.mp (by omega)
  have hmem : [] ∈ cs := (hm []).mpr ⟨⟨by simp, by simp⟩, by simp, by simp⟩
  match cs, hnd, hall, hmem with
  | [c], _, hall, _ => rw [hall c (by simp)]
  | c :: c' :: cs, hnd, hall, _ =>
    have h1 := hall c (by simp)
    have h2 := hall c' (by simp)
    subst h1 h2
    simp at hnd

/-- In the blocked scene, the direct path is found and is not valid. -/
theorem blocked_paths (G : GraphLib) (hG : GraphContract G) (Key : Type) (split : Key → ℕ → List Key) (key : Option Key) :
    blockedScene.allPaths G split (imageMethod Key) { minOrder := 0, maxOrder := 0 } hardOpts key =
      .ok [⟨"tx", "rx", .b false, ⟨[V2.fin ⟨0, 0⟩, V2.fin ⟨2, 0⟩], 0⟩, []⟩] := by
  have hc := candidates_zero G hG blockedScene
  rw [allPaths_eq G blockedScene _ _ (by simp [Distinct, finPoints]) (by simp [Distinct, finPoints]) rfl rfl _ _ hc,
    tracePaths_ok]
  refine ⟨rfl, ?_⟩
  intro n e x hn hx
  match n with
  | 0 =>
    cases hn
    cases hx
    refine ⟨rfl, rfl, rfl, [], interacting_eq _ _ ⟨by simp, by simp⟩, rfl, ?_⟩
    rw [validity_eq]
    obtain ⟨b, hb, hiff⟩ := C38_hard ⟨[V2.fin ⟨0, 0⟩, V2.fin ⟨2, 0⟩], 0⟩ hardOpts.E hardOpts.approx (.inl rfl)
      hardOpts.kw (blockedScene.objects.map Obj.interact) [] [] hardOpts.tol hardOpts.patch rfl rfl
    rw [show List.map Obj.interact ([] : List Obj) = [] from rfl, hb]
    cases b with
    | false => rfl
    | true =>
      exfalso
      refine (hiff.mp rfl).2.1 ⟨0, 0, (Obj.wall (Wall.ofPts ⟨1, -1⟩ ⟨1, 1⟩)).interact, V2.fin ⟨0, 0⟩, V2.fin ⟨2, 0⟩, rfl, rfl, rfl, ?_, ?_⟩
      · rintro (h | ⟨k, h, _⟩) <;> simp at h
      · have hp : hardOpts.patch = F.fin 0 := by
          show (0.0 : F) = _
          simp only [OfScientific.ofScientific]; norm_num; exact Rat.cast_zero
        have := (C20_zero hardOpts.E hardOpts.approx (.inl rfl) hardOpts.kw ⟨1, -1⟩ ⟨1, 1⟩ ⟨0, 0⟩ ⟨2, 0⟩).mpr
          ⟨by norm_num [Parallel], 1 / 2, 1 / 2, by ext <;> norm_num [pointAt], by norm_num, by norm_num⟩
        rw [hp]
        show Holds ((Wall.ofPts ⟨1, -1⟩ ⟨1, 1⟩).intersects hardOpts.E hardOpts.approx hardOpts.kw (F.fin 0) _ _)
        rw [this]
        rfl
  | n + 1 => simp [finPoints] at hn

/-- **C61 is false of the code.** In a scene whose only path is not valid, a function that is infinite there gives
NaN instead of 0. -/
theorem C61_refuted (G : GraphLib) (hG : GraphContract G) :
    (∀ ts, blockedScene.allPaths G (fun _ : ℕ => fun _ => []) (imageMethod ℕ) { minOrder := 0, maxOrder := 0 } hardOpts none = .ok ts →
      ∀ x ∈ ts, x.valid = .b false) ∧
    blockedScene.accumulateOverPaths G (fun _ : ℕ => fun _ => []) (imageMethod ℕ) { minOrder := 0, maxOrder := 0 } hardOpts none
      (fun _ _ _ _ => F.pinf) = .ok [("tx", "rx", F.nan)] := by
  constructor
  · intro ts hts x hx
    rw [blocked_paths G hG] at hts
    cases hts
    simp only [List.mem_singleton] at hx
    subst hx
    rfl
  · rw [C58_entries G hG blockedScene (finPoints [("tx", ⟨0, 0⟩)]) (finPoints [("rx", ⟨2, 0⟩)]) (by simp [Distinct, finPoints])
      (by simp [Distinct, finPoints]) rfl rfl _ (by simp [NonNegative]) [[]] (candidates_zero G hG _) (by simp), blocked_paths G hG]
    show Except.ok _ = Except.ok _
    congr 1
    have hm : F.fin 0 * F.pinf = F.nan := by
      show (F.mul (F.fin 0) F.pinf) = F.nan
      simp [F.mul]
    simp [finPoints, weighted, Truthy.toF, F.sum_cons, F.sum_nil, hm]

/-- Non-vacuity of `C58_terms` and `C61_congr`: the blocked scene, whose only path is not valid. -/
example (G : GraphLib) (hG : GraphContract G) :=
  C58_terms (Key := ℕ) G blockedScene (finPoints [("tx", ⟨0, 0⟩)]) (finPoints [("rx", ⟨2, 0⟩)]) (by simp [Distinct, finPoints])
    (by simp [Distinct, finPoints]) rfl rfl _ [[]] (candidates_zero G hG _) (fun _ _ => []) none _ _ _ (blocked_paths G hG ℕ _ _)
    (("tx", V2.fin ⟨0, 0⟩), ("rx", V2.fin ⟨2, 0⟩)) (by simp [finPoints])

example (G : GraphLib) (hG : GraphContract G) :=
  C61_congr (Key := ℕ) G hG blockedScene (finPoints [("tx", ⟨0, 0⟩)]) (finPoints [("rx", ⟨2, 0⟩)]) (by simp [Distinct, finPoints])
    (by simp [Distinct, finPoints]) rfl rfl _ (by simp [NonNegative]) [[]] (candidates_zero G hG _) (by simp) (fun _ _ => []) none _ _
    (fun _ _ _ _ => F.fin 7) (fun _ _ _ _ => F.fin 8) _ (blocked_paths G hG ℕ _ _)
    (by
      intro x hx p _
      simp only [List.mem_singleton] at hx
      subst hx
      exact ⟨fun h => absurd (by simp [Truthy.toF]) h, fun _ => ⟨7, 8, rfl, rfl⟩⟩)

/-- Non-vacuity of `C59_partial`: the blocked scene has an entry for its pair. -/
example (G : GraphLib) (hG : GraphContract G) : ∃ es,
    blockedScene.accumulateOverPaths G (fun _ : ℕ => fun _ => []) (imageMethod ℕ) { minOrder := 0, maxOrder := 0 } hardOpts none
      (fun _ _ _ _ => F.pinf) = .ok es ∧ es.map (fun e => (e.1, e.2.1)) = [("tx", "rx")] :=
  ⟨_, (C61_refuted G hG).2, (C59_partial G hG blockedScene (finPoints [("tx", ⟨0, 0⟩)]) (finPoints [("rx", ⟨2, 0⟩)])
    (by simp [Distinct, finPoints]) (by simp [Distinct, finPoints]) rfl rfl _ (by simp [NonNegative]) [[]] (candidates_zero G hG _)
    _ _ _ _ _ _ (C61_refuted G hG).2).2 (.inr (.inr (by simp)))⟩

/-- Non-vacuity: the reference graph library meets the contract. -/
example := C61_refuted refLib refLib_contract

/-- Non-vacuity of `C58_entries` and `C61_partial`: the blocked scene with a finite function. -/
example (G : GraphLib) (hG : GraphContract G) :
    blockedScene.accumulateOverPaths G (fun _ : ℕ => fun _ => []) (imageMethod ℕ) { minOrder := 0, maxOrder := 0 } hardOpts none
      (fun _ _ _ _ => F.fin 7) = .ok [("tx", "rx", F.fin 0)] := by
  rw [C61_partial G hG blockedScene (finPoints [("tx", ⟨0, 0⟩)]) (finPoints [("rx", ⟨2, 0⟩)]) (by simp [Distinct, finPoints])
      (by simp [Distinct, finPoints]) rfl rfl _ (by simp [NonNegative]) [[]] (candidates_zero G hG _) (by simp) _ _ _ _ _ _
      (blocked_paths G hG ℕ _ _) (fun x _ _ p _ => ⟨7, rfl⟩)]
  congr 1
  simp [finPoints, Truthy.toF, F.sum_nil]

end DiffeRT2d.Props
