import Verif.Lemmas.Candidates

/-! # C53, C54: path candidates

`G` is any path enumerator that meets the documented contract of `differt_core` (`Spec/Graph.lean`); `refLib` is
one (`refLib_contract`). -/

namespace DiffeRT2d.Props
open Spec

/-- The indices of the objects that a predicate rejects, as computed by `Scene.all_path_candidates`. -/
theorem rejected_mem (keep : Obj → Bool) (objs : List Obj) (x : ℕ) :
    x ∈ (objs.zipIdx.filter fun oi => !keep oi.1).map Prod.snd ↔ ∃ o, objs[x]? = some o ∧ keep o = false := by
  simp only [List.mem_map, List.mem_filter, Prod.exists, List.mem_zipIdx_iff_getElem?]
  constructor
  · rintro ⟨o, i, ⟨h1, h2⟩, rfl⟩; exact ⟨o, h1, by simpa using h2⟩
  · rintro ⟨o, h1, h2⟩; exact ⟨o, x, ⟨h1, by simp [h2]⟩, rfl⟩

/-- **C53.** The candidates are exactly the sequences of object indices, without immediate repetition, whose
length is between `min_order` and `max_order`; each occurs once; shorter ones come first. -/
theorem C53_sound_complete (G : GraphLib) (hG : GraphContract G) (s : Scene) (lo hi : ℤ) (hlo : 0 ≤ lo) :
    ∃ cs, s.allPathCandidates G { minOrder := lo, maxOrder := hi } = .ok cs ∧
      cs.Nodup ∧
      (∀ c, c ∈ cs ↔ IsCandidate s.objects.length c ∧ lo ≤ c.length ∧ (c.length : ℤ) ≤ hi) ∧
      cs.Pairwise (fun a b => a.length ≤ b.length) := by
  have hl : ∀ k, ∀ p ∈ G.completePaths s.objects.length s.objects.length (s.objects.length + 1) (k + 2),
      p.length = k := fun k p hp => ((hG.complete_mem _ _ _).mp hp).1
  refine ⟨_, cands_eq _ lo hi hlo, candList_nodup _ _ _ (hG.complete_nodup _) hl, ?_,
    candList_sorted _ _ _ hl⟩
  intro c
  rw [candList_mem _ _ _ hlo, isCandidate_iff]
  constructor
  · rintro ⟨k, h1, h2, p, hp, rfl⟩
    obtain ⟨h3, h4, h5⟩ := (hG.complete_mem _ _ _).mp hp
    exact ⟨⟨p, h4, h5, rfl⟩, by simp [h3, h1], by simp [h3, h2]⟩
  · rintro ⟨⟨p, h4, h5, rfl⟩, h1, h2⟩
    simp only [List.length_map] at h1 h2
    exact ⟨p.length, h1, h2, p, (hG.complete_mem _ _ _).mpr ⟨rfl, h4, h5⟩, rfl⟩

/-- Non-vacuity: two walls and a vertex, the reference enumerator, orders 0 to 2. -/
example := C53_sound_complete refLib refLib_contract (.make [] [] [.wall ⟨⟨0, 0⟩, ⟨1, 0⟩⟩, .wall ⟨⟨0, 0⟩, ⟨0, 1⟩⟩, .vertex ⟨⟨1, 1⟩⟩]) 0 2 (by norm_num)

/-- **C53.** There is one candidate of order 0, and `n (n-1)^(k-1)` of order `k ≥ 1`. -/
theorem C53_count (G : GraphLib) (hG : GraphContract G) (s : Scene) (lo hi : ℤ) (hlo : 0 ≤ lo)
    (k : ℕ) (h1 : lo ≤ k) (h2 : (k : ℤ) ≤ hi) (cs : List (List ℤ))
    (h : s.allPathCandidates G { minOrder := lo, maxOrder := hi } = .ok cs) :
    (cs.filter (fun c => c.length = k)).length =
      if k = 0 then 1 else s.objects.length * (s.objects.length - 1) ^ (k - 1) := by
  have e : s.allPathCandidates G { minOrder := lo, maxOrder := hi } =
    .ok (candList (G.completePaths s.objects.length s.objects.length (s.objects.length + 1)) lo hi) :=
    cands_eq _ lo hi hlo
  rw [e] at h
  cases h
  rw [candList_count _ _ _ hlo (hG.complete_nodup _) (fun k p hp => ((hG.complete_mem _ _ _).mp hp).1) k h1 h2,
    contract_count hG]

/-- Non-vacuity: 3 · 2 = 6 candidates of order 2 among three objects. -/
example : ∃ cs, (Scene.make [] [] [.wall ⟨⟨0, 0⟩, ⟨1, 0⟩⟩, .wall ⟨⟨0, 0⟩, ⟨0, 1⟩⟩, .vertex ⟨⟨1, 1⟩⟩]).allPathCandidates refLib
    { minOrder := 0, maxOrder := 2 } = .ok cs ∧ (cs.filter (fun c => c.length = 2)).length = 6 :=
  ⟨_, rfl, C53_count refLib refLib_contract (.make [] [] [.wall ⟨⟨0, 0⟩, ⟨1, 0⟩⟩, .wall ⟨⟨0, 0⟩, ⟨0, 1⟩⟩, .vertex ⟨⟨1, 1⟩⟩]) 0 2 (by norm_num) 2
    (by norm_num) (by norm_num) _ rfl⟩

/-- **C53.** `order=k` is the same as `min_order=max_order=k`, whatever the values given for these, with or
without a filter. -/
theorem C53_order (G : GraphLib) (s : Scene) (lo hi k : ℤ) (f : Option (Obj → Bool)) :
    s.allPathCandidates G { minOrder := lo, maxOrder := hi, order := some k, filter := f } =
      s.allPathCandidates G { minOrder := k, maxOrder := k, filter := f } := rfl

/-- **C53.** Requesting an empty range of orders gives no candidate. -/
theorem C53_empty (G : GraphLib) (s : Scene) (lo hi : ℤ) (h : hi < lo) (f : Option (Obj → Bool)) :
    s.allPathCandidates G { minOrder := lo, maxOrder := hi, filter := f } = .ok [] := by
  have : pyRange lo (hi + 1) = [] := by
    unfold pyRange
    rw [show (hi + 1 - lo).toNat = 0 by omega]; rfl
  unfold Scene.allPathCandidates allPathCandidates
  simp only [Option.getD_none, this]
  rfl

/-- Non-vacuity: orders from 2 to 1. -/
example (s : Scene) := C53_empty refLib s 2 1 (by norm_num) none

/-- **C54.** With `filter_objects`, the candidates are exactly the unfiltered ones that only use objects
satisfying the predicate; each occurs once; shorter ones come first. -/
theorem C54_filter (G : GraphLib) (hG : GraphContract G) (s : Scene) (lo hi : ℤ) (hlo : 0 ≤ lo)
    (keep : Obj → Bool) :
    ∃ cs fs, s.allPathCandidates G { minOrder := lo, maxOrder := hi } = .ok cs ∧
      s.allPathCandidates G { minOrder := lo, maxOrder := hi, filter := some keep } = .ok fs ∧
      fs.Nodup ∧ fs.Pairwise (fun a b => a.length ≤ b.length) ∧
      ∀ c, c ∈ fs ↔ c ∈ cs ∧ ∀ i ∈ c, ∀ o, s.objects[i.toNat]? = some o → keep o = true := by
  obtain ⟨cs, e, _, hm, _⟩ := C53_sound_complete G hG s lo hi hlo
  set n := s.objects.length with hn
  set nodes := (s.objects.zipIdx.filter fun oi => !keep oi.1).map Prod.snd with hnodes
  have hlt : ∀ x ∈ nodes, x < n := by
    intro x hx
    obtain ⟨o, ho, _⟩ := (rejected_mem _ _ _).mp hx
    exact (List.getElem?_eq_some_iff.mp ho).1
  have e' : s.allPathCandidates G { minOrder := lo, maxOrder := hi, filter := some keep } =
      .ok (candList (G.digraphPaths (filteredGraph n nodes) n (n + 1)) lo hi) := by
    rw [← cands_eq _ lo hi hlo]
    unfold Scene.allPathCandidates allPathCandidates
    simp only [Option.getD_none, filteredGraph, DiGraph.insertFromAndToNodes, fromComplete_length]
    rfl
  have hl : ∀ k, ∀ p ∈ G.digraphPaths (filteredGraph n nodes) n (n + 1) (k + 2), p.length = k :=
    fun k p hp => ((filtered_mem hG _ _ _ hlt _).mp hp).1
  refine ⟨cs, _, e, e', candList_nodup _ _ _
    (fun k => hG.digraph_nodup _ _ _ _ (filteredGraph_nodup n nodes hlt) (filteredGraph_last n nodes hlt)) hl,
    candList_sorted _ _ _ hl, ?_⟩
  intro c
  rw [candList_mem _ _ _ hlo, hm, isCandidate_iff]
  constructor
  · rintro ⟨k, h1, h2, p, hp, rfl⟩
    obtain ⟨h3, h4, h5⟩ := (filtered_mem hG _ _ _ hlt _).mp hp
    refine ⟨⟨⟨p, fun x hx => (h4 x hx).1, h5, rfl⟩, by simp [h3, h1], by simp [h3, h2]⟩, ?_⟩
    intro i hi o ho
    obtain ⟨x, hx, rfl⟩ := List.mem_map.mp hi
    by_contra hk
    exact (h4 x hx).2 ((rejected_mem _ _ _).mpr ⟨o, by simpa using ho, by simpa using hk⟩)
  · rintro ⟨⟨⟨p, h4, h5, rfl⟩, h1, h2⟩, h6⟩
    simp only [List.length_map] at h1 h2
    refine ⟨p.length, h1, h2, p, (filtered_mem hG _ _ _ hlt _).mpr ⟨rfl, fun x hx => ⟨h4 x hx, ?_⟩, h5⟩, rfl⟩
    intro hx'
    obtain ⟨o, ho, hk⟩ := (rejected_mem _ _ _).mp hx'
    have := h6 (Int.ofNat x) (List.mem_map_of_mem hx) o (by simpa using ho)
    rw [this] at hk; cases hk

/-- Non-vacuity: only the walls of a mixed scene. -/
example := C54_filter refLib refLib_contract (.make [] [] [.wall ⟨⟨0, 0⟩, ⟨1, 0⟩⟩, .vertex ⟨⟨1, 1⟩⟩, .wall ⟨⟨0, 0⟩, ⟨0, 1⟩⟩]) 0 2 (by norm_num)
  (fun | .wall _ => true | _ => false)

/-- **C54.** A predicate that keeps all the objects of the scene does not change the candidates (up to the order
of those with equal length, which the library does not specify). -/
theorem C54_keep_all (G : GraphLib) (hG : GraphContract G) (s : Scene) (lo hi : ℤ) (hlo : 0 ≤ lo)
    (keep : Obj → Bool) (hk : ∀ o ∈ s.objects, keep o = true) :
    ∃ cs fs, s.allPathCandidates G { minOrder := lo, maxOrder := hi } = .ok cs ∧
      s.allPathCandidates G { minOrder := lo, maxOrder := hi, filter := some keep } = .ok fs ∧ fs.Perm cs := by
  obtain ⟨cs, fs, e1, e2, hn, _, hm⟩ := C54_filter G hG s lo hi hlo keep
  obtain ⟨cs', e1', hn', _⟩ := C53_sound_complete G hG s lo hi hlo
  rw [e1] at e1'
  cases e1'
  refine ⟨cs, fs, e1, e2, ?_⟩
  rw [List.perm_ext_iff_of_nodup hn hn']
  intro c
  rw [hm]
  constructor
  · exact fun h => h.1
  · exact fun h => ⟨h, fun i _ o ho => hk o (List.mem_of_getElem? ho)⟩

/-- Non-vacuity: a predicate that keeps walls, in a scene of walls. -/
example := C54_keep_all refLib refLib_contract (.make [] [] [.wall ⟨⟨0, 0⟩, ⟨1, 0⟩⟩, .wall ⟨⟨0, 0⟩, ⟨0, 1⟩⟩]) 0 2 (by norm_num)
  (fun | .wall _ => true | _ => false) (by
    intro o ho
    simp [Scene.make] at ho
    rcases ho with rfl | rfl <;> rfl)

/-- Hypotheses of C53/C54 are met: the reference enumerator on a scene of three vertices gives 3·2 = 6
candidates of order 2, and 2 when the middle vertex is filtered out. -/
example : GraphContract refLib := refLib_contract

example : allPathCandidates refLib 3 2 2 none none =
    .ok [[0, 1], [0, 2], [1, 0], [1, 2], [2, 0], [2, 1]] := rfl

example : allPathCandidates refLib 3 0 2 none (some [1]) = .ok [[], [0], [2], [0, 2], [2, 0]] := rfl

/-- A negative order is not an empty request: the library rejects it. -/
example : allPathCandidates refLib 3 (-3) 1 none none = .error .overflowError := rfl

end DiffeRT2d.Props
