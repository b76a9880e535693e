import Verif.Spec.Graph
import Mathlib.Data.List.Perm.Basic
import Mathlib.Data.List.Nodup
import Mathlib.Algebra.BigOperators.Group.List.Basic
import Mathlib.Tactic.Ring
import Mathlib.Tactic.Linarith

/-! # Lemmas on graphs and path candidates -/

namespace DiffeRT2d
open Spec

/-! ## The reference enumerator meets the contract -/

theorem walks_mem (edge : ℕ → List ℕ) (t : ℕ) (h : edge t = []) (k cur : ℕ) (p : List ℕ) :
    p ∈ walks edge t k cur ↔ p.length = k ∧ (cur :: p ++ [t]).IsChain (fun a b => b ∈ edge a) := by
  induction k generalizing cur p with
  | zero =>
    unfold walks
    split_ifs with hm
    · simp only [List.mem_singleton]
      constructor
      · rintro rfl; simp [hm]
      · rintro ⟨h1, _⟩; exact List.length_eq_zero_iff.mp h1
    · simp only [List.not_mem_nil, false_iff]
      rintro ⟨h1, h2⟩
      rw [List.length_eq_zero_iff.mp h1] at h2
      simp at h2; exact hm h2
  | succ k ih =>
    unfold walks
    simp only [List.mem_flatMap, List.mem_filter, List.mem_map, ih]
    constructor
    · rintro ⟨x, ⟨hx, _⟩, q, ⟨hq, hc⟩, rfl⟩
      refine ⟨by simp [hq], ?_⟩
      simp only [List.cons_append] at hc ⊢
      exact List.isChain_cons_cons.mpr ⟨hx, hc⟩
    · rintro ⟨h1, h2⟩
      match p, h1, h2 with
      | x :: q, h1, h2 =>
        simp only [List.cons_append] at h2 ⊢
        rw [List.isChain_cons_cons] at h2
        refine ⟨x, ⟨h2.1, ?_⟩, q, ⟨by simpa using h1, h2.2⟩, rfl⟩
        simp only [ne_eq, decide_not, Bool.not_eq_eq_eq_not, Bool.not_true, decide_eq_false_iff_not]
        rintro rfl
        match q, h2.2 with
        | [], h3 => simp [h] at h3
        | y :: q, h3 => simp [List.isChain_cons_cons, h] at h3

theorem walks_nodup (edge : ℕ → List ℕ) (t : ℕ) (h : ∀ i, (edge i).Nodup) (k cur : ℕ) :
    (walks edge t k cur).Nodup := by
  induction k generalizing cur with
  | zero => unfold walks; split_ifs <;> simp
  | succ k ih =>
    unfold walks
    rw [List.nodup_flatMap]
    refine ⟨fun x _ => (ih x).map (fun a b hab => by simpa using hab), ?_⟩
    refine List.Pairwise.imp ?_ ((h cur).filter _)
    intro a b hab p hp hq
    simp only [List.mem_map] at hp hq
    obtain ⟨q, _, rfl⟩ := hp
    obtain ⟨r, _, hr⟩ := hq
    simp at hr
    exact hab hr.1.symm

/-- Adjacency of the complete graph with ends. -/
theorem chain_complete (n cur : ℕ) (p : List ℕ) :
    (cur :: p ++ [n + 1]).IsChain (fun a b => b ∈ (if a = n + 1 then [] else (List.range n).filter (· ≠ a) ++ [n + 1]))
      ↔ cur ≠ n + 1 ∧ (∀ x ∈ p, x < n) ∧ (cur :: p).IsChain (· ≠ ·) := by
  induction p generalizing cur with
  | nil => simp only [List.cons_append, List.nil_append, List.isChain_cons_cons, List.isChain_singleton]; split_ifs <;> simp_all
  | cons y q ih =>
    simp only [List.cons_append, List.isChain_cons_cons] at ih ⊢
    rw [ih y]
    constructor
    · rintro ⟨h1, h2, h3, h4⟩
      have hc : cur ≠ n + 1 := by rintro rfl; simp at h1
      simp only [if_neg hc, List.mem_append, List.mem_filter, List.mem_range, List.mem_singleton, h2,
        or_false, decide_not, Bool.not_eq_eq_eq_not, Bool.not_true, decide_eq_false_iff_not, ne_eq] at h1
      refine ⟨hc, ?_, fun e => h1.2 e.symm, h4⟩
      intro x hx
      rcases List.mem_cons.mp hx with rfl | hx
      · exact h1.1
      · exact h3 x hx
    · rintro ⟨hc, h2, h3, h4⟩
      have hy := h2 y (by simp)
      refine ⟨?_, by omega, fun x hx => h2 x (by simp [hx]), h4⟩
      simp [if_neg hc, hy, Ne.symm h3]

theorem chain_head {n : ℕ} {p : List ℕ} (h : ∀ x ∈ p, x < n) :
    (n :: p).IsChain (· ≠ ·) ↔ p.IsChain (· ≠ ·) := by
  cases p with
  | nil => simp
  | cons y q =>
    rw [List.isChain_cons_cons]
    have := h y (by simp)
    constructor
    · exact fun h => h.2
    · exact fun h => ⟨by omega, h⟩

theorem walks_congr {e e' : ℕ → List ℕ} {t : ℕ} (h : ∀ i, i ≠ t → e i = e' i) (k cur : ℕ) (hc : cur ≠ t) :
    walks e t k cur = walks e' t k cur := by
  induction k generalizing cur with
  | zero => unfold walks; rw [h cur hc]
  | succ k ih =>
    unfold walks
    rw [h cur hc]
    apply List.flatMap_congr
    intro x hx
    have : x ≠ t := by simpa using (List.mem_filter.mp hx).2
    rw [ih x this]

/-- Successors in the complete graph with ends. -/
def cedge (n a : ℕ) : List ℕ := if a = n + 1 then [] else (List.range n).filter (· ≠ a) ++ [n + 1]

theorem cedge_nodup (n a : ℕ) : (cedge n a).Nodup := by
  unfold cedge
  split_ifs
  · simp
  · rw [List.nodup_append]
    refine ⟨List.nodup_range.filter _, by simp, ?_⟩
    intro x hx y hy
    simp at hx hy; omega

theorem completePathsRef_eq (n k : ℕ) :
    completePathsRef n n (n + 1) (k + 2) = walks (cedge n) (n + 1) k n := by
  unfold completePathsRef
  rw [if_neg (by omega), Nat.add_sub_cancel]
  apply walks_congr _ _ _ (by omega)
  intro i hi
  simp [cedge, hi]

theorem refLib_contract : GraphContract refLib where
  complete_nodup n k := by
    show (completePathsRef n n (n + 1) (k + 2)).Nodup
    rw [completePathsRef_eq]
    exact walks_nodup _ _ (cedge_nodup n) _ _
  complete_mem n k p := by
    show p ∈ completePathsRef n n (n + 1) (k + 2) ↔ _
    rw [completePathsRef_eq, walks_mem _ _ (by simp [cedge])]
    have := chain_complete n n p
    unfold cedge
    rw [this]
    constructor
    · rintro ⟨h1, _, h2, h3⟩; exact ⟨h1, h2, (chain_head h2).mp h3⟩
    · rintro ⟨h1, h2, h3⟩; exact ⟨h1, by omega, h2, (chain_head h2).mpr h3⟩
  digraph_nodup g s t k h _ := by
    show (digraphPathsRef g s t (k + 2)).Nodup
    unfold digraphPathsRef
    rw [if_neg (by omega)]
    apply walks_nodup
    intro i
    rw [List.getD_eq_getElem?_getD]
    cases hi : g[i]? with
    | none => simp
    | some ns => simpa using h ns (List.mem_of_getElem? hi)
  digraph_mem g s t k p _ ht := by
    show p ∈ digraphPathsRef g s t (k + 2) ↔ _
    unfold digraphPathsRef
    rw [if_neg (by omega), Nat.add_sub_cancel, walks_mem _ _ ht]

/-! ## Counting -/

theorem cedge_filter {n a : ℕ} (h : a ≠ n + 1) : (cedge n a).filter (· ≠ n + 1) = (List.range n).filter (· ≠ a) := by
  unfold cedge
  rw [if_neg h, List.filter_append]
  have e1 : ((List.range n).filter (· ≠ a)).filter (· ≠ n + 1) = (List.range n).filter (· ≠ a) := by
    apply List.filter_eq_self.mpr
    intro x hx
    have := List.mem_range.mp (List.mem_filter.mp hx).1
    simp; omega
  rw [e1]; simp

theorem walks_length_inner (n k cur : ℕ) (h : cur < n) : (walks (cedge n) (n + 1) k cur).length = (n - 1) ^ k := by
  induction k generalizing cur with
  | zero =>
    unfold walks
    rw [if_pos (by unfold cedge; rw [if_neg (by omega)]; simp)]; simp
  | succ k ih =>
    unfold walks
    rw [cedge_filter (by omega), List.length_flatMap]
    have : ((List.range n).filter (· ≠ cur)).map (fun x => ((walks (cedge n) (n + 1) k x).map (x :: ·)).length)
        = ((List.range n).filter (· ≠ cur)).map (fun _ => (n - 1) ^ k) := by
      apply List.map_congr_left
      intro x hx
      rw [List.length_map, ih x (List.mem_range.mp (List.mem_filter.mp hx).1)]
    rw [this, List.map_const', List.sum_replicate]
    have hl : ((List.range n).filter (· ≠ cur)).length = n - 1 := by
      have := List.nodup_range (n := n)
      have e := this.erase_eq_filter cur
      have e2 : (List.range n).filter (· ≠ cur) = (List.range n).filter (· != cur) := by
        apply List.filter_congr
        intro x _
        by_cases hx : x = cur <;> simp [hx]
      rw [e2, ← e, List.length_erase_of_mem (List.mem_range.mpr h), List.length_range]
    rw [hl, smul_eq_mul, pow_succ, mul_comm]

theorem walks_length (n k : ℕ) :
    (walks (cedge n) (n + 1) k n).length = if k = 0 then 1 else n * (n - 1) ^ (k - 1) := by
  cases k with
  | zero =>
    unfold walks
    rw [if_pos (by unfold cedge; rw [if_neg (by omega)]; simp)]; simp
  | succ k =>
    unfold walks
    rw [cedge_filter (by omega), List.length_flatMap]
    have e : (List.range n).filter (· ≠ n) = List.range n := by
      apply List.filter_eq_self.mpr
      intro x hx
      have := List.mem_range.mp hx
      simp; omega
    rw [e]
    have : (List.range n).map (fun x => ((walks (cedge n) (n + 1) k x).map (x :: ·)).length)
        = (List.range n).map (fun _ => (n - 1) ^ k) := by
      apply List.map_congr_left
      intro x hx
      rw [List.length_map, walks_length_inner n k x (List.mem_range.mp hx)]
    rw [this, List.map_const', List.sum_replicate]
    simp

theorem contract_count {G : GraphLib} (hG : GraphContract G) (n k : ℕ) :
    (G.completePaths n n (n + 1) (k + 2)).length = if k = 0 then 1 else n * (n - 1) ^ (k - 1) := by
  rw [← walks_length, ← completePathsRef_eq]
  apply List.Perm.length_eq
  show (G.completePaths n n (n + 1) (k + 2)).Perm (refLib.completePaths n n (n + 1) (k + 2))
  rw [List.perm_ext_iff_of_nodup (hG.complete_nodup n k) (refLib_contract.complete_nodup n k)]
  intro p
  rw [hG.complete_mem]
  exact (refLib_contract.complete_mem n k p).symm

/-! ## The filtered graph -/

/-- The graph built when objects are filtered. -/
def filteredGraph (n : ℕ) (nodes : List ℕ) : DiGraph :=
  ((DiGraph.fromCompleteGraph n).insertFromAndToNodes).2.2.disconnectNodes nodes

theorem fromComplete_length (n : ℕ) : (DiGraph.fromCompleteGraph n).length = n := by
  simp [DiGraph.fromCompleteGraph]

theorem filteredGraph_getD (n : ℕ) (nodes : List ℕ) (hn : ∀ x ∈ nodes, x < n) (i : ℕ) :
    (filteredGraph n nodes).getD i [] =
      if i ∈ nodes then [] else
      if i < n then ((List.range n).filter (· ≠ i) ++ [n + 1]).filter (· ∉ nodes)
      else if i = n then (List.range n ++ [n + 1]).filter (· ∉ nodes) else [] := by
  unfold filteredGraph DiGraph.disconnectNodes DiGraph.insertFromAndToNodes
  simp only [fromComplete_length]
  rw [List.getD_eq_getElem?_getD, List.getElem?_map, List.getElem?_zipIdx]
  rcases lt_trichotomy i n with h | h | h
  · rw [List.getElem?_append_left (by simp [fromComplete_length, h])]
    have : (DiGraph.fromCompleteGraph n)[i]? = some ((List.range n).filter (· ≠ i)) := by
      simp [DiGraph.fromCompleteGraph, h]
    rw [List.getElem?_map, this]
    simp [h]
  · subst h
    rw [List.getElem?_append_right (by simp [fromComplete_length])]
    have : i ∉ nodes := fun hx => lt_irrefl _ (hn i hx)
    simp [fromComplete_length, this]
  · have h1 : i ∉ nodes := fun hx => absurd (hn i hx) (by omega)
    rw [List.getElem?_append_right (by simp [fromComplete_length]; omega)]
    simp only [List.length_map, fromComplete_length, h1, if_false, if_neg (show ¬ i < n by omega),
      if_neg (show ¬ i = n by omega)]
    obtain ⟨j, rfl⟩ : ∃ j, i = n + 1 + j := ⟨i - n - 1, by omega⟩
    rw [show n + 1 + j - n = j + 1 by omega]
    cases j with
    | zero => simp
    | succ j => simp

theorem filteredGraph_nodup (n : ℕ) (nodes : List ℕ) (hn : ∀ x ∈ nodes, x < n) :
    ∀ ns ∈ filteredGraph n nodes, ns.Nodup := by
  intro ns h
  obtain ⟨i, hi, rfl⟩ := List.mem_iff_getElem.mp h
  have := filteredGraph_getD n nodes hn i
  rw [List.getD_eq_getElem?_getD, List.getElem?_eq_getElem hi] at this
  simp only [Option.getD_some] at this
  rw [this]
  split_ifs
  · simp
  · apply List.Nodup.filter
    rw [List.nodup_append]
    refine ⟨List.nodup_range.filter _, by simp, ?_⟩
    intro x hx y hy
    simp at hx hy; omega
  · apply List.Nodup.filter
    rw [List.nodup_append]
    refine ⟨List.nodup_range, by simp, ?_⟩
    intro x hx y hy
    simp at hx hy; omega
  · simp

theorem filteredGraph_last (n : ℕ) (nodes : List ℕ) (hn : ∀ x ∈ nodes, x < n) :
    (filteredGraph n nodes).getD (n + 1) [] = [] := by
  rw [filteredGraph_getD n nodes hn]
  have : n + 1 ∉ nodes := fun hx => absurd (hn _ hx) (by omega)
  simp [this]

theorem chain_filtered (n : ℕ) (nodes : List ℕ) (hn : ∀ x ∈ nodes, x < n) (cur : ℕ) (p : List ℕ) :
    (cur :: p ++ [n + 1]).IsChain (fun a b => b ∈ (filteredGraph n nodes).getD a [])
      ↔ cur ≤ n ∧ cur ∉ nodes ∧ (∀ x ∈ p, x < n ∧ x ∉ nodes) ∧ (cur :: p).IsChain (· ≠ ·) := by
  have hlast : n + 1 ∉ nodes := fun hx => absurd (hn _ hx) (by omega)
  have hmem : ∀ a b, b ∈ (filteredGraph n nodes).getD a [] ↔
      a ≤ n ∧ a ∉ nodes ∧ b ∉ nodes ∧ ((b < n ∧ b ≠ a) ∨ b = n + 1) := by
    intro a b
    rw [filteredGraph_getD n nodes hn]
    split_ifs with h1 h2 h3
    · simp [h1]
    · simp only [List.mem_filter, List.mem_append, List.mem_range, List.mem_singleton, decide_eq_true_eq, h1]
      constructor
      · rintro ⟨h, h'⟩; exact ⟨by omega, not_false, h', h⟩
      · rintro ⟨_, _, h', h⟩; exact ⟨h, h'⟩
    · subst h3
      simp only [List.mem_filter, List.mem_append, List.mem_range, List.mem_singleton, decide_eq_true_eq, h1]
      constructor
      · rintro ⟨h, h'⟩; exact ⟨le_rfl, not_false, h', by omega⟩
      · rintro ⟨_, _, h', h⟩; exact ⟨by omega, h'⟩
    · simp; omega
  induction p generalizing cur with
  | nil =>
    simp only [List.cons_append, List.nil_append, List.isChain_cons_cons, List.isChain_singleton, hmem]
    simp [hlast]
  | cons y q ih =>
    rw [List.cons_append, List.cons_append, List.isChain_cons_cons, ← List.cons_append, hmem,
      List.isChain_cons_cons]
    refine (and_congr_right fun _ => ih y).trans ?_
    constructor
    · rintro ⟨⟨h1, h2, h3, h4⟩, h5, _, h6, h7⟩
      refine ⟨h1, h2, ?_, ?_, h7⟩
      · intro x hx
        rcases List.mem_cons.mp hx with rfl | hx
        · exact ⟨by omega, h3⟩
        · exact h6 x hx
      · omega
    · rintro ⟨h1, h2, h3, h4, h5⟩
      have := h3 y (by simp)
      exact ⟨⟨h1, h2, this.2, Or.inl ⟨this.1, Ne.symm h4⟩⟩, by omega, this.2, fun x hx => h3 x (by simp [hx]), h5⟩

theorem filtered_mem {G : GraphLib} (hG : GraphContract G) (n k : ℕ) (nodes : List ℕ)
    (hn : ∀ x ∈ nodes, x < n) (p : List ℕ) :
    p ∈ G.digraphPaths (filteredGraph n nodes) n (n + 1) (k + 2) ↔
      p.length = k ∧ (∀ x ∈ p, x < n ∧ x ∉ nodes) ∧ p.IsChain (· ≠ ·) := by
  rw [hG.digraph_mem _ _ _ _ _ (filteredGraph_nodup n nodes hn) (filteredGraph_last n nodes hn),
    chain_filtered n nodes hn]
  constructor
  · rintro ⟨h1, _, _, h2, h3⟩
    exact ⟨h1, h2, (chain_head fun x hx => (h2 x hx).1).mp h3⟩
  · rintro ⟨h1, h2, h3⟩
    exact ⟨h1, le_rfl, fun hx => lt_irrefl _ (hn _ hx), h2, (chain_head fun x hx => (h2 x hx).1).mpr h3⟩

end DiffeRT2d
