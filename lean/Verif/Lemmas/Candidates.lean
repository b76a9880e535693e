import Verif.Lemmas.Graph
import Verif.Model.Scene
import Verif.Lemmas.Tracing

/-! # Lemmas on path candidates -/

namespace DiffeRT2d
open Spec

/-- The candidates as a list, without exceptions. -/
def candList (paths : ℕ → List (List ℕ)) (lo hi : ℤ) : List (List ℤ) :=
  (List.range (hi + 1 - lo).toNat).flatMap fun i => (paths (lo.toNat + i + 2)).map (List.map Int.ofNat)

theorem mapM_pure {ε α β : Type} (f : α → Except ε β) (g : α → β) (xs : List α)
    (h : ∀ x ∈ xs, f x = .ok (g x)) : xs.mapM f = .ok (xs.map g) := by
  induction xs with
  | nil => rfl
  | cons x xs ih =>
    rw [List.mapM_cons, h x (by simp), ih (fun y hy => h y (by simp [hy]))]
    rfl

theorem cands_eq (paths : ℕ → List (List ℕ)) (lo hi : ℤ) (h : 0 ≤ lo) :
    (do
      let cands ← (pyRange lo (hi + 1)).mapM fun order =>
        if order + 2 < 0 then (Except.error PyErr.overflowError : Except PyErr (List (List ℕ)))
        else .ok (paths (order + 2).toNat)
      pure (cands.flatten.map fun p => p.map Int.ofNat) : Except PyErr (List (List ℤ)))
    = .ok (candList paths lo hi) := by
  rw [mapM_pure _ (fun order => paths (order + 2).toNat)]
  · show Except.ok _ = _
    congr 1
    unfold candList pyRange
    rw [List.map_map, List.map_flatten, List.map_map, List.flatMap_def]
    congr 1
    apply List.map_congr_left
    intro i _
    simp only [Function.comp]
    rw [show (lo + (i : ℤ) + 2).toNat = lo.toNat + i + 2 by omega]
  · intro order ho
    unfold pyRange at ho
    simp only [List.mem_map] at ho
    obtain ⟨i, _, rfl⟩ := ho
    rw [if_neg (by omega)]

theorem ofNat_inj : Function.Injective (List.map Int.ofNat) :=
  List.map_injective_iff.mpr fun _ _ h => by simpa using h

theorem candList_mem (paths : ℕ → List (List ℕ)) (lo hi : ℤ) (h : 0 ≤ lo) (c : List ℤ) :
    c ∈ candList paths lo hi ↔ ∃ k : ℕ, lo ≤ k ∧ (k : ℤ) ≤ hi ∧ ∃ p ∈ paths (k + 2), p.map Int.ofNat = c := by
  unfold candList
  simp only [List.mem_flatMap, List.mem_range, List.mem_map]
  constructor
  · rintro ⟨i, hi', p, hp, rfl⟩
    exact ⟨lo.toNat + i, by omega, by omega, p, hp, rfl⟩
  · rintro ⟨k, h1, h2, p, hp, rfl⟩
    refine ⟨k - lo.toNat, by omega, p, ?_, rfl⟩
    rwa [show lo.toNat + (k - lo.toNat) = k by omega]

theorem candList_nodup (paths : ℕ → List (List ℕ)) (lo hi : ℤ)
    (h1 : ∀ k, (paths (k + 2)).Nodup) (h2 : ∀ k, ∀ p ∈ paths (k + 2), p.length = k) :
    (candList paths lo hi).Nodup := by
  unfold candList
  rw [List.nodup_flatMap]
  refine ⟨fun i _ => (h1 _).map ofNat_inj, ?_⟩
  refine List.Pairwise.imp ?_ List.nodup_range
  intro a b hab c ha hb
  simp only [List.mem_map] at ha hb
  obtain ⟨p, hp, rfl⟩ := ha
  obtain ⟨q, hq, e⟩ := hb
  have := congrArg List.length e
  simp only [List.length_map] at this
  have e1 := h2 _ p hp
  have e2 := h2 _ q hq
  omega

theorem candList_sorted (paths : ℕ → List (List ℕ)) (lo hi : ℤ)
    (h2 : ∀ k, ∀ p ∈ paths (k + 2), p.length = k) :
    (candList paths lo hi).Pairwise fun a b => a.length ≤ b.length := by
  unfold candList
  rw [List.pairwise_flatMap]
  constructor
  · intro i _
    rw [List.pairwise_map]
    apply List.pairwise_of_forall_mem_list
    intro p hp q hq
    simp [h2 _ p hp, h2 _ q hq]
  · refine List.Pairwise.imp ?_ List.pairwise_lt_range
    intro a b hab p hp q hq
    simp only [List.mem_map] at hp hq
    obtain ⟨p, hp, rfl⟩ := hp
    obtain ⟨q, hq, rfl⟩ := hq
    simp only [List.length_map, h2 _ p hp, h2 _ q hq]
    omega

theorem candList_count (paths : ℕ → List (List ℕ)) (lo hi : ℤ) (hlo : 0 ≤ lo)
    (h1 : ∀ k, (paths (k + 2)).Nodup)
    (h2 : ∀ k, ∀ p ∈ paths (k + 2), p.length = k) (k : ℕ) (hk1 : lo ≤ k) (hk2 : (k : ℤ) ≤ hi) :
    ((candList paths lo hi).filter (fun c => c.length = k)).length = (paths (k + 2)).length := by
  have hp : ((candList paths lo hi).filter (fun c => c.length = k)).Perm
      ((paths (k + 2)).map (List.map Int.ofNat)) := by
    rw [List.perm_ext_iff_of_nodup ((candList_nodup paths lo hi h1 h2).filter _) ((h1 k).map ofNat_inj)]
    intro c
    rw [List.mem_filter, candList_mem _ _ _ hlo]
    simp only [List.mem_map, decide_eq_true_eq]
    constructor
    · rintro ⟨⟨k', _, _, p, hp, rfl⟩, hl⟩
      have := h2 _ p hp
      simp only [List.length_map] at hl
      have : k' = k := by omega
      subst this
      exact ⟨p, hp, rfl⟩
    · rintro ⟨p, hp, rfl⟩
      exact ⟨⟨k, hk1, hk2, p, hp, rfl⟩, by simp [h2 _ p hp]⟩
  rw [hp.length_eq, List.length_map]

/-- Chains of naturals seen as candidates. -/
theorem isCandidate_iff (n : ℕ) (c : List ℤ) :
    IsCandidate n c ↔ ∃ p : List ℕ, (∀ x ∈ p, x < n) ∧ p.IsChain (· ≠ ·) ∧ p.map Int.ofNat = c := by
  constructor
  · rintro ⟨h1, h2⟩
    refine ⟨c.map Int.toNat, ?_, ?_, ?_⟩
    · intro x hx
      obtain ⟨i, hi, rfl⟩ := List.mem_map.mp hx
      have := h1 i hi; omega
    · rw [List.isChain_iff_getElem]
      intro i hi
      simp only [List.getElem_map]
      simp only [List.length_map] at hi
      have ha := h1 _ (List.getElem_mem (show i < c.length by omega))
      have hb := h1 _ (List.getElem_mem hi)
      have := h2 i _ _ (List.getElem?_eq_getElem (by omega)) (List.getElem?_eq_getElem hi)
      omega
    · rw [List.map_map]
      conv_rhs => rw [← List.map_id c]
      apply List.map_congr_left
      intro i hi
      have := h1 i hi
      simp [Function.comp]; omega
  · rintro ⟨p, h1, h2, rfl⟩
    constructor
    · intro i hi
      obtain ⟨x, hx, rfl⟩ := List.mem_map.mp hi
      have := h1 x hx
      constructor
      · simp
      · simpa using this
    · intro k a b ha hb e
      simp only [List.getElem?_map, Option.map_eq_some_iff] at ha hb
      obtain ⟨x, hx, rfl⟩ := ha
      obtain ⟨y, hy, rfl⟩ := hb
      obtain ⟨hk1, rfl⟩ := List.getElem?_eq_some_iff.mp hx
      obtain ⟨hk2, rfl⟩ := List.getElem?_eq_some_iff.mp hy
      rw [List.isChain_iff_getElem] at h2
      exact h2 k hk2 (by simpa using e)

end DiffeRT2d
