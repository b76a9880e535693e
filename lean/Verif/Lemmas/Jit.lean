import Verif.Model.Approx
import Mathlib.Tactic.Common

/-! Lemmas about the JIT-cache machine. -/

namespace DiffeRT2d.Approx

@[simp] theorem store_setting (s : JState) (i a ms) : (s.store i a ms).setting = s.setting := by
  unfold JState.store; split <;> rfl
@[simp] theorem store_jit (s : JState) (i a ms) : (s.store i a ms).jitDisabled = s.jitDisabled := by
  unfold JState.store; split <;> rfl

mutual
theorem call_frame (f : Fn) (a : Option Bool) (s : JState) :
    (call f a s).1.setting = s.setting ∧ (call f a s).1.jitDisabled = s.jitDisabled := by
  cases f with
  | leaf i => unfold call; cases s.lookup i a <;> simp
  | node i fs =>
    unfold call
    have := callAll_frame fs a s
    cases s.lookup i a <;> simp [this]
theorem callAll_frame (fs : List Fn) (a : Option Bool) (s : JState) :
    (callAll fs a s).1.setting = s.setting ∧ (callAll fs a s).1.jitDisabled = s.jitDisabled := by
  cases fs with
  | nil => simp [callAll]
  | cons f fs =>
    have h1 := call_frame f a s
    have h2 := callAll_frame fs a (call f a s).1
    simp [callAll, h1, h2]
end

theorem store_mono {s : JState} {i j a b ms ns} (h : s.cache j b = some ns)
    (hl : s.jitDisabled = false → s.cache i a = none ∨ ¬ (j = i ∧ b = a)) :
    (s.store i a ms).cache j b = some ns := by
  unfold JState.store
  split
  · exact h
  · rename_i hd
    simp only [Bool.not_eq_true] at hd
    by_cases he : j = i ∧ b = a
    · obtain ⟨rfl, rfl⟩ := he
      rcases hl hd with h' | h'
      · rw [h'] at h; simp at h
      · simp at h'
    · simp [he, h]

mutual
/-- Calls never change an existing cache entry. -/
theorem call_mono (f : Fn) (a : Option Bool) (s : JState) {j b ns} (h : s.cache j b = some ns) :
    (call f a s).1.cache j b = some ns := by
  cases f with
  | leaf i =>
    unfold call
    cases hl : s.lookup i a with
    | some ms => exact h
    | none =>
      apply store_mono h
      intro hd; left; simpa [JState.lookup, hd] using hl
  | node i fs =>
    unfold call
    cases hl : s.lookup i a with
    | some ms => exact h
    | none =>
      have h' := callAll_mono fs a s h
      apply store_mono h'
      intro hd
      rw [(callAll_frame fs a s).2] at hd
      right
      rintro ⟨rfl, rfl⟩
      simp only [JState.lookup, hd, Bool.false_eq_true, if_false] at hl
      rw [hl] at h; simp at h
theorem callAll_mono (fs : List Fn) (a : Option Bool) (s : JState) {j b ns}
    (h : s.cache j b = some ns) : (callAll fs a s).1.cache j b = some ns := by
  cases fs with
  | nil => exact h
  | cons f fs =>
    simp only [callAll]
    exact callAll_mono fs a _ (call_mono f a s h)
end

/-- After a call with jit enabled, the call's key is in the cache with the modes it returned. -/
theorem call_stored (f : Fn) (a : Option Bool) (s : JState) (hd : s.jitDisabled = false) :
    (call f a s).1.cache f.id a = some (call f a s).2 := by
  cases f with
  | leaf i =>
    unfold call
    cases hl : s.lookup i a with
    | some ms => simpa [JState.lookup, hd, Fn.id] using hl
    | none => simp [JState.store, hd, Fn.id]
  | node i fs =>
    unfold call
    cases hl : s.lookup i a with
    | some ms => simpa [JState.lookup, hd, Fn.id] using hl
    | none => simp [JState.store, (callAll_frame fs a s).2, hd, Fn.id]

/-- A cached call returns the cached modes and changes nothing. -/
theorem call_cached (f : Fn) (a : Option Bool) (s : JState) (hd : s.jitDisabled = false) {ms}
    (h : s.cache f.id a = some ms) : call f a s = (s, ms) := by
  cases f <;> simp only [Fn.id] at h <;> unfold call <;> simp [JState.lookup, hd, h]

mutual
/-- Does the function, or something it calls, use the cache key `i`? -/
def Fn.mentions (i : ℕ) : Fn → Bool
  | .leaf j => j == i
  | .node j fs => j == i || mentionsAll i fs
/-- Same for a list of functions. -/
def mentionsAll (i : ℕ) : List Fn → Bool
  | [] => false
  | f :: fs => f.mentions i || mentionsAll i fs
end

theorem store_none {s : JState} {i j a b ms} (h : s.cache j b = none) (hne : i ≠ j) :
    (s.store i a ms).cache j b = none := by
  unfold JState.store
  split
  · exact h
  · simp [h, Ne.symm hne]

mutual
theorem call_fresh (f : Fn) (a : Option Bool) (s : JState) {j b} (h : s.cache j b = none)
    (hm : f.mentions j = false) : (call f a s).1.cache j b = none := by
  cases f with
  | leaf i =>
    simp only [Fn.mentions, beq_eq_false_iff_ne] at hm
    unfold call
    cases s.lookup i a with
    | some ms => exact h
    | none => exact store_none h hm
  | node i fs =>
    simp only [Fn.mentions, Bool.or_eq_false_iff, beq_eq_false_iff_ne] at hm
    unfold call
    cases s.lookup i a with
    | some ms => exact h
    | none => exact store_none (callAll_fresh fs a s h hm.2) hm.1
theorem callAll_fresh (fs : List Fn) (a : Option Bool) (s : JState) {j b} (h : s.cache j b = none)
    (hm : mentionsAll j fs = false) : (callAll fs a s).1.cache j b = none := by
  cases fs with
  | nil => exact h
  | cons f fs =>
    simp only [mentionsAll, Bool.or_eq_false_iff] at hm
    simp only [callAll]
    exact callAll_fresh fs a _ (call_fresh f a s h hm.1) hm.2
end

mutual
/-- Number of places where a function resolves `approx`. -/
def Fn.leaves : Fn → ℕ
  | .leaf _ => 1
  | .node _ fs => leavesAll fs
/-- Same for a list of functions. -/
def leavesAll : List Fn → ℕ
  | [] => 0
  | f :: fs => f.leaves + leavesAll fs
end

mutual
/-- The function and everything it calls is the one registered under its key. -/
def Fn.WF (tbl : ℕ → Fn) : Fn → Prop
  | .leaf i => tbl i = .leaf i
  | .node i fs => tbl i = .node i fs ∧ WFAll tbl fs
/-- Same for a list of functions. -/
def WFAll (tbl : ℕ → Fn) : List Fn → Prop
  | [] => True
  | f :: fs => f.WF tbl ∧ WFAll tbl fs
end

/-- Cache invariant: entries have the right number of modes, and explicit keys only explicit modes. -/
def JInv (tbl : ℕ → Fn) (s : JState) : Prop :=
  ∀ i a ms, s.cache i a = some ms → ms.length = (tbl i).leaves ∧ ∀ b, a = some b → ∀ m ∈ ms, m = b

theorem store_inv {tbl s i a ms} (h : JInv tbl s) (h1 : ms.length = (tbl i).leaves)
    (h2 : ∀ b, a = some b → ∀ m ∈ ms, m = b) : JInv tbl (s.store i a ms) := by
  unfold JState.store
  split
  · exact h
  · intro j b ns hj
    simp only at hj
    split at hj
    · rename_i he
      obtain ⟨rfl, rfl⟩ := he
      simp only [Option.some.injEq] at hj; subst hj
      exact ⟨h1, h2⟩
    · exact h j b ns hj

mutual
theorem call_inv {tbl} (f : Fn) (a : Option Bool) (s : JState) (h : JInv tbl s) (hw : f.WF tbl) :
    JInv tbl (call f a s).1 ∧ (call f a s).2.length = f.leaves ∧
      ∀ b, a = some b → ∀ m ∈ (call f a s).2, m = b := by
  cases f with
  | leaf i =>
    simp only [Fn.WF] at hw
    unfold call
    cases hl : s.lookup i a with
    | some ms =>
      have hc : s.cache i a = some ms := by
        unfold JState.lookup at hl; split at hl <;> simp_all
      have := h i a ms hc
      rw [hw] at this
      exact ⟨h, this⟩
    | none =>
      cases a with
      | none => exact ⟨store_inv h (by rw [hw]; rfl) (by simp), rfl, by simp⟩
      | some b0 => exact ⟨store_inv h (by rw [hw]; rfl) (by simp), rfl, by simp⟩
  | node i fs =>
    simp only [Fn.WF] at hw
    unfold call
    cases hl : s.lookup i a with
    | some ms =>
      have hc : s.cache i a = some ms := by
        unfold JState.lookup at hl; split at hl <;> simp_all
      have := h i a ms hc
      rw [hw.1] at this
      exact ⟨h, this⟩
    | none =>
      obtain ⟨h1, h2, h3⟩ := callAll_inv fs a s h hw.2
      exact ⟨store_inv h1 (by rw [hw.1]; exact h2) h3, h2, h3⟩
theorem callAll_inv {tbl} (fs : List Fn) (a : Option Bool) (s : JState) (h : JInv tbl s)
    (hw : WFAll tbl fs) :
    JInv tbl (callAll fs a s).1 ∧ (callAll fs a s).2.length = leavesAll fs ∧
      ∀ b, a = some b → ∀ m ∈ (callAll fs a s).2, m = b := by
  cases fs with
  | nil => simp [callAll, leavesAll, h]
  | cons f fs =>
    simp only [WFAll] at hw
    obtain ⟨h1, h2, h3⟩ := call_inv f a s h hw.1
    obtain ⟨h4, h5, h6⟩ := callAll_inv fs a _ h1 hw.2
    refine ⟨h4, by simp [callAll, leavesAll, h2, h5], ?_⟩
    intro b hb m hm
    simp only [callAll, List.mem_append] at hm
    rcases hm with hm | hm
    · exact h3 b hb m hm
    · exact h6 b hb m hm
end

mutual
/-- With jit disabled a call uses the current setting everywhere. -/
theorem call_nojit (f : Fn) (a : Option Bool) (s : JState) (hd : s.jitDisabled = true) :
    call f a s = (s, List.replicate f.leaves (a.getD s.setting)) := by
  cases f with
  | leaf i =>
    unfold call
    simp only [JState.lookup, hd, if_true, JState.store, Fn.leaves]
    cases a <;> rfl
  | node i fs =>
    unfold call
    simp only [JState.lookup, hd, if_true, callAll_nojit fs a s hd, JState.store, Fn.leaves]
theorem callAll_nojit (fs : List Fn) (a : Option Bool) (s : JState) (hd : s.jitDisabled = true) :
    callAll fs a s = (s, List.replicate (leavesAll fs) (a.getD s.setting)) := by
  cases fs with
  | nil => rfl
  | cons f fs =>
    simp only [callAll, call_nojit f a s hd, callAll_nojit fs a s hd, leavesAll, List.replicate_add]
end

mutual
/-- If every `approx=None` entry agrees with the current setting, so do all modes used. -/
theorem call_uniform (f : Fn) (s : JState)
    (h : ∀ i ms, s.cache i none = some ms → ∀ m ∈ ms, m = s.setting) :
    (∀ m ∈ (call f none s).2, m = s.setting) ∧
    (∀ i ms, (call f none s).1.cache i none = some ms → ∀ m ∈ ms, m = s.setting) := by
  have hstore : ∀ (s' : JState) i ms, s'.setting = s.setting →
      (∀ i ms, s'.cache i none = some ms → ∀ m ∈ ms, m = s.setting) → (∀ m ∈ ms, m = s.setting) →
      ∀ j ns, (s'.store i none ms).cache j none = some ns → ∀ m ∈ ns, m = s.setting := by
    intro s' i ms _ h1 h2 j ns hj
    unfold JState.store at hj
    split at hj
    · exact h1 j ns hj
    · simp only at hj
      split at hj
      · simp only [Option.some.injEq] at hj; subst hj; exact h2
      · exact h1 j ns hj
  cases f with
  | leaf i =>
    unfold call
    cases hl : s.lookup i none with
    | some ms =>
      have hc : s.cache i none = some ms := by
        unfold JState.lookup at hl; split at hl <;> simp_all
      exact ⟨h i ms hc, h⟩
    | none => exact ⟨by simp, hstore s i _ rfl h (by simp)⟩
  | node i fs =>
    unfold call
    cases hl : s.lookup i none with
    | some ms =>
      have hc : s.cache i none = some ms := by
        unfold JState.lookup at hl; split at hl <;> simp_all
      exact ⟨h i ms hc, h⟩
    | none =>
      have := callAll_uniform fs s h
      exact ⟨this.1, hstore _ i _ (callAll_frame fs none s).1 this.2 this.1⟩
theorem callAll_uniform (fs : List Fn) (s : JState)
    (h : ∀ i ms, s.cache i none = some ms → ∀ m ∈ ms, m = s.setting) :
    (∀ m ∈ (callAll fs none s).2, m = s.setting) ∧
    (∀ i ms, (callAll fs none s).1.cache i none = some ms → ∀ m ∈ ms, m = s.setting) := by
  cases fs with
  | nil => exact ⟨by simp [callAll], h⟩
  | cons f fs =>
    obtain ⟨h1, h2⟩ := call_uniform f s h
    have hs := (call_frame f none s).1
    rw [← hs] at h2
    obtain ⟨h3, h4⟩ := callAll_uniform fs (call f none s).1 h2
    rw [hs] at h3 h4
    refine ⟨?_, h4⟩
    intro m hm
    simp only [callAll, List.mem_append] at hm
    exact hm.elim (h1 m) (h3 m)
end

end DiffeRT2d.Approx
