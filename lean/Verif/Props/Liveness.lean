import Verif.Lemmas.ApproxMachine
import Verif.Lemmas.Approx
import Mathlib.Algebra.BigOperators.Group.Finset.Basic
import Mathlib.Algebra.Order.BigOperators.Group.Finset

/-! # Property C94: the lock of the approximation setting never blocks a program for ever -/

namespace DiffeRT2d.Approx

/-- Steps a program may take. -/
def cost : Prog → ℕ
  | .skip => 1
  | .seq p q => 1 + cost p + cost q
  | .set _ => 4
  | .withEnable _ body => 5 + cost body
  | .withDisable _ body => 5 + cost body
  | .read k => 1 + max (cost (k true)) (cost (k false))
  | .raise => 1
  | .tryExcept p h => 2 + cost p + cost h

theorem cost_pos (p : Prog) : 1 ≤ cost p := by cases p <;> simp only [cost] <;> omega

/-- Steps an item may take. -/
def icost : Item → ℕ
  | .stmt p => cost p
  | .acq _ _ body => 4 + cost body
  | .wr _ _ body => 2 + cost body
  | .restore _ => 1
  | .rel => 1
  | .setAcq _ => 3
  | .setWr _ => 1
  | .handler h => 1 + cost h

/-- Steps a thread may take. -/
def tcost (th : Thread) : ℕ := (th.items.map icost).sum

/-- Not in the middle of taking the lock. -/
def Calm : Item → Prop
  | .acq _ _ _ | .wr _ _ _ | .setAcq _ | .setWr _ => False
  | _ => True

/-- Only the first item of a thread that is not raising can be in the middle of taking the lock. -/
def Top (th : Thread) : Prop := (∀ it ∈ th.items.tail, Calm it) ∧ (th.raising = true → ∀ it ∈ th.items, Calm it)

/-- What a step does to its thread. -/
theorem step_thread {c c' : Config} {t : ℕ} (hs : step c t = some c') (ht : Top (c.threads t)) :
    (∀ u, u ≠ t → c'.threads u = c.threads u) ∧ tcost (c'.threads t) < tcost (c.threads t) ∧ Top (c'.threads t) ∧
      (c'.owner = c.owner ∨ c'.owner = some t ∨ c'.owner = none) := by
  obtain ⟨ht1, ht2⟩ := ht
  unfold step at hs
  cases hi : (c.threads t).items with
  | nil => simp [hi] at hs
  | cons it rest =>
    rw [hi] at ht1 ht2
    simp only [List.tail_cons] at ht1
    have hcalm : ∀ it ∈ rest.tail, Calm it := fun i h => ht1 i (List.mem_of_mem_tail h)
    simp only [hi] at hs
    by_cases hr : (c.threads t).raising
    · have hall := ht2 hr
      rw [if_pos hr] at hs
      cases it <;> simp only [Option.some.injEq, reduceCtorEq] at hs <;> subst hs
      all_goals
        refine ⟨fun u hu => by simp [Config.put, hu], ?_, ?_, ?_⟩
        · rw [put_self]
          simp only [tcost, hi, List.map_cons, List.sum_cons, icost]
          first | omega | (have := cost_pos ‹Prog›; omega)
        · rw [put_self]
          refine ⟨?_, ?_⟩
          · first | exact hcalm | exact ht1
          · simp only [Bool.false_eq_true, false_imp_iff]
            try exact fun _ => ht1
        · simp only [put_owner]
          first | exact .inl trivial | exact .inl rfl | (split; exact .inr (.inr rfl); exact .inl rfl)
    · rw [if_neg hr] at hs
      cases it
      case stmt p =>
        cases p <;> simp only [Option.some.injEq] at hs <;> subst hs
        all_goals
          refine ⟨fun u hu => by simp [Config.put, hu], ?_, ?_, .inl rfl⟩
          · rw [put_self]
            simp only [tcost, hi, List.map_cons, List.sum_cons, icost, cost]
            first | omega | (cases c.setting <;> omega)
          · rw [put_self]
            refine ⟨?_, by first | (intro h; cases h; done) | exact fun _ => ht1⟩
            first
              | exact hcalm
              | exact ht1
              | (intro i h; simp only [List.tail_cons, List.mem_cons] at h; rcases h with rfl | h; · trivial
                 exact ht1 i h)
      case acq b s body =>
        simp only at hs
        split at hs
        · simp only [Option.some.injEq] at hs; subst hs
          refine ⟨fun u hu => by simp [Config.put, hu], ?_, ?_, .inr (.inl rfl)⟩
          · rw [put_self]; simp only [tcost, hi, List.map_cons, List.sum_cons, icost]; omega
          · rw [put_self]
            refine ⟨?_, by simp⟩
            intro i h; simp only [List.tail_cons, List.mem_cons] at h; rcases h with rfl | h
            · trivial
            · exact ht1 i h
        · simp at hs
      case setAcq b =>
        simp only at hs
        split at hs
        · simp only [Option.some.injEq] at hs; subst hs
          refine ⟨fun u hu => by simp [Config.put, hu], ?_, ?_, .inr (.inl rfl)⟩
          · rw [put_self]; simp only [tcost, hi, List.map_cons, List.sum_cons, icost]; omega
          · rw [put_self]
            refine ⟨?_, by simp⟩
            intro i h; simp only [List.tail_cons, List.mem_cons] at h; rcases h with rfl | h
            · trivial
            · exact ht1 i h
        · simp at hs
      all_goals
        simp only [Option.some.injEq] at hs; subst hs
        refine ⟨fun u hu => by simp [Config.put, hu], ?_, ?_, ?_⟩
        · rw [put_self]; simp only [tcost, hi, List.map_cons, List.sum_cons, icost]; omega
        · rw [put_self]
          refine ⟨?_, by simp⟩
          first
            | exact hcalm
            | (intro i h; simp only [List.tail_cons, List.mem_cons] at h; rcases h with rfl | h; · trivial
               exact ht1 i h)
        · simp only [put_owner]
          first | exact .inl trivial | exact .inl rfl | (split; exact .inr (.inr rfl); exact .inl rfl)

theorem top_runs {c c' : Config} {ts : List ℕ} (h : ∀ t, Top (c.threads t)) (hr : runs c ts = some c') :
    (∀ t, Top (c'.threads t)) ∧ ∀ t, ts.count t + tcost (c'.threads t) ≤ tcost (c.threads t) := by
  induction ts generalizing c with
  | nil => simp only [runs, Option.some.injEq] at hr; subst hr; exact ⟨h, by simp⟩
  | cons u ts ih =>
    simp only [runs, Option.bind_eq_some_iff] at hr
    obtain ⟨d, hd, hr⟩ := hr
    obtain ⟨s1, s2, s3, -⟩ := step_thread hd (h u)
    obtain ⟨i1, i2⟩ := ih (c := d) (fun t => by
      by_cases e : t = u
      · subst e; exact s3
      · rw [s1 t e]; exact h t) hr
    refine ⟨i1, fun t => ?_⟩
    by_cases e : t = u
    · subst e; have := i2 t; rw [List.count_cons_self]; omega
    · have := i2 t
      rw [s1 t e] at this
      rw [List.count_cons_of_ne (fun h => e h.symm)]; exact this

theorem top_init (b : Bool) (progs : ℕ → Prog) (t : ℕ) : Top ((Config.init b progs).threads t) := by
  simp [Config.init, Top]

/-- A thread with something left to do can take a step, unless it waits for the lock that another thread holds. -/
theorem can_step {c : Config} {t : ℕ} (ht : Top (c.threads t)) (hi : (c.threads t).items ≠ [])
    (ho : c.owner = none ∨ c.owner = some t) : ∃ c', step c t = some c' := by
  unfold step
  cases h : (c.threads t).items with
  | nil => exact absurd h hi
  | cons it rest =>
    simp only [h]
    by_cases hr : (c.threads t).raising
    · rw [if_pos hr]
      have := ht.2 hr it (by rw [h]; simp)
      cases it <;> first | exact ⟨_, rfl⟩ | exact False.elim this
    · rw [if_neg hr]
      cases it
      case stmt p => cases p <;> exact ⟨_, rfl⟩
      all_goals first | exact ⟨_, rfl⟩ | (simp only; rw [if_pos ho]; exact ⟨_, rfl⟩)

end DiffeRT2d.Approx

namespace DiffeRT2d.Props
open Approx

/-- **C94.** No deadlock: in every configuration that any schedule of any programs can reach, if a thread is not finished then some
thread can take a step; a thread that cannot is waiting for the lock, which another, unfinished thread holds, and that one can. -/
theorem C94_no_deadlock (setting : Bool) (progs : ℕ → Prog) (ts : List ℕ) (c : Config)
    (hc : runs (Config.init setting progs) ts = some c) (t : ℕ) (ht : (c.threads t).items ≠ []) :
    (∃ c', step c t = some c') ∨
      ∃ u, u ≠ t ∧ c.owner = some u ∧ (c.threads u).items ≠ [] ∧ ∃ c', step c u = some c' := by
  have htop := (top_runs (top_init setting progs) hc).1
  have hinv := inv_runs (inv_init setting progs) hc
  cases ho : c.owner with
  | none => exact .inl (can_step (htop t) ht (.inl ho))
  | some u =>
    have hu : (c.threads u).items ≠ [] := by
      intro h
      have := hinv.own u ho
      rw [h] at this
      simp [rels] at this; omega
    by_cases e : u = t
    · subst e; exact .inl (can_step (htop u) ht (.inr ho))
    · exact .inr ⟨u, e, rfl, hu, can_step (htop u) hu (.inr ho)⟩

/-- Non-vacuity: thread 1 waits for the lock that thread 0 holds inside its block. -/
example := C94_no_deadlock false (fun t => if t = 0 then .withEnable true .skip else .set false) [0, 0, 0, 1] _ rfl 1
  (by simp [Config.put, Config.init])

/-- **C94.** Every thread ends: the number of steps it can take is bounded by its program alone, under every schedule. -/
theorem C94_bounded : ∃ bound : Prog → ℕ, ∀ (setting : Bool) (progs : ℕ → Prog) (ts : List ℕ) (c : Config),
    runs (Config.init setting progs) ts = some c → ∀ t, ts.count t ≤ bound (progs t) := by
  refine ⟨cost, fun setting progs ts c hc t => ?_⟩
  have := (top_runs (top_init setting progs) hc).2 t
  simp [Config.init, tcost, icost] at this
  omega

/-- **C94.** Whatever happened so far, any number of threads can be run to their ends; then the lock is free. -/
theorem C94_completes (setting : Bool) (progs : ℕ → Prog) (ts : List ℕ) (c : Config)
    (hc : runs (Config.init setting progs) ts = some c) (n : ℕ) :
    ∃ ts' c', runs c ts' = some c' ∧ (∀ t < n, (c'.threads t).items = []) ∧ c'.owner = none := by
  have htop := (top_runs (top_init setting progs) hc).1
  have hinv := inv_runs (inv_init setting progs) hc
  obtain ⟨m, hnm, hm⟩ : ∃ m, n ≤ m ∧ ∀ u, c.owner = some u → u < m := by
    cases ho : c.owner with
    | none => exact ⟨n, le_rfl, by simp⟩
    | some u => exact ⟨max n (u + 1), le_max_left _ _, by simp⟩
  clear hc
  have main : ∀ (k : ℕ) (c : Config), (∀ t, Top (c.threads t)) → Inv c → (∀ u, c.owner = some u → u < m) →
      (∑ t ∈ Finset.range m, tcost (c.threads t)) = k →
      ∃ ts' c', runs c ts' = some c' ∧ (∀ t < m, (c'.threads t).items = []) ∧ c'.owner = none := by
    intro k
    induction k using Nat.strong_induction_on with
    | _ k ih =>
      intro c htop hinv hm hk
      by_cases hall : ∀ t < m, (c.threads t).items = []
      · refine ⟨[], c, rfl, hall, ?_⟩
        cases ho : c.owner with
        | none => rfl
        | some u =>
          have := hinv.own u ho
          rw [hall u (hm u ho)] at this
          simp [rels] at this; omega
      · push_neg at hall
        obtain ⟨t, htm, ht⟩ := hall
        obtain ⟨u, hum, d, hd⟩ : ∃ u < m, ∃ d, step c u = some d := by
          cases ho : c.owner with
          | none => exact ⟨t, htm, can_step (htop t) ht (.inl ho)⟩
          | some u =>
            refine ⟨u, hm u ho, can_step (htop u) ?_ (.inr ho)⟩
            intro h
            have := hinv.own u ho
            rw [h] at this
            simp [rels] at this; omega
        obtain ⟨s1, s2, s3, s4⟩ := step_thread hd (htop u)
        have hlt : (∑ t ∈ Finset.range m, tcost (d.threads t)) < k := by
          rw [← hk]
          apply Finset.sum_lt_sum
          · intro i _
            by_cases e : i = u
            · subst e; exact s2.le
            · rw [s1 i e]
          · exact ⟨u, Finset.mem_range.mpr hum, s2⟩
        obtain ⟨ts', c', h1, h2⟩ := ih _ hlt d (fun t => by
          by_cases e : t = u
          · subst e; exact s3
          · rw [s1 t e]; exact htop t) (inv_step hinv hd) (by
            intro v hv
            rcases s4 with e | e | e
            · exact hm v (by rw [← e]; exact hv)
            · rw [e] at hv; obtain rfl := Option.some.inj hv; exact hum
            · rw [e] at hv; cases hv) rfl
        exact ⟨u :: ts', c', by simp [runs, hd, h1], h2⟩
  obtain ⟨ts', c', h1, h2, h3⟩ := main _ c htop hinv hm rfl
  exact ⟨ts', c', h1, fun t ht => h2 t (by omega), h3⟩

/-- Non-vacuity: from the same configuration, both threads can be run to their ends. -/
example := C94_completes false (fun t => if t = 0 then .withEnable true .skip else .set false) [0, 0, 0, 1] _ rfl 2

/-- Non-vacuity: while thread 0 is inside `with enable_approx(True)`, thread 1 waits for the lock in `set_approx(False)`: it cannot take
a step, and thread 0 can. -/
example : ∃ c, runs (Config.init false fun t => if t = 0 then .withEnable true .skip else .set false) [0, 0, 0, 1] = some c ∧
    (c.threads 1).items ≠ [] ∧ (∀ c', step c 1 ≠ some c') ∧ ∃ c', step c 0 = some c' := by
  refine ⟨_, rfl, ?_, ?_, ⟨_, rfl⟩⟩
  · simp [Config.put, Config.init]
  · intro c' h
    simp [step, Config.put, Config.init] at h

end DiffeRT2d.Props
