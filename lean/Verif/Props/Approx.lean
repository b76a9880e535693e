import Verif.Lemmas.ApproxMachine
import Verif.Lemmas.Jit

/-! # Properties C07–C09, C70: the approximation setting -/

namespace DiffeRT2d.Props
open Approx

/-! ## C07 — nested contexts restore the setting, also on exceptions -/

/-- After a `with enable_approx(b)` / `disable_approx(b)` block, whatever the body did (including
raising), the setting and the lock are what they were before; the body ran with the setting `b`
(resp. `not b`), and its exception, if any, propagates. -/
theorem C07_restore (b : Bool) (body : Prog) (s : St) :
    (exec (.withEnable b body) s).st = s ∧
    (exec (.withDisable b body) s).st = s ∧
    (exec (.withEnable b body) s).log = (exec body ⟨b, s.depth + 1⟩).log ∧
    (exec (.withEnable b body) s).raised = (exec body ⟨b, s.depth + 1⟩).raised ∧
    exec (.withDisable b body) s = exec (.withEnable (!b) body) s := by
  have h : ∀ c, (exec body ⟨c, s.depth + 1⟩).st.depth = s.depth + 1 := fun c => exec_depth body _
  refine ⟨?_, ?_, rfl, rfl, rfl⟩ <;> simp [exec, h]

/-- The first thing the body reads is `b` (resp. `not b`). -/
theorem C07_entry (b : Bool) (k : Bool → Prog) (s : St) :
    (∃ l, (exec (.withEnable b (.read k)) s).log = b :: l) ∧
    (∃ l, (exec (.withDisable b (.read k)) s).log = (!b) :: l) := ⟨⟨_, rfl⟩, ⟨_, rfl⟩⟩

/-- Reading right after a block (caught exception or not) gives the value before the block. -/
theorem C07_after (b : Bool) (body : Prog) (k : Bool → Prog) (s : St) :
    (∃ l l', (exec (.seq (.tryExcept (.withEnable b body) .skip) (.read k)) s).log
      = l ++ s.setting :: l') := by
  have hst := (C07_restore b body s).1
  simp only [exec] at hst
  refine ⟨(exec (.tryExcept (.withEnable b body) .skip) s).log, (exec (k s.setting) s).log, ?_⟩
  have h2 : (exec (.tryExcept (.withEnable b body) .skip) s).st = s ∧
      (exec (.tryExcept (.withEnable b body) .skip) s).raised = false := by
    have := (C07_restore b body s).1
    rw [exec]
    split
    · simp [exec]; simpa [exec] using this
    · rename_i h; simp only [Bool.not_eq_true] at h; exact ⟨this, h⟩
  rw [exec]
  simp only [h2, Bool.false_eq_true, if_false]
  rfl

/-- A whole program in which every `set_approx` is inside some block leaves the setting unchanged. -/
theorem C07_balanced (p : Prog) (hp : Guarded p) (s : St) : (exec p s).st = s := by
  induction p generalizing s with
  | skip => rfl
  | seq p q ihp ihq =>
    simp only [exec]; split
    · exact ihp hp.1 s
    · simp [ihp hp.1 s, ihq hp.2 s]
  | set b => exact hp.elim
  | withEnable b body _ => exact (C07_restore b body s).1
  | withDisable b body _ => exact (C07_restore b body s).2.1
  | read k ih => simp only [exec]; exact ih _ (hp _) s
  | raise => rfl
  | tryExcept p h ihp ihh =>
    simp only [exec]; split
    · simp [ihp hp.1 s, ihh hp.2 s]
    · exact ihp hp.1 s

/-- Non-vacuity: `set_approx` inside a block that is left by an exception, caught outside. -/
example : (exec (.tryExcept (.withEnable true (.seq (.set false) .raise)) (.withDisable true (.set true))) ⟨false, 0⟩).st = ⟨false, 0⟩ :=
  C07_balanced (.tryExcept (.withEnable true (.seq (.set false) .raise)) (.withDisable true (.set true))) ⟨trivial, trivial⟩ _

/-- The same result in the step-by-step machine used for C08: a thread running alone inside any
configuration whose lock is free executes its program completely, to the same setting, with the lock
given back. -/
theorem C07_machine (p : Prog) (setting : Bool) (progs : ℕ → Prog) (t : ℕ) :
    ∃ n c, runs (Config.init setting fun u => if u = t then p else progs u) (List.replicate n t) = some c ∧
      c.setting = (exec p ⟨setting, 0⟩).st.setting ∧ c.owner = none ∧
      (c.threads t).items = [] ∧ (c.threads t).raising = (exec p ⟨setting, 0⟩).raised ∧
      ∀ u, u ≠ t → c.threads u = ⟨[.stmt (progs u)], false⟩ := by
  obtain ⟨n, hn⟩ := alone_exec p (Config.init setting fun u => if u = t then p else progs u) t []
    (Or.inl ⟨rfl, rfl⟩)
  have h0 := put_same (Config.init setting fun u => if u = t then p else progs u) t
  have h1 : (Config.init setting fun u => if u = t then p else progs u).threads t
      = ⟨[.stmt p], false⟩ := by simp [Config.init]
  rw [h1] at h0
  rw [h0] at hn
  refine ⟨n, _, hn, rfl, rfl, ?_, ?_, ?_⟩
  · rw [put_self]
  · rw [put_self]; rfl
  · intro u hu; rw [put_other _ _ hu]; simp [Config.init, hu]

/-- Non-vacuity: a nested program with an exception inside a disabled context. -/
example : exec (.withEnable true (.seq (.set false) (.seq (.withDisable true .raise) (.set true)))) ⟨false, 0⟩
    = ⟨[], ⟨false, 0⟩, true⟩ := by decide

/-! ## C08 — threads -/

/-- Mutual exclusion: in every configuration reachable under any schedule, while thread `t` is inside
a `with enable_approx` block, a step of any other thread leaves the setting unchanged. -/
theorem C08_exclusion_partial (setting : Bool) (progs : ℕ → Prog) (ts : List ℕ) (c c' : Config)
    (hc : runs (Config.init setting progs) ts = some c) (t u : ℕ) (htu : u ≠ t) (saved : Bool)
    (hin : Item.restore saved ∈ (c.threads t).items) (hs : step c u = some c') :
    c'.setting = c.setting := by
  by_contra hne
  have hinv := inv_runs (inv_init setting progs) hc
  have h1 := step_setting hinv hs hne
  have h2 := rels_pos_of_restore (hinv.shape t) hin
  have h3 := hinv.other t (by rw [h1]; simpa using htu)
  omega

/-- Non-vacuity: thread 0 is inside its block, thread 1 has just read the setting. -/
example : ∃ c c', runs (Config.init false fun _ => .withEnable true .skip) [0, 0, 0] = some c ∧ step c 1 = some c' ∧ c'.setting = c.setting :=
  ⟨_, _, rfl, rfl, C08_exclusion_partial false (fun _ => .withEnable true .skip) [0, 0, 0] _ _ rfl 0 1 (by decide) false
    (by simp [Config.put, Config.init]) rfl⟩

/-- Restoration holds under every schedule in which no thread *starts* a `with` block (reads the
setting to be restored later) while another thread is inside one: whenever the lock is free again,
and in particular when all threads are finished, the setting is the initial one.
Missing for the full claim: schedules with such a racy read, for which it is false
(`C08_restore_refuted`). -/
theorem C08_restore_partial (setting : Bool) (progs : ℕ → Prog) (hg : ∀ t, Guarded (progs t))
    (ts : List ℕ) (c : Config) (hcl : CleanRun (Config.init setting progs) ts)
    (hc : runs (Config.init setting progs) ts = some c) :
    (c.owner = none → c.setting = setting) ∧
    ((∀ t, (c.threads t).items = []) → c.setting = setting) := by
  have h := inv2_runs (inv2_init setting progs hg) hcl hc
  refine ⟨h.quiet, fun hd => h.quiet ?_⟩
  cases ho : c.owner with
  | none => rfl
  | some t => have := h.own t ho; rw [hd t] at this; simp [rels] at this; omega

/-- Non-vacuity: two threads one after the other; the setting is restored at the end. -/
example : ∃ c, runs (Config.init false fun _ => .withEnable true .skip) [0, 0, 0, 0, 0, 0, 1, 1, 1, 1, 1, 1] = some c ∧ c.setting = false := by
  refine ⟨_, rfl, (C08_restore_partial false (fun _ => .withEnable true .skip) (fun _ => trivial) [0, 0, 0, 0, 0, 0, 1, 1, 1, 1, 1, 1] _ ?_ rfl).1 rfl⟩
  iterate 12 refine cleanRun_cons rfl (fun _ => by first | exact Or.inl rfl | exact Or.inr rfl) ?_
  exact trivial

/-- The full claim is false: two threads, each running `with enable_approx(True): pass` with the
setting initially False, can end with the setting True. -/
theorem C08_restore_refuted :
    ∃ (progs : ℕ → Prog) (ts : List ℕ) (c : Config), (∀ t, Guarded (progs t)) ∧
      runs (Config.init false progs) ts = some c ∧ (∀ t, t < 2 → (c.threads t).items = []) ∧
      (∀ t, 2 ≤ t → progs t = .skip) ∧ c.owner = none ∧ c.setting = true := by
  refine ⟨fun t => if t < 2 then .withEnable true .skip else .skip,
    -- 0 reads False, locks, writes True; 1 reads True; 0 leaves (False); 1 enters and leaves (True)
    [0, 0, 0, 1, 0, 0, 0, 1, 1, 1, 1, 1], _, ?_, rfl, ?_, ?_, rfl, rfl⟩
  · intro t; dsimp only; split <;> trivial
  · intro t ht
    have : t = 0 ∨ t = 1 := by omega
    rcases this with rfl | rfl <;> rfl
  · intro t ht; simp [show ¬ t < 2 by omega]

/-- Non-vacuity: a clean schedule of two threads, one after the other. -/
example : ∃ c, CleanRun (Config.init false fun _ => .withEnable true .skip)
      [0, 0, 0, 0, 0, 0, 1, 1, 1, 1, 1, 1] ∧
    runs (Config.init false fun _ => .withEnable true .skip) [0, 0, 0, 0, 0, 0, 1, 1, 1, 1, 1, 1]
      = some c := by
  refine ⟨_, ?_, rfl⟩
  iterate 12 refine cleanRun_cons rfl (fun _ => by first | exact Or.inl rfl | exact Or.inr rfl) ?_
  exact trivial

/-! ## C09 — JIT and the setting -/

/-- A call with explicit `approx`, after any history: every comparison it makes uses exactly that
mode (and there is one mode per comparison). -/
theorem C09_explicit (tbl : ℕ → Fn) (setting : Bool) (h : List Event)
    (hh : ∀ f a, Event.call f a ∈ h → f.WF tbl) (f : Fn) (hf : f.WF tbl) (b : Bool) :
    (call f (some b) ((JState.init setting).events h)).2 = List.replicate f.leaves b := by
  have hinv : ∀ (h : List Event) (s : JState), (∀ f a, Event.call f a ∈ h → f.WF tbl) → JInv tbl s →
      JInv tbl (s.events h) := by
    intro h
    induction h with
    | nil => intro s _ hs; exact hs
    | cons e h ih =>
      intro s hw hs
      refine ih (s.event e) (fun f a hm => hw f a (by simp [hm])) ?_
      cases e with
      | setting b => exact hs
      | jit d => exact hs
      | clear p =>
        intro i a ms hm
        simp only [JState.event] at hm
        split at hm
        · simp at hm
        · exact hs i a ms hm
      | call f a => exact (call_inv f a s hs (hw f a (by simp))).1
  have h0 : JInv tbl (JState.init setting) := by intro i a ms hm; simp [JState.init] at hm
  obtain ⟨_, h2, h3⟩ := call_inv f (some b) _ (hinv h _ hh h0) hf
  exact List.eq_replicate_iff.mpr ⟨h2, h3 b rfl⟩

/-- Non-vacuity: a composite function called with `approx=True` after it was compiled under both settings. -/
example : (call (.node 2 [.leaf 0, .leaf 1]) (some true) ((JState.init false).events
    [.call (.node 2 [.leaf 0, .leaf 1]) none, .setting true, .call (.leaf 0) (some false), .setting false])).2 = [true, true] :=
  C09_explicit (fun i => if i = 2 then .node 2 [.leaf 0, .leaf 1] else .leaf i) false _
    (by
      intro f a hf
      simp at hf
      rcases hf with ⟨rfl, -⟩ | ⟨rfl, -⟩ <;> simp [Fn.WF, WFAll]) (.node 2 [.leaf 0, .leaf 1]) (by simp [Fn.WF, WFAll]) true

/-- First call with `approx=None` (no compiled version for this key): the current setting is used. -/
theorem C09_first (s : JState) (i : ℕ) (h : s.cache i none = none) :
    (call (.leaf i) none s).2 = [s.setting] := by
  unfold call; simp [JState.lookup, h]

/-- Non-vacuity: the first call, after a change of the setting. -/
example : (call (.leaf 3) none ((JState.init false).event (.setting true))).2 = [true] := C09_first _ 3 rfl

/-- There is no compiled version at the start, after a cache clear, and as long as no function using
that key is called. -/
theorem C09_fresh (s : JState) (i : ℕ) (a : Option Bool) (h : List Event)
    (hm : ∀ f b, Event.call f b ∈ h → f.mentions i = false)
    (h0 : s.cache i a = none ∨ ∃ p, p i = true ∧ ∃ h', h = .clear p :: h') :
    (s.events h).cache i a = none ∧ ∀ b, (JState.init b).cache i a = none := by
  refine ⟨?_, fun _ => rfl⟩
  have key : ∀ (h : List Event) (s : JState), (∀ f b, Event.call f b ∈ h → f.mentions i = false) →
      s.cache i a = none → (s.events h).cache i a = none := by
    intro h
    induction h with
    | nil => intro s _ hs; exact hs
    | cons e h ih =>
      intro s hw hs
      refine ih (s.event e) (fun f a hm => hw f a (by simp [hm])) ?_
      cases e with
      | setting b => exact hs
      | jit d => exact hs
      | clear p => simp only [JState.event]; split <;> simp [hs]
      | call f b => exact call_fresh f b s hs (hw f b (by simp))
  rcases h0 with h0 | ⟨p, hp, h', rfl⟩
  · exact key h s hm h0
  · refine key h' _ (fun f b hf => hm f b (by simp [hf])) ?_
    simp [JState.event, hp]

/-- Non-vacuity: calls of another function, and a cleared cache. -/
example : ((JState.init false).events [.call (.leaf 1) none, .setting true]).cache 3 none = none ∧
    (((JState.init false).event (.call (.leaf 3) none)).events [.clear (fun i => i == 3)]).cache 3 none = none :=
  ⟨(C09_fresh (JState.init false) 3 none _ (by intro f b hf; simp at hf; rw [hf.1]; simp [Fn.mentions]) (.inl rfl)).1,
    (C09_fresh _ 3 none [.clear (fun i => i == 3)] (by simp) (.inr ⟨_, by simp, _, rfl⟩)).1⟩

/-- Frozen: once called (with jit enabled), the same call returns the same modes after any
history of setting changes, context switches and other calls, until its cache is cleared. -/
theorem C09_frozen (s : JState) (hd : s.jitDisabled = false) (f : Fn) (a : Option Bool) (h : List Event)
    (hc : ∀ p, Event.clear p ∈ h → p f.id = false)
    (hd' : ((call f a s).1.events h).jitDisabled = false) :
    (call f a ((call f a s).1.events h)).2 = (call f a s).2 := by
  have key : ∀ (h : List Event) (s : JState) ms, (∀ p, Event.clear p ∈ h → p f.id = false) →
      s.cache f.id a = some ms → (s.events h).cache f.id a = some ms := by
    intro h
    induction h with
    | nil => intro s _ _ hs; exact hs
    | cons e h ih =>
      intro s ms hw hs
      refine ih (s.event e) ms (fun p hm => hw p (by simp [hm])) ?_
      cases e with
      | setting b => exact hs
      | jit d => exact hs
      | clear p => simp [JState.event, hw p (by simp), hs]
      | call f' b => exact call_mono f' b s hs
  have := key h _ _ hc (call_stored f a s hd)
  rw [call_cached f a _ hd' this]

/-- Non-vacuity: compiled under False, called again after `set_approx(True)` and calls of other functions. -/
example : (call (.leaf 3) none ((call (.leaf 3) none (JState.init false)).1.events [.setting true, .call (.leaf 1) none, .clear (fun i => i == 1)])).2
    = [false] :=
  C09_frozen (JState.init false) rfl (.leaf 3) none _ (by intro p hp; simp at hp; subst hp; rfl) rfl

/-- With jit disabled, the current setting (or the explicit mode) is used everywhere. -/
theorem C09_disable_jit (s : JState) (hd : s.jitDisabled = true) (f : Fn) (a : Option Bool) :
    (call f a s).2 = List.replicate f.leaves (a.getD s.setting) := by
  rw [call_nojit f a s hd]

/-- Non-vacuity: the version compiled under False is ignored while jit is disabled. -/
example : (call (.node 2 [.leaf 0, .leaf 1]) none ((JState.init false).events [.call (.leaf 0) none, .setting true, .jit true])).2 = [true, true] :=
  C09_disable_jit _ rfl (.node 2 [.leaf 0, .leaf 1]) none

/-- Non-vacuity: the documented behaviour (enable, call, disable, call: still enabled). -/
example : (call (.leaf 7) none ((JState.init false).events
    [.setting true, .call (.leaf 7) none, .setting false])).2 = [true] ∧
  (call (.leaf 7) none ((JState.init false).events
    [.setting true, .call (.leaf 7) none, .setting false, .clear (fun i => i == 7)])).2 = [false] := by
  constructor <;> rfl

/-! ## C70 — one mode per composite call -/

/-- False in general: a composite function called with `approx=None` can mix modes, when one of the
functions it calls was compiled earlier under the other setting. -/
theorem C70_mixed_refuted :
    ∃ (tbl : ℕ → Fn) (h : List Event) (f : Fn), f.WF tbl ∧
      (∀ g a, Event.call g a ∈ h → g.WF tbl) ∧
      (call f none ((JState.init false).events h)).2 = [false, true] := by
  refine ⟨fun i => if i = 2 then .node 2 [.leaf 0, .leaf 1] else .leaf i,
    [.call (.leaf 0) none, .setting true], .node 2 [.leaf 0, .leaf 1], ?_, ?_, rfl⟩
  · simp [Fn.WF, WFAll]
  · intro g a hg
    simp at hg
    rw [hg.1]; simp [Fn.WF]

/-- It holds when every version compiled with `approx=None` was compiled under the current setting
(e.g. right after clearing all caches). -/
theorem C70_uniform_partial (s : JState)
    (h : ∀ i ms, s.cache i none = some ms → ∀ m ∈ ms, m = s.setting) (f : Fn) :
    ∀ m ∈ (call f none s).2, m = s.setting := (call_uniform f s h).1

/-- Non-vacuity: a composite function right after the caches were cleared. -/
example : ∀ m ∈ (call (.node 2 [.leaf 0, .leaf 1]) none ((JState.init false).events [.call (.leaf 0) none, .setting true, .clear fun _ => true])).2,
    m = true :=
  C70_uniform_partial _ (by intro i ms h; simp [JState.events, JState.event] at h) _

example : ∀ i ms, (JState.init true).cache i none = some ms → ∀ m ∈ ms, m = true := by
  simp [JState.init]

end DiffeRT2d.Props
