import Verif.Model.Float

/-!
# Model of the mutable part of `differt2d/logic.py`: `ENABLE_APPROX`, its lock, its context managers,
and its interaction with the JIT cache.
-/

namespace DiffeRT2d.Approx

/-- Python statements, as far as they concern the approximation setting.
`read k` reads `logic.ENABLE_APPROX` (directly, or through `approx=None`) and continues with
whatever the program does with the value; `tryExcept` is `try: p except: h`. -/
inductive Prog where
  | skip
  | seq (p q : Prog)
  | set (b : Bool)
  | withEnable (b : Bool) (body : Prog)
  | withDisable (b : Bool) (body : Prog)
  | read (k : Bool → Prog)
  | raise
  | tryExcept (p h : Prog)

/-- State of the module globals as seen by a single thread: `ENABLE_APPROX` (logic.py:58) and the
recursion depth of `_LOCK` (logic.py:61). -/
structure St where
  setting : Bool
  depth : ℕ
  deriving DecidableEq

/-- Result of a run: values read so far, final state, and whether an exception is propagating. -/
structure Res where
  log : List Bool
  st : St
  raised : Bool
  deriving DecidableEq

/-- Single-threaded big-step semantics.
* `set`: `set_approx` (logic.py:68-91): `with _LOCK: ENABLE_APPROX = enable`.
* `withEnable`: `enable_approx` (logic.py:188-196): `state = ENABLE_APPROX; with _LOCK: try:
  ENABLE_APPROX = enable; yield; finally: ENABLE_APPROX = state`. An exception of the body is thrown
  into the generator at `yield`, the `finally` runs, the lock is released, the exception propagates.
* `withDisable`: `disable_approx` (logic.py:199-215): `with enable_approx(not disable): yield`. -/
def exec : Prog → St → Res
  | .skip, s => ⟨[], s, false⟩
  | .seq p q, s =>
    let r := exec p s
    if r.raised then r
    else let r' := exec q r.st; ⟨r.log ++ r'.log, r'.st, r'.raised⟩
  | .set b, s =>
    let s1 : St := { s with depth := s.depth + 1 }
    let s2 : St := { s1 with setting := b }
    ⟨[], { s2 with depth := s2.depth - 1 }, false⟩
  | .withEnable b body, s =>
    let state := s.setting
    let s1 : St := { s with depth := s.depth + 1 }
    let r := exec body { s1 with setting := b }
    let s2 : St := { r.st with setting := state }
    ⟨r.log, { s2 with depth := s2.depth - 1 }, r.raised⟩
  | .withDisable d body, s =>
    -- enable_approx(not disable)
    let state := s.setting
    let s1 : St := { s with depth := s.depth + 1 }
    let r := exec body { s1 with setting := !d }
    let s2 : St := { r.st with setting := state }
    ⟨r.log, { s2 with depth := s2.depth - 1 }, r.raised⟩
  | .read k, s => let r := exec (k s.setting) s; ⟨s.setting :: r.log, r.st, r.raised⟩
  | .raise, s => ⟨[], s, true⟩
  | .tryExcept p h, s =>
    let r := exec p s
    if r.raised then let r' := exec h r.st; ⟨r.log ++ r'.log, r'.st, r'.raised⟩
    else r

/-! ## Threads -/

/-- What a thread still has to do, innermost first.
* `stmt p`: run a statement
* `acq b saved body`: in `enable_approx`, `state = ENABLE_APPROX` has been executed (`saved`), the
  thread is about to enter `with _LOCK` (logic.py:191)
* `wr b saved body`: the lock is held, about to execute `ENABLE_APPROX = enable` (logic.py:193)
* `restore saved`: the `finally` clause (logic.py:196)
* `rel`: leaving `with _LOCK`
* `setAcq b` / `setWr b`: the two steps of `set_approx` (logic.py:90-91)
* `handler h`: an enclosing `try/except`. -/
inductive Item where
  | stmt (p : Prog)
  | acq (b saved : Bool) (body : Prog)
  | wr (b saved : Bool) (body : Prog)
  | restore (saved : Bool)
  | rel
  | setAcq (b : Bool)
  | setWr (b : Bool)
  | handler (h : Prog)

/-- One thread: pending items, and whether an exception is propagating. -/
structure Thread where
  items : List Item
  raising : Bool

/-- Shared state: `ENABLE_APPROX`, the owner of the re-entrant `_LOCK` with its depth, all threads
(identified by natural numbers; there may be any number). -/
structure Config where
  setting : Bool
  owner : Option ℕ
  depth : ℕ
  threads : ℕ → Thread

/-- Replace thread `t`. -/
def Config.put (c : Config) (t : ℕ) (th : Thread) : Config :=
  { c with threads := fun u => if u = t then th else c.threads u }

/-- One atomic step of thread `t` (`none`: the thread is finished or blocked on the lock).
Every access to the shared variable and every lock operation is one atomic step (the GIL). -/
def step (c : Config) (t : ℕ) : Option Config :=
  let th := c.threads t
  match th.items with
  | [] => none
  | it :: rest =>
    let run (items : List Item) : Thread := ⟨items, false⟩
    if th.raising then
      match it with
      | .restore s => some ({ c with setting := s }.put t ⟨rest, true⟩)
      | .rel => some ({ c with owner := if c.depth ≤ 1 then none else c.owner,
                               depth := c.depth - 1 }.put t ⟨rest, true⟩)
      | .handler h => some (c.put t (run (.stmt h :: rest)))
      | .stmt _ => some (c.put t ⟨rest, true⟩)
      -- cannot occur: these items are only ever on top of a thread that is not raising
      | .acq _ _ _ | .wr _ _ _ | .setAcq _ | .setWr _ => none
    else
      match it with
      | .stmt .skip => some (c.put t (run rest))
      | .stmt (.seq p q) => some (c.put t (run (.stmt p :: .stmt q :: rest)))
      | .stmt (.set b) => some (c.put t (run (.setAcq b :: rest)))
      | .stmt (.withEnable b body) =>
        -- `state = ENABLE_APPROX`, before the lock is taken
        some (c.put t (run (.acq b c.setting body :: rest)))
      | .stmt (.withDisable d body) => some (c.put t (run (.acq (!d) c.setting body :: rest)))
      | .stmt (.read k) => some (c.put t (run (.stmt (k c.setting) :: rest)))
      | .stmt .raise => some (c.put t ⟨rest, true⟩)
      | .stmt (.tryExcept p h) => some (c.put t (run (.stmt p :: .handler h :: rest)))
      | .acq b s body =>
        if c.owner = none ∨ c.owner = some t then
          some ({ c with owner := some t, depth := c.depth + 1 }.put t
            (run (.wr b s body :: .rel :: rest)))
        else none
      | .wr b s body => some ({ c with setting := b }.put t (run (.stmt body :: .restore s :: rest)))
      | .restore s => some ({ c with setting := s }.put t (run rest))
      | .rel => some ({ c with owner := if c.depth ≤ 1 then none else c.owner,
                               depth := c.depth - 1 }.put t (run rest))
      | .setAcq b =>
        if c.owner = none ∨ c.owner = some t then
          some ({ c with owner := some t, depth := c.depth + 1 }.put t (run (.setWr b :: .rel :: rest)))
        else none
      | .setWr b => some ({ c with setting := b }.put t (run rest))
      | .handler _ => some (c.put t (run rest))

/-- Initial configuration: thread `t` is to run `progs t`. -/
def Config.init (setting : Bool) (progs : ℕ → Prog) : Config :=
  ⟨setting, none, 0, fun t => ⟨[.stmt (progs t)], false⟩⟩

/-- `c` can evolve to `c'` by the schedule `ts` (the thread taking each successive step). -/
def runs (c : Config) : List ℕ → Option Config
  | [] => some c
  | t :: ts => (step c t).bind fun c' => runs c' ts

/-! ## JIT cache -/

/-- A jitted function applied to arguments of a fixed signature. `id` identifies the function
together with everything else in its cache key but `approx` (signature, static arguments, call form).
A `leaf` resolves `approx` itself (`if approx is None: approx = ENABLE_APPROX`, e.g. logic.py:333);
a `node` passes its own `approx` on to jitted functions (e.g. geometry.py:167-171). -/
inductive Fn where
  | leaf (id : ℕ)
  | node (id : ℕ) (calls : List Fn)

/-- Cache key part of a function. -/
def Fn.id : Fn → ℕ
  | .leaf i => i
  | .node i _ => i

/-- The setting, whether `jax.disable_jit()` is active, and the traced versions: for
each `(function+signature, approx)` the modes that were compiled in (one per leaf, in order). -/
structure JState where
  setting : Bool
  jitDisabled : Bool
  cache : ℕ → Option Bool → Option (List Bool)

/-- No compiled function yet. -/
def JState.init (setting : Bool) : JState := ⟨setting, false, fun _ _ => none⟩

/-- Remember a trace (not while jit is disabled). -/
def JState.store (s : JState) (i : ℕ) (a : Option Bool) (ms : List Bool) : JState :=
  if s.jitDisabled then s
  else { s with cache := fun j b => if j = i ∧ b = a then some ms else s.cache j b }

/-- What the cache offers for a key (`none` while jit is disabled). -/
def JState.lookup (s : JState) (i : ℕ) (a : Option Bool) : Option (List Bool) :=
  if s.jitDisabled then none else s.cache i a

mutual
/-- Calling a jitted function: reuse the compiled version for the same key, otherwise trace the
Python code (which reads the current setting, and calls jitted functions in turn) and remember it.
Returns the modes actually used. -/
def call : Fn → Option Bool → JState → JState × List Bool
  | .leaf i, a, s =>
    match s.lookup i a with
    | some ms => (s, ms)
    | none =>
      let m := match a with
        | none => s.setting
        | some b => b
      (s.store i a [m], [m])
  | .node i fs, a, s =>
    match s.lookup i a with
    | some ms => (s, ms)
    | none =>
      let r := callAll fs a s
      (r.1.store i a r.2, r.2)
/-- Calling the functions of a list one after the other. -/
def callAll : List Fn → Option Bool → JState → JState × List Bool
  | [], _, s => (s, [])
  | f :: fs, a, s =>
    let r := call f a s
    let r' := callAll fs a r.1
    (r'.1, r.2 ++ r'.2)
end

/-- Events of a history: changing the setting (`set_approx`, entering or leaving a context),
toggling `disable_jit`, clearing the cache of the functions selected by `p`, calling a function. -/
inductive Event where
  | setting (b : Bool)
  | jit (disabled : Bool)
  | clear (p : ℕ → Bool)
  | call (f : Fn) (a : Option Bool)

/-- Effect of an event. -/
def JState.event (s : JState) : Event → JState
  | .setting b => { s with setting := b }
  | .jit d => { s with jitDisabled := d }
  | .clear p => { s with cache := fun i a => if p i then none else s.cache i a }
  | .call f a => (Approx.call f a s).1

/-- Effect of a history. -/
def JState.events (s : JState) (h : List Event) : JState := h.foldl JState.event s

end DiffeRT2d.Approx
