import Verif.Model.Scene

/-!
# Model of the generators of `differt2d/scene.py`

`Verif/Model/Scene.lean` models a generator by the list of all it yields. Here the same generators are resumable machines: nothing is
computed when they are created; each `next(...)` runs the body up to the next `yield`, and reads the global setting at that time. After an
exception, or after its end, a generator only raises `StopIteration`.
-/

namespace DiffeRT2d

open Classical

/-- How the body of a generator reacts when it is resumed: it reaches a `yield`, its end, or an exception. -/
inductive Resume (σ α : Type*) where
  | yield (a : α) (s : σ)
  | ret
  | raise (e : PyErr)

/-- A Python generator object: suspended (before its first line, or at a `yield`), or finished. -/
inductive GenObj (σ : Type*) where
  | suspended (s : σ)
  | finished

/-- What `next(generator)` does in the caller. -/
inductive Next (α : Type*) where
  | item (a : α)
  | stopIteration
  | raised (e : PyErr)

/-- `next(generator)` (Python's generator protocol). -/
def GenObj.next {σ α : Type*} (body : σ → Resume σ α) : GenObj σ → Next α × GenObj σ
  | .finished => (.stopIteration, .finished)
  | .suspended s =>
    match body s with
    | .yield a s' => (.item a, .suspended s')
    | .ret => (.stopIteration, .finished)
    | .raise e => (.raised e, .finished)

/-- The generator object after `n` calls of `next`, the `i`-th of which happens in the surroundings `es i`. -/
def GenObj.after {σ α : Type*} (body : Env → σ → Resume σ α) (g : GenObj σ) (es : ℕ → Env) : ℕ → GenObj σ
  | 0 => g
  | n + 1 => ((g.after body es n).next (body (es n))).2

/-- The outcome of the call of `next` number `n` (from zero). -/
def GenObj.outcome {σ α : Type*} (body : Env → σ → Resume σ α) (g : GenObj σ) (es : ℕ → Env) (n : ℕ) : Next α :=
  ((g.after body es n).next (body (es n))).1

namespace Scene

/-- What remains to do in the loop nest of `all_paths`: (pair, candidate). -/
abbrev Todo := List (((String × V2 F) × (String × V2 F)) × List ℤ)

/-- One turn of the loop nest of `all_paths` (scene.py:1207-1228). -/
noncomputable def traceOne {Key : Type} (s : Scene) (split : Key → ℕ → List Key) (m : PathMethod Key) (v : ValidOpts)
    (key : Option Key) (e : ((String × V2 F) × (String × V2 F)) × List ℤ) : Except PyErr Traced := do
  let interacting ← s.getInteractingObjects e.2
  let path ← m.trace (splitKey split key).2 e.1.1.2 interacting e.1.2.2
  let valid ← s.validity v path e.2 interacting
  pure ⟨e.1.1.1, e.1.2.1, valid, path, e.2⟩

/-- Where `all_paths` is suspended: before its first line, or at its `yield` with the running key and the turns that remain. -/
inductive AllPathsState (Key : Type) where
  | start
  | loop (key : Option Key) (todo : Todo)

/-- The loop nest of `all_paths` (scene.py:1202-1228) up to the next `yield`. -/
noncomputable def allPathsLoop {Key : Type} (s : Scene) (split : Key → ℕ → List Key) (m : PathMethod Key) (v : ValidOpts) :
    Option Key → Todo → Resume (AllPathsState Key) Traced
  | _, [] => .ret
  | key, e :: rest =>
    match s.traceOne split m v key e with
    | .error err => .raise err
    | .ok x => .yield x (.loop (splitKey split key).1 rest)

/-- The body of the generator `all_paths` (scene.py:1192-1228), in the surroundings `E`. The candidates and the pairs are computed when the
generator is resumed for the first time. `m E` is the path class in the surroundings `E`. -/
noncomputable def allPathsBody {Key : Type} (s : Scene) (G : GraphLib) (split : Key → ℕ → List Key) (m : Env → PathMethod Key)
    (o : Orders) (v : ValidOpts) (key : Option Key) (E : Env) : AllPathsState Key → Resume (AllPathsState Key) Traced
  | .start =>
    match s.allPathCandidates G o with
    | .error err => .raise err
    | .ok candidates =>
      match s.allTransmitterReceiverPairs with
      | .error err => .raise err
      | .ok pairs =>
        s.allPathsLoop split (m E) { v with E := E } key (pairs.flatMap fun pair => candidates.map fun c => (pair, c))
  | .loop key todo => s.allPathsLoop split (m E) { v with E := E } key todo

/-- A tuple yielded by `all_valid_paths`. -/
abbrev ValidPath := String × String × Path × List ℤ

/-- The loop of `all_valid_paths` (scene.py:1243-1248) over a suspended `all_paths`, up to the next `yield`: each turn resumes `all_paths`
and asks `is_true(valid, approx=approx)`. -/
noncomputable def allValidLoop {Key : Type} (s : Scene) (split : Key → ℕ → List Key) (m : PathMethod Key) (v : ValidOpts) :
    Option Key → Todo → Resume (AllPathsState Key) ValidPath
  | _, [] => .ret
  | key, e :: rest =>
    match s.traceOne split m v key e with
    | .error err => .raise err
    | .ok x =>
      match isTrue v.E v.approx x.valid with
      | .error err => .raise err
      | .ok true => .yield (x.tx, x.rx, x.path, x.candidate) (.loop (splitKey split key).1 rest)
      | .ok false => s.allValidLoop split m v (splitKey split key).1 rest

/-- The body of the generator `all_valid_paths` (scene.py:1230-1248). Its state is that of the `all_paths` it loops over. -/
noncomputable def allValidBody {Key : Type} (s : Scene) (G : GraphLib) (split : Key → ℕ → List Key) (m : Env → PathMethod Key)
    (o : Orders) (v : ValidOpts) (key : Option Key) (E : Env) : AllPathsState Key → Resume (AllPathsState Key) ValidPath
  | .start =>
    match s.allPathCandidates G o with
    | .error err => .raise err
    | .ok candidates =>
      match s.allTransmitterReceiverPairs with
      | .error err => .raise err
      | .ok pairs =>
        s.allValidLoop split (m E) { v with E := E } key (pairs.flatMap fun pair => candidates.map fun c => (pair, c))
  | .loop key todo => s.allValidLoop split (m E) { v with E := E } key todo

/-- Where `results()` of `accumulate_over_paths` is suspended: the `all_paths` below it, and the tuple that `groupby` has already taken from
it because it opens the next group (`none`: at the start, or when `all_paths` has ended). -/
structure ResultsState (Key : Type) where
  inner : GenObj (AllPathsState Key)
  pending : Option Traced

/-- The inner loop of `results()` (scene.py:1314-1323) over one group of `groupby`, once `all_paths` is started: the group ends when
`all_paths` does, or with the first tuple of another pair, which `groupby` keeps. -/
noncomputable def groupLoop {Key : Type} (s : Scene) (split : Key → ℕ → List Key) (m : PathMethod Key) (v : ValidOpts) (fun_ : PathFun)
    (transmitter receiver : V2 F) (k : String × String) : F → Option Key → Todo → Except PyErr (F × ResultsState Key)
  | acc, _, [] => .ok (acc, ⟨.finished, none⟩)
  | acc, key, e :: rest =>
    match s.traceOne split m v key e with
    | .error err => .error err
    | .ok x =>
      if (x.tx, x.rx) = k then do
        let interacting ← s.getInteractingObjects x.candidate
        s.groupLoop split m v fun_ transmitter receiver k (acc + x.valid.toF * fun_ transmitter receiver x.path interacting)
          (splitKey split key).1 rest
      else .ok (acc, ⟨.suspended (.loop (splitKey split key).1 rest), some x⟩)

/-- The inner loop of `results()` (scene.py:1309-1325) from the first tuple of a group on. -/
noncomputable def resultsGroup {Key : Type} (s : Scene) (split : Key → ℕ → List Key) (m : PathMethod Key) (v : ValidOpts) (fun_ : PathFun)
    (x : Traced) (inner : GenObj (AllPathsState Key)) : Resume (ResultsState Key) (String × String × F) :=
  let outcome : Except PyErr (F × ResultsState Key) := do
    let transmitter ← s.transmitters.getItem x.tx
    let receiver ← s.receivers.getItem x.rx
    let interacting ← s.getInteractingObjects x.candidate
    let acc := 0 + x.valid.toF * fun_ transmitter receiver x.path interacting
    match inner with
    | .suspended (.loop key todo) => s.groupLoop split m v fun_ transmitter receiver (x.tx, x.rx) acc key todo
    | _ => .ok (acc, ⟨.finished, none⟩)
  match outcome with
  | .error err => .raise err
  | .ok (acc, st) => .yield (x.tx, x.rx, acc) st

/-- The body of the generator `results()` returned by `accumulate_over_paths` with `reduce_all=False` (scene.py:1305-1325). -/
noncomputable def resultsBody {Key : Type} (s : Scene) (G : GraphLib) (split : Key → ℕ → List Key) (m : Env → PathMethod Key)
    (o : Orders) (v : ValidOpts) (key : Option Key) (fun_ : PathFun) (E : Env) (st : ResultsState Key) :
    Resume (ResultsState Key) (String × String × F) :=
  match st.pending with
  | some x => s.resultsGroup split (m E) { v with E := E } fun_ x st.inner
  | none =>
    match st.inner.next (s.allPathsBody G split m o v key E) with
    | (.stopIteration, _) => .ret
    | (.raised err, _) => .raise err
    | (.item x, inner) => s.resultsGroup split (m E) { v with E := E } fun_ x inner

/-- `scene.all_paths(...)`, not yet resumed. -/
def allPathsGen (Key : Type) : GenObj (AllPathsState Key) := .suspended .start

/-- `scene.accumulate_over_paths(...)`, not yet resumed. -/
def resultsGen (Key : Type) : GenObj (ResultsState Key) := .suspended ⟨.suspended .start, none⟩

end Scene

end DiffeRT2d
