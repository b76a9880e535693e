import Verif.Model.Graph
import Verif.Model.Paths
import Mathlib.Data.List.ProdSigma

/-!
# Model of `differt2d/scene.py`

A `Point` is its coordinates (`V2 F`). Python dicts are association lists in insertion order, without repeated
keys (`PyDict`). Generators are modelled by the list of what they yield, or the exception that
iterating them raises.
-/

namespace DiffeRT2d

open Classical

/-- A Python `dict` with string keys (also `**kwargs`): items in insertion order. -/
abbrev PyDict (V : Type*) := List (String × V)

/-- `d[key] = value`: an existing key keeps its position, a new key goes last. -/
def PyDict.set {V : Type*} (d : PyDict V) (key : String) (value : V) : PyDict V :=
  if key ∈ d.map Prod.fst then d.map fun kv => if kv.1 = key then (key, value) else kv
  else d ++ [(key, value)]

/-- `{**d, **e}`. -/
def PyDict.merge {V : Type*} (d e : PyDict V) : PyDict V := e.foldl (fun d kv => d.set kv.1 kv.2) d

/-! ## PyTreeDict -/

/-- `PyTreeDict` (scene.py:72-84): the tuples `_keys` and `_values`. -/
structure PyTreeDict (V : Type*) where
  keys : List String
  values : List V

namespace PyTreeDict
variable {V : Type*}

/-- The constructor with `__check_init__` (scene.py:86-94). -/
def make (keys : List String) (values : List V) : Except PyErr (PyTreeDict V) :=
  if keys.length ≠ values.length then .error .valueError else .ok ⟨keys, values⟩

/-- `PyTreeDict.from_mapping` (scene.py:96-107). The lengths always agree. -/
def fromMapping (m : PyDict V) : PyTreeDict V := ⟨m.map Prod.fst, m.map Prod.snd⟩

/-- `PyTreeDict.__getitem__` (scene.py:109-114): first position of the key, `KeyError` if there is none. -/
def getItem (d : PyTreeDict V) (key : String) : Except PyErr V :=
  match d.keys.idxOf? key with
  | none => .error .keyError
  | some index =>
    match d.values[index]? with
    | none => .error .indexError
    | some v => .ok v

/-- `PyTreeDict.__iter__` (scene.py:116-117). -/
def iter (d : PyTreeDict V) : List String := d.keys

/-- `PyTreeDict.__len__` (scene.py:119-120). -/
def len (d : PyTreeDict V) : ℕ := d.keys.length

/-- `key in d` (inherited from `collections.abc.Mapping`: is `d[key]` free of `KeyError`?). -/
def contains (d : PyTreeDict V) (key : String) : Bool :=
  match d.getItem key with
  | .error .keyError => false
  | _ => true

/-- `d.items()` (inherited from `Mapping`: `(key, d[key])` for each key of the iteration). -/
def items (d : PyTreeDict V) : Except PyErr (PyDict V) :=
  d.iter.mapM fun key => (d.getItem key).map fun v => (key, v)

end PyTreeDict

/-! ## Scene -/

/-- `Scene` (scene.py:178-193). -/
structure Scene where
  transmitters : PyTreeDict (V2 F)
  receivers : PyTreeDict (V2 F)
  objects : List Obj

namespace Scene

/-- `Scene(transmitters=..., receivers=..., objects=...)` (scene.py:181-193). -/
def make (transmitters receivers : PyDict (V2 F)) (objects : List Obj) : Scene :=
  ⟨.fromMapping transmitters, .fromMapping receivers, objects⟩

/-- Binding of `**kwargs` in a method: the name `self` is already taken (`TypeError`). -/
def bindKwargs {V : Type*} (kwargs : PyDict V) : Except PyErr (PyDict V) :=
  if "self" ∈ kwargs.map Prod.fst then .error .typeError else .ok kwargs

/-- `Scene.with_transmitters` (scene.py:195-207). -/
def withTransmitters (s : Scene) (kwargs : PyDict (V2 F)) : Except PyErr Scene := do
  let transmitters ← bindKwargs kwargs
  pure { s with transmitters := .fromMapping transmitters }

/-- `Scene.with_receivers` (scene.py:209-221). -/
def withReceivers (s : Scene) (kwargs : PyDict (V2 F)) : Except PyErr Scene := do
  let receivers ← bindKwargs kwargs
  pure { s with receivers := .fromMapping receivers }

/-- `Scene.with_objects` (scene.py:223-231). -/
def withObjects (s : Scene) (objects : List Obj) : Scene := { s with objects := objects }

/-- `Scene.filter_objects` (scene.py:233-283). -/
def filterObjects (s : Scene) (filterSpec : Obj → Bool) : Scene :=
  { s with objects := s.objects.filter filterSpec }

/-- `Scene.update_transmitters` (scene.py:285-300). -/
def updateTransmitters (s : Scene) (kwargs : PyDict (V2 F)) : Except PyErr Scene := do
  let transmitters ← bindKwargs kwargs
  let old ← s.transmitters.items
  pure { s with transmitters := .fromMapping (old.merge transmitters) }

/-- `Scene.update_receivers` (scene.py:302-317). -/
def updateReceivers (s : Scene) (kwargs : PyDict (V2 F)) : Except PyErr Scene := do
  let receivers ← bindKwargs kwargs
  let old ← s.receivers.items
  pure { s with receivers := .fromMapping (old.merge receivers) }

/-- `Scene.add_objects` (scene.py:319-328). -/
def addObjects (s : Scene) (objects : List Obj) : Scene := s.withObjects (s.objects ++ objects)

/-- The loop of `rename_transmitters`/`rename_receivers` (scene.py:370-373, 386-389);
`names.get(name, name)` is a lookup with default. -/
def renamed (names : PyDict String) (items : PyDict (V2 F)) : PyDict (V2 F) :=
  items.foldl (fun d kv => d.set ((names.lookup kv.1).getD kv.1) kv.2) []

/-- `Scene.rename_transmitters` (scene.py:361-375). -/
def renameTransmitters (s : Scene) (kwargs : PyDict String) : Except PyErr Scene := do
  let names ← bindKwargs kwargs
  let items ← s.transmitters.items
  s.withTransmitters (renamed names items)

/-- `Scene.rename_receivers` (scene.py:377-391). -/
def renameReceivers (s : Scene) (kwargs : PyDict String) : Except PyErr Scene := do
  let names ← bindKwargs kwargs
  let items ← s.receivers.items
  s.withReceivers (renamed names items)

/-- `Scene.get_object` (scene.py:330-345): `jax.lax.switch` clamps the index; no branch is a `ValueError`;
with several branches their outputs must have one structure (`TypeError`). Objects of one class are
assumed to have the same array shapes. -/
def getObject (s : Scene) (index : ℤ) : Except PyErr Obj :=
  match s.objects with
  | [] => .error .valueError
  | o :: os =>
    if os.all (fun o' => o'.cls == o.cls) then
      .ok ((o :: os).getD (min index.toNat os.length) o)
    else .error .typeError

/-- Python indexing `xs[i]` of a sequence: negative indices count from the end, `IndexError` out of
range. -/
def pyIndex {α : Type*} (xs : List α) (i : ℤ) : Except PyErr α :=
  let j := if i < 0 then i + xs.length else i
  if j < 0 then .error .indexError
  else match xs[j.toNat]? with
    | none => .error .indexError
    | some x => .ok x

/-- `Scene.get_interacting_objects` (scene.py:1136-1154). -/
def getInteractingObjects (s : Scene) (candidate : List ℤ) : Except PyErr (List Obj) :=
  if s.objects.length < 2 ∨ s.objects.all (fun o => some o.cls == s.objects.head?.map Obj.cls) then
    candidate.mapM s.getObject
  else candidate.mapM (pyIndex s.objects)

/-- Componentwise minimum/maximum of bounding boxes (`dstack`, then `min`/`max` over the last axis,
scene.py:1029-1036). -/
noncomputable def mergeBoxes (b : BBox) (bs : List BBox) : BBox :=
  ⟨⟨F.minOf b.lo.x (bs.map fun b => b.lo.x), F.minOf b.lo.y (bs.map fun b => b.lo.y)⟩,
   ⟨F.maxOf b.hi.x (bs.map fun b => b.hi.x), F.maxOf b.hi.y (bs.map fun b => b.hi.y)⟩⟩

/-- `Scene.bounding_box` (scene.py:1023-1036); `dstack` of nothing is a `ValueError`. -/
noncomputable def bbox (s : Scene) : Except PyErr BBox := do
  let txs ← s.transmitters.items
  let rxs ← s.receivers.items
  let boxes := txs.map (fun kv => pointBBox kv.2) ++ rxs.map (fun kv => pointBBox kv.2) ++
    s.objects.map Obj.bbox
  match boxes with
  | [] => .error .valueError
  | b :: bs => .ok (mergeBoxes b bs)

/-- Body of `get_closest_transmitter`/`get_closest_receiver` (scene.py:1050-1053, 1067-1070): `vstack` of
nothing is a `ValueError`. -/
noncomputable def closestOf (items : PyDict (V2 F)) (coords : V2 F) : Except PyErr (String × F) :=
  match closestPoint (items.map Prod.snd) coords with
  | none => .error .valueError
  | some (iMin, distance) =>
    match items[iMin]? with
    | none => .error .indexError
    | some kv => .ok (kv.1, distance)

/-- `Scene.get_closest_transmitter` (scene.py:1038-1053). -/
noncomputable def getClosestTransmitter (s : Scene) (coords : V2 F) : Except PyErr (String × F) := do
  closestOf (← s.transmitters.items) coords

/-- `Scene.get_closest_receiver` (scene.py:1055-1070). -/
noncomputable def getClosestReceiver (s : Scene) (coords : V2 F) : Except PyErr (String × F) := do
  closestOf (← s.receivers.items) coords

/-- `Scene.all_transmitter_receiver_pairs` (scene.py:1072-1088): `itertools.product`. -/
def allTransmitterReceiverPairs (s : Scene) : Except PyErr (List ((String × V2 F) × (String × V2 F))) := do
  let txs ← s.transmitters.items
  let rxs ← s.receivers.items
  pure (txs ×ˢ rxs)

/-- Which candidates are requested: `min_order`, `max_order`, `order`, `filter_objects` with their default
values. A predicate is a pure function of the object (under `filter_jit` the coordinates it sees are
traced: a predicate that branches on them raises, which is not modelled). -/
structure Orders where
  minOrder : ℤ := 0
  maxOrder : ℤ := 1
  order : Option ℤ := none
  filter : Option (Obj → Bool) := none

/-- `Scene.all_path_candidates` (scene.py:1090-1134). -/
def allPathCandidates (s : Scene) (G : GraphLib) (o : Orders) : Except PyErr (List (List ℤ)) :=
  let numNodes := s.objects.length
  let filterNodes :=
    match o.filter with
    | none => none
    | some keep => some ((s.objects.zipIdx.filter fun oi => !keep oi.1).map Prod.snd)
  DiffeRT2d.allPathCandidates G numNodes o.minOrder o.maxOrder o.order filterNodes

/-- A path class with its `path_cls_kwargs`: `path_cls.from_tx_objects_rx(tx, objects, rx, key=key)`. -/
structure PathMethod (Key : Type) where
  trace : Option Key → V2 F → List Obj → V2 F → Except PyErr Path

/-- Keyword arguments of `Path.is_valid` (geometry.py:910-921) and the environment read when tracing. -/
structure ValidOpts where
  E : Env
  tol : F := VALID_TOL
  patch : F := DEFAULT_PATCH
  approx : Option Bool := none
  kw : ActKw

/-- The validity of a path in the scene (scene.py:1221-1226, 1600-1605). -/
noncomputable def validity (s : Scene) (v : ValidOpts) (path : Path) (candidate : List ℤ)
    (interacting : List Obj) : Except PyErr Truthy :=
  path.isValid v.E (s.objects.map Obj.interact) candidate (interacting.map Obj.interact) v.tol v.patch
    v.approx v.kw

/-- A tuple yielded by `all_paths`. -/
structure Traced where
  tx : String
  rx : String
  valid : Truthy
  path : Path
  candidate : List ℤ

/-- `key, key_path = jax.random.split(key, 2)` or `key_path = None` (scene.py:1209-1212). -/
def splitKey {Key : Type} (split : Key → ℕ → List Key) : Option Key → Option Key × Option Key
  | none => (none, none)
  | some key => ((split key 2)[0]?, (split key 2)[1]?)

/-- The loop nest of `all_paths` (scene.py:1202-1228), flattened to a list of (pair, candidate); the key is
threaded through it. -/
noncomputable def tracePaths {Key : Type} (s : Scene) (split : Key → ℕ → List Key) (m : PathMethod Key)
    (v : ValidOpts) : Option Key → List (((String × V2 F) × (String × V2 F)) × List ℤ) →
    Except PyErr (List Traced)
  | _, [] => .ok []
  | key, (((txKey, transmitter), (rxKey, receiver)), candidate) :: rest => do
    let interacting ← s.getInteractingObjects candidate
    let keys := splitKey split key
    let path ← m.trace keys.2 transmitter interacting receiver
    let valid ← s.validity v path candidate interacting
    let others ← s.tracePaths split m v keys.1 rest
    pure (⟨txKey, rxKey, valid, path, candidate⟩ :: others)

/-- `Scene.all_paths` (scene.py:1156-1228). -/
noncomputable def allPaths {Key : Type} (s : Scene) (G : GraphLib) (split : Key → ℕ → List Key)
    (m : PathMethod Key) (o : Orders) (v : ValidOpts) (key : Option Key) : Except PyErr (List Traced) := do
  let candidates ← s.allPathCandidates G o
  let pairs ← s.allTransmitterReceiverPairs
  s.tracePaths split m v key (pairs.flatMap fun pair => candidates.map fun c => (pair, c))

/-- The loop of `all_valid_paths` (scene.py:1243-1248). -/
noncomputable def keepTrue (E : Env) (approx : Option Bool) :
    List Traced → Except PyErr (List (String × String × Path × List ℤ))
  | [] => .ok []
  | t :: ts => do
    let keep ← isTrue E approx t.valid
    let rest ← keepTrue E approx ts
    pure (if keep then (t.tx, t.rx, t.path, t.candidate) :: rest else rest)

/-- `Scene.all_valid_paths` (scene.py:1230-1248): `(tx, rx, path, candidate)` for the tuples with
`is_true(valid, approx=approx)`; the same `approx` is passed to `all_paths`. -/
noncomputable def allValidPaths {Key : Type} (s : Scene) (G : GraphLib) (split : Key → ℕ → List Key)
    (m : PathMethod Key) (o : Orders) (v : ValidOpts) (key : Option Key) :
    Except PyErr (List (String × String × Path × List ℤ)) := do
  let all ← s.allPaths G split m o v key
  keepTrue v.E v.approx all

/-- `fun(transmitter, receiver, path, interacting_objects, *fun_args, **fun_kwargs)`. -/
abbrev PathFun := V2 F → V2 F → Path → List Obj → F

/-- `itertools.groupby`: consecutive elements with equal keys. -/
def groupby {α κ : Type*} [DecidableEq κ] (f : α → κ) : List α → List (κ × List α)
  | [] => []
  | a :: as =>
    match groupby f as with
    | [] => [(f a, [a])]
    | (k, g) :: rest => if k = f a then (k, a :: g) :: rest else (f a, [a]) :: (k, g) :: rest

/-- The inner loop of `accumulate_over_paths` (scene.py:1314-1323). -/
noncomputable def accumulateGroup (s : Scene) (fun_ : PathFun) (transmitter receiver : V2 F) :
    F → List Traced → Except PyErr F
  | acc, [] => .ok acc
  | acc, t :: ts => do
    let interacting ← s.getInteractingObjects t.candidate
    s.accumulateGroup fun_ transmitter receiver
      (acc + t.valid.toF * fun_ transmitter receiver t.path interacting) ts

/-- `results()` of `accumulate_over_paths` (scene.py:1305-1325). -/
noncomputable def accumulateResults (s : Scene) (fun_ : PathFun) (paths : List Traced) :
    Except PyErr (List (String × String × F)) :=
  (groupby (fun t : Traced => (t.tx, t.rx)) paths).mapM fun kg => do
    let transmitter ← s.transmitters.getItem kg.1.1
    let receiver ← s.receivers.getItem kg.1.2
    let acc ← s.accumulateGroup fun_ transmitter receiver 0 kg.2
    pure (kg.1.1, kg.1.2, acc)

/-- `Scene.accumulate_over_paths` (scene.py:1272-1334) with `reduce_all=False`. -/
noncomputable def accumulateOverPaths {Key : Type} (s : Scene) (G : GraphLib) (split : Key → ℕ → List Key)
    (m : PathMethod Key) (o : Orders) (v : ValidOpts) (key : Option Key) (fun_ : PathFun) :
    Except PyErr (List (String × String × F)) := do
  s.accumulateResults fun_ (← s.allPaths G split m o v key)

/-- `Scene.accumulate_over_paths` (scene.py:1327-1333) with `reduce_all=True`. -/
noncomputable def accumulateOverPathsAll {Key : Type} (s : Scene) (G : GraphLib)
    (split : Key → ℕ → List Key) (m : PathMethod Key) (o : Orders) (v : ValidOpts) (key : Option Key)
    (fun_ : PathFun) : Except PyErr F := do
  let results ← s.accumulateOverPaths G split m o v key fun_
  pure (results.foldl (fun Z r => Z + r.2.2) 0)

/-! ## Grids -/

/-- `facc` (scene.py:1589-1615, 1892-1918): both versions, for one transmitter and one receiver position.
`transmitter_cls`/`receiver_cls` is the default `Point`, so that `transmitter_cls(xy=coords)` is the
coordinates; the path classes take points and coordinates alike. -/
noncomputable def facc {Key : Type} (s : Scene) (m : PathMethod Key) (v : ValidOpts) (fun_ : PathFun)
    (transmitter receiver : V2 F) : F → List (List ℤ × Option Key) → Except PyErr F
  | acc, [] => .ok acc
  | acc, (candidate, key) :: rest => do
    let interacting ← s.getInteractingObjects candidate
    let path ← m.trace key transmitter interacting receiver
    let valid ← s.validity v path candidate interacting
    s.facc m v fun_ transmitter receiver
      (acc + valid.toF * fun_ transmitter receiver path interacting) rest

/-- An array of shape `(m, n)` (rows), of floats or of vectors (shape `(m, n, 2)`). -/
abbrev Grid (α : Type*) := List (List α)

/-- `jnp.dstack((X, Y))` (arrays of one shape; `TypeError` otherwise). -/
def dstack (X Y : Grid F) : Except PyErr (Grid (V2 F)) :=
  if X.map List.length = Y.map List.length then
    .ok (List.zipWith (List.zipWith fun x y => ⟨x, y⟩) X Y)
  else .error .typeError

/-- What a grid accumulation returns for one transmitter (receiver). -/
inductive GridOut where
  | value (z : Grid F)
  | gradient (dz : Grid (V2 F))
  | both (z : Grid F) (dz : Grid (V2 F))

/-- The doubly vmapped function (scene.py:1617-1629, 1920-1932). `grad` is the differentiation operator
(`jax.grad`); it applies to the total function `x ↦ facc x`, whose exceptions do not depend on the
coordinates and are raised first. (For a grid without points JAX still traces `facc` once; the model
does not.) -/
noncomputable def mapGrid (gradOp : (V2 F → F) → V2 F → V2 F) (grad valueAndGrad : Bool)
    (f : V2 F → Except PyErr F) (grid : Grid (V2 F)) : Except PyErr GridOut := do
  let z ← grid.mapM fun row => row.mapM f
  let total : V2 F → F := fun x => match f x with
    | .ok y => y
    | .error _ => F.nan
  let dz := grid.map fun row => row.map (gradOp total)
  if valueAndGrad then pure (.both z dz)
  else if grad then pure (.gradient dz)
  else pure (.value z)

/-- The keys of a grid accumulation, one per candidate (scene.py:1584-1587, 1887-1890). -/
def gridKeys {Key : Type} (split : Key → ℕ → List Key) (key : Option Key) (n : ℕ) : List (Option Key) :=
  match key with
  | some key => (split key n).map some
  | none => List.replicate n none

/-- `accumulate_on_receivers_grid_over_paths` (scene.py:1803-1953) with `reduce_all=False`: one result per
transmitter. -/
noncomputable def accumulateOnReceiversGrid {Key : Type} (s : Scene) (G : GraphLib)
    (split : Key → ℕ → List Key) (m : PathMethod Key) (o : Orders) (v : ValidOpts) (key : Option Key)
    (gradOp : (V2 F → F) → V2 F → V2 F) (grad valueAndGrad : Bool) (fun_ : PathFun) (X Y : Grid F) :
    Except PyErr (List (String × GridOut)) := do
  let scene ← s.withReceivers [("rx", ⟨0, 0⟩)]
  let candidates ← scene.allPathCandidates G o
  let pairs ← scene.allTransmitterReceiverPairs
  let keys := gridKeys split key candidates.length
  let grid ← dstack X Y
  pairs.mapM fun pair => do
    let out ← mapGrid gradOp grad valueAndGrad
      (fun rxCoords => scene.facc m v fun_ pair.1.2 rxCoords 0 (candidates.zip keys)) grid
    pure (pair.1.1, out)

/-- `accumulate_on_transmitters_grid_over_paths` (scene.py:1489-1648) with `reduce_all=False`: one result per
receiver. -/
noncomputable def accumulateOnTransmittersGrid {Key : Type} (s : Scene) (G : GraphLib)
    (split : Key → ℕ → List Key) (m : PathMethod Key) (o : Orders) (v : ValidOpts) (key : Option Key)
    (gradOp : (V2 F → F) → V2 F → V2 F) (grad valueAndGrad : Bool) (fun_ : PathFun) (X Y : Grid F) :
    Except PyErr (List (String × GridOut)) := do
  let scene ← s.withTransmitters [("tx", ⟨0, 0⟩)]
  let candidates ← scene.allPathCandidates G o
  let pairs ← scene.allTransmitterReceiverPairs
  let keys := gridKeys split key candidates.length
  let grid ← dstack X Y
  pairs.mapM fun pair => do
    let out ← mapGrid gradOp grad valueAndGrad
      (fun txCoords => scene.facc m v fun_ txCoords pair.2.2 0 (candidates.zip keys)) grid
    pure (pair.2.1, out)

/-- `Z + p` for the running sum `Z`, which starts as the scalar `0.0` (`none`). -/
noncomputable def addGrid {α : Type*} (add : α → α → α) (zero : α) (Z : Option (Grid α)) (p : Grid α) :
    Option (Grid α) :=
  match Z with
  | none => some (p.map fun row => row.map (add zero))
  | some Z => some (List.zipWith (List.zipWith add) Z p)

/-- The result of `reduce_all=True` (scene.py:1637-1647, 1942-1952): the sums of the value parts and of the
gradient parts of the results that have one; `none` is the scalar `0.0` that is left when there is
nothing to sum. -/
noncomputable def reduceGrids (results : List (String × GridOut)) :
    Option (Grid F) × Option (Grid (V2 F)) :=
  results.foldl (fun Z r =>
    match r.2 with
    | .value p => (addGrid (· + ·) 0 Z.1 p, Z.2)
    | .gradient dp => (Z.1, addGrid (· + ·) ⟨0, 0⟩ Z.2 dp)
    | .both p dp => (addGrid (· + ·) 0 Z.1 p, addGrid (· + ·) ⟨0, 0⟩ Z.2 dp)) (none, none)

/-- `accumulate_on_receivers_grid_over_paths` (scene.py:1941-1952) with `reduce_all=True`. -/
noncomputable def accumulateOnReceiversGridAll {Key : Type} (s : Scene) (G : GraphLib)
    (split : Key → ℕ → List Key) (m : PathMethod Key) (o : Orders) (v : ValidOpts) (key : Option Key)
    (gradOp : (V2 F → F) → V2 F → V2 F) (grad valueAndGrad : Bool) (fun_ : PathFun) (X Y : Grid F) :
    Except PyErr (Option (Grid F) × Option (Grid (V2 F))) := do
  pure (reduceGrids (← s.accumulateOnReceiversGrid G split m o v key gradOp grad valueAndGrad fun_ X Y))

/-- `accumulate_on_transmitters_grid_over_paths` (scene.py:1636-1647) with `reduce_all=True`. -/
noncomputable def accumulateOnTransmittersGridAll {Key : Type} (s : Scene) (G : GraphLib)
    (split : Key → ℕ → List Key) (m : PathMethod Key) (o : Orders) (v : ValidOpts) (key : Option Key)
    (gradOp : (V2 F → F) → V2 F → V2 F) (grad valueAndGrad : Bool) (fun_ : PathFun) (X Y : Grid F) :
    Except PyErr (Option (Grid F) × Option (Grid (V2 F))) := do
  pure (reduceGrids (← s.accumulateOnTransmittersGrid G split m o v key gradOp grad valueAndGrad fun_ X Y))

end Scene

/-! ## The path classes as methods -/

/-- `path_cls=ImagePath` (the default); the key is ignored. -/
noncomputable def imageMethod (Key : Type) : Scene.PathMethod Key :=
  ⟨fun _ tx objs rx => ImagePath.fromTxObjectsRx tx objs rx⟩

/-- `path_cls=Path`; the key is ignored. -/
noncomputable def plainMethod (Key : Type) : Scene.PathMethod Key :=
  ⟨fun _ tx objs rx => .ok (Path.fromTxObjectsRx tx (objs.map Obj.interact) rx)⟩

/-- `path_cls=FermatPath`; without a key the type check of the arguments fails. -/
noncomputable def fermatMethod {Key : Type} (E : Env) (M : Minimizer Key) (many : ℕ := 1) :
    Scene.PathMethod Key :=
  ⟨fun key tx objs rx => match key with
    | some key => FermatPath.fromTxObjectsRx E M tx (objs.map Obj.interact) rx key many
    | none => .error .typeCheckError⟩

/-- `path_cls=MinPath`; without a key the type check of the arguments fails. -/
noncomputable def minMethod {Key : Type} (M : Minimizer Key) (many : ℕ := 1) : Scene.PathMethod Key :=
  ⟨fun key tx objs rx => match key with
    | some key => MinPath.fromTxObjectsRx M tx (objs.map Obj.interact) rx key many
    | none => .error .typeCheckError⟩

end DiffeRT2d
