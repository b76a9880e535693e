import Verif.Model.Presets
import Mathlib.Analysis.SpecialFunctions.Log.Basic
import Mathlib.Analysis.SpecialFunctions.Trigonometric.Basic

/-!
# Model of `docs/source/notebooks/cost20120_helsinki_model.ipynb`

The notebook trains a network that samples path candidates. Line numbers are those of the `.ipynb` file. The two multilayer perceptrons and the
generators of `jax.random` are uninterpreted: the first are any functions, the second are constrained by contracts where it matters. Not modelled:
`jit`, the plots (except which paths they show), the initial weights.
-/

namespace DiffeRT2d
open Classical

namespace F

/-- `jnp.exp`. -/
noncomputable def exp : F → F
  | nan => nan
  | ninf => fin 0
  | pinf => pinf
  | fin x => fin (Real.exp x)

/-- `jnp.log`. -/
noncomputable def log : F → F
  | nan => nan
  | ninf => nan
  | pinf => pinf
  | fin x => if x < 0 then nan else if x = 0 then ninf else fin (Real.log x)

end F

/-- The generators of `jax.random` used by the notebook: `split(key, n)`, `uniform(key, (), minval, maxval)`, `uniform(key, (n,), minval, maxval)`,
`uniform(key, (n, 2))`, `randint(key, (), minval, maxval)`, `choice(key, a, (n,), replace=False)`, `categorical(key, logits)`. -/
structure Jax (Key : Type) where
  split : Key → ℕ → List Key
  uniform0 : Key → F → F → F
  uniform1 : Key → ℕ → F → F → List F
  uniform2 : Key → ℕ → List (V2 F)
  randint : Key → ℤ → ℤ → ℤ
  choice : Key → List ℤ → ℕ → List ℤ
  categorical : Key → List F → ℕ

/-! ## Training data -/

/-- The parameters of `random_samples` with their defaults (notebook:366-374). -/
structure SampleOpts where
  minRatio : F := 0.20
  maxRatio : F := 0.40
  minNumWalls : ℤ := 4
  minAngle : F := F.fin (-0.1 * Real.pi)
  maxAngle : F := F.fin (0.1 * Real.pi)

/-- `scene.objects[wall_index].rotate(angle=angle, around=center)` (notebook:427): only objects with two ends have `rotate`. -/
noncomputable def rotateObject (s : Scene) (center : V2 F) (wallIndex : ℤ) (angle : F) : Except PyErr Wall := do
  let o ← Scene.pyIndex s.objects wallIndex
  match o.asWall with
  | some w => pure (w.rotate angle center)
  | none => .error .attributeError

/-- One turn of the loop of `random_samples` (notebook:392-433): the sample and the next key. A negative number of walls, or more walls than there
are, is a `ValueError` (of `choice`). -/
noncomputable def sampleStep {Key : Type} (J : Jax Key) (o : SampleOpts) (key : Key) : Except PyErr (List (V2 F) × Key) :=
  match J.split key 6 with
  | [key, keyRatio, keyTxRx, keyNumWalls, keyWalls, keyAngles] => do
    let ratio := J.uniform0 keyRatio o.minRatio o.maxRatio
    let points := J.uniform2 keyTxRx 2
    let scene := Scene.squareSceneWithObstacle ratio
    let center := (← scene.bbox).center
    let indices : List ℤ := (List.range scene.objects.length).map fun (i : ℕ) => (i : ℤ)
    let numWalls := J.randint keyNumWalls o.minNumWalls (scene.objects.length + 1)
    if numWalls < 0 ∨ (scene.objects.length : ℤ) < numWalls then .error .valueError
    else
      let wallIndices := J.choice keyWalls indices numWalls.toNat
      let angles := J.uniform1 keyAngles numWalls.toNat o.minAngle o.maxAngle
      let objects ← (wallIndices.zip angles).mapM fun wa => rotateObject scene center wa.1 wa.2
      pure (points ++ objects.flatMap (fun w => [w.origin, w.dest]), key)
  | _ => .error .valueError

/-- The first `n` samples of `random_samples(key=key)` (notebook:366-433): a generator that never stops by itself. -/
noncomputable def randomSamples {Key : Type} (J : Jax Key) (o : SampleOpts) : ℕ → Key → Except PyErr (List (List (V2 F)))
  | 0, _ => .ok []
  | n + 1, key => do
    let r ← sampleStep J o key
    let rest ← randomSamples J o n r.2
    pure (r.1 :: rest)

/-- `[Wall(xys=wall) for wall in xys.reshape(-1, 2, 2)]` (notebook:447-448): an odd number of rows cannot be reshaped (`TypeError`). -/
def wallRows : List (V2 F) → Except PyErr (List Wall)
  | [] => .ok []
  | [_] => .error .typeError
  | a :: b :: rest => do
    let ws ← wallRows rest
    pure (⟨a, b⟩ :: ws)

/-- `sample_2_scene` (notebook:437-450). Fewer than two rows are not in its type. -/
def sample2Scene (xys : List (V2 F)) : Except PyErr Scene :=
  match xys with
  | tx :: rx :: rest => do
    let walls ← wallRows rest
    pure (Scene.make [("tx", tx)] [("rx", rx)] (walls.map Obj.wall))
  | _ => .error .typeCheckError

/-! ## Reward -/

/-- `jnp.take(a, i, axis=0)` for one index, with the default mode or a given `fill_value`: negative indices count from the end, out of bounds the
result is filled (NaN by default). -/
def takeFill {α : Type*} (a : List α) (fill : α) (i : ℤ) : α :=
  let j := if i < 0 then i + a.length else i
  if j < 0 then fill else a.getD j.toNat fill

/-- A wall filled with NaN. -/
def Wall.nan : Wall := ⟨V2.nan, V2.nan⟩

/-- `reward` (notebook:561-586), with the defaults of `is_valid`; `kw` are the default activation and slope. `jnp.stack` of nothing is a `ValueError`;
objects without two ends have no `xys` (`AttributeError`). -/
noncomputable def reward (E : Env) (candidate : List ℤ) (scene : Scene) : Except PyErr F := do
  let tx ← scene.transmitters.getItem "tx"
  let rx ← scene.receivers.getItem "rx"
  match scene.objects.mapM Obj.asWall with
  | none => .error .attributeError
  | some xys =>
    if xys = [] then .error .valueError
    else do
      let interacting := candidate.map fun i => Obj.wall (takeFill xys Wall.nan i)
      let path ← ImagePath.fromTxObjectsRx tx interacting rx
      let valid ← scene.validity { E := E, kw := {} } path candidate interacting
      pure valid.toF

/-! ## Flow model -/

/-- `FlowModel` (notebook:851-893): `embed` is `wall_2_embeddings`, from 4 numbers to `size`, and `exp ∘ raw` is `embeddings_2_flow`
(`final_activation=jnp.exp`). -/
structure FlowModel where
  size : ℕ
  embed : List F → List F
  raw : List F → F

/-- The array of shape `(num_walls, order)` that encodes a path candidate, as a list of rows. -/
abbrev OneHot := List (List F)

/-- `jnp.zeros((num_walls, order))` (notebook:1035, 1180). -/
noncomputable def OneHot.zeros (numWalls order : ℕ) : OneHot := List.replicate numWalls (List.replicate order 0)

/-- `state.at[i, j].set(1.0)` (notebook:1028, 1145): out of bounds updates are dropped. -/
noncomputable def OneHot.set (state : OneHot) (i j : ℕ) : OneHot := state.modify i fun row => row.set j 1

/-- `rows, _ = jnp.nonzero(state, size=size, fill_value=fill)` (notebook:950, 1149): the row indices of the nonzero elements, *in row-major order*,
cut or filled to `size`. -/
noncomputable def OneHot.nonzeroRows (state : OneHot) (size : ℕ) (fill : ℤ) : List ℤ :=
  let rows := state.zipIdx.flatMap fun (ri : List F × ℕ) => (ri.1.filter fun x => !F.eq x 0).map fun _ => (ri.2 : ℤ)
  (rows ++ List.replicate size fill).take size

/-- `jnp.sum(x, axis=0)` of an array of shape `(_, size)`. -/
noncomputable def sumRows (size : ℕ) (rows : List (List F)) : List F := rows.foldl vadd (List.replicate size 0)

/-- `jnp.mean(x)` of a vector. -/
noncomputable def meanOf (xs : List F) : F := F.sum xs / F.fin xs.length

/-- `jnp.std(x)` of a vector. -/
noncomputable def stdOf (xs : List F) : F := F.sqrt (meanOf (xs.map fun x => (x - meanOf xs) * (x - meanOf xs)))

/-- The data normalization (notebook:921-926), each coordinate on its own. -/
noncomputable def normalizeRows (xys : List (V2 F)) : List (V2 F) :=
  let xs := xys.map V2.x
  let ys := xys.map V2.y
  let eps : F := 1e-5
  xys.map fun p => ⟨(p.x - meanOf xs) / (stdOf xs + eps), (p.y - meanOf ys) / (stdOf ys + eps)⟩

/-- `xys.reshape(_, 4)`: two points per row. -/
def rows4 : List (V2 F) → List (List F)
  | a :: b :: rest => [a.x, a.y, b.x, b.y] :: rows4 rest
  | _ => []

/-- `x.at[i].set(v)`: negative indices count from the end, out of bounds updates are dropped. -/
def atSet (x : List F) (i : ℤ) (v : F) : List F :=
  let j := if i < 0 then i + x.length else i
  if j < 0 then x else x.set j.toNat v

/-- `FlowModel.__call__` (notebook:895-981). The number of walls of the state must be that of the scene (type checked), of which there is at least
one (asserted). -/
noncomputable def FlowModel.call (net : FlowModel) (state : OneHot) (wallIndex : ℤ) (xys : List (V2 F)) : Except PyErr (List F) :=
  if xys.length ≠ 2 + state.length * 2 then .error .typeCheckError
  else if xys.length < 4 then .error .assertionError
  else
    let order := (state.headD []).length
    let xys := normalizeRows xys
    let txRx := (rows4 (xys.take 2)).headD []
    let walls := rows4 (xys.drop 2)
    let wallsEmbeddings := walls.map net.embed
    let sceneEmbeddings := sumRows net.size wallsEmbeddings
    let wallIndices := state.nonzeroRows order state.length
    let stateEmbeddings := sumRows net.size (wallIndices.map (takeFill wallsEmbeddings (List.replicate net.size 0)))
    let flow := walls.map fun wall => F.exp (net.raw (txRx ++ stateEmbeddings ++ sceneEmbeddings ++ wall))
    .ok (atSet flow wallIndex 0)

/-! ## Sampling -/

/-- `wall_index = jax.random.categorical(key=key, logits=jnp.log(p))` with `p = flow / jnp.sum(flow)` (notebook:1024-1026, 1136-1142). -/
noncomputable def chooseWall {Key : Type} (J : Jax Key) (key : Key) (flow : List F) : ℕ :=
  let total := F.sum flow
  J.categorical key ((flow.map fun f => f / total).map F.log)

/-- The scan of `Model.__call__` (notebook:1016-1042): the walls chosen. -/
noncomputable def sampleScan {Key : Type} (J : Jax Key) (net : FlowModel) (xys : List (V2 F)) :
    List (Key × ℕ) → List F → OneHot → Except PyErr (List ℤ)
  | [], _, _ => .ok []
  | (key, currentOrder) :: rest, parent, state => do
    let wallIndex := chooseWall J key parent
    let state := state.set wallIndex currentOrder
    let flow ← net.call state wallIndex xys
    let others ← sampleScan J net xys rest flow state
    pure ((wallIndex : ℤ) :: others)

/-- `Model.__call__` (notebook:984-1044). -/
noncomputable def sampleCandidate {Key : Type} (J : Jax Key) (net : FlowModel) (xys : List (V2 F)) (order : ℕ) (key : Key) : Except PyErr (List ℤ) := do
  let numWalls := (xys.length - 2) / 2
  let state := OneHot.zeros numWalls order
  let parent ← net.call state numWalls xys
  sampleScan J net xys ((J.split key order).zip (List.range order)) parent state

/-! ## Loss -/

/-- `scan_fn` of `loss` (notebook:1124-1169), iterated: the flow mismatch and the candidate. Under `jnp.where` both cases are computed. -/
noncomputable def lossScan {Key : Type} (E : Env) (J : Jax Key) (net : FlowModel) (xys : List (V2 F)) (scene : Scene) (numWalls order : ℕ) :
    List (Key × ℕ) → F → List F → OneHot → Except PyErr (F × List ℤ)
  | [], mismatch, _, _ => .ok (mismatch, [])
  | (key, currentOrder) :: rest, mismatch, parent, state => do
    let wallIndex := chooseWall J key parent
    let state := state.set wallIndex currentOrder
    let flow ← net.call state wallIndex xys
    let predPathCandidate := state.nonzeroRows order numWalls
    let r ← reward E predPathCandidate scene
    let edge := takeFill parent F.nan wallIndex
    let final := edge - r
    let inner := edge - F.sum flow
    let mismatch := mismatch + F.where_ ((currentOrder : ℤ) == (order : ℤ) - 1) (final * final) (inner * inner)
    let others ← lossScan E J net xys scene numWalls order rest mismatch flow state
    pure (others.1, (wallIndex : ℤ) :: others.2)

/-- `batch_fn` of `loss` (notebook:1174-1196): the mismatch of one candidate, and the candidate. -/
noncomputable def lossOne {Key : Type} (E : Env) (J : Jax Key) (net : FlowModel) (xys : List (V2 F)) (scene : Scene) (order : ℕ) (key : Key) :
    Except PyErr (F × List ℤ) := do
  let numWalls := (xys.length - 2) / 2
  let state := OneHot.zeros numWalls order
  let parent ← net.call state numWalls xys
  lossScan E J net xys scene numWalls order ((J.split key order).zip (List.range order)) 0 parent state

/-- `loss` (notebook:1100-1243) without the plot: the accumulated loss and the candidates generated. -/
noncomputable def flowLoss {Key : Type} (E : Env) (J : Jax Key) (net : FlowModel) (xys : List (V2 F)) (batchSize order : ℕ) (key : Key) :
    Except PyErr (F × List (List ℤ)) := do
  let scene ← sample2Scene xys
  let batch ← (J.split key batchSize).mapM fun key => lossOne E J net xys scene order key
  pure (batch.foldl (fun loss m => loss + m.1) 0, batch.map Prod.snd)

end DiffeRT2d
