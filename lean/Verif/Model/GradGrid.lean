import Verif.Model.Grad

/-!
# Model of the gradients returned by the grid accumulations

`accumulate_on_receivers_grid_over_paths` and `accumulate_on_transmitters_grid_over_paths` with `grad=True` or
`value_and_grad=True`: here `jax.grad` and `jax.value_and_grad` are run on the program `facc` (`Model/Grad.lean`), whereas the
definitions of `Model/Scene.lean` leave the differentiation operator as a parameter. Simplifications: as in `Model/Grad.lean`, the objects of the
scene are walls and the paths are traced by the image method (which has no key).
-/

namespace DiffeRT2d
namespace Rev
open Classical Scene

/-- The two coordinates of the point the accumulation is differentiated with respect to. -/
inductive Coord where
  | x
  | y

/-- The argument of `facc` that is differentiated (`argnums`, scene.py:1617-1622, 1920-1925). -/
noncomputable def inputs (p : V2 F) : V2 (Rev Coord) := ⟨var p.x .x, var p.y .y⟩

/-- `jax.value_and_grad(facc)` at a point; `jax.grad(facc)` is its second component. -/
noncomputable def valueAndGrad (f : V2 (Rev Coord) → Except PyErr (Rev Coord)) (p : V2 F) : Except PyErr (F × V2 F) := do
  let r ← f (inputs p)
  pure (r.val, ⟨r.grad .x, r.grad .y⟩)

/-- The doubly vmapped function (scene.py:1617-1629, 1920-1932). -/
noncomputable def mapGrid (grad valueAndGrad : Bool) (f : V2 (Rev Coord) → Except PyErr (Rev Coord)) (grid : Grid (V2 F)) : Except PyErr GridOut := do
  let out ← grid.mapM fun row => row.mapM (Rev.valueAndGrad f)
  let z := out.map fun row => row.map Prod.fst
  let dz := out.map fun row => row.map Prod.snd
  if valueAndGrad then pure (.both z dz)
  else if grad then pure (.gradient dz)
  else pure (.value z)

/-- The wall, if the object is one. -/
def onlyWall : Obj → Option Wall
  | .wall w => some w
  | _ => none

/-- The objects of a scene of walls, which are constants of the differentiation (the error stands for the scenes that are not
modelled here). -/
noncomputable def constWalls (objects : List Obj) : Except PyErr (List (RWall Coord)) :=
  match objects.mapM onlyWall with
  | some ws => .ok (ws.map fun w => ⟨constV w.origin, constV w.dest⟩)
  | none => .error .attributeError

/-- `accumulate_on_receivers_grid_over_paths` (scene.py:1803-1953) with `reduce_all=False`. -/
noncomputable def accumulateOnReceiversGrid (s : Scene) (G : GraphLib) (o : Orders) (v : Rev.ValidOpts Coord) (grad valueAndGrad : Bool)
    (fun_ : List (V2 (Rev Coord)) → Rev Coord) (X Y : Grid F) : Except PyErr (List (String × GridOut)) := do
  let scene ← s.withReceivers [("rx", ⟨0, 0⟩)]
  let candidates ← scene.allPathCandidates G o
  let pairs ← scene.allTransmitterReceiverPairs
  let walls ← constWalls scene.objects
  let grid ← dstack X Y
  pairs.mapM fun pair => do
    let out ← mapGrid grad valueAndGrad (fun rxCoords => facc v walls fun_ (constV pair.1.2) rxCoords (const 0) candidates) grid
    pure (pair.1.1, out)

/-- `accumulate_on_transmitters_grid_over_paths` (scene.py:1489-1648) with `reduce_all=False`. -/
noncomputable def accumulateOnTransmittersGrid (s : Scene) (G : GraphLib) (o : Orders) (v : Rev.ValidOpts Coord) (grad valueAndGrad : Bool)
    (fun_ : List (V2 (Rev Coord)) → Rev Coord) (X Y : Grid F) : Except PyErr (List (String × GridOut)) := do
  let scene ← s.withTransmitters [("tx", ⟨0, 0⟩)]
  let candidates ← scene.allPathCandidates G o
  let pairs ← scene.allTransmitterReceiverPairs
  let walls ← constWalls scene.objects
  let grid ← dstack X Y
  pairs.mapM fun pair => do
    let out ← mapGrid grad valueAndGrad (fun txCoords => facc v walls fun_ txCoords (constV pair.2.2) (const 0) candidates) grid
    pure (pair.2.1, out)

end Rev
end DiffeRT2d
