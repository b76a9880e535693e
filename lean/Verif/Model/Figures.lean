import Verif.Model.Interactive
import Verif.Model.PowerOptimize

/-!
# Model of the figures of `examples/` and `papers/`

`examples/plot_power_map.py`, the map of `examples/plot_power_optimize.py`, `papers/eucap2024/plot_power_map.py`, `plot_zero_gradient.py` and
`plot_optimize_steps.py`, `papers/joss/plot_optimize_steps.py`: the arrays that are given to `pcolormesh`, and the two runs of
`papers/eucap2024/plot_optimize_steps.py`. Not modelled: colours, annotations, the files. The differentiated maps have the simplifications of `Model/Grad.lean` (walls,
image method).
-/

namespace DiffeRT2d
open Classical Scene

namespace Figures

/-- An array whose shape is `*batch`: a scalar or a grid. -/
inductive Arr where
  | scalar (x : F)
  | grid (z : Grid F)

/-- `p / P0` (examples/plot_power_optimize.py:72). -/
noncomputable def Arr.normalized : Arr → Arr
  | .scalar x => .scalar (x / P0)
  | .grid z => .grid (z.map fun row => row.map (· / P0))

/-- `jnp.minimum`, with the broadcast of scalars (grids of different shapes, for which JAX raises, do not occur: all maps are evaluated on one grid). -/
noncomputable def Arr.minimum : Arr → Arr → Arr
  | .scalar x, .scalar y => .scalar (F.min x y)
  | .scalar x, .grid z => .grid (z.map fun row => row.map (F.min x))
  | .grid z, .scalar y => .grid (z.map fun row => row.map (F.min · y))
  | .grid z, .grid w => .grid (List.zipWith (List.zipWith F.min) z w)

/-- `-x`. -/
noncomputable def Arr.neg : Arr → Arr
  | .scalar x => .scalar (-x)
  | .grid z => .grid (z.map fun row => row.map (- ·))

/-- `objective_function` (examples/plot_power_optimize.py:63-75, papers/eucap2024/plot_optimize_steps.py:20-28). -/
noncomputable def objectiveFunction (powers : List Arr) : Arr :=
  powers.foldl (fun acc p => acc.minimum p.normalized) (.scalar F.pinf)

/-- `loss` (examples/plot_power_optimize.py:78-88, papers/eucap2024/plot_optimize_steps.py:31-40). -/
noncomputable def loss {Key : Type} (s : Scene) (G : GraphLib) (split : Key → ℕ → List Key) (m : PathMethod Key) (o : Orders) (v : ValidOpts) (key : Option Key)
    (fun_ : PathFun) (txCoords : V2 F) : Except PyErr Arr := do
  let scene ← s.withTransmitters [("tx", txCoords)]
  let powers ← scene.accumulateOverPaths G split m o v key fun_
  pure (objectiveFunction (powers.map fun e => .scalar e.2.2)).neg

/-- The values of a map that is not differentiated. -/
def valueOf : GridOut → Arr
  | .value z => .grid z
  | .gradient _ => .grid []
  | .both z _ => .grid z

/-- The map of the objective function (examples/plot_power_optimize.py:216-226, papers/eucap2024/plot_optimize_steps.py:144-154,
papers/joss/plot_optimize_steps.py:114-124). -/
noncomputable def objectiveMap {Key : Type} (s : Scene) (G : GraphLib) (split : Key → ℕ → List Key) (m : PathMethod Key) (o : Orders) (v : ValidOpts) (key : Option Key)
    (gradOp : (V2 F → F) → V2 F → V2 F) (fun_ : PathFun) (X Y : Grid F) : Except PyErr Arr := do
  let powers ← s.accumulateOnTransmittersGrid G split m o v key gradOp false false fun_ X Y
  pure (objectiveFunction (powers.map fun e => valueOf e.2))

/-- The map of the power in decibels (examples/plot_power_map.py:60-69, papers/eucap2024/plot_power_map.py:43-66, papers/eucap2024/plot_zero_gradient.py:35-44):
`none` stands for the scalar `-inf` that is left when there is no transmitter, as in `reduceGrids`. -/
noncomputable def powerMap {Key : Type} (s : Scene) (G : GraphLib) (split : Key → ℕ → List Key) (m : PathMethod Key) (o : Orders) (v : ValidOpts) (key : Option Key)
    (gradOp : (V2 F → F) → V2 F → V2 F) (fun_ : PathFun) (X Y : Grid F) : Except PyErr (Option (Grid F)) := do
  let p ← s.accumulateOnReceiversGridAll G split m o v key gradOp false false fun_ X Y
  pure (p.1.map fun z => z.map fun row => row.map Window.toDB)

/-- `jnp.nan_to_num(jnp.linalg.norm(P, axis=-1))`, at one position (papers/eucap2024/plot_power_map.py:54-55). -/
noncomputable def gradientNorm (g : V2 F) : F := g.norm.nanToNum

/-- The map of the norm of the gradient (papers/eucap2024/plot_power_map.py:43-55). -/
noncomputable def gradientMap (s : Scene) (G : GraphLib) (o : Orders) (v : Rev.ValidOpts Rev.Coord) (fun_ : List (V2 (Rev Rev.Coord)) → Rev Rev.Coord) (X Y : Grid F) :
    Except PyErr (Option (Grid F)) := do
  let p ← Rev.accumulateOnReceiversGrid s G o v true false fun_ X Y
  pure ((reduceGrids p).2.map fun z => z.map fun row => row.map gradientNorm)

/-- The body of the inner loop of papers/eucap2024/plot_optimize_steps.py:100-183, for the run `i` whose `approx` is given: the `continue` of line 125 leaves the body before
the step. -/
noncomputable def paperBody {α : Type} (opt : Optimizer) (loss : Bool → α → V2 (Rev Rev.Coord) → Except PyErr (Rev Rev.Coord)) (frame : ℕ) (alpha : α) (approx : Bool)
    (carry : V2 F × opt.State) : Except PyErr (V2 F × opt.State) :=
  if frame % 20 = 0 ∧ frame ≠ 0 ∧ approx = false then .ok carry
  else Rev.optimizeStep opt (loss approx alpha) carry

/-- `for frame, alpha in enumerate(alphas): for i, approx in enumerate([False, True]): ...` (papers/eucap2024/plot_optimize_steps.py:99-183). The state is `carries`. -/
noncomputable def paperRuns {α : Type} (opt : Optimizer) (loss : Bool → α → V2 (Rev Rev.Coord) → Except PyErr (Rev Rev.Coord)) :
    List (α × ℕ) → (V2 F × opt.State) × (V2 F × opt.State) → Except PyErr ((V2 F × opt.State) × (V2 F × opt.State))
  | [], carries => .ok carries
  | (alpha, frame) :: rest, carries => do
    let c0 ← paperBody opt loss frame alpha false carries.1
    let c1 ← paperBody opt loss frame alpha true carries.2
    paperRuns opt loss rest (c0, c1)

end Figures
end DiffeRT2d
