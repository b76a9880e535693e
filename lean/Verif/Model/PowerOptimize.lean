import Verif.Model.GradGrid
import Verif.Model.Optimize

/-!
# Model of `examples/plot_power_optimize.py`

The example moves a transmitter so that the receiver that is served worst is served better: the loss is minus the smallest received power, it is
differentiated by `jax.value_and_grad`, and one step of `optax` is made per frame. Plots are not modelled. Simplifications: those of
`Model/Grad.lean` (walls, image method).
-/

namespace DiffeRT2d
open Classical

namespace Rev
variable {ι : Type}

/-- `objective_function` (examples/plot_power_optimize.py:63-75). -/
noncomputable def objectiveFunction (powers : List (Rev ι)) : Rev ι :=
  powers.foldl (fun acc p => min acc (p / const P0)) (const F.pinf)

/-- `loss` (examples/plot_power_optimize.py:78-88), with the receivers' powers that `accumulate_over_paths` (scene.py:1272-1334) yields: one for
each receiver, unless there is no candidate at all (`groupby` has no group then). The name `tx` is that of the only transmitter. -/
noncomputable def powerLoss (s : Scene) (G : GraphLib) (o : Scene.Orders) (v : Rev.ValidOpts Coord) (fun_ : List (V2 (Rev Coord)) → Rev Coord)
    (txCoords : V2 (Rev Coord)) : Except PyErr (Rev Coord) := do
  let scene ← s.withTransmitters [("tx", valV txCoords)]
  let candidates ← scene.allPathCandidates G o
  let pairs ← scene.allTransmitterReceiverPairs
  let walls ← constWalls scene.objects
  let powers ← pairs.mapM fun pair => facc v walls fun_ txCoords (constV pair.2.2) (const 0) candidates
  pure (-(objectiveFunction (if candidates = [] then [] else powers)))

end Rev

/-- `optax.zero_nans()` (not in the repository: its published rule; the state, which records where NaNs were found, is not modelled since the
example does not read it). -/
noncomputable def zeroNans : Optimizer where
  State := Unit
  init _ := ()
  update g _ := (g.map fun u => F.where_ u.isNan 0 u, ())

/-- `optax.chain(a, b)` (not in the repository: its published rule): the updates of the first one are the gradients of the second one. -/
def Optimizer.chain (a b : Optimizer) : Optimizer where
  State := a.State × b.State
  init x := (a.init x, b.init x)
  update g st :=
    let u := a.update g st.1
    let u' := b.update u.1 st.2
    (u'.1, (u.2, u'.2))

/-- The optimizer of the example (examples/plot_power_optimize.py:191), whose learning rate is `0.01`. -/
noncomputable def exampleOptimizer (lr : F := 0.01) : Optimizer := (adam lr).chain zeroNans

/-- The part of `func` (examples/plot_power_optimize.py:197-240) that makes one step: `carry` is `(tx_coords, opt_state)`. -/
noncomputable def Rev.optimizeStep (opt : Optimizer) (loss : V2 (Rev Rev.Coord) → Except PyErr (Rev Rev.Coord)) (carry : V2 F × opt.State) :
    Except PyErr (V2 F × opt.State) := do
  let out ← Rev.valueAndGrad loss carry.1
  let up := opt.update [out.2.x, out.2.y] carry.2
  pure (carry.1 + ⟨up.1.getD 0 F.nan, up.1.getD 1 F.nan⟩, up.2)

/-- `FuncAnimation(fig, func=func, init_func=init_func, frames=alphas)` (examples/plot_power_optimize.py:187-194, 243): one step for each
frame, each with its own loss (the slope `alpha` of the activations changes). -/
noncomputable def Rev.animate {α : Type} (opt : Optimizer) (loss : α → V2 (Rev Rev.Coord) → Except PyErr (Rev Rev.Coord)) :
    List α → V2 F × opt.State → Except PyErr (V2 F × opt.State)
  | [], carry => .ok carry
  | alpha :: frames, carry => do
    let carry ← Rev.optimizeStep opt (loss alpha) carry
    Rev.animate opt loss frames carry

/-- The first carry (`init_func`, examples/plot_power_optimize.py:187-194). -/
def Rev.start (opt : Optimizer) (p : V2 F) : V2 F × opt.State := (p, opt.init [p.x, p.y])

end DiffeRT2d
