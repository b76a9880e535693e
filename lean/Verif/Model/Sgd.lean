import Verif.Model.Optimize

/-!
# Plain gradient descent, as an `optimizer` argument of `minimize` (`differt2d/optimize.py`)
-/

namespace DiffeRT2d

open Classical

/-- `optax.sgd(learning_rate)`, that a user can give as the `optimizer` of `minimize` (optimize.py:46-97; optax itself is not in the repository: this is
the published update rule without momentum). It has no state. -/
noncomputable def sgd (lr : F) : Optimizer where
  State := Unit
  init _ := ()
  update g st := (g.map fun g => -lr * g, st)

end DiffeRT2d
