import Verif.Model.Geometry

/-!
# Model of `differt2d/optimize.py`
-/

namespace DiffeRT2d

open Classical

/-- An `optax.GradientTransformation`: any state, any rule. -/
structure Optimizer where
  State : Type
  init : List F → State
  update : List F → State → List F × State

/-- What `minimize*` gets from outside: the optimizer, the number of steps, the gradient operator
`jax.value_and_grad` (its value part is the function itself), the random generator, `split`. -/
structure Minimizer (Key : Type) where
  optimizer : Optimizer
  steps : ℕ
  grad : (List F → F) → List F → List F
  uniform : Uniform Key
  split : Key → ℕ → List Key

/-- `x + updates`. -/
noncomputable def vadd (x u : List F) : List F := List.zipWith (· + ·) x u

/-- `optax.adam(learning_rate)` (the default of optimize.py:83, `learning_rate = 0.1`; optax itself is not in
the repository: this is the published update rule with its default `b1`, `b2`, `eps`, `eps_root = 0`, bias
correction included). The state is (first moments, second moments, step count). -/
noncomputable def adam (lr : F := 0.1) : Optimizer where
  State := List F × List F × ℕ
  init x0 := (x0.map fun _ => 0, x0.map fun _ => 0, 0)
  update g st :=
    let b1 : ℝ := 0.9
    let b2 : ℝ := 0.999
    let eps : F := 1e-8
    let mu := List.zipWith (fun g m => F.fin (1 - b1) * g + F.fin b1 * m) g st.1
    let nu := List.zipWith (fun g v => F.fin (1 - b2) * (g * g) + F.fin b2 * v) g st.2.1
    let count := st.2.2 + 1
    let muHat := mu.map fun m => m / F.fin (1 - b1 ^ count)
    let nuHat := nu.map fun v => v / F.fin (1 - b2 ^ count)
    let up := List.zipWith (fun m v => -lr * (m / (F.sqrt v + eps))) muHat nuHat
    (up, (mu, nu, count))

/-- The scan body `f` (optimize.py:88-94) iterated: returns the final carry and the losses in order. -/
noncomputable def minimizeScan (opt : Optimizer) (grad : List F → List F) (fun_ : List F → F) :
    ℕ → List F → opt.State → (List F × opt.State) × List F
  | 0, x, st => ((x, st), [])
  | k + 1, x, st =>
    let loss := fun_ x
    let grads := grad x
    let up := opt.update grads st
    let x := vadd x up.1
    let r := minimizeScan opt grad fun_ k x up.2
    (r.1, loss :: r.2)

/-- `minimize` (optimize.py:46-97). `losses[-1]` of an empty array (`steps=0`) is an `IndexError`.
`args` are part of `fun_`. -/
noncomputable def minimize {Key : Type} (M : Minimizer Key) (fun_ : List F → F) (x0 : List F) :
    Except PyErr (List F × F) :=
  let r := minimizeScan M.optimizer (M.grad fun_) fun_ M.steps x0 (M.optimizer.init x0)
  match r.2.getLast? with
  | none => .error .indexError
  | some loss => .ok (r.1.1, loss)

/-- `minimize_random_uniform` (optimize.py:102-133). -/
noncomputable def minimizeRandomUniform {Key : Type} (M : Minimizer Key) (fun_ : List F → F) (key : Key)
    (n : ℕ) : Except PyErr (List F × F) :=
  let x0 := M.uniform key n
  minimize M fun_ x0

/-- `minimize_many_random_uniform` (optimize.py:138-182). `jax.vmap` over the keys is a map (a failing
trial fails the whole call); `many = 0` fails (`vmap`/`argmin` of an empty batch). -/
noncomputable def minimizeManyRandomUniform {Key : Type} (M : Minimizer Key) (fun_ : List F → F)
    (key : Key) (n many : ℕ) : Except PyErr (List F × F) :=
  if many = 1 then minimizeRandomUniform M fun_ key n
  else do
    let keys := M.split key many
    let trials ← keys.mapM fun k => minimizeRandomUniform M fun_ k n
    match F.argmin (trials.map Prod.snd) with
    | none => .error .valueError
    | some i => .ok (trials.getD i ([], F.nan))

end DiffeRT2d
