import Verif.Model.Sampler
import Verif.Model.Scene

/-!
# Model of the training loop of `docs/source/notebooks/cost20120_helsinki_model.ipynb`

An iterator is given by the list of the samples it yields, in order; for the generator of the notebook, which never stops, any prefix that is long
enough. What is left of this list afterwards is what the next user of the iterator gets. Not modelled: `jit`, the progress bar, the gradients and
Adam (any update function).
-/

namespace DiffeRT2d
open Classical

/-- What `train` needs (notebook:1372-1425), for the order it was given: `init` is `optim.init(eqx.filter(model, eqx.is_array))`, `loss` is the loss,
`update` are the gradients of the loss and the optimizer (notebook:1421-1422). -/
structure Trainer (Net Opt Sample Key : Type) where
  init : Net → Opt
  loss : Net → Sample → Key → Except PyErr F
  update : Net → Opt → Sample → Key → Net × Opt

/-- `make_step` (notebook:1405-1424): the loss is that of the model *before* the update. -/
def Trainer.makeStep {Net Opt Sample Key : Type} (T : Trainer Net Opt Sample Key) (net : Net) (opt : Opt) (xys : Sample) (key : Key) :
    Except PyErr (Net × Opt × F) := do
  let value ← T.loss net xys key
  let new := T.update net opt xys key
  pure (new.1, new.2, value)

/-- The loop over the validation samples (notebook:1446-1448): the sum of the losses and the next key. -/
noncomputable def validate {Net Opt Sample Key : Type} (T : Trainer Net Opt Sample Key) (split : Key → ℕ → List Key) (net : Net) :
    List Sample → F → Key → Except PyErr (F × Key)
  | [], total, key => .ok (total, key)
  | xys :: rest, total, key =>
    match split key 2 with
    | [key, keyVal] => do
      let value ← T.loss net xys keyVal
      validate T split net rest (total + value) key
    | _ => .error .valueError

/-- The variables of the loop of `train`. -/
structure TrainState (Net Opt Key : Type) where
  net : Net
  opt : Opt
  key : Key
  lossSteps : List ℕ
  trainLosses : List F
  valLosses : List F

/-- The body of the loop of `train` (notebook:1433-1456). `step % print_every` with `print_every = 0`, and `0.0 / 0` if there are no validation
samples, raise a `ZeroDivisionError`. -/
noncomputable def trainBody {Net Opt Sample Key : Type} (T : Trainer Net Opt Sample Key) (split : Key → ℕ → List Key) (val : List Sample) (steps printEvery : ℤ)
    (step : ℕ) (xys : Sample) (s : TrainState Net Opt Key) : Except PyErr (TrainState Net Opt Key) :=
  match split s.key 2 with
  | [key, keyStep] => do
    let new ← T.makeStep s.net s.opt xys keyStep
    if printEvery = 0 then .error .zeroDivisionError
    else if (step : ℤ) % printEvery = 0 ∨ (step : ℤ) = steps - 1 then do
      let total ← validate T split new.1 val 0 key
      if val.length = 0 then .error .zeroDivisionError
      else .ok ⟨new.1, new.2.1, total.2, s.lossSteps ++ [step], s.trainLosses ++ [new.2.2], s.valLosses ++ [total.1 / F.fin val.length]⟩
    else .ok ⟨new.1, new.2.1, key, s.lossSteps, s.trainLosses, s.valLosses⟩
  | _ => .error .valueError

/-- `for step, xys_train in zip(bar, train_samples)` (notebook:1428-1432): `zip` asks the bar first, so that no sample is lost at the end. -/
noncomputable def trainLoop {Net Opt Sample Key : Type} (T : Trainer Net Opt Sample Key) (split : Key → ℕ → List Key) (val : List Sample) (steps printEvery : ℤ) :
    List ℕ → List Sample → TrainState Net Opt Key → Except PyErr (TrainState Net Opt Key × List Sample)
  | [], samples, s => .ok (s, samples)
  | _ :: _, [], s => .ok (s, [])
  | step :: bar, xys :: samples, s => do
    let s ← trainBody T split val steps printEvery step xys s
    trainLoop T split val steps printEvery bar samples s

/-- `train` (notebook:1372-1463), and the samples that are left in the iterator. -/
noncomputable def train {Net Opt Sample Key : Type} (T : Trainer Net Opt Sample Key) (split : Key → ℕ → List Key) (net : Net) (samples val : List Sample)
    (steps printEvery : ℤ) (key : Key) : Except PyErr ((Net × List ℕ × List F × List F) × List Sample) := do
  let r ← trainLoop T split val steps printEvery (List.range steps.toNat) samples ⟨net, T.init net, key, [], [], []⟩
  pure ((r.1.net, r.1.lossSteps, r.1.trainLosses, r.1.valLosses), r.2)

/-- The trainer of the notebook: `loss` with its default `batch_size` (notebook:1100-1107); the optimizer is any. -/
noncomputable def notebookTrainer {Opt Key : Type} (E : Env) (J : Jax Key) (order : ℕ) (init : FlowModel → Opt)
    (update : FlowModel → Opt → List (V2 F) → Key → FlowModel × Opt) : Trainer FlowModel Opt (List (V2 F)) Key where
  init := init
  loss := fun net xys key => do
    let r ← flowLoss E J net xys 10 order key
    pure r.1
  update := update

/-! ## Curated data -/

/-- `filter_xys` (notebook:1784-1796), where `order` is the global variable of the notebook (which is 2, notebook:162): whether `all_valid_paths` yields
anything. The options are its defaults. The paths are computed eagerly here: Python stops at the first one. -/
noncomputable def filterXys {Key : Type} (G : GraphLib) (split : Key → ℕ → List Key) (E : Env) (order : ℤ) (xys : List (V2 F)) : Except PyErr Bool := do
  let scene ← sample2Scene xys
  let paths ← scene.allValidPaths G split (imageMethod Key) { order := some order } { E := E, kw := {} } none
  match paths with
  | [] => pure false
  | _ :: _ => pure true

end DiffeRT2d
