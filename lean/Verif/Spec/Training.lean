import Verif.Model.Training
import Verif.Spec.Sampler

/-! # Specification vocabulary for the training loop of the notebook -/

namespace DiffeRT2d
namespace Spec
open Classical

/-- The `i`-th fresh key: split `i` times, keeping the first key, and take the second key of the next split. -/
def freshKey {Key : Type} (split : Key → ℕ → List Key) (key : Key) (i : ℕ) : Key :=
  let k := (fun k => (split k 2).getD 0 k)^[i] key
  (split k 2).getD 1 k

/-- The steps before `n` at which losses are reported: the multiples of `printEvery`, and the last of the `steps` steps. -/
noncomputable def reported (steps printEvery : ℤ) (n : ℕ) : List ℕ :=
  (List.range n).filter fun (s : ℕ) => decide (printEvery ∣ (s : ℤ) ∨ (s : ℤ) = steps - 1)

/-- The number of the first fresh key that is used in the step `s`: each step uses one, each report one per validation sample. -/
noncomputable def firstKey (steps printEvery : ℤ) (numVal s : ℕ) : ℕ := s + numVal * (reported steps printEvery s).length

/-- The network and the state of the optimizer after `n` steps: the `s`-th update uses the `s`-th sample and a fresh key. -/
noncomputable def trainedFor {Net Opt Sample Key : Type} (T : Trainer Net Opt Sample Key) (keyOf : ℕ → Key) (net : Net) (samples : List Sample) : ℕ → Net × Opt
  | 0 => (net, T.init net)
  | s + 1 =>
    let before := trainedFor T keyOf net samples s
    match samples[s]? with
    | some xys => T.update before.1 before.2 xys (keyOf s)
    | none => before

/-- A key made of the positions chosen in the splits that led to it: these keys collide only if they were made in the same way. -/
def addressSplit (k : List ℕ) (n : ℕ) : List (List ℕ) := (List.range n).map fun i => k ++ [i]

/-- One use of a key: of the update of the step `s`, or of the `j`-th validation sample of the report of the step `s`. -/
inductive KeyUse where
  | update (s : ℕ)
  | validation (s j : ℕ)

/-- The number of the key. -/
noncomputable def KeyUse.number (steps printEvery : ℤ) (numVal : ℕ) : KeyUse → ℕ
  | update s => firstKey steps printEvery numVal s
  | validation s j => firstKey steps printEvery numVal s + 1 + j

/-- It happens in a training of `n` steps. -/
def KeyUse.Happens (steps printEvery : ℤ) (numVal n : ℕ) : KeyUse → Prop
  | update s => s < n
  | validation s j => s ∈ reported steps printEvery n ∧ j < numVal

end Spec
end DiffeRT2d
