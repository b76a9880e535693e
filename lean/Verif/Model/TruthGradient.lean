import Verif.Model.Grad

/-!
# The logic functions that `Model/Grad.lean` does not need, under differentiation (`differt2d/logic.py`)
-/

namespace DiffeRT2d
open Classical

namespace Rev
variable {ι : Type}

/-- `jnp.max` of a vector (`jax.lax.reduce_max`): the cotangent is divided evenly among the largest elements (as in `minOf`). -/
noncomputable def maxOf (x : Rev ι) (xs : List (Rev ι)) : Rev ι :=
  let z := F.maxOf x.val (xs.map Rev.val)
  let count := ((x :: xs).countP fun y => F.eq y.val z)
  ⟨z, fun ct i => ((x :: xs).map fun y => y.pull (F.where_ (F.eq y.val z) 1 0 * (ct / F.fin count)) i).foldl (· + ·) 0⟩

/-- `greater` (logic.py:380-404). -/
noncomputable def greater (E : Env) (approx : Option Bool) (kw : ActKw ι) (x y : Rev ι) : RevTruthy ι :=
  if resolveApprox E approx then .f (activation kw (x - y)) else .b (F.lt y.val x.val)

/-- `logical_any` on scalar arguments, `axis=None` (logic.py:515-537). -/
noncomputable def logicalAny (E : Env) (approx : Option Bool) (xs : List (RevTruthy ι)) : Except PyErr (RevTruthy ι) :=
  if resolveApprox E approx then
    match xs with
    | [] => .error .valueError
    | x :: xs =>
      if (x :: xs).all (fun y => y.val.isB) then .ok (.b ((x :: xs).any fun y => y.val.toBool))
      else .ok (.f (maxOf x.toF (xs.map RevTruthy.toF)))
  else .ok (.b (xs.any fun y => y.val.toBool))

end Rev

/-- `vmap(grad(f))(x)`, where `f` is `activation` with a given slope and function (the example in the documentation of `activation`,
logic.py:281-303): one derivative for each element. -/
noncomputable def activationGradients (kw : Rev.ActKw Unit) (xs : List F) : List F := xs.map fun x => Rev.grad (Rev.activation kw (.var x ())) ()

end DiffeRT2d
