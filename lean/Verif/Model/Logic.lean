import Verif.Model.Float

/-!
# Model of `differt2d/logic.py` (the stateless part)

Arrays are modelled by their scalar elements: every function here except `logical_all/any` is
element-wise (`jnp` ufuncs), so an array call is the map of the scalar function.
-/

namespace DiffeRT2d

open Classical

/-- `Truthy` (logic.py:63): a Boolean scalar or a float scalar. -/
inductive Truthy where
  | b (v : Bool)
  | f (v : F)

namespace Truthy

/-- jnp promotion of a Boolean to a float (`True ↦ 1`, `False ↦ 0`). -/
noncomputable def toF : Truthy → F
  | b true => 1
  | b false => 0
  | f x => x

/-- jnp conversion to Boolean used by `jnp.logical_*`/`all`/`any`: nonzero (NaN included) is true. -/
noncomputable def toBool : Truthy → Bool
  | b v => v
  | f x => !(F.eq x 0)

/-- Is the scalar of Boolean dtype? -/
def isB : Truthy → Bool
  | b _ => true
  | f _ => false

/-- `jnp.maximum` with dtype promotion. -/
noncomputable def maximum : Truthy → Truthy → Truthy
  | b x, b y => b (x || y)
  | x, y => f (F.max x.toF y.toF)

/-- `jnp.minimum` with dtype promotion. -/
noncomputable def minimum : Truthy → Truthy → Truthy
  | b x, b y => b (x && y)
  | x, y => f (F.min x.toF y.toF)

/-- `jnp.nan_to_num`: Booleans are returned unchanged. -/
noncomputable def nanToNum : Truthy → Truthy
  | b v => b v
  | f x => f x.nanToNum

end Truthy

/-- `if approx is None: approx = ENABLE_APPROX` (e.g. logic.py:333-334). -/
def resolveApprox (E : Env) : Option Bool → Bool
  | none => E.enableApprox
  | some a => a

/-- `jax.nn.sigmoid`, extended by its limits at the infinities. -/
noncomputable def nnSigmoid : F → F
  | F.nan => F.nan
  | F.pinf => 1
  | F.ninf => 0
  | F.fin x => F.fin (1 / (1 + Real.exp (-x)))

/-- `jax.nn.relu6(x) = minimum(maximum(x, 0), 6)`. -/
noncomputable def nnRelu6 (x : F) : F := F.min (F.max x 0) 6

/-- `jax.nn.hard_sigmoid(x) = relu6(x + 3) / 6`. -/
noncomputable def nnHardSigmoid (x : F) : F := nnRelu6 (x + 3) / 6

/-- `sigmoid` (logic.py:218-235). -/
noncomputable def sigmoid (x alpha : F) : F := nnSigmoid (alpha * x)

/-- `hard_sigmoid` (logic.py:238-255). -/
noncomputable def hardSigmoid (x alpha : F) : F := nnHardSigmoid (alpha * x)

/-- `DEFAULT_ALPHA` (defaults.py:3). -/
noncomputable def DEFAULT_ALPHA : F := 100

/-- The keyword arguments forwarded to `activation` (`alpha`, `function`) with their defaults
(logic.py:260-267).  Unknown keywords (a `TypeError` in Python) are not representable. -/
structure ActKw where
  alpha : F := DEFAULT_ALPHA
  function : F → F → F := hardSigmoid

/-- `activation` (logic.py:258-312). -/
noncomputable def activation (kw : ActKw) (x : F) : F := kw.function x kw.alpha

/-- `logical_or` (logic.py:315-335). -/
noncomputable def logicalOr (E : Env) (approx : Option Bool) (x y : Truthy) : Truthy :=
  if resolveApprox E approx then x.maximum y else .b (x.toBool || y.toBool)

/-- `logical_and` (logic.py:338-358). -/
noncomputable def logicalAnd (E : Env) (approx : Option Bool) (x y : Truthy) : Truthy :=
  if resolveApprox E approx then x.minimum y else .b (x.toBool && y.toBool)

/-- `logical_not` (logic.py:361-377). -/
noncomputable def logicalNot (E : Env) (approx : Option Bool) (x : Truthy) : Truthy :=
  if resolveApprox E approx then .f (1 - x.toF) else .b (!x.toBool)

/-- `greater` (logic.py:380-404). -/
noncomputable def greater (E : Env) (approx : Option Bool) (kw : ActKw) (x y : F) : Truthy :=
  if resolveApprox E approx then .f (activation kw (x - y)) else .b (F.lt y x)

/-- `greater_equal` (logic.py:407-433). -/
noncomputable def greaterEqual (E : Env) (approx : Option Bool) (kw : ActKw) (x y : F) : Truthy :=
  if resolveApprox E approx then .f (activation kw (x - y)) else .b (F.le y x)

/-- `less` (logic.py:436-460). -/
noncomputable def less (E : Env) (approx : Option Bool) (kw : ActKw) (x y : F) : Truthy :=
  if resolveApprox E approx then .f (activation kw (y - x)) else .b (F.lt x y)

/-- `less_equal` (logic.py:463-487). -/
noncomputable def lessEqual (E : Env) (approx : Option Bool) (kw : ActKw) (x y : F) : Truthy :=
  if resolveApprox E approx then .f (activation kw (y - x)) else .b (F.le x y)

/-- `jnp.min` of `jnp.asarray(x)` for scalars `x`: `ValueError` when empty; a Boolean array stays
Boolean, otherwise every element is promoted to float. -/
noncomputable def jnpMin : List Truthy → Except PyErr Truthy
  | [] => .error .valueError
  | x :: xs =>
    if (x :: xs).all Truthy.isB then .ok (.b ((x :: xs).all Truthy.toBool))
    else .ok (.f (F.minOf x.toF (xs.map Truthy.toF)))

/-- `jnp.max` of `jnp.asarray(x)` for scalars `x`. -/
noncomputable def jnpMax : List Truthy → Except PyErr Truthy
  | [] => .error .valueError
  | x :: xs =>
    if (x :: xs).all Truthy.isB then .ok (.b ((x :: xs).any Truthy.toBool))
    else .ok (.f (F.maxOf x.toF (xs.map Truthy.toF)))

/-- `logical_all` on scalar arguments, `axis=None` (logic.py:490-512). -/
noncomputable def logicalAll (E : Env) (approx : Option Bool) (xs : List Truthy) :
    Except PyErr Truthy :=
  if resolveApprox E approx then jnpMin xs else .ok (.b (xs.all Truthy.toBool))

/-- `logical_any` on scalar arguments, `axis=None` (logic.py:515-537). -/
noncomputable def logicalAny (E : Env) (approx : Option Bool) (xs : List Truthy) :
    Except PyErr Truthy :=
  if resolveApprox E approx then jnpMax xs else .ok (.b (xs.any Truthy.toBool))

/-- `is_true` (logic.py:540-561).  With approximation disabled the value is returned as is, and
the run-time type check of the return annotation `Bool[Array, ...]` rejects floats. -/
noncomputable def isTrue (E : Env) (approx : Option Bool) (x : Truthy) (tol : F := 0.5) :
    Except PyErr Bool :=
  if resolveApprox E approx then .ok (F.lt (1 - tol) x.toF)
  else match x with
    | .b v => .ok v
    | .f _ => .error .typeCheckError

/-- `is_false` (logic.py:564-585). -/
noncomputable def isFalse (E : Env) (approx : Option Bool) (x : Truthy) (tol : F := 0.5) : Bool :=
  if resolveApprox E approx then F.lt x.toF tol else !x.toBool

/-- `true_value` (logic.py:588-601). -/
noncomputable def trueValue (E : Env) (approx : Option Bool) : Truthy :=
  if resolveApprox E approx then .f 1 else .b true

/-- `false_value` (logic.py:604-617). -/
noncomputable def falseValue (E : Env) (approx : Option Bool) : Truthy :=
  if resolveApprox E approx then .f 0 else .b false

end DiffeRT2d
