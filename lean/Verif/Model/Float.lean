import Mathlib.Analysis.Real.Sqrt
import Mathlib.Analysis.Complex.Trigonometric

/-!
# Number model

JAX floating point values with their IEEE special values, but exact finite arithmetic:
no rounding, no overflow, one zero.  Everything in `differt2d` that is a `Float[Array, ...]`
is built from `F`.
-/

namespace DiffeRT2d

open Classical

/-- A floating point scalar: NaN, the two infinities, or an exact real.
Simplification: no rounding, no overflow, no signed zero. -/
inductive F where
  | nan
  | pinf
  | ninf
  | fin (x : ℝ)

namespace F

/-- Numeric literals (`0.0`, `1.0`, `2.0`, ...); decimal literals are read exactly. -/
noncomputable instance (n : ℕ) : OfNat F n := ⟨fin n⟩
noncomputable instance : OfScientific F := ⟨fun m s e => fin (OfScientific.ofScientific m s e)⟩
instance : Inhabited F := ⟨nan⟩

/-- IEEE addition. -/
noncomputable def add : F → F → F
  | nan, _ => nan
  | _, nan => nan
  | fin x, fin y => fin (x + y)
  | pinf, ninf => nan
  | ninf, pinf => nan
  | pinf, _ => pinf
  | _, pinf => pinf
  | ninf, _ => ninf
  | _, ninf => ninf

/-- IEEE negation. -/
noncomputable def neg : F → F
  | nan => nan
  | pinf => ninf
  | ninf => pinf
  | fin x => fin (-x)

/-- IEEE multiplication (`0 * inf = nan`). -/
noncomputable def mul : F → F → F
  | nan, _ => nan
  | _, nan => nan
  | fin x, fin y => fin (x * y)
  | fin x, pinf => if x = 0 then nan else if 0 < x then pinf else ninf
  | pinf, fin x => if x = 0 then nan else if 0 < x then pinf else ninf
  | fin x, ninf => if x = 0 then nan else if 0 < x then ninf else pinf
  | ninf, fin x => if x = 0 then nan else if 0 < x then ninf else pinf
  | pinf, pinf => pinf
  | ninf, ninf => pinf
  | pinf, ninf => ninf
  | ninf, pinf => ninf

/-- IEEE division (`x / 0 = ±inf`, `0 / 0 = nan`; the zero is taken to be `+0`). -/
noncomputable def div : F → F → F
  | nan, _ => nan
  | _, nan => nan
  | fin x, fin y =>
    if y = 0 then (if x = 0 then nan else if 0 < x then pinf else ninf) else fin (x / y)
  | fin _, pinf => fin 0
  | fin _, ninf => fin 0
  | pinf, fin y => if y < 0 then ninf else pinf
  | ninf, fin y => if y < 0 then pinf else ninf
  | _, _ => nan

noncomputable instance : Add F := ⟨add⟩
noncomputable instance : Neg F := ⟨neg⟩
noncomputable instance : Sub F := ⟨fun a b => add a (neg b)⟩
noncomputable instance : Mul F := ⟨mul⟩
noncomputable instance : Div F := ⟨div⟩

/-- `jnp.isnan`. -/
def isNan : F → Bool
  | nan => true
  | _ => false

/-- `jnp.isfinite`. -/
def isFinite : F → Bool
  | fin _ => true
  | _ => false

/-- IEEE `<` (false when an operand is NaN); `jnp.less`. -/
noncomputable def lt : F → F → Bool
  | fin x, fin y => decide (x < y)
  | ninf, fin _ => true
  | ninf, pinf => true
  | fin _, pinf => true
  | _, _ => false

/-- IEEE `==` (false when an operand is NaN). -/
noncomputable def eq : F → F → Bool
  | fin x, fin y => decide (x = y)
  | pinf, pinf => true
  | ninf, ninf => true
  | _, _ => false

/-- IEEE `<=`; `jnp.less_equal`. -/
noncomputable def le (a b : F) : Bool := lt a b || eq a b

/-- `jnp.maximum` (NaN propagates). -/
noncomputable def max (a b : F) : F :=
  if a.isNan || b.isNan then nan else if lt a b then b else a

/-- `jnp.minimum` (NaN propagates). -/
noncomputable def min (a b : F) : F :=
  if a.isNan || b.isNan then nan else if lt b a then b else a

/-- `jnp.sqrt` (negative operands give NaN). -/
noncomputable def sqrt : F → F
  | nan => nan
  | ninf => nan
  | pinf => pinf
  | fin x => if x < 0 then nan else fin (Real.sqrt x)

/-- `jnp.sin`. -/
noncomputable def sin : F → F
  | fin x => fin (Real.sin x)
  | _ => nan

/-- `jnp.cos`. -/
noncomputable def cos : F → F
  | fin x => fin (Real.cos x)
  | _ => nan

/-- `jnp.where(c, a, b)` on scalars: selection, both operands are already values. -/
def where_ {α : Type*} (c : Bool) (a b : α) : α := if c then a else b

/-- `jnp.finfo(float32).max`. -/
noncomputable def maxFinite : ℝ := (2 - 2 ^ (-23 : ℤ)) * 2 ^ 127

/-- `jnp.nan_to_num` on a float scalar. -/
noncomputable def nanToNum : F → F
  | nan => fin 0
  | pinf => fin maxFinite
  | ninf => fin (-maxFinite)
  | fin x => fin x

/-- `jnp.sum` of a vector (left to right; exact addition of `F` is associative and commutative). -/
noncomputable def sum (xs : List F) : F := xs.foldl (· + ·) (fin 0)

/-- `jnp.min` of a nonempty vector given as head and tail (NaN propagates). -/
noncomputable def minOf (x : F) (xs : List F) : F := xs.foldl min x

/-- `jnp.max` of a nonempty vector given as head and tail (NaN propagates). -/
noncomputable def maxOf (x : F) (xs : List F) : F := xs.foldl max x

/-- One step of `jnp.argmin`: does the new element replace the current best?  A NaN beats every
non-NaN; earlier elements win ties. -/
noncomputable def argminBetter (new best : F) : Bool :=
  lt new best || (new.isNan && !best.isNan)

/-- Scan of `jnp.argmin` with current best `(iBest, best)`; `i` is the index of the head of the list. -/
noncomputable def argminGo (iBest : ℕ) (best : F) (i : ℕ) : List F → ℕ
  | [] => iBest
  | x :: xs => if argminBetter x best then argminGo i x (i + 1) xs
               else argminGo iBest best (i + 1) xs

/-- `jnp.argmin` (`none` models the `ValueError` on an empty vector). -/
noncomputable def argmin : List F → Option ℕ
  | [] => none
  | x :: xs => some (argminGo 0 x 1 xs)

end F

/-- A pair of coordinates: `Float[Array, "2"]` for `α = F`, a point of the plane for `α = ℝ`. -/
@[ext] structure V2 (α : Type*) where
  x : α
  y : α

namespace V2
variable {α : Type*}

instance [Add α] : Add (V2 α) := ⟨fun a b => ⟨a.x + b.x, a.y + b.y⟩⟩
instance [Sub α] : Sub (V2 α) := ⟨fun a b => ⟨a.x - b.x, a.y - b.y⟩⟩
instance [Neg α] : Neg (V2 α) := ⟨fun a => ⟨-a.x, -a.y⟩⟩
/-- scalar times vector (broadcast multiplication). -/
def smul [Mul α] (c : α) (v : V2 α) : V2 α := ⟨c * v.x, c * v.y⟩
/-- `jnp.dot` of two vectors of size 2. -/
def dot [Mul α] [Add α] (a b : V2 α) : α := a.x * b.x + a.y * b.y
/-- `jnp.cross` of two vectors of size 2. -/
def cross [Mul α] [Sub α] (a b : V2 α) : α := a.x * b.y - a.y * b.x
/-- vector divided by scalar (broadcast division). -/
def sdiv [Div α] (v : V2 α) (c : α) : V2 α := ⟨v.x / c, v.y / c⟩

/-- `jnp.linalg.norm` of a vector of size 2. -/
noncomputable def norm (v : V2 F) : F := F.sqrt (v.x * v.x + v.y * v.y)

/-- A vector of finite floats. -/
def fin (v : V2 ℝ) : V2 F := ⟨F.fin v.x, F.fin v.y⟩

end V2

/-- Python exceptions the modelled code can raise. -/
inductive PyErr where
  | valueError
  | typeError
  | keyError
  | indexError
  | attributeError
  /-- `jaxtyping.TypeCheckError` -/
  | typeCheckError
  | overflowError
  | notImplementedError
  | assertionError
  | zeroDivisionError
  deriving DecidableEq, Repr

/-- What the code reads from its surroundings when it is traced: the global
`differt2d.logic.ENABLE_APPROX` (logic.py:58) and `jnp.finfo(dtype).eps` (geometry.py:198),
which is `2^-23` for the default `float32`. -/
structure Env where
  enableApprox : Bool
  eps : ℝ

end DiffeRT2d
