import Verif.Model.Logic

/-!
# Model of `differt2d/logic.py` on arrays

`Verif/Model/Logic.lean` gives the functions on scalars. Here they act on arrays of any shape: `jnp`'s broadcasting, stacking and reductions, and the
run-time check of the annotations (`jaxtyped`, `beartype`), in which `*batch` must stand for the same shape in all arguments and in the result.
-/

namespace DiffeRT2d

open Classical

/-- A `jax.Array`: its shape, and its entry at each multi-index. Entries outside of the shape are irrelevant. -/
structure NdArr (α : Type*) where
  shape : List ℕ
  get : List ℕ → α

/-- An argument: an array, or a Python `bool`/`float`. -/
inductive ArrArg (α : Type*) where
  | array (a : NdArr α)
  | scalar (x : α)

namespace ArrArg

/-- Under `jax.jit` (all functions of the module are compiled), Python scalars are traced: they become arrays of shape `()`. With
`jax.disable_jit()` they stay Python scalars. -/
def traced {α : Type*} (jit : Bool) : ArrArg α → ArrArg α
  | array a => array a
  | scalar x => if jit then array ⟨[], fun _ => x⟩ else scalar x

/-- The conversion that `jnp` functions apply to their arguments. -/
def toArr {α : Type*} : ArrArg α → NdArr α
  | array a => a
  | scalar x => ⟨[], fun _ => x⟩

end ArrArg

/-- Check of one argument against `Union[Bool[Array, "*batch"], Float[Array, "*batch"], float, bool]` (logic.py:63, `_typing.py:7`): the first array
fixes the shape that `*batch` stands for; Python scalars are accepted whatever it is. -/
def bindBatch {α : Type*} (memo : Option (List ℕ)) : ArrArg α → Except PyErr (Option (List ℕ))
  | .scalar _ => .ok memo
  | .array a =>
    match memo with
    | none => .ok (some a.shape)
    | some s => if a.shape = s then .ok (some s) else .error .typeCheckError

/-- Check of the arguments, in order. -/
def bindArgs {α : Type*} (memo : Option (List ℕ)) : List (ArrArg α) → Except PyErr (Option (List ℕ))
  | [] => .ok memo
  | x :: xs => do bindArgs (← bindBatch memo x) xs

/-- Check of the result against `*batch`. -/
def checkReturn {α : Type*} (memo : Option (List ℕ)) (r : NdArr α) : Except PyErr (NdArr α) :=
  match memo with
  | none => .ok r
  | some s => if r.shape = s then .ok r else .error .typeCheckError

/-! ## `jnp` -/

/-- NumPy's broadcasting of two shapes, from the last dimension on (reversed shapes). -/
def broadcastRev : List ℕ → List ℕ → Option (List ℕ)
  | [], ys => some ys
  | xs, [] => some xs
  | x :: xs, y :: ys =>
    if x = y then (broadcastRev xs ys).map (x :: ·)
    else if x = 1 then (broadcastRev xs ys).map (y :: ·)
    else if y = 1 then (broadcastRev xs ys).map (x :: ·)
    else none

/-- NumPy's broadcasting of two shapes. -/
def broadcastShapes (a b : List ℕ) : Option (List ℕ) := (broadcastRev a.reverse b.reverse).map List.reverse

/-- The index in an array of the given shape that an index of the broadcast result refers to. -/
def broadcastIndex (shape idx : List ℕ) : List ℕ :=
  List.zipWith (fun d i => if d = 1 then 0 else i) shape (idx.drop (idx.length - shape.length))

/-- A `jnp` ufunc of two arguments; `TypeError` if the shapes do not broadcast. -/
def jnpMap2 {α β γ : Type*} (f : α → β → γ) (a : NdArr α) (b : NdArr β) : Except PyErr (NdArr γ) :=
  match broadcastShapes a.shape b.shape with
  | none => .error .typeError
  | some s => .ok ⟨s, fun idx => f (a.get (broadcastIndex a.shape idx)) (b.get (broadcastIndex b.shape idx))⟩

/-- A `jnp` ufunc of one argument. -/
def jnpMap {α β : Type*} (f : α → β) (a : NdArr α) : NdArr β := ⟨a.shape, fun idx => f (a.get idx)⟩

/-- All indices of a shape. -/
def indicesOf : List ℕ → List (List ℕ)
  | [] => [[]]
  | d :: s => (List.range d).flatMap fun i => (indicesOf s).map (i :: ·)

/-- `jnp.asarray(x)` for a tuple `x` of arrays and scalars: a new first dimension; `ValueError` unless all shapes are equal; Booleans are promoted to
floats unless everything is Boolean. -/
noncomputable def jnpStack (xs : List (NdArr Truthy)) : Except PyErr (NdArr Truthy) :=
  let s := (xs.head?.map NdArr.shape).getD []
  if ∃ a ∈ xs, a.shape ≠ s then .error .valueError
  else
    let keep := ∀ a ∈ xs, ∀ idx, (a.get idx).isB = true
    .ok ⟨xs.length :: s, fun idx =>
      match xs[idx.headD 0]? with
      | none => .b false
      | some a => if keep then a.get idx.tail else .f (a.get idx.tail).toF⟩

/-- The argument `axis` of a reduction. -/
inductive Axis where
  | all
  | one (i : ℤ)
  | many (is : List ℤ)

/-- The dimensions to reduce: negative numbers count from the end; `ValueError` out of bounds or for repeated dimensions. -/
def Axis.resolve (rank : ℕ) : Axis → Except PyErr (List ℕ)
  | .all => .ok (List.range rank)
  | .one i => if -(rank : ℤ) ≤ i ∧ i < rank then .ok [(if i < 0 then i + rank else i).toNat] else .error .valueError
  | .many is =>
    let js := is.map fun i => (if i < 0 then i + (rank : ℤ) else i).toNat
    if (∀ i ∈ is, -(rank : ℤ) ≤ i ∧ i < rank) ∧ js.Nodup then .ok js else .error .valueError

/-- Removes the given dimensions from a shape or an index. -/
def dropAxes (axes : List ℕ) (idx : List ℕ) : List ℕ := (idx.zipIdx.filter fun di => di.2 ∉ axes).map Prod.fst

/-- `jnp.min`, `jnp.max`, `jnp.all`, `jnp.any` along the given dimensions. `red` is the reduction of a list of scalars; `noIdentity` says that it
refuses empty lists (`ValueError`). -/
noncomputable def jnpReduce (red : List Truthy → Except PyErr Truthy) (noIdentity : Bool) (a : NdArr Truthy) (axis : Axis) : Except PyErr (NdArr Truthy) := do
  let axes ← axis.resolve a.shape.length
  if noIdentity && a.shape.zipIdx.any (fun di => di.2 ∈ axes ∧ di.1 = 0) then .error .valueError
  else pure ⟨dropAxes axes a.shape, fun r =>
    match red (((indicesOf a.shape).filter fun full => dropAxes axes full = r).map a.get) with
    | .ok v => v
    | .error _ => .b false⟩

/-! ## `logic.py` -/

/-- A compiled and type-checked function of two arguments (logic.py:315, 338, 380, 407, 436, 463). -/
def checked2 {α β : Type} (jit : Bool) (f : NdArr α → NdArr α → Except PyErr (NdArr β)) (x y : ArrArg α) : Except PyErr (NdArr β) := do
  let x := x.traced jit
  let y := y.traced jit
  let memo ← bindArgs none [x, y]
  checkReturn memo (← f x.toArr y.toArr)

/-- A compiled and type-checked function of one argument (logic.py:361, 540, 564). -/
def checked1 {α β : Type} (jit : Bool) (f : NdArr α → Except PyErr (NdArr β)) (x : ArrArg α) : Except PyErr (NdArr β) := do
  let x := x.traced jit
  let memo ← bindArgs none [x]
  checkReturn memo (← f x.toArr)

namespace OnArrays

/-- `logical_or` (logic.py:315-335). -/
noncomputable def logicalOr (E : Env) (jit : Bool) (approx : Option Bool) : ArrArg Truthy → ArrArg Truthy → Except PyErr (NdArr Truthy) :=
  checked2 jit fun x y =>
    if resolveApprox E approx then jnpMap2 Truthy.maximum x y else jnpMap2 (fun a b => .b (a.toBool || b.toBool)) x y

/-- `logical_and` (logic.py:338-358). -/
noncomputable def logicalAnd (E : Env) (jit : Bool) (approx : Option Bool) : ArrArg Truthy → ArrArg Truthy → Except PyErr (NdArr Truthy) :=
  checked2 jit fun x y =>
    if resolveApprox E approx then jnpMap2 Truthy.minimum x y else jnpMap2 (fun a b => .b (a.toBool && b.toBool)) x y

/-- `logical_not` (logic.py:361-377). -/
noncomputable def logicalNot (E : Env) (jit : Bool) (approx : Option Bool) : ArrArg Truthy → Except PyErr (NdArr Truthy) :=
  checked1 jit fun x =>
    if resolveApprox E approx then jnpMap2 (fun a b => .f (a - b.toF)) ⟨[], fun _ => (1 : F)⟩ x else .ok (jnpMap (fun a => .b (!a.toBool)) x)

/-- `greater` (logic.py:380-404). -/
noncomputable def greater (E : Env) (jit : Bool) (approx : Option Bool) (kw : ActKw) : ArrArg F → ArrArg F → Except PyErr (NdArr Truthy) :=
  checked2 jit fun x y =>
    if resolveApprox E approx then do pure (jnpMap (fun d => .f (activation kw d)) (← jnpMap2 (· - ·) x y))
    else jnpMap2 (fun a b => .b (F.lt b a)) x y

/-- `greater_equal` (logic.py:407-433). -/
noncomputable def greaterEqual (E : Env) (jit : Bool) (approx : Option Bool) (kw : ActKw) : ArrArg F → ArrArg F → Except PyErr (NdArr Truthy) :=
  checked2 jit fun x y =>
    if resolveApprox E approx then do pure (jnpMap (fun d => .f (activation kw d)) (← jnpMap2 (· - ·) x y))
    else jnpMap2 (fun a b => .b (F.le b a)) x y

/-- `less` (logic.py:436-460). -/
noncomputable def less (E : Env) (jit : Bool) (approx : Option Bool) (kw : ActKw) : ArrArg F → ArrArg F → Except PyErr (NdArr Truthy) :=
  checked2 jit fun x y =>
    if resolveApprox E approx then do pure (jnpMap (fun d => .f (activation kw d)) (← jnpMap2 (· - ·) y x))
    else jnpMap2 (fun a b => .b (F.lt a b)) x y

/-- `less_equal` (logic.py:463-487). -/
noncomputable def lessEqual (E : Env) (jit : Bool) (approx : Option Bool) (kw : ActKw) : ArrArg F → ArrArg F → Except PyErr (NdArr Truthy) :=
  checked2 jit fun x y =>
    if resolveApprox E approx then do pure (jnpMap (fun d => .f (activation kw d)) (← jnpMap2 (· - ·) y x))
    else jnpMap2 (fun a b => .b (F.le a b)) x y

/-- `logical_all(*x, axis=axis, approx=approx)` (logic.py:490-512). -/
noncomputable def logicalAll (E : Env) (jit : Bool) (approx : Option Bool) (axis : Axis) (xs : List (ArrArg Truthy)) : Except PyErr (NdArr Truthy) := do
  let xs := xs.map (ArrArg.traced jit)
  let memo ← bindArgs none xs
  let arr ← jnpStack (xs.map ArrArg.toArr)
  let r ← if resolveApprox E approx then jnpReduce jnpMin true arr axis
    else jnpReduce (fun l => .ok (.b (l.all Truthy.toBool))) false arr axis
  checkReturn memo r

/-- `logical_any(*x, axis=axis, approx=approx)` (logic.py:515-537). -/
noncomputable def logicalAny (E : Env) (jit : Bool) (approx : Option Bool) (axis : Axis) (xs : List (ArrArg Truthy)) : Except PyErr (NdArr Truthy) := do
  let xs := xs.map (ArrArg.traced jit)
  let memo ← bindArgs none xs
  let arr ← jnpStack (xs.map ArrArg.toArr)
  let r ← if resolveApprox E approx then jnpReduce jnpMax true arr axis
    else jnpReduce (fun l => .ok (.b (l.any Truthy.toBool))) false arr axis
  checkReturn memo r

/-- `is_true` (logic.py:540-561) with a scalar `tol`. In hard mode the array itself is returned, and the annotation `Bool[Array, "*batch"]` of the
result refuses floats. -/
noncomputable def isTrue (E : Env) (jit : Bool) (approx : Option Bool) (tol : F) : ArrArg Truthy → Except PyErr (NdArr Bool) :=
  checked1 jit fun x =>
    if resolveApprox E approx then jnpMap2 (fun a b => F.lt b a.toF) x ⟨[], fun _ => 1 - tol⟩
    else if ∀ idx, (x.get idx).isB = true then .ok (jnpMap Truthy.toBool x) else .error .typeCheckError

/-- `is_false` (logic.py:564-585) with a scalar `tol`. -/
noncomputable def isFalse (E : Env) (jit : Bool) (approx : Option Bool) (tol : F) : ArrArg Truthy → Except PyErr (NdArr Bool) :=
  checked1 jit fun x =>
    if resolveApprox E approx then jnpMap2 (fun a b => F.lt a.toF b) x ⟨[], fun _ => tol⟩ else .ok (jnpMap (fun a => !a.toBool) x)

end OnArrays

/-! ## The setting at import -/

/-- `ENABLE_APPROX: bool = "ENABLE_APPROX" in os.environ` (logic.py:58). -/
def importSetting (environ : List (String × String)) : Bool := (environ.map Prod.fst).contains "ENABLE_APPROX"

end DiffeRT2d
