import Verif.Model.Presets

/-!
# Model of the numerical code under reverse-mode differentiation

`jax.grad` and `jax.value_and_grad` do not differentiate a function but a program: they run it once, and then send cotangents back through
its operations, by fixed rules for each operation. Here the functions of `logic.py`, `geometry.py`, `utils.py` and the function `facc` of
`scene.py` are modelled on numbers that carry such a pullback. The rules are those of `jax` (`jax/_src/lax/lax.py`); they are
computed with IEEE special values, so that `0 * inf` and `0 / 0` in a rule give NaN.

Simplifications: the objects are walls and the paths are traced by the image method; the exact arithmetic of `Model/Float.lean`; a value used
several times receives its cotangents one by one instead of their sum (the rules are linear). Comparisons and Booleans are not
differentiated, as in `jax`.
-/

namespace DiffeRT2d

open Classical

/-- A number computed from inputs named by `ι`: its value, and its pullback, which turns a cotangent of the number into its
contribution to the cotangent of every input. -/
structure Rev (ι : Type) where
  val : F
  pull : F → ι → F

namespace Rev
variable {ι : Type}

/-- A number that does not depend on the inputs. -/
noncomputable def const (x : F) : Rev ι := ⟨x, fun _ _ => 0⟩

/-- The input `i`, with value `x`. -/
noncomputable def var (x : F) (i : ι) : Rev ι := ⟨x, fun ct j => if j = i then ct else 0⟩

/-- `jax.lax.add`. -/
noncomputable instance : Add (Rev ι) := ⟨fun a b => ⟨a.val + b.val, fun ct i => a.pull ct i + b.pull ct i⟩⟩
/-- `jax.lax.neg`. -/
noncomputable instance : Neg (Rev ι) := ⟨fun a => ⟨-a.val, fun ct i => a.pull (-ct) i⟩⟩
/-- `jax.lax.sub`. -/
noncomputable instance : Sub (Rev ι) := ⟨fun a b => ⟨a.val - b.val, fun ct i => a.pull ct i + b.pull (-ct) i⟩⟩
/-- `jax.lax.mul`. -/
noncomputable instance : Mul (Rev ι) := ⟨fun a b => ⟨a.val * b.val, fun ct i => a.pull (ct * b.val) i + b.pull (ct * a.val) i⟩⟩
/-- `jax.lax.div`: the rules are `g / y` and `-g * x * y ** -2`. -/
noncomputable instance : Div (Rev ι) :=
  ⟨fun a b => ⟨a.val / b.val, fun ct i => a.pull (ct / b.val) i + b.pull (-(ct * (1 / (b.val * b.val)) * a.val)) i⟩⟩

/-- `jax.lax.sqrt`: the rule is `g * (0.5 / ans)`. -/
noncomputable def sqrt (a : Rev ι) : Rev ι := ⟨F.sqrt a.val, fun ct i => a.pull (ct * (0.5 / F.sqrt a.val)) i⟩

/-- `jnp.where(c, a, b)` (`jax.lax.select_n`): the operand that is not selected gets the cotangent zero. -/
noncomputable def where_ (c : Bool) (a b : Rev ι) : Rev ι :=
  ⟨F.where_ c a.val b.val, fun ct i => a.pull (F.where_ c ct 0) i + b.pull (F.where_ c 0 ct) i⟩

/-- `_balanced_eq(x, z, y)`: 1, or 1/2 for ties, for the operand `x` that is the result `z`, otherwise 0. -/
noncomputable def balancedEq (x z y : F) : F := F.where_ (F.eq x z) 1 0 / F.where_ (F.eq y z) 2 1

/-- `jax.lax.max`. -/
noncomputable def max (a b : Rev ι) : Rev ι :=
  let z := F.max a.val b.val
  ⟨z, fun ct i => a.pull (ct * balancedEq a.val z b.val) i + b.pull (ct * balancedEq b.val z a.val) i⟩

/-- `jax.lax.min`. -/
noncomputable def min (a b : Rev ι) : Rev ι :=
  let z := F.min a.val b.val
  ⟨z, fun ct i => a.pull (ct * balancedEq a.val z b.val) i + b.pull (ct * balancedEq b.val z a.val) i⟩

/-- `jax.lax.logistic`: the rule is `g * ans * (1 - ans)`. -/
noncomputable def logistic (a : Rev ι) : Rev ι :=
  let z := nnSigmoid a.val
  ⟨z, fun ct i => a.pull (ct * (z * (1 - z))) i⟩

/-- `jnp.min` of a vector (`jax.lax.reduce_min`): the cotangent is divided evenly among the smallest elements. -/
noncomputable def minOf (x : Rev ι) (xs : List (Rev ι)) : Rev ι :=
  let z := F.minOf x.val (xs.map Rev.val)
  let count := ((x :: xs).countP fun y => F.eq y.val z)
  ⟨z, fun ct i => ((x :: xs).map fun y => y.pull (F.where_ (F.eq y.val z) 1 0 * (ct / F.fin count)) i).foldl (· + ·) 0⟩

/-- `jnp.sum` of a vector. -/
noncomputable def sum (xs : List (Rev ι)) : Rev ι := xs.foldl (· + ·) (const 0)

/-- `jnp.nan_to_num`: three selections. -/
noncomputable def nanToNum (a : Rev ι) : Rev ι :=
  let a := where_ a.val.isNan (const 0) a
  let a := where_ (F.eq a.val F.pinf) (const (F.fin F.maxFinite)) a
  where_ (F.eq a.val F.ninf) (const (F.fin (-F.maxFinite))) a

/-- `jnp.linalg.norm` of a vector of size 2. -/
noncomputable def norm (v : V2 (Rev ι)) : Rev ι := sqrt (v.x * v.x + v.y * v.y)

/-- The gradient returned by `jax.grad`: the cotangent 1, sent back. -/
noncomputable def grad (a : Rev ι) : ι → F := a.pull 1

/-- A constant vector. -/
noncomputable def constV (v : V2 F) : V2 (Rev ι) := ⟨const v.x, const v.y⟩

/-- The values of a vector. -/
def valV (v : V2 (Rev ι)) : V2 F := ⟨v.x.val, v.y.val⟩

end Rev

/-- `Truthy` (logic.py:63), under differentiation. -/
inductive RevTruthy (ι : Type) where
  | b (v : Bool)
  | f (v : Rev ι)

namespace RevTruthy
variable {ι : Type}

/-- Promotion of a Boolean to a float, which is a constant. -/
noncomputable def toF : RevTruthy ι → Rev ι
  | b true => .const 1
  | b false => .const 0
  | f x => x

/-- The value. -/
def val : RevTruthy ι → Truthy
  | b v => .b v
  | f x => .f x.val

/-- `jnp.maximum` with dtype promotion. -/
noncomputable def maximum : RevTruthy ι → RevTruthy ι → RevTruthy ι
  | b x, b y => b (x || y)
  | x, y => f (Rev.max x.toF y.toF)

/-- `jnp.minimum` with dtype promotion. -/
noncomputable def minimum : RevTruthy ι → RevTruthy ι → RevTruthy ι
  | b x, b y => b (x && y)
  | x, y => f (Rev.min x.toF y.toF)

/-- `jnp.nan_to_num`. -/
noncomputable def nanToNum : RevTruthy ι → RevTruthy ι
  | b v => b v
  | f x => f x.nanToNum

end RevTruthy

namespace Rev
variable {ι : Type}

/-! ## `logic.py` -/

/-- The keyword arguments of `activation`: the slope, which is not differentiated, and the function. -/
structure ActKw (ι : Type) where
  alpha : F
  function : Rev ι → F → Rev ι

/-- `jax.nn.relu6`. -/
noncomputable def relu6 (x : Rev ι) : Rev ι := min (max x (const 0)) (const 6)

/-- `sigmoid` (logic.py:218-235). -/
noncomputable def sigmoid (x : Rev ι) (alpha : F) : Rev ι := logistic (const alpha * x)

/-- `hard_sigmoid` (logic.py:238-255). -/
noncomputable def hardSigmoid (x : Rev ι) (alpha : F) : Rev ι := relu6 (const alpha * x + const 3) / const 6

/-- `activation` (logic.py:258-312). -/
noncomputable def activation (kw : ActKw ι) (x : Rev ι) : Rev ι := kw.function x kw.alpha

/-- `logical_or` (logic.py:315-335). -/
noncomputable def logicalOr (E : Env) (approx : Option Bool) (x y : RevTruthy ι) : RevTruthy ι :=
  if resolveApprox E approx then x.maximum y else .b (x.val.toBool || y.val.toBool)

/-- `logical_and` (logic.py:338-358). -/
noncomputable def logicalAnd (E : Env) (approx : Option Bool) (x y : RevTruthy ι) : RevTruthy ι :=
  if resolveApprox E approx then x.minimum y else .b (x.val.toBool && y.val.toBool)

/-- `logical_not` (logic.py:361-377). -/
noncomputable def logicalNot (E : Env) (approx : Option Bool) (x : RevTruthy ι) : RevTruthy ι :=
  if resolveApprox E approx then .f (const 1 - x.toF) else .b (!x.val.toBool)

/-- `greater_equal` (logic.py:407-433). -/
noncomputable def greaterEqual (E : Env) (approx : Option Bool) (kw : ActKw ι) (x y : Rev ι) : RevTruthy ι :=
  if resolveApprox E approx then .f (activation kw (x - y)) else .b (F.le y.val x.val)

/-- `less` (logic.py:436-460). -/
noncomputable def less (E : Env) (approx : Option Bool) (kw : ActKw ι) (x y : Rev ι) : RevTruthy ι :=
  if resolveApprox E approx then .f (activation kw (y - x)) else .b (F.lt x.val y.val)

/-- `less_equal` (logic.py:463-487). -/
noncomputable def lessEqual (E : Env) (approx : Option Bool) (kw : ActKw ι) (x y : Rev ι) : RevTruthy ι :=
  if resolveApprox E approx then .f (activation kw (y - x)) else .b (F.le x.val y.val)

/-- `logical_all` on scalar arguments, `axis=None` (logic.py:490-512). -/
noncomputable def logicalAll (E : Env) (approx : Option Bool) (xs : List (RevTruthy ι)) : Except PyErr (RevTruthy ι) :=
  if resolveApprox E approx then
    match xs with
    | [] => .error .valueError
    | x :: xs =>
      if (x :: xs).all (fun y => y.val.isB) then .ok (.b ((x :: xs).all fun y => y.val.toBool))
      else .ok (.f (minOf x.toF (xs.map RevTruthy.toF)))
  else .ok (.b (xs.all fun y => y.val.toBool))

/-- `true_value` (logic.py:588-601). -/
noncomputable def trueValue (E : Env) (approx : Option Bool) : RevTruthy ι :=
  if resolveApprox E approx then .f (const 1) else .b true

/-- `false_value` (logic.py:604-617). -/
noncomputable def falseValue (E : Env) (approx : Option Bool) : RevTruthy ι :=
  if resolveApprox E approx then .f (const 0) else .b false

/-! ## `geometry.py` -/

/-- `test` inside `segments_intersect` (geometry.py:161-171). -/
noncomputable def segTest (E : Env) (tol : F) (approx : Option Bool) (kw : ActKw ι) (num den : Rev ι) : RevTruthy ι :=
  let denIsZero := F.eq den.val 0
  let den' := where_ denIsZero (const 1) den
  let t := where_ denIsZero (const F.pinf) (num / den')
  logicalAnd E approx (greaterEqual E approx kw t (const (-tol))) (lessEqual E approx kw t (const (1 + tol)))

/-- `segments_intersect` (geometry.py:84-173). -/
noncomputable def segmentsIntersect (E : Env) (P1 P2 P3 P4 : V2 (Rev ι)) (tol : F) (approx : Option Bool) (kw : ActKw ι) : RevTruthy ι :=
  let A := P2 - P1
  let B := P3 - P4
  let C := P1 - P3
  let a := B.y * C.x - B.x * C.y
  let b := A.x * C.y - A.y * C.x
  let d := A.y * B.x - A.x * B.y
  logicalAnd E approx (segTest E tol approx kw a d) (segTest E tol approx kw b d)

/-- `jnp.diff(points, axis=0)`. -/
noncomputable def diffs : List (V2 (Rev ι)) → List (V2 (Rev ι))
  | p :: q :: ps => (q - p) :: diffs (q :: ps)
  | _ => []

/-- `path_length` (geometry.py:178-202). -/
noncomputable def pathLength (E : Env) (points : List (V2 (Rev ι))) : Rev ι :=
  sum ((diffs points).map fun v => norm (v + constV ⟨F.fin E.eps, F.fin E.eps⟩))

/-- `normalize` (geometry.py:208-230). -/
noncomputable def normalize (v : V2 (Rev ι)) : V2 (Rev ι) × Rev ι :=
  let length := norm v
  let length := where_ (F.eq length.val 0) (const 1) length
  (V2.sdiv v length, length)

/-- `Wall` (geometry.py:543). -/
structure RWall (ι : Type) where
  origin : V2 (Rev ι)
  dest : V2 (Rev ι)

namespace RWall

/-- The wall itself. -/
def val (w : RWall ι) : Wall := ⟨valV w.origin, valV w.dest⟩

/-- `Ray.t` (geometry.py:479-486). -/
noncomputable def t (w : RWall ι) : V2 (Rev ι) := w.dest - w.origin

/-- `Wall.normal` (geometry.py:563-574). -/
noncomputable def normal (w : RWall ι) : V2 (Rev ι) :=
  let t := w.t
  (normalize ⟨t.y, -t.x⟩).1

/-- `Wall.cartesian_to_parametric` (geometry.py:591-598). -/
noncomputable def toParam (w : RWall ι) (p : V2 (Rev ι)) : Rev ι :=
  let other := p - w.origin
  let sq := V2.dot w.t w.t
  let sq := where_ (F.eq sq.val 0) (const 1) sq
  V2.dot w.t other / sq

/-- `Wall.contains_parametric` (geometry.py:602-621). -/
noncomputable def contains (E : Env) (approx : Option Bool) (kw : ActKw ι) (s : Rev ι) : RevTruthy ι :=
  logicalAnd E approx (greaterEqual E approx kw s (const 0)) (lessEqual E approx kw s (const 1))

/-- `Wall.intersects_cartesian` (geometry.py:625-639). -/
noncomputable def intersects (w : RWall ι) (E : Env) (approx : Option Bool) (kw : ActKw ι) (patch : F) (r0 r1 : V2 (Rev ι)) : RevTruthy ι :=
  segmentsIntersect E (w.origin - V2.smul (const patch) w.t) (w.dest + V2.smul (const patch) w.t) r0 r1 SEG_TOL approx kw

/-- `Wall.evaluate_cartesian` (geometry.py:643-650). -/
noncomputable def evaluate (w : RWall ι) (a b c : V2 (Rev ι)) : Rev ι :=
  let i := b - a
  let r := c - b
  let n := w.normal
  let i := (normalize i).1
  let r := (normalize r).1
  let e := r - (i - V2.smul (const 2 * V2.dot i n) n)
  V2.dot e e

/-- `Wall.image_of` (geometry.py:654-670). -/
noncomputable def imageOf (w : RWall ι) (point : V2 (Rev ι)) : V2 (Rev ι) :=
  let i := point - w.origin
  point - V2.smul (const 2.0 * V2.dot i w.normal) w.normal

end RWall

/-- `path_loss` (geometry.py:1077-1085). -/
noncomputable def pathLoss (loss : Rev ι) : List (RWall ι) → List (V2 (Rev ι)) → Rev ι
  | [], _ => loss
  | w :: ws, a :: b :: c :: pts => pathLoss (loss + w.evaluate a b c) ws (b :: c :: pts)
  | _ :: _, _ => const F.nan

/-- `forward` scan (geometry.py:1087-1092, 1110). -/
noncomputable def images (image : V2 (Rev ι)) : List (RWall ι) → List (V2 (Rev ι))
  | [] => []
  | w :: ws => let im := w.imageOf image; im :: images im ws

/-- `backward` (geometry.py:1094-1108). -/
noncomputable def backStep (w : RWall ι) (image point : V2 (Rev ι)) : V2 (Rev ι) :=
  let p := w.origin
  let n := w.normal
  let u := point - image
  let v := p - point
  let un := V2.dot u n
  let vn := V2.dot v n
  let q := V2.sdiv (V2.smul vn u) un
  let inc : V2 (Rev ι) := ⟨where_ (F.eq un.val 0) (const 0) q.x, where_ (F.eq un.val 0) (const 0) q.y⟩
  point + inc

/-- Reverse scan of `backward` from the receiver (geometry.py:1111). -/
noncomputable def backward (rx : V2 (Rev ι)) : List (RWall ι × V2 (Rev ι)) → List (V2 (Rev ι))
  | [] => []
  | (w, im) :: rest =>
    let pts := backward rx rest
    backStep w im (pts.headD rx) :: pts

/-- `Path` (geometry.py:725-752). -/
structure RPath (ι : Type) where
  xys : List (V2 (Rev ι))
  loss : Rev ι

/-- The path itself. -/
def RPath.val (p : RPath ι) : Path := ⟨p.xys.map valV, p.loss.val⟩

/-- `ImagePath.from_tx_objects_rx` (geometry.py:1018-1114) for walls. -/
noncomputable def imagePath (tx : V2 (Rev ι)) (walls : List (RWall ι)) (rx : V2 (Rev ι)) : RPath ι :=
  match walls with
  | [] => ⟨[tx, rx], const 0⟩
  | walls =>
    let ims := images tx walls
    let pts := backward rx (walls.zip ims)
    let xys := tx :: pts ++ [rx]
    ⟨xys, pathLoss (const 0) walls xys⟩

/-- `xys[i, :]` with JAX's clamped indexing. -/
noncomputable def nth (xys : List (V2 (Rev ι))) (i : ℕ) : V2 (Rev ι) := xys.getD (Nat.min i (xys.length - 1)) (constV V2.nan)

/-- `Path.on_objects` (geometry.py:823-854). -/
noncomputable def RPath.onObjects (p : RPath ι) (E : Env) (walls : List (RWall ι)) (approx : Option Bool) (kw : ActKw ι) : RevTruthy ι :=
  walls.zipIdx.foldl
    (fun contains wi => logicalAnd E approx contains (RWall.contains E approx kw (wi.1.toParam (nth p.xys (wi.2 + 1)))))
    (trueValue E approx)

/-- `jnp.where(ignore, a, b)` on truth values of one kind, for a condition that is not traced by differentiation. -/
noncomputable def whereTruthy (c : Bool) (a b : RevTruthy ι) : RevTruthy ι :=
  match a, b with
  | .f a, .f b => .f (where_ c a b)
  | a, b => F.where_ c a b

/-- `Path.intersects_with_objects` (geometry.py:858-906). -/
noncomputable def RPath.intersectsWithObjects (p : RPath ι) (E : Env) (walls : List (RWall ι)) (candidate : List ℤ) (patch : F)
    (approx : Option Bool) (kw : ActKw ι) : Except PyErr (RevTruthy ι) :=
  let idx : List ℤ := -1 :: candidate ++ [-1]
  if walls ≠ [] ∧ idx.length < p.xys.length then .error .indexError
  else .ok <|
    (List.range (p.xys.length - 1)).foldl
      (fun intersects i =>
        walls.zipIdx.foldl
          (fun intersects oj =>
            let ignore := ((oj.2 : ℤ) == idx.getD i 0) || ((oj.2 : ℤ) == idx.getD (i + 1) 0)
            whereTruthy ignore intersects
              (logicalOr E approx intersects (oj.1.intersects E approx kw patch (nth p.xys i) (nth p.xys (i + 1)))))
          intersects)
      (falseValue E approx)

/-- `Path.is_valid` (geometry.py:910-962). -/
noncomputable def RPath.isValid (p : RPath ι) (E : Env) (walls : List (RWall ι)) (candidate : List ℤ) (interacting : List (RWall ι))
    (tol patch : F) (approx : Option Bool) (kw : ActKw ι) : Except PyErr (RevTruthy ι) := do
  let on := p.onObjects E interacting approx kw
  let inter ← p.intersectsWithObjects E walls candidate patch approx kw
  let r ← logicalAll E approx [on, logicalNot E approx inter, less E approx kw p.loss (const tol)]
  pure r.nanToNum

/-! ## `utils.py` and `scene.py` -/

/-- `received_power` (utils.py:17-55); the coefficient and the height are not differentiated. -/
noncomputable def receivedPower (E : Env) (rCoef height : F) (xys : List (V2 (Rev ι))) : Rev ι :=
  let r := pathLength E xys
  let n : ℤ := (xys.length : ℤ) - 2
  const (rCoef.ipow n) / (const (height * height) + r * r)

/-- `Scene.get_object` (scene.py:330-345) for a scene of walls: `jax.lax.switch` clamps the index. -/
def getObject (walls : List (RWall ι)) (index : ℤ) : Except PyErr (RWall ι) :=
  match walls with
  | [] => .error .valueError
  | w :: ws => .ok ((w :: ws).getD (Nat.min index.toNat ws.length) w)

/-- The options of `is_valid`, with the activation in its differentiated form. -/
structure ValidOpts (ι : Type) where
  E : Env
  tol : F
  patch : F
  approx : Option Bool
  kw : ActKw ι

/-- The loop of `facc` (scene.py:1589-1615, 1892-1918), for a user's function of the points of the path: what `jax.value_and_grad`
differentiates in the accumulations on grids. -/
noncomputable def facc (v : ValidOpts ι) (walls : List (RWall ι)) (fun_ : List (V2 (Rev ι)) → Rev ι) (transmitter receiver : V2 (Rev ι)) :
    Rev ι → List (List ℤ) → Except PyErr (Rev ι)
  | acc, [] => .ok acc
  | acc, candidate :: rest => do
    let interacting ← candidate.mapM (getObject walls)
    let path := imagePath transmitter interacting receiver
    let valid ← path.isValid v.E walls candidate interacting v.tol v.patch v.approx v.kw
    facc v walls fun_ transmitter receiver (acc + valid.toF * fun_ path.xys) rest

end Rev

end DiffeRT2d
