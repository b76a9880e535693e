import Verif.Model.Paths
import Verif.Model.Presets

/-!
# Model of the numerical code in rounded arithmetic

The other model files compute with exact reals (and the IEEE special values). Here the same functions of `logic.py`,
`geometry.py` and `utils.py` are modelled with every arithmetic operation rounded. How numbers are rounded is a parameter:
`float32` and `float64` are instances, and so is the exact arithmetic of the other files (`FloatOps.exact`).
Simplifications: each operation is rounded on its own (no fused multiply-add), sums are computed from left to right, there is
one zero, and `sqrt`, `sin` and `cos` are rounded correctly.
-/

namespace DiffeRT2d

open Classical

/-- A floating point arithmetic: how an exact result is rounded (an overflow may give an infinity), and the library's
implementation of the logistic function. -/
structure FloatOps where
  rnd : ℝ → F
  logistic : F → F

namespace FloatOps

/-- No rounding: the arithmetic of the other model files. -/
noncomputable def exact : FloatOps := ⟨F.fin, nnSigmoid⟩

variable (A : FloatOps)

/-- Round the exact result of an operation; special values stay. -/
noncomputable def round : F → F
  | F.fin x => A.rnd x
  | x => x

/-- Rounded `+`. -/
noncomputable def add (a b : F) : F := A.round (a + b)
/-- Rounded `-`. -/
noncomputable def sub (a b : F) : F := A.round (a - b)
/-- Rounded `*`. -/
noncomputable def mul (a b : F) : F := A.round (a * b)
/-- Rounded `/`. -/
noncomputable def div (a b : F) : F := A.round (a / b)
/-- Rounded `jnp.sqrt`. -/
noncomputable def sqrt (a : F) : F := A.round (F.sqrt a)

/-- Vector addition. -/
noncomputable def vadd (a b : V2 F) : V2 F := ⟨A.add a.x b.x, A.add a.y b.y⟩
/-- Vector subtraction. -/
noncomputable def vsub (a b : V2 F) : V2 F := ⟨A.sub a.x b.x, A.sub a.y b.y⟩
/-- Scalar times vector. -/
noncomputable def vsmul (c : F) (v : V2 F) : V2 F := ⟨A.mul c v.x, A.mul c v.y⟩
/-- Vector divided by scalar. -/
noncomputable def vsdiv (v : V2 F) (c : F) : V2 F := ⟨A.div v.x c, A.div v.y c⟩
/-- `jnp.dot`. -/
noncomputable def vdot (a b : V2 F) : F := A.add (A.mul a.x b.x) (A.mul a.y b.y)
/-- `jnp.cross`. -/
noncomputable def vcross (a b : V2 F) : F := A.sub (A.mul a.x b.y) (A.mul a.y b.x)
/-- `jnp.linalg.norm`. -/
noncomputable def vnorm (v : V2 F) : F := A.sqrt (A.add (A.mul v.x v.x) (A.mul v.y v.y))

/-! ## `logic.py` (the functions that compute; `logical_and`, `logical_or`, `logical_all`, `logical_any`, `true_value` and
`false_value` only select and are those of `Model/Logic.lean`) -/

/-- `sigmoid` (logic.py:218-235). -/
noncomputable def sigmoid (x alpha : F) : F := A.logistic (A.mul alpha x)

/-- `hard_sigmoid` (logic.py:238-255), `relu6(x + 3) / 6`. -/
noncomputable def hardSigmoid (x alpha : F) : F := A.div (nnRelu6 (A.add (A.mul alpha x) 3)) 6

/-- `logical_not` (logic.py:361-377). -/
noncomputable def logicalNot (E : Env) (approx : Option Bool) (x : Truthy) : Truthy :=
  if resolveApprox E approx then .f (A.sub 1 x.toF) else .b (!x.toBool)

/-- `greater` (logic.py:380-404). -/
noncomputable def greater (E : Env) (approx : Option Bool) (kw : ActKw) (x y : F) : Truthy :=
  if resolveApprox E approx then .f (activation kw (A.sub x y)) else .b (F.lt y x)

/-- `greater_equal` (logic.py:407-433). -/
noncomputable def greaterEqual (E : Env) (approx : Option Bool) (kw : ActKw) (x y : F) : Truthy :=
  if resolveApprox E approx then .f (activation kw (A.sub x y)) else .b (F.le y x)

/-- `less` (logic.py:436-460). -/
noncomputable def less (E : Env) (approx : Option Bool) (kw : ActKw) (x y : F) : Truthy :=
  if resolveApprox E approx then .f (activation kw (A.sub y x)) else .b (F.lt x y)

/-- `less_equal` (logic.py:463-487). -/
noncomputable def lessEqual (E : Env) (approx : Option Bool) (kw : ActKw) (x y : F) : Truthy :=
  if resolveApprox E approx then .f (activation kw (A.sub y x)) else .b (F.le x y)

/-- `is_true` (logic.py:540-561). -/
noncomputable def isTrue (E : Env) (approx : Option Bool) (x : Truthy) (tol : F := 0.5) : Except PyErr Bool :=
  if resolveApprox E approx then .ok (F.lt (A.sub 1 tol) x.toF)
  else match x with
    | .b v => .ok v
    | .f _ => .error .typeCheckError

/-! ## `geometry.py` -/

/-- `test` inside `segments_intersect` (geometry.py:161-171). -/
noncomputable def segTest (E : Env) (tol : F) (approx : Option Bool) (kw : ActKw) (num den : F) : Truthy :=
  let denIsZero := F.eq den 0
  let den' := F.where_ denIsZero 1 den
  let t := F.where_ denIsZero F.pinf (A.div num den')
  logicalAnd E approx (A.greaterEqual E approx kw t (-tol)) (A.lessEqual E approx kw t (A.add 1 tol))

/-- `segments_intersect` (geometry.py:84-173). -/
noncomputable def segmentsIntersect (E : Env) (P1 P2 P3 P4 : V2 F) (tol : F) (approx : Option Bool) (kw : ActKw) : Truthy :=
  let a' := A.vsub P2 P1
  let b' := A.vsub P3 P4
  let c' := A.vsub P1 P3
  let a := A.sub (A.mul b'.y c'.x) (A.mul b'.x c'.y)
  let b := A.sub (A.mul a'.x c'.y) (A.mul a'.y c'.x)
  let d := A.sub (A.mul a'.y b'.x) (A.mul a'.x b'.y)
  logicalAnd E approx (A.segTest E tol approx kw a d) (A.segTest E tol approx kw b d)

/-- Default value of `tol` in `segments_intersect` (geometry.py:89): the decimal literal, rounded. -/
noncomputable def SEG_TOL : F := A.rnd (5 / 1000)

/-- `path_length` (geometry.py:178-202). -/
noncomputable def pathLength (E : Env) : List (V2 F) → F
  | points => ((List.zipWith (fun q p => A.vnorm (A.vadd (A.vsub q p) ⟨F.fin E.eps, F.fin E.eps⟩)) points.tail points)).foldl A.add 0

/-- `normalize` (geometry.py:208-230). -/
noncomputable def normalize (v : V2 F) : V2 F × F :=
  let length := A.vnorm v
  let length := F.where_ (F.eq length 0) 1 length
  (A.vsdiv v length, length)

/-- `Ray.t` (geometry.py:479-486). -/
noncomputable def wallT (w : Wall) : V2 F := A.vsub w.dest w.origin

/-- `Wall.normal` (geometry.py:563-574). -/
noncomputable def wallNormal (w : Wall) : V2 F :=
  let t := A.wallT w
  (A.normalize ⟨t.y, -t.x⟩).1

/-- `Wall.parametric_to_cartesian` (geometry.py:583-587), for one parameter. -/
noncomputable def wallToCart (w : Wall) (s : F) : V2 F := A.vadd w.origin (A.vsmul s (A.wallT w))

/-- `Wall.cartesian_to_parametric` (geometry.py:591-598). -/
noncomputable def wallToParam (w : Wall) (p : V2 F) : F :=
  let other := A.vsub p w.origin
  let sq := A.vdot (A.wallT w) (A.wallT w)
  let sq := F.where_ (F.eq sq 0) 1 sq
  A.div (A.vdot (A.wallT w) other) sq

/-- `Wall.contains_parametric` (geometry.py:602-621). -/
noncomputable def wallContains (E : Env) (approx : Option Bool) (kw : ActKw) (s : F) : Truthy :=
  logicalAnd E approx (A.greaterEqual E approx kw s 0) (A.lessEqual E approx kw s 1)

/-- `Wall.intersects_cartesian` (geometry.py:625-639). -/
noncomputable def wallIntersects (w : Wall) (E : Env) (approx : Option Bool) (kw : ActKw) (patch : F) (r0 r1 : V2 F) : Truthy :=
  A.segmentsIntersect E (A.vsub w.origin (A.vsmul patch (A.wallT w))) (A.vadd w.dest (A.vsmul patch (A.wallT w))) r0 r1 A.SEG_TOL approx kw

/-- `Wall.evaluate_cartesian` (geometry.py:643-650). -/
noncomputable def wallEvaluate (w : Wall) (a b c : V2 F) : F :=
  let i := A.vsub b a
  let r := A.vsub c b
  let n := A.wallNormal w
  let i := (A.normalize i).1
  let r := (A.normalize r).1
  let e := A.vsub r (A.vsub i (A.vsmul (A.mul 2 (A.vdot i n)) n))
  A.vdot e e

/-- `Wall.image_of` (geometry.py:654-670). -/
noncomputable def wallImageOf (w : Wall) (point : V2 F) : V2 F :=
  let i := A.vsub point w.origin
  A.vsub point (A.vsmul (A.mul 2 (A.vdot i (A.wallNormal w))) (A.wallNormal w))

/-- A wall as an `Interactable`. -/
noncomputable def wallInteract (w : Wall) : Interactable where
  paramCount := 1
  toCart ps := A.wallToCart w (ps.headD F.nan)
  toParam p := [A.wallToParam w p]
  contains E approx kw ps := A.wallContains E approx kw (ps.headD F.nan)
  intersects E approx kw patch r0 r1 := A.wallIntersects w E approx kw patch r0 r1
  evaluate := A.wallEvaluate w

/-- `RIS.evaluate_cartesian` (geometry.py:700-712). -/
noncomputable def risEvaluate (w : RIS) (_a b c : V2 F) : F :=
  let r := A.vsub c b
  let n := A.wallNormal w.toWall
  let r := (A.normalize r).1
  let ds := A.sub (A.vcross (-r) n) (A.round (F.sin w.phi))
  let dc := A.sub (A.vdot (-r) n) (A.round (F.cos w.phi))
  A.add (A.mul ds ds) (A.mul dc dc)

/-- A RIS as an `Interactable`. -/
noncomputable def risInteract (w : RIS) : Interactable := { A.wallInteract w.toWall with evaluate := A.risEvaluate w }

/-- Dynamic dispatch of the `Interactable` methods (the methods of `Vertex` do not compute). -/
noncomputable def interact : Obj → Interactable
  | .wall w => A.wallInteract w
  | .ris r => A.risInteract r
  | .vertex v => v.interact
  | .user _ i _ => i

/-- `Path.is_valid` (geometry.py:910-962); `on_objects` and `intersects_with_objects` only combine what the objects
compute, and are those of `Model/Paths.lean`. -/
noncomputable def isValid (p : Path) (E : Env) (objects : List Interactable) (candidate : List ℤ) (interacting : List Interactable)
    (tol patch : F) (approx : Option Bool) (kw : ActKw) : Except PyErr Truthy := do
  let on := p.onObjects E interacting approx kw
  let inter ← p.intersectsWithObjects E objects candidate patch approx kw
  let r ← logicalAll E approx [on, A.logicalNot E approx inter, A.less E approx kw p.loss tol]
  pure r.nanToNum

/-- `path_loss` (geometry.py:1077-1085, 1183-1191). -/
noncomputable def pathLoss (loss : F) : List Interactable → List (V2 F) → F
  | [], _ => loss
  | o :: os, a :: b :: c :: pts => pathLoss (A.add loss (o.evaluate a b c)) os (b :: c :: pts)
  | _ :: _, _ => F.nan

/-- `forward` scan (geometry.py:1087-1092, 1110). -/
noncomputable def images (image : V2 F) : List Wall → List (V2 F)
  | [] => []
  | w :: ws => let im := A.wallImageOf w image; im :: images im ws

/-- `backward` (geometry.py:1094-1108). -/
noncomputable def backStep (w : Wall) (image point : V2 F) : V2 F :=
  let p := w.origin
  let n := A.wallNormal w
  let u := A.vsub point image
  let v := A.vsub p point
  let un := A.vdot u n
  let vn := A.vdot v n
  let inc := F.where_ (F.eq un 0) ⟨0, 0⟩ (A.vsdiv (A.vsmul vn u) un)
  A.vadd point inc

/-- Reverse scan of `backward` from the receiver (geometry.py:1111). -/
noncomputable def backward (rx : V2 F) : List (Wall × V2 F) → List (V2 F)
  | [] => []
  | (w, im) :: rest =>
    let pts := backward rx rest
    A.backStep w im (pts.headD rx) :: pts

/-- `ImagePath.from_tx_objects_rx` (geometry.py:1018-1114) for walls. -/
noncomputable def imagePath (tx : V2 F) (walls : List Wall) (rx : V2 F) : Path :=
  match walls with
  | [] => ⟨[tx, rx], 0⟩
  | walls =>
    let ims := A.images tx walls
    let pts := A.backward rx (walls.zip ims)
    let xys := tx :: pts ++ [rx]
    ⟨xys, A.pathLoss 0 (walls.map A.wallInteract) xys⟩

/-- `r_coef**n` in `received_power` (utils.py:55), for `n` interactions: repeated multiplication (XLA multiplies in another
order). -/
noncomputable def power (rCoef : F) : ℕ → F
  | 0 => 1
  | n + 1 => A.mul (power rCoef n) rCoef

/-- `received_power` (utils.py:17-55), for a path of two points at least. -/
noncomputable def receivedPower (E : Env) (path : Path) (rCoef height : F) : F :=
  let r := A.pathLength E path.xys
  A.div (A.power rCoef (path.xys.length - 2)) (A.add (A.mul height height) (A.mul r r))

/-- `Scene.get_interacting_objects` (scene.py:1136-1154) for a scene of walls; indices that are out of range do not occur. -/
def interacting (walls : List Wall) (c : List ℤ) : List Wall := c.filterMap fun i => walls[i.toNat]?

/-- The validity of one path (scene.py:1207-1226), with the image method: `all_paths` yields it, with the path. -/
noncomputable def validity (E : Env) (tx rx : V2 F) (walls : List Wall) (c : List ℤ) (tol patch : F) (approx : Option Bool) (kw : ActKw) :
    Except PyErr Truthy :=
  A.isValid (A.imagePath tx (interacting walls c) rx) E (walls.map A.wallInteract) c ((interacting walls c).map A.wallInteract) tol patch approx kw

/-- The loop of `accumulate_over_paths` (scene.py:1310-1325) over the path candidates, with the image method and
`received_power`: `acc = acc + valid * received_power(...)`. -/
noncomputable def accumulate (E : Env) (tx rx : V2 F) (walls : List Wall) (tol patch : F) (approx : Option Bool) (kw : ActKw) (rCoef height : F) :
    F → List (List ℤ) → Except PyErr F
  | acc, [] => .ok acc
  | acc, c :: cs => do
    let valid ← A.validity E tx rx walls c tol patch approx kw
    accumulate E tx rx walls tol patch approx kw rCoef height
      (A.add acc (A.mul valid.toF (A.receivedPower E (A.imagePath tx (interacting walls c) rx) rCoef height))) cs

end FloatOps

end DiffeRT2d
