import Verif.Model.Grad
import Verif.Model.Paths

/-!
# Model of the objectives of `FermatPath` and `MinPath` under reverse-mode differentiation

`minimize` (optimize.py:85) takes `jax.value_and_grad` of its objective. `Model/Optimize.lean` leaves this operator as a parameter; here it is run
on the two objectives of the library, `loss_fun` of `FermatPath` and of `MinPath` (geometry.py:1178-1181, 1270-1276), with the rules of `Model/Grad.lean`.
Simplification: the objects are of the three classes of the library.
-/

namespace DiffeRT2d
namespace Rev
open Classical

variable {ι : Type}

/-- `jax.lax.sin`: the rule is `g * cos(x)`. -/
noncomputable def sin (a : Rev ι) : Rev ι := ⟨F.sin a.val, fun ct i => a.pull (ct * F.cos a.val) i⟩

/-- `jax.lax.cos`: the rule is `-(g * sin(x))`. -/
noncomputable def cos (a : Rev ι) : Rev ι := ⟨F.cos a.val, fun ct i => a.pull (-(ct * F.sin a.val)) i⟩

/-- `Wall.parametric_to_cartesian` (geometry.py:583-587), for one parameter. -/
noncomputable def RWall.toCart (w : RWall ι) (s : Rev ι) : V2 (Rev ι) := w.origin + V2.smul s w.t

/-- `x ** 2` (`jax.lax.integer_pow`; its rule `g * 2 * x` is that of the product). -/
noncomputable def sq (x : Rev ι) : Rev ι := x * x

/-- `RIS.evaluate_cartesian` (geometry.py:700-712). -/
noncomputable def risEvaluate (w : RWall ι) (phi : Rev ι) (b c : V2 (Rev ι)) : Rev ι :=
  let r := c - b
  let n := w.normal
  let r := (normalize r).1
  let sinA := V2.cross (-r) n
  let cosA := V2.dot (-r) n
  let sinP := sin phi
  let cosP := cos phi
  sq (sinA - sinP) + sq (cosA - cosP)

/-- An object of one of the classes `Wall`, `RIS` and `Vertex`. -/
inductive RObj (ι : Type) where
  | wall (w : RWall ι)
  | ris (w : RWall ι) (phi : Rev ι)
  | vertex (xy : V2 (Rev ι))

namespace RObj

/-- `parameters_count` (geometry.py:375-377, 577-579). -/
def paramCount : RObj ι → ℕ
  | wall _ => 1
  | ris _ _ => 1
  | vertex _ => 0

/-- `parametric_to_cartesian` (geometry.py:381-385, 583-587). -/
noncomputable def toCart : RObj ι → List (Rev ι) → V2 (Rev ι)
  | wall w, ps => w.toCart (ps.headD (const F.nan))
  | ris w _, ps => w.toCart (ps.headD (const F.nan))
  | vertex xy, _ => xy

/-- `evaluate_cartesian` (geometry.py:415-419, 643-650, 700-712). -/
noncomputable def evaluate : RObj ι → V2 (Rev ι) → V2 (Rev ι) → V2 (Rev ι) → Rev ι
  | wall w, a, b, c => w.evaluate a b c
  | ris w phi, _, b, c => risEvaluate w phi b c
  | vertex _, _, _, _ => const 0

end RObj

/-- An object that is not differentiated (the error stands for the user's classes, which are not modelled here). -/
noncomputable def constObj : Obj → Option (RObj ι)
  | .wall w => some (.wall ⟨constV w.origin, constV w.dest⟩)
  | .ris r => some (.ris ⟨constV r.origin, constV r.dest⟩ (const r.phi))
  | .vertex v => some (.vertex (constV v.xy))
  | .user _ _ _ => none

/-- The loop of `parametric_to_cartesian` (geometry.py:1004-1009). -/
noncomputable def toCartesianFrom (theta : List (Rev ι)) (j : ℕ) : List (RObj ι) → List (V2 (Rev ι))
  | [] => []
  | o :: os => o.toCart (dynamicSlice theta j o.paramCount) :: toCartesianFrom theta (j + o.paramCount) os

/-- `parametric_to_cartesian` (geometry.py:990-1011). -/
noncomputable def parametricToCartesian (objects : List (RObj ι)) (theta : List (Rev ι)) (tx rx : V2 (Rev ι)) : List (V2 (Rev ι)) :=
  tx :: toCartesianFrom theta 0 objects ++ [rx]

/-- The sum of `evaluate_cartesian` over consecutive triples (geometry.py:1272-1276). -/
noncomputable def totalScore (loss : Rev ι) : List (RObj ι) → List (V2 (Rev ι)) → Rev ι
  | [], _ => loss
  | o :: os, a :: b :: c :: pts => totalScore (loss + o.evaluate a b c) os (b :: c :: pts)
  | _ :: _, _ => const F.nan

/-- `loss_fun` of `FermatPath` (geometry.py:1178-1181). -/
noncomputable def fermatLoss (E : Env) (objects : List (RObj ι)) (tx rx : V2 (Rev ι)) (theta : List (Rev ι)) : Rev ι :=
  pathLength E (parametricToCartesian objects theta tx rx)

/-- `loss_fun` of `MinPath` (geometry.py:1270-1276). -/
noncomputable def minLoss (objects : List (RObj ι)) (tx rx : V2 (Rev ι)) (theta : List (Rev ι)) : Rev ι :=
  totalScore (const 0) objects (parametricToCartesian objects theta tx rx)

/-- The second component of `jax.value_and_grad(fun)` (optimize.py:85) at a vector. -/
noncomputable def gradient (f : List (Rev ℕ) → Rev ℕ) (x : List F) : List F :=
  let r := f (x.zipIdx.map fun p => var p.1 p.2)
  (List.range x.length).map r.grad

end Rev

/-- The minimizer that differentiates the program `f` (and nothing else) by reverse mode. -/
noncomputable def Minimizer.differentiating {Key : Type} (M : Minimizer Key) (f : List (Rev ℕ) → Rev ℕ) : Minimizer Key :=
  { M with grad := fun _ => Rev.gradient f }

/-- `FermatPath.from_tx_objects_rx` (geometry.py:1122-1205) for objects of the library, with the gradient of `Model/Grad.lean`. -/
noncomputable def FermatPath.differentiated {Key : Type} (E : Env) (M : Minimizer Key) (tx : V2 F) (objects : List Obj) (rx : V2 F) (key : Key) (many : ℕ := 1) :
    Except PyErr Path :=
  match objects.mapM Rev.constObj with
  | some os => FermatPath.fromTxObjectsRx E (M.differentiating (Rev.fermatLoss E os (Rev.constV tx) (Rev.constV rx))) tx (objects.map Obj.interact) rx key many
  | none => .error .notImplementedError

/-- `MinPath.from_tx_objects_rx` (geometry.py:1212-1288) for objects of the library, with the gradient of `Model/Grad.lean`. -/
noncomputable def MinPath.differentiated {Key : Type} (M : Minimizer Key) (tx : V2 F) (objects : List Obj) (rx : V2 F) (key : Key) (many : ℕ := 1) :
    Except PyErr Path :=
  match objects.mapM Rev.constObj with
  | some os => MinPath.fromTxObjectsRx (M.differentiating (Rev.minLoss os (Rev.constV tx) (Rev.constV rx))) tx (objects.map Obj.interact) rx key many
  | none => .error .notImplementedError

end DiffeRT2d
