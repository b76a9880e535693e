import Verif.Model.Geometry
import Verif.Model.Optimize

/-!
# Model of the path classes of `differt2d/geometry.py`
-/

namespace DiffeRT2d

open Classical

/-- `Path` (geometry.py:725-752). -/
structure Path where
  xys : List (V2 F)
  loss : F

/-- `xys[i, :]` with JAX's clamped indexing (an empty array is an error in Python). -/
def nth (xys : List (V2 F)) (i : ℕ) : V2 F := xys.getD (min i (xys.length - 1)) V2.nan

/-- `Path.from_tx_objects_rx` (geometry.py:755-809): the middle of every object; default loss 0. -/
noncomputable def Path.fromTxObjectsRx (tx : V2 F) (objects : List Interactable) (rx : V2 F) : Path :=
  ⟨tx :: objects.map (fun o => o.toCart [0.5]) ++ [rx], 0⟩

/-- `Path.length` (geometry.py:813-819). -/
noncomputable def Path.length (p : Path) (E : Env) : F := pathLength E p.xys

/-- `Path.on_objects` (geometry.py:823-854). -/
noncomputable def Path.onObjects (p : Path) (E : Env) (objects : List Interactable)
    (approx : Option Bool) (kw : ActKw) : Truthy :=
  objects.zipIdx.foldl
    (fun contains oi =>
      let paramCoords := oi.1.toParam (nth p.xys (oi.2 + 1))
      logicalAnd E approx contains (oi.1.contains E approx kw paramCoords))
    (trueValue E approx)

/-- `Path.intersects_with_objects` (geometry.py:858-906). `candidate` holds the object indices.
`IndexError` when the candidate is too short for the path (and there is an object to test). -/
noncomputable def Path.intersectsWithObjects (p : Path) (E : Env) (objects : List Interactable)
    (candidate : List ℤ) (patch : F) (approx : Option Bool) (kw : ActKw) : Except PyErr Truthy :=
  let idx : List ℤ := -1 :: candidate ++ [-1]
  if objects ≠ [] ∧ idx.length < p.xys.length then .error .indexError
  else .ok <|
    (List.range (p.xys.length - 1)).foldl
      (fun intersects i =>
        objects.zipIdx.foldl
          (fun intersects oj =>
            let ignore := ((oj.2 : ℤ) == idx.getD i 0) || ((oj.2 : ℤ) == idx.getD (i + 1) 0)
            F.where_ ignore intersects
              (logicalOr E approx intersects
                (oj.1.intersects E approx kw patch (nth p.xys i) (nth p.xys (i + 1)))))
          intersects)
      (falseValue E approx)

/-- Default `tol` of `is_valid` (geometry.py:915). -/
noncomputable def VALID_TOL : F := 1e-2

/-- `DEFAULT_PATCH` (defaults.py:9). -/
noncomputable def DEFAULT_PATCH : F := 0.0

/-- `Path.is_valid` (geometry.py:910-962). -/
noncomputable def Path.isValid (p : Path) (E : Env) (objects : List Interactable)
    (candidate : List ℤ) (interacting : List Interactable) (tol patch : F) (approx : Option Bool)
    (kw : ActKw) : Except PyErr Truthy := do
  let on := p.onObjects E interacting approx kw
  let inter ← p.intersectsWithObjects E objects candidate patch approx kw
  let r ← logicalAll E approx
    [on, logicalNot E approx inter, less E approx kw p.loss tol]
  pure r.nanToNum

/-- `Path.bounding_box` (geometry.py:971-973); `ValueError` for an empty path. -/
noncomputable def Path.bbox (p : Path) : Except PyErr BBox :=
  match p.xys with
  | [] => .error .valueError
  | q :: qs => .ok (bboxOf q qs)

/-- `path_loss` (geometry.py:1077-1085, 1183-1191) and the body of `MinPath`'s `loss_fun`: the sum of
`evaluate_cartesian` over consecutive triples. `_loss` starts at 0. The last case (fewer points than
objects + 2, a type-check error in Python) does not occur. -/
noncomputable def pathLoss (loss : F) : List Interactable → List (V2 F) → F
  | [], _ => loss
  | o :: os, a :: b :: c :: pts => pathLoss (loss + o.evaluate a b c) os (b :: c :: pts)
  | _ :: _, _ => F.nan

/-! ## Image method -/

/-- `forward` scan (geometry.py:1087-1092, 1110): successive images of the transmitter. -/
noncomputable def images (image : V2 F) : List Wall → List (V2 F)
  | [] => []
  | w :: ws => let im := w.imageOf image; im :: images im ws

/-- `backward` (geometry.py:1094-1108): one step of the reverse scan. -/
noncomputable def backStep (w : Wall) (image point : V2 F) : V2 F :=
  let p := w.origin
  let n := w.normal
  let u := point - image
  let v := p - point
  let un := V2.dot u n
  let vn := V2.dot v n
  let inc := F.where_ (F.eq un 0) ⟨0, 0⟩ (V2.sdiv (V2.smul vn u) un)
  point + inc

/-- Reverse scan of `backward` from the receiver (geometry.py:1111): the interaction points in wall
order. -/
noncomputable def backward (rx : V2 F) : List (Wall × V2 F) → List (V2 F)
  | [] => []
  | (w, im) :: rest =>
    let pts := backward rx rest
    backStep w im (pts.headD rx) :: pts

/-- `ImagePath.from_tx_objects_rx` (geometry.py:1018-1114) once the objects are known to be walls (of
any one class): `walls` are their geometries, `objs` the objects themselves (for `path_loss`). -/
noncomputable def imagePathCore (tx : V2 F) (walls : List Wall) (objs : List Interactable) (rx : V2 F) :
    Path :=
  let ims := images tx walls
  let pts := backward rx (walls.zip ims)
  let xys := tx :: pts ++ [rx]
  ⟨xys, pathLoss 0 objs xys⟩

/-- The wall geometry of an object, if it has `origin`/`normal`/`image_of`. -/
def Obj.asWall : Obj → Option Wall
  | .wall w => some w
  | .ris r => some r.toWall
  | _ => none

/-- `ImagePath.from_tx_objects_rx` (geometry.py:1018-1114). No object: straight line. Objects of
different classes: `stack_leaves` raises `ValueError`. Vertices (no `image_of`): `AttributeError`.
User classes are assumed not to provide the wall interface. -/
noncomputable def ImagePath.fromTxObjectsRx (tx : V2 F) (objects : List Obj) (rx : V2 F) :
    Except PyErr Path :=
  match objects with
  | [] => .ok ⟨[tx, rx], 0⟩
  | o :: os =>
    if os.all (fun o' => o'.cls == o.cls) then
      match (o :: os).mapM Obj.asWall with
      | some ws => .ok (imagePathCore tx ws ((o :: os).map Obj.interact) rx)
      | none => .error .attributeError
    else .error .valueError

/-! ## Minimizing methods -/

/-- `jax.lax.dynamic_slice(xs, (start,), (size,))`: the start index is clamped so that the slice fits. -/
def dynamicSlice {α : Type*} (xs : List α) (start size : ℕ) : List α :=
  (xs.drop (min start (xs.length - size))).take size

/-- The loop of `parametric_to_cartesian` (geometry.py:1004-1009) with running offset `j`;
`parametric_to_cartesian_from_slice` (geometry.py:978-985) is the slice and the conversion. -/
def toCartesianFrom (theta : List F) (j : ℕ) : List Interactable → List (V2 F)
  | [] => []
  | o :: os => o.toCart (dynamicSlice theta j o.paramCount) :: toCartesianFrom theta (j + o.paramCount) os

/-- `parametric_to_cartesian` (geometry.py:990-1011) with `n = len(objects)`. -/
def parametricToCartesian (objects : List Interactable) (theta : List F) (tx rx : V2 F) : List (V2 F) :=
  tx :: toCartesianFrom theta 0 objects ++ [rx]

/-- `n_unknowns` (geometry.py:1176, 1268). -/
def nUnknowns (objects : List Interactable) : ℕ := (objects.map Interactable.paramCount).sum

/-- `loss_fun` of `FermatPath` (geometry.py:1178-1181). -/
noncomputable def fermatLoss (E : Env) (objects : List Interactable) (tx rx : V2 F) (theta : List F) : F :=
  pathLength E (parametricToCartesian objects theta tx rx)

/-- `loss_fun` of `MinPath` (geometry.py:1270-1276). -/
noncomputable def minLoss (objects : List Interactable) (tx rx : V2 F) (theta : List F) : F :=
  pathLoss 0 objects (parametricToCartesian objects theta tx rx)

/-- `FermatPath.from_tx_objects_rx` (geometry.py:1122-1205). `many` defaults to 1. -/
noncomputable def FermatPath.fromTxObjectsRx {Key : Type} (E : Env) (M : Minimizer Key)
    (tx : V2 F) (objects : List Interactable) (rx : V2 F) (key : Key) (many : ℕ := 1) :
    Except PyErr Path :=
  if objects.length = 0 then .ok ⟨[tx, rx], 0⟩
  else do
    let r ← minimizeManyRandomUniform M (fermatLoss E objects tx rx) key (nUnknowns objects) many
    let xys := parametricToCartesian objects r.1 tx rx
    pure ⟨xys, pathLoss 0 objects xys⟩

/-- `MinPath.from_tx_objects_rx` (geometry.py:1212-1288). `many` defaults to 1. -/
noncomputable def MinPath.fromTxObjectsRx {Key : Type} (M : Minimizer Key)
    (tx : V2 F) (objects : List Interactable) (rx : V2 F) (key : Key) (many : ℕ := 1) :
    Except PyErr Path :=
  if objects.length = 0 then .ok ⟨[tx, rx], 0⟩
  else do
    let r ← minimizeManyRandomUniform M (minLoss objects tx rx) key (nUnknowns objects) many
    let xys := parametricToCartesian objects r.1 tx rx
    pure ⟨xys, r.2⟩

end DiffeRT2d
