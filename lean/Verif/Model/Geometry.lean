import Verif.Model.Logic

/-!
# Model of `differt2d/geometry.py` (primitives and objects) and `differt2d/abc.py`

`Float[Array, "2"]` is `V2 F`, `Float[Array, "2 2"]` a pair of those, `Float[Array, "N 2"]` a list.
-/

namespace DiffeRT2d

open Classical

/-- The all-NaN vector, only used where Python would have raised (see the uses). -/
def V2.nan : V2 F := ⟨F.nan, F.nan⟩

/-- `test` inside `segments_intersect` (geometry.py:161-171). -/
noncomputable def segTest (E : Env) (tol : F) (approx : Option Bool) (kw : ActKw) (num den : F) : Truthy :=
  let denIsZero := F.eq den 0
  let den' := F.where_ denIsZero 1 den
  let t := F.where_ denIsZero F.pinf (num / den')
  logicalAnd E approx (greaterEqual E approx kw t (-tol)) (lessEqual E approx kw t (1 + tol))

/-- `segments_intersect` (geometry.py:84-173). -/
noncomputable def segmentsIntersect (E : Env) (P1 P2 P3 P4 : V2 F) (tol : F) (approx : Option Bool)
    (kw : ActKw) : Truthy :=
  let A := P2 - P1
  let B := P3 - P4
  let C := P1 - P3
  let a := B.y * C.x - B.x * C.y
  let b := A.x * C.y - A.y * C.x
  let d := A.y * B.x - A.x * B.y
  logicalAnd E approx (segTest E tol approx kw a d) (segTest E tol approx kw b d)

/-- Default value of `tol` in `segments_intersect` (geometry.py:89). -/
noncomputable def SEG_TOL : F := 0.005

/-- `jnp.diff(points, axis=0)`. -/
noncomputable def diffs : List (V2 F) → List (V2 F)
  | p :: q :: ps => (q - p) :: diffs (q :: ps)
  | _ => []

/-- `path_length` (geometry.py:178-202): `eps` is added to both coordinates of each difference. -/
noncomputable def pathLength (E : Env) (points : List (V2 F)) : F :=
  F.sum ((diffs points).map fun v => V2.norm (v + ⟨F.fin E.eps, F.fin E.eps⟩))

/-- `normalize` (geometry.py:208-230). -/
noncomputable def normalize (v : V2 F) : V2 F × F :=
  let length := V2.norm v
  let length := F.where_ (F.eq length 0) 1 length
  (V2.sdiv v length, length)

/-- `closest_point` (geometry.py:235-266); `none` is the `ValueError` of `jnp.argmin` when there are
no points. -/
noncomputable def closestPoint (points : List (V2 F)) (target : V2 F) : Option (ℕ × F) :=
  let distances := points.map fun p => V2.norm (p - target)
  (F.argmin distances).map fun i => (i, distances.getD i F.nan)

/-! ## Interactable -/

/-- `abc.Interactable` (abc.py:126-250): what path tracing needs of an object. Parametric coordinates
are a list (of `paramCount` floats). -/
structure Interactable where
  /-- `parameters_count()` -/
  paramCount : ℕ
  /-- `parametric_to_cartesian` -/
  toCart : List F → V2 F
  /-- `cartesian_to_parametric` -/
  toParam : V2 F → List F
  /-- `contains_parametric(param_coords, approx, **kwargs)` -/
  contains : Env → Option Bool → ActKw → List F → Truthy
  /-- `intersects_cartesian(ray, patch, approx, **kwargs)` -/
  intersects : Env → Option Bool → ActKw → F → V2 F → V2 F → Truthy
  /-- `evaluate_cartesian(ray_path)` -/
  evaluate : V2 F → V2 F → V2 F → F

/-- `Ray`/`Wall` (geometry.py:435, 543): `xys = [origin, dest]`. -/
@[ext] structure Wall where
  origin : V2 F
  dest : V2 F

namespace Wall

/-- `Ray.t` (geometry.py:479-486). -/
noncomputable def t (w : Wall) : V2 F := w.dest - w.origin

/-- `Wall.normal` (geometry.py:563-574). -/
noncomputable def normal (w : Wall) : V2 F :=
  let t := w.t
  (normalize ⟨t.y, -t.x⟩).1

/-- `Wall.parametric_to_cartesian` (geometry.py:583-587), for one parameter. -/
noncomputable def toCart (w : Wall) (s : F) : V2 F := w.origin + V2.smul s w.t

/-- `Wall.cartesian_to_parametric` (geometry.py:591-598). -/
noncomputable def toParam (w : Wall) (p : V2 F) : F :=
  let other := p - w.origin
  let sq := V2.dot w.t w.t
  let sq := F.where_ (F.eq sq 0) 1 sq
  V2.dot w.t other / sq

/-- `Wall.contains_parametric` (geometry.py:602-621). -/
noncomputable def contains (w : Wall) (E : Env) (approx : Option Bool) (kw : ActKw) (s : F) : Truthy :=
  let _ := w
  let ge := greaterEqual E approx kw s 0
  let le := lessEqual E approx kw s 1
  logicalAnd E approx ge le

/-- `Wall.intersects_cartesian` (geometry.py:625-639). -/
noncomputable def intersects (w : Wall) (E : Env) (approx : Option Bool) (kw : ActKw) (patch : F)
    (r0 r1 : V2 F) : Truthy :=
  segmentsIntersect E (w.origin - V2.smul patch w.t) (w.dest + V2.smul patch w.t) r0 r1 SEG_TOL approx kw

/-- `Wall.evaluate_cartesian` (geometry.py:643-650). -/
noncomputable def evaluate (w : Wall) (a b c : V2 F) : F :=
  let i := b - a
  let r := c - b
  let n := w.normal
  let i := (normalize i).1
  let r := (normalize r).1
  let e := r - (i - V2.smul (2 * V2.dot i n) n)
  V2.dot e e

/-- `Wall.image_of` (geometry.py:654-670). -/
noncomputable def imageOf (w : Wall) (point : V2 F) : V2 F :=
  let i := point - w.origin
  point - V2.smul (2.0 * V2.dot i w.normal) w.normal

/-- A wall as an `Interactable`. `param_coords[0]` of an empty array and wrong shapes (errors in
Python) do not occur: parameter vectors of walls always have length 1. -/
noncomputable def interact (w : Wall) : Interactable where
  paramCount := 1
  toCart ps := w.toCart (ps.headD F.nan)
  toParam p := [w.toParam p]
  contains E approx kw ps := w.contains E approx kw (ps.headD F.nan)
  intersects E approx kw patch r0 r1 := w.intersects E approx kw patch r0 r1
  evaluate := w.evaluate

end Wall

/-- `RIS` (geometry.py:684-697). -/
structure RIS extends Wall where
  phi : F

namespace RIS

/-- `x ** 2`. -/
noncomputable def sq (x : F) : F := x * x

/-- `RIS.evaluate_cartesian` (geometry.py:700-712). -/
noncomputable def evaluate (w : RIS) (_a b c : V2 F) : F :=
  let r := c - b
  let n := w.normal
  let r := (normalize r).1
  let sinA := V2.cross (-r) n
  let cosA := V2.dot (-r) n
  let sinP := F.sin w.phi
  let cosP := F.cos w.phi
  sq (sinA - sinP) + sq (cosA - cosP)

/-- A RIS as an `Interactable`: everything but `evaluate_cartesian` is inherited from `Wall`. -/
noncomputable def interact (w : RIS) : Interactable :=
  { w.toWall.interact with evaluate := w.evaluate }

end RIS

/-- `Vertex` (geometry.py:353). -/
structure Vertex where
  xy : V2 F

/-- `Vertex` methods (geometry.py:373-419). -/
noncomputable def Vertex.interact (v : Vertex) : Interactable where
  paramCount := 0
  toCart _ := v.xy
  toParam _ := []
  contains E approx _ _ := trueValue E approx
  intersects E approx _ _ _ _ := falseValue E approx
  evaluate _ _ _ := 0

/-- `Wall.get_vertices` (geometry.py:674-680). -/
def Wall.getVertices (w : Wall) : Vertex × Vertex := (⟨w.origin⟩, ⟨w.dest⟩)

/-- A uniformly random vector of `n` floats for a key (`jax.random.uniform(key, shape=(n,))`),
uninterpreted. -/
abbrev Uniform (Key : Type) := Key → ℕ → List F

/-- `Interactable.sample` (abc.py:157-176). -/
def Interactable.sample {Key : Type} (o : Interactable) (uniform : Uniform Key) (key : Key) : V2 F :=
  o.toCart (uniform key o.paramCount)

/-! ## Rays -/

/-- `Ray.rotate` (geometry.py:491-528): `rotation_matrix @ xys` where the *rows* of `xys` are the points
(`around=None` is the centre `(0,0)`; a `Point` is its coordinates). -/
noncomputable def Wall.rotate (w : Wall) (angle : F) (center : V2 F) : Wall :=
  let c := F.cos angle
  let s := F.sin angle
  let x0 := w.origin - center
  let x1 := w.dest - center
  -- row 0 of the product: [c, -s] · (x0, x1), row 1: [s, c] · (x0, x1)
  let y0 : V2 F := ⟨c * x0.x + -s * x1.x, c * x0.y + -s * x1.y⟩
  let y1 : V2 F := ⟨s * x0.x + c * x1.x, s * x0.y + c * x1.y⟩
  ⟨y0 + center, y1 + center⟩

/-! ## Bounding boxes and locations -/

/-- A bounding box `[[min_x, min_y], [max_x, max_y]]`. -/
@[ext] structure BBox where
  lo : V2 F
  hi : V2 F

/-- `vstack([min(xys, axis=0), max(xys, axis=0)])` of a nonempty list of points
(`Ray.bounding_box` geometry.py:536-539, `Path.bounding_box` geometry.py:971-973). -/
noncomputable def bboxOf (p : V2 F) (ps : List (V2 F)) : BBox :=
  ⟨⟨F.minOf p.x (ps.map V2.x), F.minOf p.y (ps.map V2.y)⟩,
   ⟨F.maxOf p.x (ps.map V2.x), F.maxOf p.y (ps.map V2.y)⟩⟩

/-- `Point.bounding_box` (geometry.py:346-349). -/
def pointBBox (p : V2 F) : BBox := ⟨p, p⟩

/-- `Ray.bounding_box` (geometry.py:536-539). -/
noncomputable def Wall.bbox (w : Wall) : BBox := bboxOf w.origin [w.dest]

/-- `Plottable.center` (abc.py:83-95). -/
noncomputable def BBox.center (b : BBox) : V2 F := V2.smul 0.5 (b.lo + b.hi)

/-- `Loc` literals (abc.py:18-20). -/
inductive Loc where
  | N | E | S | W | C | NE | NW | SE | SW
  deriving DecidableEq

/-- `Plottable.get_location` (abc.py:97-125). -/
noncomputable def BBox.getLocation (b : BBox) (loc : Loc) : V2 F :=
  let xmin := b.lo.x
  let ymin := b.lo.y
  let xmax := b.hi.x
  let ymax := b.hi.y
  let xavg := 0.5 * (xmin + xmax)
  let yavg := 0.5 * (ymin + ymax)
  match loc with
  | .N => ⟨xavg, ymax⟩
  | .E => ⟨xmax, yavg⟩
  | .S => ⟨xavg, ymin⟩
  | .W => ⟨xmin, yavg⟩
  | .C => ⟨xavg, yavg⟩
  | .NE => ⟨xmax, ymax⟩
  | .NW => ⟨xmin, ymax⟩
  | .SE => ⟨xmax, ymin⟩
  | .SW => ⟨xmin, ymin⟩

/-- `jnp.linspace(start, stop, num)` (endpoint included). -/
noncomputable def linspace (start stop : F) (num : ℕ) : List F :=
  if num = 1 then [start]
  else (List.range num).map fun i =>
    if i = num - 1 then stop
    else
      let step : F := F.fin i / F.fin ((num - 1 : ℕ) : ℝ)
      start * (1 - step) + stop * step

/-- `jnp.meshgrid(x, y)` (default `xy` indexing): rows follow `y`, columns follow `x`. -/
def meshgrid (x y : List F) : List (List F) × List (List F) :=
  (y.map fun _ => x, y.map fun b => x.map fun _ => b)

/-- `Plottable.grid` (abc.py:57-81). -/
noncomputable def BBox.grid (b : BBox) (m : ℕ := 50) (n : Option ℕ := none) :
    List (List F) × List (List F) :=
  let n := n.getD m
  let x := linspace b.lo.x b.hi.x m
  let y := linspace b.lo.y b.hi.y n
  meshgrid x y

/-! ## Objects of a scene -/

/-- The objects a scene may contain: the three built-in classes, and user-defined subclasses of
`Object` (identified by a class tag). -/
inductive Obj where
  | wall (w : Wall)
  | ris (r : RIS)
  | vertex (v : Vertex)
  | user (cls : ℕ) (i : Interactable) (bb : BBox)

/-- Dynamic dispatch of the `Interactable` methods. -/
noncomputable def Obj.interact : Obj → Interactable
  | .wall w => w.interact
  | .ris r => r.interact
  | .vertex v => v.interact
  | .user _ i _ => i

/-- Dynamic dispatch of `bounding_box`. -/
noncomputable def Obj.bbox : Obj → BBox
  | .wall w => w.bbox
  | .ris r => r.toWall.bbox
  | .vertex v => pointBBox v.xy
  | .user _ _ b => b

/-- The Python class of an object (the pytree structure, for the classes in use). -/
def Obj.cls : Obj → ℕ
  | .wall _ => 0
  | .ris _ => 1
  | .vertex _ => 2
  | .user c _ _ => c + 3

end DiffeRT2d
