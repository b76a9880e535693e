import Verif.Model.Scene

/-!
# Model of `Scene.from_geojson` (scene.py:428-668)

Documents are modelled after `json.loads` (whose `JSONDecodeError` on malformed text is not modelled).
-/

namespace DiffeRT2d

open Classical

/-- What `json.loads` returns. Simplification: `int` and `float` are both `num`; a `dict` is its items, without
repeated keys. -/
inductive Json where
  | null
  | bool (b : Bool)
  | num (x : F)
  | str (s : String)
  | arr (xs : List Json)
  | obj (d : List (String × Json))

namespace Json

/-- `bool(x)` in a condition. -/
noncomputable def truthy : Json → Bool
  | null => false
  | bool b => b
  | num x => !F.eq x 0
  | str s => s ≠ ""
  | arr xs => !xs.isEmpty
  | obj d => !d.isEmpty

/-- `x.get(key, default)`: only a `dict` has that method. -/
def get (x : Json) (key : String) (default : Json) : Except PyErr Json :=
  match x with
  | obj d => .ok ((d.lookup key).getD default)
  | _ => .error .attributeError

/-- `x[key]` with a string key. -/
def item (x : Json) (key : String) : Except PyErr Json :=
  match x with
  | obj d =>
    match d.lookup key with
    | none => .error .keyError
    | some v => .ok v
  | _ => .error .typeError

/-- `x[i]` with an integer index (the keys of a `dict` are strings). -/
def index (x : Json) (i : ℤ) : Except PyErr Json :=
  match x with
  | arr xs => Scene.pyIndex xs i
  | str s => (Scene.pyIndex s.toList i).map fun c => str (String.singleton c)
  | obj _ => .error .keyError
  | _ => .error .typeError

/-- `len(x)`. -/
def len (x : Json) : Except PyErr ℕ :=
  match x with
  | arr xs => .ok xs.length
  | str s => .ok s.length
  | obj d => .ok d.length
  | _ => .error .typeError

/-- `for y in x`. -/
def iter (x : Json) : Except PyErr (List Json) :=
  match x with
  | arr xs => .ok xs
  | str s => .ok (s.toList.map fun c => str (String.singleton c))
  | obj d => .ok (d.map fun kv => str kv.1)
  | _ => .error .typeError

/-- A number inside `jnp.array(..., dtype=float)`; the error for anything else is simplified to `TypeError`. -/
noncomputable def number : Json → Except PyErr F
  | num x => .ok x
  | bool b => .ok (if b then 1 else 0)
  | _ => .error .typeError

/-- A row of `jnp.array([row, row], dtype=float)`; errors simplified to `TypeError`. -/
noncomputable def row : Json → Except PyErr (List F)
  | arr xs => xs.mapM number
  | _ => .error .typeError

end Json

/-- `Wall(xys=jnp.array([a, b], dtype=float))` (scene.py:649-653): rows of different lengths are a
`ValueError`; a shape other than `(2, 2)` is rejected by the type checker of the class. -/
noncomputable def wallOfRows (a b : Json) : Except PyErr Wall := do
  let r ← a.row
  let r' ← b.row
  match r, r' with
  | [x, y], [x', y'] => pure ⟨⟨x, y⟩, ⟨x', y'⟩⟩
  | _, _ => if r.length = r'.length then .error .typeCheckError else .error .valueError

/-- The body of `for i in range(n)` (scene.py:647-654). -/
noncomputable def ringWall (coordinates : Json) (i : ℕ) : Except PyErr Wall := do
  let a ← coordinates.index (i - 1)
  let b ← coordinates.index i
  wallOfRows a b

/-- The body of `for feature in features` (scene.py:640-654): the walls it appends. -/
noncomputable def featureWalls (feature : Json) : Except PyErr (List Wall) := do
  let geometry ← feature.get "geometry" .null
  if geometry.truthy then do
    let type ← geometry.item "type"
    let coordinates ← (← geometry.item "coordinates").index 0
    let n ← coordinates.len
    if type = .str "Polygon" then (List.range n).mapM (ringWall coordinates) else pure []
  else pure []

/-- `Scene.get_location` (abc.py: `Plottable.get_location` with the scene's bounding box). -/
noncomputable def Scene.getLocation (s : Scene) (loc : Loc) : Except PyErr (V2 F) := do
  pure ((← s.bbox).getLocation loc)

/-- `Scene.from_geojson` on text (scene.py:628-663). -/
noncomputable def fromGeojsonText (dictionary : Json) (txLoc : Loc := .NW) (rxLoc : Loc := .SE) :
    Except PyErr Scene := do
  let features ← (← dictionary.get "features" (.arr [])).iter
  let walls := (← features.mapM featureWalls).flatten
  let scene := Scene.make [] [] (walls.map Obj.wall)
  if 0 < walls.length then do
    let scene ← scene.withTransmitters [("tx", ← scene.getLocation txLoc)]
    scene.withReceivers [("rx", ← scene.getLocation rxLoc)]
  else do
    let scene ← scene.withTransmitters [("tx", ⟨0.0, 0.0⟩)]
    scene.withReceivers [("rx", ⟨1.0, 1.0⟩)]

/-- The first argument of `from_geojson`: text, an object with a `read` method returning text, or anything
else. -/
inductive GeoSource where
  | text (document : Json)
  | readable (document : Json)
  | other

/-- `Scene.from_geojson` (scene.py:428-435, 625-626, 665-668): dispatch on the type of the argument. -/
noncomputable def fromGeojson (source : GeoSource) (txLoc : Loc := .NW) (rxLoc : Loc := .SE) :
    Except PyErr Scene :=
  match source with
  | .text d => fromGeojsonText d txLoc rxLoc
  | .readable d => fromGeojsonText d txLoc rxLoc
  | .other => .error .notImplementedError

end DiffeRT2d
