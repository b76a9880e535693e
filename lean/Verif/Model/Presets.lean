import Verif.Model.Scene

/-! # Model of the scene constructors of `differt2d/scene.py` and of `differt2d/utils.py` -/

namespace DiffeRT2d

open Classical

namespace Scene

/-- `Wall(xys=...)` from two rows of an array of points: any other number of rows is rejected by the type
checker of the class (geometry.py:542-560). -/
def wallOfPoints (xys : List (V2 F)) : Except PyErr Wall :=
  match xys with
  | [a, b] => .ok ⟨a, b⟩
  | _ => .error .typeCheckError

/-- `Scene.random_uniform_scene` (scene.py:684-733); `draw key n` is `jax.random.uniform(key, (n, 2))`.
The counts are natural numbers (negative counts are not modelled); indexing out of bounds is modelled as
an `IndexError`. -/
def randomUniformScene {Key : Type} (draw : Key → ℕ → List (V2 F)) (nTransmitters nWalls nReceivers : ℕ)
    (key : Key) : Except PyErr Scene := do
  let points := draw key (nTransmitters + 2 * nWalls + nReceivers)
  let transmitters ← (List.range nTransmitters).mapM fun (i : ℕ) => do
    pure ("tx_" ++ Nat.repr i, ← pyIndex points (i : ℤ))
  let receivers ← (List.range nReceivers).mapM fun (i : ℕ) => do
    pure ("rx_" ++ Nat.repr i, ← pyIndex points (-((i : ℤ) + 1)))
  let walls ← (List.range nWalls).mapM fun (i : ℕ) =>
    wallOfPoints ((points.take (2 * i + 2 + nTransmitters)).drop (2 * i + nTransmitters))
  pure (Scene.make transmitters receivers (walls.map Obj.wall))

/-- `Wall(xys=jnp.array([[x, y], [x', y']]))`. -/
def segment (x y x' y' : F) : Obj := .wall ⟨⟨x, y⟩, ⟨x', y'⟩⟩

/-- `Scene.basic_scene` (scene.py:735-787). -/
noncomputable def basicScene (txCoords : V2 F := ⟨0.1, 0.1⟩) (rxCoords : V2 F := ⟨0.302, 0.2147⟩) : Scene :=
  Scene.make [("tx", txCoords)] [("rx", rxCoords)]
    [segment 0.0 0.0 1.0 0.0, segment 1.0 0.0 1.0 1.0, segment 1.0 1.0 0.0 1.0, segment 0.0 1.0 0.0 0.0,
     segment 0.4 0.0 0.4 0.4, segment 0.4 0.4 0.3 0.4, segment 0.1 0.4 0.0 0.4]

/-- `Scene.square_scene` (scene.py:789-836). -/
noncomputable def squareScene (txCoords : V2 F := ⟨0.2, 0.2⟩) (rxCoords : V2 F := ⟨0.5, 0.6⟩) : Scene :=
  Scene.make [("tx", txCoords)] [("rx", rxCoords)]
    [segment 0.0 0.0 1.0 0.0, segment 1.0 0.0 1.0 1.0, segment 1.0 1.0 0.0 1.0, segment 0.0 1.0 0.0 0.0]

/-- `Scene.square_scene_with_wall` (scene.py:838-882). -/
noncomputable def squareSceneWithWall (ratio : F := 0.6) (txCoords : V2 F := ⟨0.2, 0.5⟩)
    (rxCoords : V2 F := ⟨0.8, 0.5⟩) : Scene :=
  (squareScene txCoords rxCoords).addObjects [segment 0.5 (0.5 * (1 - ratio)) 0.5 (0.5 * (1 + ratio))]

/-- `Scene.square_scene_with_obstacle` (scene.py:884-935); `kwargs` are the coordinates. -/
noncomputable def squareSceneWithObstacle (ratio : F := 0.1) (txCoords : V2 F := ⟨0.2, 0.2⟩)
    (rxCoords : V2 F := ⟨0.5, 0.6⟩) : Scene :=
  let hl := 0.5 * ratio
  let x0 := 0.5 - hl
  let x1 := 0.5 + hl
  let y0 := 0.5 - hl
  let y1 := 0.5 + hl
  (squareScene txCoords rxCoords).addObjects
    [segment x0 y0 x1 y0, segment x1 y0 x1 y1, segment x1 y1 x0 y1, segment x0 y1 x0 y0]

/-- The arguments after the name in `from_scene_name`: `ratio` is only accepted by the last two presets.
Arguments are modelled as keywords (each omitted or given). -/
structure PresetArgs where
  ratio : Option F := none
  txCoords : Option (V2 F) := none
  rxCoords : Option (V2 F) := none

/-- `Scene.from_scene_name` (scene.py:670-682), `getattr(cls, scene_name)(...)`, for the four names of the type
`SceneName` (scene.py:54-59); an unexpected `ratio` is a `TypeError`. Other names are not modelled (they are
outside the documented type): `none`. -/
noncomputable def fromSceneName (name : String) (args : PresetArgs) : Option (Except PyErr Scene) :=
  if name = "basic_scene" then
    some (match args.ratio with
      | some _ => .error .typeError
      | none => .ok (basicScene (args.txCoords.getD ⟨0.1, 0.1⟩) (args.rxCoords.getD ⟨0.302, 0.2147⟩)))
  else if name = "square_scene" then
    some (match args.ratio with
      | some _ => .error .typeError
      | none => .ok (squareScene (args.txCoords.getD ⟨0.2, 0.2⟩) (args.rxCoords.getD ⟨0.5, 0.6⟩)))
  else if name = "square_scene_with_wall" then
    some (.ok (squareSceneWithWall (args.ratio.getD 0.6) (args.txCoords.getD ⟨0.2, 0.5⟩)
      (args.rxCoords.getD ⟨0.8, 0.5⟩)))
  else if name = "square_scene_with_obstacle" then
    some (.ok (squareSceneWithObstacle (args.ratio.getD 0.1) (args.txCoords.getD ⟨0.2, 0.2⟩)
      (args.rxCoords.getD ⟨0.5, 0.6⟩)))
  else none

end Scene

/-! ## utils.py -/

/-- `x ** n` for a natural number `n` (`jax.lax.integer_pow`, which returns ones for the exponent 0). -/
noncomputable def F.npow (x : F) : ℕ → F
  | 0 => 1
  | 1 => x
  | n + 2 => F.npow x (n + 1) * x

/-- `x ** n` for an integer `n` (`jax.lax.integer_pow`). -/
noncomputable def F.ipow (x : F) (n : ℤ) : F :=
  if 0 ≤ n then x.npow n.toNat else 1 / x.npow (-n).toNat

/-- `DEFAULT_R_COEF` (defaults.py:13). -/
noncomputable def DEFAULT_R_COEF : F := 0.5

/-- `DEFAULT_HEIGHT` (defaults.py:16). -/
noncomputable def DEFAULT_HEIGHT : F := 0.1

/-- `P0` (utils.py:12). -/
noncomputable def P0 : F := 100.0

/-- `received_power` (utils.py:17-55). The environment is read by `path.length()`. -/
noncomputable def receivedPower (E : Env) (_transmitter _receiver : V2 F) (path : Path) (_objects : List Interactable)
    (rCoef : F := DEFAULT_R_COEF) (height : F := DEFAULT_HEIGHT) : F :=
  let r := path.length E
  let n : ℤ := (path.xys.length : ℤ) - 2
  rCoef.ipow n / (height * height + r * r)

end DiffeRT2d
