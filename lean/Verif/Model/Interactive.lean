import Verif.Model.Plot
import Verif.Model.Presets
import Mathlib.Analysis.SpecialFunctions.Log.Base

/-!
# Model of `examples/qt_interactive.py`

The window is a state; every action of the user runs the callbacks that Qt and matplotlib connect to it. A callback that raises stops where it is,
what it did before stays done, and the event loop goes on (PySide6 and matplotlib print the traceback). Not modelled: layout, tool tips, colours,
the drawing of the canvas, the toolbar, the text format of the labels (the number that is formatted is kept), and `f_and_df`, which is never called
(its only use is under `if False`).
-/

namespace DiffeRT2d
open Classical

namespace F

/-- `jnp.log10`. -/
noncomputable def log10 : F → F
  | nan => nan
  | ninf => nan
  | pinf => pinf
  | fin x => if x < 0 then nan else if x = 0 then ninf else fin (Real.logb 10 x)

/-- `jnp.abs`. -/
noncomputable def abs : F → F
  | nan => nan
  | ninf => pinf
  | pinf => pinf
  | fin x => fin |x|

/-- `10.0 ** x`. -/
noncomputable def tenPow : F → F
  | nan => nan
  | ninf => 0
  | pinf => pinf
  | fin x => fin ((10 : ℝ) ^ x)

end F

/-! ## Sliders -/

/-- `CustomSlider` (examples/qt_interactive.py:97-133): a `QSlider` with the positions `0..num-1`, each standing for a value. -/
structure Slider where
  values : List F
  index : ℕ

namespace Slider

/-- `LinearSlider(start, stop)` (examples/qt_interactive.py:112-113, 136): a new slider is at its minimum. -/
noncomputable def linear (start stop : F) : Slider := ⟨linspace start stop 100, 0⟩

/-- `LogSlider(start, stop)` (examples/qt_interactive.py:114-115, 137); `jnp.logspace` is `10.0 ** linspace`. -/
noncomputable def log (start stop : F) : Slider := ⟨(linspace start stop 100).map F.tenPow, 0⟩

/-- `CustomSlider.value` (examples/qt_interactive.py:121-123). -/
noncomputable def value (s : Slider) : F := s.values.getD s.index F.nan

/-- `CustomSlider.maximum` (examples/qt_interactive.py:125-126). -/
noncomputable def maximum (s : Slider) : F := s.values.getLastD F.nan

/-- `CustomSlider.minimum` (examples/qt_interactive.py:128-129). -/
noncomputable def minimum (s : Slider) : F := s.values.headD F.nan

/-- `QSlider.setValue`: the position is brought into the range `0..num-1` (examples/qt_interactive.py:108-109). -/
def moveTo (s : Slider) (i : ℕ) : Slider := { s with index := min i (s.values.length - 1) }

/-- `CustomSlider.setValue` (examples/qt_interactive.py:131-133). -/
noncomputable def setValue (s : Slider) (v : F) : Slider :=
  match F.argmin (s.values.map fun x => (x - v).abs) with
  | some i => s.moveTo i
  | none => s

end Slider

/-! ## The window -/

/-- The keys of `METHOD_TO_PATH_CLASS` (examples/qt_interactive.py:87), the entries of the box "method". -/
inductive PathClass where
  | image | FPT | MPT
  deriving DecidableEq

/-- The entries of the box "activation function" (examples/qt_interactive.py:214-215). -/
inductive FunctionName where
  | sigmoid | hardSigmoid
  deriving DecidableEq

/-- The dictionary of `set_function` (examples/qt_interactive.py:223-226). -/
noncomputable def FunctionName.function : FunctionName → F → F → F
  | .sigmoid => DiffeRT2d.sigmoid
  | .hardSigmoid => DiffeRT2d.hardSigmoid

/-- What the application runs on: the environment of the computations, the graph library, `jax.random.split`, `jax.grad`, the minimizer and the
`plot` methods of objects of users. -/
structure App (Key : Type) where
  E : Env
  G : GraphLib
  split : Key → ℕ → List Key
  gradOp : (V2 F → F) → V2 F → V2 F
  M : Minimizer Key
  userPlot : UserPlot

/-- `METHOD_TO_PATH_CLASS` (examples/qt_interactive.py:87). -/
noncomputable def PathClass.method {Key : Type} (A : App Key) : PathClass → Scene.PathMethod Key
  | .image => imageMethod Key
  | .FPT => fermatMethod A.E A.M
  | .MPT => minMethod A.M

/-- The attributes of `PlotWidget` (examples/qt_interactive.py:141-395): the settings, the key, the picked marker (its number and the name of the
point), the widgets with their labels, and what the figure shows. -/
structure Window (Key : Type) where
  scene : Scene
  minOrder : ℕ
  maxOrder : ℕ
  patch : F
  approx : Bool
  alpha : F
  function : FunctionName
  rCoef : F
  pathCls : PathClass
  key : Key
  picked : Option (ℕ × String)
  pickedTx : Bool
  alphaSlider : Slider
  patchSlider : Slider
  rCoefSlider : Slider
  alphaLabel : F
  patchLabel : F
  rCoefLabel : F
  X : Scene.Grid F
  Y : Scene.Grid F
  coverage : Scene.Grid F
  markers : List Artist
  pathArtists : List Artist

namespace Window
variable {Key : Type}

/-- The keyword arguments about orders (examples/qt_interactive.py:441-442, 456-457). -/
def orders (w : Window Key) : Scene.Orders := { minOrder := w.minOrder, maxOrder := w.maxOrder }

/-- The keyword arguments about validity (examples/qt_interactive.py:443-446, 458-461). -/
noncomputable def opts (A : App Key) (w : Window Key) : Scene.ValidOpts :=
  { E := A.E, patch := w.patch, approx := some w.approx, kw := { alpha := w.alpha, function := w.function.function } }

/-- `partial(received_power, r_coef=self.r_coef)` (examples/qt_interactive.py:439). -/
noncomputable def power (A : App Key) (w : Window Key) : Scene.PathFun :=
  fun t r path objects => receivedPower A.E t r path (objects.map Obj.interact) w.rCoef

/-- `10.0 * jnp.log10(P / P0)` for one entry (examples/qt_interactive.py:451). -/
noncomputable def toDB (p : F) : F := 10.0 * (p / P0).log10

/-- `path.plot(self.ax, zorder=-1, alpha=float(valid))` (examples/qt_interactive.py:465): matplotlib refuses an `alpha` outside of `[0, 1]`. -/
noncomputable def plotPath (t : Scene.Traced) : Except PyErr (List Artist) :=
  if F.le 0 t.valid.toF && F.le t.valid.toF 1 then .ok (pathPlot t.path.xys [] [("zorder", .num (-1)), ("alpha", .num t.valid.toF)])
  else .error .valueError

/-- `PlotWidget.on_scene_change` (examples/qt_interactive.py:428-481), with the exception if one is raised. Simplification: if `all_paths` or a
plot raises, the paths before it are not added. `set_array` refuses a scalar. -/
noncomputable def onSceneChange (A : App Key) (w : Window Key) : Window Key × Option PyErr :=
  let w := { w with pathArtists := [] }
  match A.split w.key 3 with
  | [key, keyAcc, keyAll] =>
    let w := { w with key := key }
    match w.scene.accumulateOnReceiversGridAll A.G A.split (w.pathCls.method A) w.orders (w.opts A) (some keyAcc) A.gradOp false false (w.power A)
        w.X w.Y with
    | .error e => (w, some e)
    | .ok (none, _) => (w, some .valueError)
    | .ok (some P, _) =>
      let w := { w with coverage := P.map (List.map toDB) }
      match (w.scene.allPaths A.G A.split (w.pathCls.method A) w.orders (w.opts A) (some keyAll)) >>= fun ts => ts.mapM plotPath with
      | .error e => (w, some e)
      | .ok artists => ({ w with pathArtists := artists.flatten }, none)
  | _ => (w, some .valueError)

/-! ## The mouse -/

/-- `artist.get_xydata()`, then `reshape(-1)` (examples/qt_interactive.py:402): lines have this method; collections, which is what `scatter`
returns, and annotations do not. Lines of several points do not give two coordinates. -/
def getXYData : Artist → Except PyErr (V2 F)
  | .line [p] _ _ => .ok p
  | .line _ _ _ => .error .typeCheckError
  | _ => .error .attributeError

/-- `artist.set_xdata([x])` and `artist.set_ydata([y])` (examples/qt_interactive.py:424-425), methods of lines only. -/
def setXYData (p : V2 F) : Artist → Except PyErr Artist
  | .line _ args kwargs => .ok (.line [p] args kwargs)
  | _ => .error .attributeError

/-- `PlotWidget.on_pick_event` (examples/qt_interactive.py:397-411) for the `i`-th marker. -/
noncomputable def onPick (w : Window Key) (i : ℕ) (artist : Artist) : Window Key × Option PyErr :=
  match w.picked with
  | some _ => ({ w with picked := none }, none)
  | none =>
    match (do
      let coords ← getXYData artist
      let tx ← w.scene.getClosestTransmitter coords
      let rx ← w.scene.getClosestReceiver coords
      pure (tx, rx) : Except PyErr ((String × F) × (String × F))) with
    | .error e => (w, some e)
    | .ok (tx, rx) =>
      if F.lt tx.2 rx.2 then ({ w with picked := some (i, tx.1), pickedTx := true }, none)
      else ({ w with picked := some (i, rx.1), pickedTx := false }, none)

/-- `PlotWidget.on_motion_notify_event` (examples/qt_interactive.py:413-426); `xdata` and `ydata` are `None` outside of the axes. -/
noncomputable def onMotion (A : App Key) (w : Window Key) (x y : Option F) : Window Key × Option PyErr :=
  match w.picked, x, y with
  | some (i, name), some x, some y =>
    match (if w.pickedTx then w.scene.updateTransmitters [(name, ⟨x, y⟩)] else w.scene.updateReceivers [(name, ⟨x, y⟩)]) with
    | .error e => (w, some e)
    | .ok scene =>
      let w := { w with scene := scene }
      match w.markers[i]? with
      | none => (w, some .indexError)
      | some artist =>
        match setXYData ⟨x, y⟩ artist with
        | .error e => (w, some e)
        | .ok artist => onSceneChange A { w with markers := w.markers.set i artist }
  | _, _, _ => (w, none)

/-! ## The actions of the user -/

/-- What a user can do. The sliders are moved to a position (clipped by Qt), a number is entered in a spin box (whose range is `0..99`, the
default of Qt), an entry is chosen in a box. -/
inductive Event where
  | pick (i : ℕ)
  | motion (x y : Option F)
  | toggleApprox
  | alphaSlider (i : ℕ)
  | patchSlider (i : ℕ)
  | rCoefSlider (i : ℕ)
  | minOrder (n : ℕ)
  | maxOrder (n : ℕ)
  | function (f : FunctionName)
  | method (c : PathClass)

/-- The callbacks (examples/qt_interactive.py:187-191, 206-212, 222-229, 248-254, 266-270, 282-286, 299-305, 320-324, 397-426). Qt signals a
change of value only when the value changes. -/
noncomputable def step (A : App Key) (w : Window Key) : Event → Window Key × Option PyErr
  | .pick i =>
    match w.markers[i]? with
    | none => (w, none)
    | some artist => w.onPick i artist
  | .motion x y => w.onMotion A x y
  | .toggleApprox => onSceneChange A { w with approx := !w.approx }
  | .alphaSlider i =>
    let s := w.alphaSlider.moveTo i
    if s.index = w.alphaSlider.index then (w, none)
    else onSceneChange A { w with alphaSlider := s, alpha := s.value, alphaLabel := s.value }
  | .patchSlider i =>
    let s := w.patchSlider.moveTo i
    if s.index = w.patchSlider.index then (w, none)
    else onSceneChange A { w with patchSlider := s, patch := s.value, patchLabel := s.value }
  | .rCoefSlider i =>
    let s := w.rCoefSlider.moveTo i
    if s.index = w.rCoefSlider.index then (w, none)
    else onSceneChange A { w with rCoefSlider := s, rCoef := s.value, rCoefLabel := s.value }
  | .minOrder n =>
    if min n 99 = w.minOrder then (w, none) else onSceneChange A { w with minOrder := min n 99 }
  | .maxOrder n =>
    if min n 99 = w.maxOrder then (w, none) else onSceneChange A { w with maxOrder := min n 99 }
  | .function f =>
    if f = w.function then (w, none) else onSceneChange A { w with function := f }
  | .method c =>
    if c = w.pathCls then (w, none) else onSceneChange A { w with pathCls := c }

/-- A history of actions. -/
noncomputable def run (A : App Key) (w : Window Key) (history : List Event) : Window Key :=
  history.foldl (fun w e => (step A w e).1) w

/-- Does the artist answer to clicks? -/
def hasPicker : Artist → Bool
  | .scatter _ _ kw => (kw.lookup "picker").isSome
  | .line _ _ kw => (kw.lookup "picker").isSome
  | .annotation _ _ _ kw => (kw.lookup "picker").isSome

/-- `PlotWidget.__init__` (examples/qt_interactive.py:141-395); `key` is `jax.random.PRNGKey(seed)`, the value `other 1` is `True`. The sliders
are set before their signals are connected. -/
noncomputable def create (A : App Key) (scene : Scene) (resolution : ℕ) (key : Key) : Except PyErr (Window Key) := do
  if scene.transmitters.len ≠ 1 then throw .assertionError
  if scene.receivers.len ≠ 1 then throw .assertionError
  let (X, Y) := (← scene.bbox).grid (n := some resolution)
  let artists ← scene.plot A.userPlot
    { annotate := false, transmittersKwargs := [("picker", .other 1)], receiversKwargs := [("picker", .other 1)] }
  let w : Window Key :=
    { scene := scene, minOrder := 0, maxOrder := 1, patch := DEFAULT_PATCH, approx := false, alpha := DEFAULT_ALPHA, function := .hardSigmoid,
      rCoef := 0.5, pathCls := .image, key := key, picked := none, pickedTx := false,
      alphaSlider := (Slider.log 0 3).setValue DEFAULT_ALPHA, alphaLabel := 1,
      patchSlider := (Slider.linear (-1.0) 1.0).setValue 0.0, patchLabel := 0,
      rCoefSlider := (Slider.linear 0.0 1.0).setValue 0.5, rCoefLabel := 0.5,
      X := X, Y := Y, coverage := X.map (List.map fun _ => 0), markers := artists.filter hasPicker, pathArtists := [] }
  match onSceneChange A w with
  | (w, none) => pure w
  | (_, some e) => throw e

end Window
end DiffeRT2d
