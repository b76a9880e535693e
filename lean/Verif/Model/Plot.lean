import Verif.Model.Scene

/-!
# Model of the plotting methods

`matplotlib` is modelled by the artists it returns: what they show, where, and the arguments they were made
with. Keywords that matplotlib rejects are not modelled, nor are positional arguments which make `ax.plot`
return more than one line.
-/

namespace DiffeRT2d

open Classical

/-- Values of keyword arguments, as far as the plotting methods look at them. -/
inductive Val where
  | none
  | str (s : String)
  | pair (v : V2 F)
  | dict (d : List (String × Val))
  | num (x : F)
  | other (n : ℕ)

/-- What matplotlib draws. -/
inductive Artist where
  | scatter (xy : V2 F) (args : List Val) (kwargs : PyDict Val)
  | line (xys : List (V2 F)) (args : List Val) (kwargs : PyDict Val)
  | annotation (text : String) (xy xytext : V2 F) (kwargs : PyDict Val)

/-- `d.setdefault(key, value)`. -/
def PyDict.setdefault {V : Type*} (d : PyDict V) (key : String) (value : V) : PyDict V :=
  if key ∈ d.map Prod.fst then d else d ++ [(key, value)]

/-- Passing `**a, **b, ...` to `obj.plot(ax, ...)`: a repeated keyword, `self` or `ax` is a `TypeError`. -/
def bindPlot (groups : List (PyDict Val)) : Except PyErr (PyDict Val) :=
  let kwargs := groups.flatten
  if (kwargs.map Prod.fst).Nodup ∧ "self" ∉ kwargs.map Prod.fst ∧ "ax" ∉ kwargs.map Prod.fst then .ok kwargs
  else .error .typeError

/-- The named parameters of `Point.plot` (geometry.py:300-308). -/
def pointParams : List String := ["annotate", "annotate_offset", "annotate_kwargs"]

/-- The parameter `annotate` of `Point.plot` (`None` and the empty string are both false). Values of other types
than the annotated ones are simplified to a `TypeError`, here and below. -/
def annotateText (kw : PyDict Val) : Except PyErr String :=
  match kw.lookup "annotate" with
  | none | some .none => .ok ""
  | some (.str s) => .ok s
  | some _ => .error .typeError

/-- The parameter `annotate_offset` of `Point.plot`. -/
noncomputable def annotateOffset (kw : PyDict Val) : Except PyErr (V2 F) :=
  match kw.lookup "annotate_offset" with
  | none => .ok ⟨0.0, 0.0⟩
  | some (.pair v) => .ok v
  | some _ => .error .typeError

/-- The parameter `annotate_kwargs` of `Point.plot`. -/
def annotateKwargs (kw : PyDict Val) : Except PyErr (PyDict Val) :=
  match kw.lookup "annotate_kwargs" with
  | none | some .none => .ok []
  | some (.dict d) => .ok d
  | some _ => .error .typeError

/-- `Point.plot` (geometry.py:300-343). -/
noncomputable def pointPlot (xy : V2 F) (args : List Val) (kw : PyDict Val) : Except PyErr (List Artist) := do
  let annotate ← annotateText kw
  let offset ← annotateOffset kw
  let annKwargs ← annotateKwargs kw
  let kwargs : PyDict Val := kw.filter fun kv => kv.1 ∉ pointParams
  let kwargs := PyDict.setdefault kwargs "marker" (.str "o")
  let kwargs := PyDict.setdefault kwargs "color" (.str "red")
  let artists := [Artist.scatter xy args kwargs]
  if annotate ≠ "" then pure (artists ++ [.annotation annotate xy (xy + offset) annKwargs])
  else pure artists

/-- `Ray.plot` (geometry.py:530-534). -/
def rayPlot (w : Wall) (args : List Val) (kwargs : PyDict Val) : List Artist :=
  [.line [w.origin, w.dest] args (PyDict.setdefault kwargs "color" (.str "blue"))]

/-- `Path.plot` (geometry.py:965-969). -/
def pathPlot (xys : List (V2 F)) (args : List Val) (kwargs : PyDict Val) : List Artist :=
  [.line xys args (PyDict.setdefault kwargs "color" (.str "orange"))]

/-- The `plot` method of user-defined objects: any function of the object and the arguments. -/
abbrev UserPlot := Obj → List Val → PyDict Val → Except PyErr (List Artist)

/-- `plot` of a wall (inherited from `Ray`), a RIS (geometry.py:713-721) or a vertex (geometry.py:420-431; the
colour `(1.0, 1.0, 0.0, 0.5)` is the value `other 0`). -/
noncomputable def Obj.plot (userPlot : UserPlot) (o : Obj) (args : List Val) (kwargs : PyDict Val) :
    Except PyErr (List Artist) :=
  match o with
  | .wall w => .ok (rayPlot w args kwargs)
  | .ris r => .ok (rayPlot r.toWall args (PyDict.setdefault kwargs "color" (.str "green")))
  | .vertex v =>
    let kwargs := PyDict.setdefault kwargs "edgecolors" (.str "black")
    let kwargs := PyDict.setdefault kwargs "facecolors" (.other 0)
    let kwargs := PyDict.setdefault kwargs "linestyle" (.str "dashed")
    pointPlot v.xy args kwargs
  | .user _ _ _ => userPlot o args kwargs

/-- The arguments of `Scene.plot` (scene.py:937-952) with their default values (`None` for the `..._kwargs` is
the empty mapping, scene.py:977-982). -/
structure PlotArgs where
  args : List Val := []
  transmitters : Bool := true
  transmittersArgs : List Val := []
  transmittersKwargs : PyDict Val := []
  objects : Bool := true
  objectsArgs : List Val := []
  objectsKwargs : PyDict Val := []
  receivers : Bool := true
  receiversArgs : List Val := []
  receiversKwargs : PyDict Val := []
  annotate : Bool := true
  kwargs : PyDict Val := []

/-- `transmitter.plot(...)` in the loops over transmitters and receivers (scene.py:991-1000, 1011-1020). -/
noncomputable def plotNamed (kv : String × V2 F) (groupArgs args : List Val) (annotate : Bool)
    (groupKwargs kwargs : PyDict Val) : Except PyErr (List Artist) := do
  let kw ← bindPlot [[("annotate", if annotate then .str kv.1 else .none)], groupKwargs, kwargs]
  pointPlot kv.2 (groupArgs ++ args) kw

/-- The loop over the transmitters (scene.py:989-1000), with `transmitters_kwargs` of scene.py:984. -/
noncomputable def Scene.plotTransmitters (s : Scene) (a : PlotArgs) : Except PyErr (List (List Artist)) :=
  let transmittersKwargs := PyDict.merge [("color", .str "blue")] a.transmittersKwargs
  if a.transmitters then do
    (← s.transmitters.items).mapM fun kv =>
      plotNamed kv a.transmittersArgs a.args a.annotate transmittersKwargs a.kwargs
  else pure []

/-- The loop over the objects (scene.py:1002-1006). -/
noncomputable def Scene.plotObjects (userPlot : UserPlot) (s : Scene) (a : PlotArgs) :
    Except PyErr (List (List Artist)) :=
  if a.objects then
    s.objects.mapM fun o => do
      let kw ← bindPlot [a.objectsKwargs, a.kwargs]
      o.plot userPlot (a.objectsArgs ++ a.args) kw
  else pure []

/-- The loop over the receivers (scene.py:1008-1019), with `receivers_kwargs` of scene.py:985. -/
noncomputable def Scene.plotReceivers (s : Scene) (a : PlotArgs) : Except PyErr (List (List Artist)) :=
  let receiversKwargs := PyDict.merge [("color", .str "green")] a.receiversKwargs
  if a.receivers then do
    (← s.receivers.items).mapM fun kv =>
      plotNamed kv a.receiversArgs a.args a.annotate receiversKwargs a.kwargs
  else pure []

/-- `Scene.plot` (scene.py:937-1021). -/
noncomputable def Scene.plot (userPlot : UserPlot) (s : Scene) (a : PlotArgs) : Except PyErr (List Artist) := do
  let txArtists ← s.plotTransmitters a
  let objArtists ← s.plotObjects userPlot a
  let rxArtists ← s.plotReceivers a
  pure (txArtists ++ objArtists ++ rxArtists).flatten

end DiffeRT2d
