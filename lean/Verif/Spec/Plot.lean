import Verif.Model.Plot
import Verif.Spec.Scene

/-! # Specification vocabulary for plotting -/

namespace DiffeRT2d
namespace Spec

/-- The settings `kw` an artist is drawn with: the user's settings, and the defaults for keywords the user did
not set. -/
def Settings (kw user defaults : PyDict Val) : Prop :=
  ∀ key, kw.lookup key = (user.lookup key).or (defaults.lookup key)

/-- The user's settings that are not about annotations. -/
def drawing (user : PyDict Val) : PyDict Val :=
  user.filter fun kv => kv.1 ≠ "annotate" ∧ kv.1 ≠ "annotate_offset" ∧ kv.1 ≠ "annotate_kwargs"

/-- A point: one marker at its position. -/
def Marker (xy : V2 F) (args : List Val) (user defaults : PyDict Val) (a : Artist) : Prop :=
  ∃ kw, Settings kw (drawing user) defaults ∧ a = .scatter xy args kw

/-- A label for a point: it is written at the point shifted by the user's offset (no shift if none was set), with
the user's settings for annotations (empty if none were set). -/
def Label (text : String) (xy : V2 F) (user : PyDict Val) (a : Artist) : Prop :=
  ∃ (offset : V2 F) (kw : PyDict Val),
    (user.lookup "annotate_offset" = some (.pair offset) ∨
      user.lookup "annotate_offset" = none ∧ offset = ⟨F.fin 0, F.fin 0⟩) ∧
    (user.lookup "annotate_kwargs" = some (.dict kw) ∨
      (user.lookup "annotate_kwargs" = none ∨ user.lookup "annotate_kwargs" = some .none) ∧ kw = []) ∧
    a = .annotation text xy ⟨xy.x + offset.x, xy.y + offset.y⟩ kw

/-- A named point: one marker, and one label if annotations are on and the name is not empty. -/
def NamedPoint (annotate : Bool) (args : List Val) (user : PyDict Val) (colour : String) (kv : String × V2 F)
    (block : List Artist) : Prop :=
  ∃ m, Marker kv.2 args user [("color", .str colour), ("marker", .str "o")] m ∧
    if annotate = true ∧ kv.1 ≠ "" then ∃ l, Label kv.1 kv.2 user l ∧ block = [m, l] else block = [m]

/-- An object: one line between its end points, or one marker. -/
def DrawnObject (userPlot : UserPlot) (args : List Val) (user : PyDict Val) (o : Obj) (block : List Artist) : Prop :=
  match o with
  | .wall w => ∃ kw, Settings kw user [("color", .str "blue")] ∧ block = [.line [w.origin, w.dest] args kw]
  | .ris r => ∃ kw, Settings kw user [("color", .str "green")] ∧ block = [.line [r.origin, r.dest] args kw]
  | .vertex v => ∃ m, block = [m] ∧ Marker v.xy args user
      [("edgecolors", .str "black"), ("facecolors", .other 0), ("linestyle", .str "dashed"), ("marker", .str "o"),
       ("color", .str "red")] m
  | .user _ _ _ => userPlot o args user = .ok block

/-- The keywords can be passed together: none repeated, none of them `self` or `ax`. -/
def Passable (kw : PyDict Val) : Prop :=
  Distinct kw ∧ "self" ∉ kw.map Prod.fst ∧ "ax" ∉ kw.map Prod.fst

/-- Annotation settings of the expected types. -/
def AnnotationTypes (kw : PyDict Val) : Prop :=
  (∀ v, kw.lookup "annotate_offset" = some v → ∃ p, v = .pair p) ∧
  (∀ v, kw.lookup "annotate_kwargs" = some v → v = .none ∨ ∃ d, v = .dict d)

end Spec
end DiffeRT2d
