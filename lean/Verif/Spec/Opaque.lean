import Verif.Spec.Specular
import Mathlib.Logic.Relation

/-! # Walls that separate two points -/

namespace DiffeRT2d.Spec

/-- The point is on none of the walls. -/
def OffAll (walls : List (Pt × Pt)) (p : Pt) : Prop := ∀ w ∈ walls, ¬ OnSegment w.1 w.2 p

/-- The straight line from `p` to `q` meets none of the walls. -/
def Free (walls : List (Pt × Pt)) (p q : Pt) : Prop := ∀ z, OnSegment p q z → OffAll walls z

/-- The walls separate `p` from `q`: neither is on a wall, and no broken line, of any number of segments, goes from `p` to `q` without meeting a wall. -/
def Separates (walls : List (Pt × Pt)) (p q : Pt) : Prop :=
  OffAll walls p ∧ OffAll walls q ∧ ¬ Relation.ReflTransGen (Free walls) p q

/-- The four walls of the rectangular room `[x0, x1] × [y0, y1]`: bottom, right, top, left. -/
def roomWalls (x0 x1 y0 y1 : ℝ) : List (Pt × Pt) :=
  [(⟨x0, y0⟩, ⟨x1, y0⟩), (⟨x1, y0⟩, ⟨x1, y1⟩), (⟨x1, y1⟩, ⟨x0, y1⟩), (⟨x0, y1⟩, ⟨x0, y0⟩)]

end DiffeRT2d.Spec
