import Verif.Spec.Paths

/-! # Generic position in scenes of walls, RIS and vertices -/

namespace DiffeRT2d.Spec

/-- The ends of a wall or a RIS; a vertex has none. -/
def Shape.ends : Shape → Option (Pt × Pt)
  | .wall o d => some (o, d)
  | .ris o d _ => some (o, d)
  | .vertex _ => none

/-- Generic position: none of the comparisons a validity check makes is an exact tie. `ws` are the objects of the interactions, `scene`
all the objects. Vertices are never compared with anything. -/
structure GenericShapes (ws scene : List Shape) (candidate : List ℤ) (pts : List Pt) (loss tol patch : ℝ) : Prop where
  on : ∀ i s w q, ws[i]? = some s → s.ends = some w → pts[i + 1]? = some q → NotLevelWithEnds w q
  hit : ∀ i j s w a b, pts[i]? = some a → pts[i + 1]? = some b → scene[j]? = some s → s.ends = some w → ¬ Adjacent candidate i j →
    NotCrossingAtEnds (pointAt w.1 w.2 (-patch)) (pointAt w.1 w.2 (1 + patch)) a b (1 / 200)
  loss : loss ≠ tol

end DiffeRT2d.Spec
