import Verif.Spec.Opaque

/-! # Directions of rays -/

namespace DiffeRT2d.Spec

/-- `p` and `q` are not `o`, and they are seen from `o` in the same direction. -/
def SameDirection (o p q : Pt) : Prop :=
  p ≠ o ∧ ∃ k : ℝ, 0 < k ∧ q.x - o.x = k * (p.x - o.x) ∧ q.y - o.y = k * (p.y - o.y)

/-- Two paths leave their first point in the same direction. -/
def LeaveTogether (pts pts' : List Pt) : Prop :=
  ∃ o p q, pts[0]? = some o ∧ pts[1]? = some p ∧ pts'[0]? = some o ∧ pts'[1]? = some q ∧ SameDirection o p q

end DiffeRT2d.Spec
