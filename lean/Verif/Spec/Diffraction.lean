import Verif.Spec.Shapes
import Verif.Spec.Specular
import Verif.Spec.Fields
import Verif.Spec.Laws

/-! # Diffraction paths -/

namespace DiffeRT2d.Spec

/-- `filter_objects=lambda obj: isinstance(obj, Vertex)`. -/
def isVertex : Obj → Bool
  | .vertex _ => true
  | _ => false

/-- `pts` goes straight from the transmitter to the vertices that the candidate `c` names, one after the other, and to the receiver, and no wall or
RIS of the scene (extended by the patch and the tolerance) stops it on the way. -/
structure DiffractionPath (shapes : List Shape) (patch : ℝ) (t r : Pt) (c : List ℤ) (pts : List Pt) : Prop where
  start : pts.head? = some t
  finish : pts.getLast? = some r
  count : pts.length = c.length + 2
  visits : ∀ (i j : ℕ) (q : Pt), c[i]? = some (j : ℤ) → pts[i + 1]? = some q → shapes[j]? = some (.vertex q)
  clear : ∀ (i j : ℕ) (s : Shape) (w : Pt × Pt) (p q : Pt), pts[i]? = some p → pts[i + 1]? = some q → shapes[j]? = some s → s.ends = some w →
    ¬ Blocks w patch p q

/-- Every vertex of the scene is a corner: an end of two walls or RISs that are not parallel. -/
def VerticesAreCorners (shapes : List Shape) : Prop :=
  ∀ q, .vertex q ∈ shapes → ∃ s ∈ shapes, ∃ s' ∈ shapes, ∃ w w', s.ends = some w ∧ s'.ends = some w' ∧ ¬ Parallel w.1 w.2 w'.1 w'.2 ∧
    (q = w.1 ∨ q = w.2) ∧ (q = w'.1 ∨ q = w'.2)

end DiffeRT2d.Spec
