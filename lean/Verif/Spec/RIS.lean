import Verif.Spec.GradPaths
import Verif.Spec.Specular

/-! # Vocabulary for reflective intelligent surfaces (RIS) -/

namespace DiffeRT2d.Spec

/-- The direction in which a RIS with the unit normal `n` and the angle `φ` sends every ray: the opposite of `n` turned by `-φ`. -/
noncomputable def beam (n : Pt) (φ : ℝ) : Pt :=
  ⟨-(Real.cos φ * n.x + Real.sin φ * n.y), -(Real.cos φ * n.y - Real.sin φ * n.x)⟩

/-- Scalar product of the step from `p` to `q` with `e`. -/
def advance (e p q : Pt) : ℝ := (q.x - p.x) * e.x + (q.y - p.y) * e.y

/-- Seen from `b`, the point `c` is in the open cone around the unit vector `e` in which the cosine is above `k`. -/
def InCone (e : Pt) (k : ℝ) (b c : Pt) : Prop := k * eucl b c < advance e b c

/-- `filter_objects=lambda obj: isinstance(obj, RIS)`. -/
def isRIS : Obj → Bool
  | .ris _ => true
  | _ => false

end DiffeRT2d.Spec
