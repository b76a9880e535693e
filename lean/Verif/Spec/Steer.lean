import Verif.Spec.RIS

/-! # Specification: what a RIS should aim at -/

namespace DiffeRT2d.Spec

/-- The paths, as inputs of the program. -/
def finPaths (paths : List (Pt × Pt × Pt)) : List (V2 F × V2 F × V2 F) := paths.map fun p => (V2.fin p.1, V2.fin p.2.1, V2.fin p.2.2)

/-- The unit vector from `b` to `c` (null if they are the same point). -/
noncomputable def heading (b c : Pt) : Pt := ⟨(c.x - b.x) / eucl b c, (c.y - b.y) / eucl b c⟩

/-- The sum of the unit vectors along which the paths, of three points, leave the RIS. -/
noncomputable def resultant (paths : List (Pt × Pt × Pt)) : Pt :=
  ⟨(paths.map fun p => (heading p.2.1 p.2.2).x).sum, (paths.map fun p => (heading p.2.1 p.2.2).y).sum⟩

/-- The length of a vector. -/
noncomputable def magnitude (v : Pt) : ℝ := eucl ⟨0, 0⟩ v

/-- The beam of the RIS with normal `n` and angle `φ` points along `v` (`k = 1`), or away from it (`k = -1`). -/
def Aims (k : ℝ) (n : Pt) (φ : ℝ) (v : Pt) : Prop := v.x = k * magnitude v * (beam n φ).x ∧ v.y = k * magnitude v * (beam n φ).y

end DiffeRT2d.Spec
