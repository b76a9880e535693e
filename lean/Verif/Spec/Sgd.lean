import Verif.Spec.GradPaths

/-! # Specification: objects along a segment -/

namespace DiffeRT2d.Spec

/-- A wall or a RIS from `o` to `d`. -/
def Segment (o d : Pt) (sh : Shape) : Prop := sh = .wall o d ∨ ∃ φ, sh = .ris o d φ

/-- The length of a wall or RIS (a vertex has none). -/
noncomputable def extent : Shape → ℝ
  | .wall o d => eucl o d
  | .ris o d _ => eucl o d
  | .vertex _ => 0

/-- Every step of the path, moved by the guard, has at least the length `ℓ`. -/
def StepsAtLeast (eps ℓ : ℝ) (pts : List Pt) : Prop :=
  ∀ (k : ℕ) (a b : Pt), pts[k]? = some a → pts[k + 1]? = some b → ℓ ≤ eucl ⟨a.x - eps, a.y - eps⟩ b

/-- The squared distance between two vectors of parameters. -/
def gap (θ θ' : List ℝ) : ℝ := (List.zipWith (fun a b => (a - b) ^ 2) θ θ').sum

end DiffeRT2d.Spec
