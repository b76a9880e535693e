import Verif.Spec.Grad
import Verif.Spec.Paths
import Verif.Model.GradPaths

/-! # Vocabulary for the gradients of the objectives of the iterative tracing methods -/

namespace DiffeRT2d.Spec

/-- The parameter number `j` is that of the object number `k` (vertices have none). -/
def Owns (shapes : List Shape) (k j : ℕ) : Prop :=
  ∃ s, shapes[k]? = some s ∧ s.count = 1 ∧ ((shapes.take k).map Shape.count).sum = j

/-- The step number `k` of the path is the opposite of the guard `(eps, eps)` that `path_length` adds to every step. -/
def GuardStep (eps : ℝ) (pts : List Pt) (k : ℕ) : Prop := ∃ a b : Pt, pts[k]? = some a ∧ pts[k + 1]? = some b ∧ b = ⟨a.x - eps, a.y - eps⟩

/-- The step number `k` of the path has length zero. -/
def NullStep (pts : List Pt) (k : ℕ) : Prop := ∃ a : Pt, pts[k]? = some a ∧ pts[k + 1]? = some a

/-- The step number `k` is looked at by the score of an object: of the wall where it ends, or of the wall or RIS where it starts. -/
def ScoredStep (shapes : List Shape) (k : ℕ) : Prop :=
  (∃ o d, shapes[k]? = some (.wall o d)) ∨
  ∃ m, k = m + 1 ∧ ((∃ o d, shapes[m]? = some (.wall o d)) ∨ ∃ o d φ, shapes[m]? = some (.ris o d φ))

/-- `pts` are the points of the path from `tx` to `rx` over the objects, for the parameters `θ`: each wall or RIS is met at its parameter. -/
def PathAt (shapes : List Shape) (tx rx : Pt) (θ : List ℝ) (pts : List Pt) : Prop :=
  pts.length = shapes.length + 2 ∧ pts[0]? = some tx ∧ pts[shapes.length + 1]? = some rx ∧
  (∀ k p, shapes[k]? = some (.vertex p) → pts[k + 1]? = some p) ∧
  ∀ k j s o d, Owns shapes k j → θ[j]? = some s → (shapes[k]? = some (.wall o d) ∨ ∃ φ, shapes[k]? = some (.ris o d φ)) →
    pts[k + 1]? = some (pointAt o d s)

/-- `g` is the derivative of `L` with respect to the coordinate `j`, at `θ`. -/
def PartialAt (L : List ℝ → ℝ) (θ : List ℝ) (j : ℕ) (g : ℝ) : Prop := ∃ s, θ[j]? = some s ∧ HasDerivAt (fun t => L (θ.set j t)) g s

/-- The gradient of the length is not defined at the parameters `θ`: a step that starts or ends at a wall or RIS is the opposite of the guard. -/
def FermatSingular (eps : ℝ) (shapes : List Shape) (tx rx : Pt) (θ : List ℝ) : Prop :=
  ∃ pts k j, PathAt shapes tx rx θ pts ∧ Owns shapes k j ∧ (GuardStep eps pts k ∨ GuardStep eps pts (k + 1))

/-- The gradient of the total score is not defined at the parameters `θ`: a scored step that starts or ends at a wall or RIS has length zero. -/
def MinSingular (shapes : List Shape) (tx rx : Pt) (θ : List ℝ) : Prop :=
  ∃ pts k j m, PathAt shapes tx rx θ pts ∧ Owns shapes k j ∧ (m = k ∨ m = k + 1) ∧ ScoredStep shapes m ∧ NullStep pts m

/-- What a path traced by gradient descent of `n` steps from the real parameters `x0` is, when the gradient is not defined at the parameters `Singular`:
`xs` are the successive parameters. If none of the parameters where the gradient is taken is singular, all the points of the path are real, and
each lies on its object at a parameter that has moved by at most `d`. If one is singular, a point of the path is NaN. -/
def DescentPath (Singular : List ℝ → Prop) (shapes : List Shape) (tx rx : Pt) (x0 : List ℝ) (n : ℕ) (d : ℝ) (xs : ℕ → List F) (xys : List (V2 F)) : Prop :=
  ((∀ i < n, ∀ θ, xs i = θ.map F.fin → ¬ Singular θ) →
    ∃ θ pts, xs n = θ.map F.fin ∧ PathAt shapes tx rx θ pts ∧ xys = pts.map V2.fin ∧ ∀ (i : ℕ) (a b : ℝ), x0[i]? = some a → θ[i]? = some b → |b - a| ≤ d) ∧
  ((∃ i < n, ∃ θ, xs i = θ.map F.fin ∧ Singular θ) → ∃ k s, shapes[k]? = some s ∧ s.count = 1 ∧ xys[k + 1]? = some V2.nan)

end DiffeRT2d.Spec
