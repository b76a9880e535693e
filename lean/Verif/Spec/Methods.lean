import Verif.Spec.Specular

/-! # Vocabulary to compare the path tracing methods -/

namespace DiffeRT2d
namespace Spec

/-- The points of the walls at the given parameters, one per wall. -/
def pointsAt (ws : List (Pt × Pt)) (θ : List ℝ) : List Pt := List.zipWith (fun w s => pointAt w.1 w.2 s) ws θ

/-- No ray runs along a wall: the point before each interaction is not on the line of the wall. -/
def OffWalls (ws : List (Pt × Pt)) (pts : List Pt) : Prop :=
  ∀ (i : ℕ) (w : Pt × Pt) (a : Pt), ws[i]? = some w → pts[i]? = some a → ¬ OnLine w.1 w.2 a

/-- The direction of a ray of direction `v` after a mirror reflection on the wall `w`: the component of `v` along the wall stays,
the component across the wall is reversed. -/
noncomputable def bounce (w : Pt × Pt) (v : Pt) : Pt :=
  let t : Pt := ⟨w.2.x - w.1.x, w.2.y - w.1.y⟩
  let c := 2 * (v.x * t.x + v.y * t.y) / (t.x * t.x + t.y * t.y)
  ⟨c * t.x - v.x, c * t.y - v.y⟩

/-- `θ` has `n` entries and the objective `f` is nowhere smaller on real vectors of this size. -/
def Minimizes (f : List F → F) (n : ℕ) (θ : List ℝ) : Prop :=
  θ.length = n ∧ ∀ θ' : List ℝ, θ'.length = n → Le (f (θ.map F.fin)) (f (θ'.map F.fin))

/-- `p` moved by `k` times `(e, e)`. -/
def drift (e : ℝ) (k : ℕ) (p : Pt) : Pt := ⟨p.x + k * e, p.y + k * e⟩

/-- Points numbered from `k`, each moved by its number times `(e, e)`. -/
def driftPts (e : ℝ) (k : ℕ) (pts : List Pt) : List Pt := (pts.zipIdx k).map fun p => drift e p.2 p.1

/-- Walls numbered from 1, each moved by its number times `(e, e)`. -/
def driftWalls (e : ℝ) (ws : List (Pt × Pt)) : List (Pt × Pt) := (ws.zipIdx 1).map fun w => (drift e w.2 w.1.1, drift e w.2 w.1.2)

end Spec
end DiffeRT2d
