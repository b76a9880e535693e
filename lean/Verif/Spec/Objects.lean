import Verif.Model.Geometry
import Verif.Spec.Geometry
import Verif.Spec.Logic

/-! # Concrete objects with finite coordinates, used to state the properties -/

namespace DiffeRT2d
open Spec

/-- The wall with finite end points `o` and `d`. -/
def Wall.ofPts (o d : Pt) : Wall := ⟨V2.fin o, V2.fin d⟩

namespace Spec

/-- What `jax.random.uniform` guarantees: `n` numbers in `[0, 1)`. -/
def IsUniform {Key : Type} (u : Uniform Key) : Prop :=
  ∀ k n, (u k n).length = n ∧ ∀ x ∈ u k n, ∃ r : ℝ, x = F.fin r ∧ 0 ≤ r ∧ r < 1

/-- `b` is the smallest axis-aligned box containing the points `ps`: all points lie in it and each of
the four sides touches a point. -/
def TightBox (b : BBox) (ps : List Pt) : Prop :=
  ∃ lo hi : Pt, b = ⟨V2.fin lo, V2.fin hi⟩ ∧
    (∀ p ∈ ps, lo.x ≤ p.x ∧ p.x ≤ hi.x ∧ lo.y ≤ p.y ∧ p.y ≤ hi.y) ∧
    (∃ p ∈ ps, p.x = lo.x) ∧ (∃ p ∈ ps, p.x = hi.x) ∧ (∃ p ∈ ps, p.y = lo.y) ∧ (∃ p ∈ ps, p.y = hi.y)

end Spec
end DiffeRT2d
