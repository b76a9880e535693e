import Verif.Spec.Fields
import Mathlib.Topology.Algebra.Monoid
import Mathlib.Topology.Instances.Real.Lemmas

/-! # Vocabulary for scenes that move

A moving point is a function from a topological space `X` (for instance time, or the positions of a transmitter) to the
plane. -/

namespace DiffeRT2d
namespace Spec
open Filter Topology

variable {X : Type} [TopologicalSpace X]

/-- The moving point `p` is continuous at `x0`. -/
def MovesAt (p : X → Pt) (x0 : X) : Prop := ContinuousAt (fun x => (p x).x) x0 ∧ ContinuousAt (fun x => (p x).y) x0

/-- A moving dictionary of points, at `x`. -/
def atX {α : Type} (d : PyDict (X → α)) (x : X) : PyDict α := d.map fun kv => (kv.1, kv.2 x)

/-- Moving walls, at `x`. -/
def wallsX (walls : List (X → Pt × Pt)) (x : X) : List (Pt × Pt) := walls.map (· x)

/-- A soft step that is continuous and vanishes at minus infinity. -/
structure ContinuousStep (kw : ActKw) : Prop where
  good : GoodKw kw
  smooth : ∃ s : ℝ → ℝ, (∀ x : ℝ, activation kw (F.fin x) = F.fin (s x)) ∧ Continuous s ∧ Tendsto s atBot (𝓝 0)

/-- Regular position of the path `pts` over the candidate `c`: it does not stand still, and no segment lies in the line
of a wall it is tested against. -/
structure RegularPath (walls : List (Pt × Pt)) (c : List ℤ) (pts : List Pt) : Prop where
  moves : c ≠ [] → NoPause pts
  across : ∀ (i j : ℕ) (w : Pt × Pt) (a b : Pt), pts[i]? = some a → pts[i + 1]? = some b → walls[j]? = some w →
    ¬ Adjacent c i j → ¬ (OnLine w.1 w.2 a ∧ OnLine w.1 w.2 b)

/-- The function `g` of the ends and the points of a path is continuous. -/
def ContinuousFun (g : Pt → Pt → List Pt → ℝ) : Prop :=
  ∀ (X : Type) [TopologicalSpace X] (x0 : X) (t r : X → Pt) (pts : List (X → Pt)), MovesAt t x0 → MovesAt r x0 →
    (∀ p ∈ pts, MovesAt p x0) → ContinuousAt (fun x => g (t x) (r x) (pts.map (· x))) x0

end Spec
end DiffeRT2d
