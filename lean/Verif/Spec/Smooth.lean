import Verif.Spec.Stability
import Mathlib.Analysis.Calculus.ContDiff.Basic
import Mathlib.Topology.MetricSpace.Lipschitz
import Mathlib.Topology.EMetricSpace.Lipschitz

/-! # Vocabulary for differentiability -/

namespace DiffeRT2d
namespace Spec
open Filter Topology

variable {X : Type} [NormedAddCommGroup X] [NormedSpace ℝ X]

/-- The moving point `p` is `n` times continuously differentiable at `x0`. -/
def SmoothAt (n : ℕ) (p : X → Pt) (x0 : X) : Prop :=
  ContDiffAt ℝ n (fun x => (p x).x) x0 ∧ ContDiffAt ℝ n (fun x => (p x).y) x0

/-- `f` is Lipschitz near `x0`. -/
def LipschitzNear (f : X → ℝ) (x0 : X) : Prop := ∃ K, ∃ U ∈ 𝓝 x0, LipschitzOnWith K f U

/-- The path `pts` over the candidate `c` does not stand still, and none of its segments is parallel to a wall it is
tested against. -/
structure TransversePath (walls : List (Pt × Pt)) (c : List ℤ) (pts : List Pt) : Prop where
  moves : c ≠ [] → NoPause pts
  across : ∀ (i j : ℕ) (w : Pt × Pt) (a b : Pt), pts[i]? = some a → pts[i + 1]? = some b → walls[j]? = some w →
    ¬ Adjacent c i j → ¬ Parallel w.1 w.2 a b

/-- A soft step that is locally Lipschitz, also near minus infinity, where `-1 / x` is the coordinate and the value is 0. -/
structure LipschitzStep (kw : ActKw) : Prop where
  good : GoodKw kw
  lipschitz : ∃ s : ℝ → ℝ, (∀ x : ℝ, activation kw (F.fin x) = F.fin (s x)) ∧ (∀ x, LipschitzNear s x) ∧
    LipschitzNear (fun y : ℝ => if y ≤ 0 then 0 else s (-1 / y)) 0

/-- The function `g` of the ends and the points of a path is `n` times continuously differentiable at the paths that
satisfy `Q`. -/
def SmoothFun (n : ℕ) (Q : List Pt → Prop) (g : Pt → Pt → List Pt → ℝ) : Prop :=
  ∀ (X : Type) [NormedAddCommGroup X] [NormedSpace ℝ X] (x0 : X) (t r : X → Pt) (pts : List (X → Pt)), SmoothAt n t x0 → SmoothAt n r x0 →
    (∀ p ∈ pts, SmoothAt n p x0) → Q (pts.map (· x0)) → ContDiffAt ℝ n (fun x => g (t x) (r x) (pts.map (· x))) x0

end Spec
end DiffeRT2d
