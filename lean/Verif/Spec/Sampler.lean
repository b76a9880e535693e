import Verif.Model.Sampler
import Verif.Spec.Presets
import Verif.Spec.Specular
import Verif.Spec.Graph
import Mathlib.MeasureTheory.Measure.MeasureSpace

/-! # Specification vocabulary for the path sampler of the notebook -/

namespace DiffeRT2d
namespace Spec

/-- What `jax.random` documents about the generators that produce the training data. -/
structure DataContract {Key : Type} (J : Jax Key) : Prop where
  split : ∀ k n, (J.split k n).length = n
  uniform0 : ∀ k (a b : ℝ), a ≤ b → ∃ r, J.uniform0 k (F.fin a) (F.fin b) = F.fin r ∧ a ≤ r ∧ r ≤ b
  uniform1 : ∀ k n (a b : ℝ), a ≤ b → (J.uniform1 k n (F.fin a) (F.fin b)).length = n ∧
    ∀ x ∈ J.uniform1 k n (F.fin a) (F.fin b), ∃ r, x = F.fin r ∧ a ≤ r ∧ r ≤ b
  uniform2 : ∀ k n, (J.uniform2 k n).length = n ∧ ∀ p ∈ J.uniform2 k n, ∃ q : Pt, p = V2.fin q ∧ InRoom q
  randint : ∀ k a b, a < b → a ≤ J.randint k a b ∧ J.randint k a b < b
  choice : ∀ k l n, l.Nodup → n ≤ l.length → (J.choice k l n).length = n ∧ (J.choice k l n).Nodup ∧ ∀ x ∈ J.choice k l n, x ∈ l

/-- The eight walls of the room with a square obstacle of side `ratio`. -/
noncomputable def roomWithObstacle (ratio : ℝ) : List (Pt × Pt) :=
  let corners := squareCorners roomCentre 1
  let inner := squareCorners roomCentre ratio
  corners.zip (corners.rotate 1) ++ inner.zip (inner.rotate 1)

/-- A wall turned by the angle `θ` (counterclockwise) about the centre of the room. -/
noncomputable def turned (θ : ℝ) (w : Pt × Pt) : Pt × Pt := (rotated roomCentre θ w.1, rotated roomCentre θ w.2)

/-- A training sample as its documentation describes it: a transmitter and a receiver in the unit square, an obstacle with a
ratio in the given range, and at least `minWalls` different walls of the room with this obstacle, each turned about the
centre by its own angle of the given range. -/
structure SampleOf (minRatio maxRatio : ℝ) (minWalls : ℤ) (minAngle maxAngle : ℝ) (tx rx : Pt) (walls : List (Pt × Pt)) : Prop where
  tx : InRoom tx
  rx : InRoom rx
  walls : ∃ (ratio : ℝ) (picks : List (ℕ × ℝ)), minRatio ≤ ratio ∧ ratio ≤ maxRatio ∧ minWalls ≤ picks.length ∧ picks.length ≤ 8 ∧
    (picks.map Prod.fst).Nodup ∧ (∀ p ∈ picks, p.1 < 8 ∧ minAngle ≤ p.2 ∧ p.2 ≤ maxAngle) ∧
    walls.map some = picks.map fun p => (roomWithObstacle ratio)[p.1]?.map (turned p.2)

/-- The array of a sample: the transmitter, the receiver, and the ends of the walls. -/
def sampleRows (tx rx : Pt) (walls : List (Pt × Pt)) : List (V2 F) :=
  V2.fin tx :: V2.fin rx :: walls.flatMap fun w => [V2.fin w.1, V2.fin w.2]

/-- The one-hot encoding of a path candidate under construction, as the notebook describes it: the element in row `i` and column `j` is 1 if the `j`-th
wall chosen is the wall `i`, and 0 otherwise (also if it is undecided). -/
noncomputable def encode (n order : ℕ) (c : List ℕ) : OneHot :=
  (List.range n).map fun i => (List.range order).map fun j => if c[j]? = some i then 1 else 0

/-- A finite float. -/
def IsFin (x : F) : Prop := ∃ r : ℝ, x = F.fin r

/-- The two networks map finite inputs to finite outputs (of the announced size): no overflow. -/
structure FiniteNet (net : FlowModel) : Prop where
  embed : ∀ x, (∀ v ∈ x, IsFin v) → (net.embed x).length = net.size ∧ ∀ v ∈ net.embed x, IsFin v
  raw : ∀ x, (∀ v ∈ x, IsFin v) → IsFin (net.raw x)

/-- `flow c i` is the flow that the network predicts from the candidate under construction `c` to the wall `i`, in the scene `xys` with `n` walls. -/
def FlowsOf (net : FlowModel) (n order : ℕ) (xys : List (V2 F)) (flow : List ℕ → ℕ → ℝ) : Prop :=
  ∀ c : List ℕ, (∀ i ∈ c, i < n) → c.length ≤ order →
    net.call (encode n order c) ((c.getLast?.getD n : ℕ) : ℤ) xys = .ok ((List.range n).map fun i => F.fin (flow c i))

/-- The notebook's flows: never negative, zero exactly on the edges that choose the same wall again. -/
structure GoodFlows (flow : List ℕ → ℕ → ℝ) : Prop where
  nonneg : ∀ c i, 0 ≤ flow c i
  stopped : ∀ c i, flow c i = 0 ↔ c.getLast? = some i

/-- The flow that leaves a state. -/
def outflow (n : ℕ) (flow : List ℕ → ℕ → ℝ) (c : List ℕ) : ℝ := ((List.range n).map (flow c)).sum

/-- The probability of a complete candidate, as the notebook defines it: at each step, the flow of the edge over the flow that leaves the state. -/
noncomputable def probability (n : ℕ) (flow : List ℕ → ℕ → ℝ) (c : List ℕ) : ℝ :=
  ∏ t : Fin c.length, flow (c.take t) c[t] / outflow n flow (c.take t)

/-- The sum of the squared violations of flow consistency along a candidate, with the reward `reward` at its end, as the notebook defines it. -/
noncomputable def inconsistency (n : ℕ) (flow : List ℕ → ℕ → ℝ) (reward : ℝ) (c : List ℕ) : ℝ :=
  ∑ t : Fin c.length, (flow (c.take t) c[t] - if t + 1 = c.length then reward else outflow n flow (c.take (t + 1))) ^ 2

/-- The reward of a list of walls: 1 if it has a physical ray path, 0 otherwise (C132). -/
noncomputable def rayReward (walls : List (Pt × Pt)) (t r : Pt) (c : List ℕ) : ℝ :=
  open Classical in if ∃ pts, RayPath walls 0 t r (c.map fun (i : ℕ) => (i : ℤ)) pts then 1 else 0

/-- The same walls in the order of their indices. -/
def sorted (c : List ℕ) : List ℕ := c.mergeSort (fun a b => decide (a ≤ b))

/-- Logits: finite or −inf, and not all −inf. -/
def Logits (l : List F) : Prop := (∀ x ∈ l, x = F.ninf ∨ IsFin x) ∧ ∃ x ∈ l, IsFin x

/-- The weight of a logit. -/
noncomputable def logitWeight : F → ℝ
  | F.fin x => Real.exp x
  | _ => 0

/-- The softmax of logits. -/
noncomputable def softmax (l : List F) (i : ℕ) : ℝ := logitWeight (l.getD i F.ninf) / (l.map logitWeight).sum

/-- What `jax.random.categorical` promises for every key: an index, and not one with the logit −inf if there is another one. -/
structure SupportContract {Key : Type} (J : Jax Key) : Prop where
  split : ∀ k n, (J.split k n).length = n
  index : ∀ k l, l ≠ [] → J.categorical k l < l.length
  support : ∀ k l, Logits l → IsFin (l.getD (J.categorical k l) F.ninf)

/-- What `jax.random` promises on average, for a random key: draws with the keys of `split` are independent, and follow the softmax of the logits. -/
def RandomContract {Key : Type} [MeasurableSpace Key] (J : Jax Key) (μ : MeasureTheory.Measure Key) : Prop :=
  ∀ (m : ℕ) (L : Fin m → List F) (c : Fin m → ℕ), (∀ i, Logits (L i)) → (∀ i, c i < (L i).length) →
    μ {k | ∀ i : Fin m, ∃ k', (J.split k m)[(i : ℕ)]? = some k' ∧ J.categorical k' (L i) = c i} = ENNReal.ofReal (∏ i, softmax (L i) (c i))

end Spec
end DiffeRT2d
