import Verif.Model.Graph
import Mathlib.Data.List.Chain

/-! # Specification vocabulary for path candidates -/

namespace DiffeRT2d
namespace Spec

/-- What the documentation of `differt_core.rt` promises. On a complete graph with `n` nodes to which the end
nodes `n` and `n + 1` are added, the paths with `k` intermediate nodes are the sequences of `k` nodes
without immediate repetition; on a directed graph they are the sequences that follow edges from the
first end to the second one (only used when no edge leaves the second end). Each is enumerated once;
nothing is assumed about the order of the enumeration, nor about depths below 2. -/
structure GraphContract (G : GraphLib) : Prop where
  complete_nodup : ∀ n k, (G.completePaths n n (n + 1) (k + 2)).Nodup
  complete_mem : ∀ n k p, p ∈ G.completePaths n n (n + 1) (k + 2) ↔
    p.length = k ∧ (∀ x ∈ p, x < n) ∧ p.IsChain (· ≠ ·)
  digraph_nodup : ∀ (g : DiGraph) s t k, (∀ ns ∈ g, ns.Nodup) → g.getD t [] = [] →
    (G.digraphPaths g s t (k + 2)).Nodup
  digraph_mem : ∀ (g : DiGraph) s t k p, (∀ ns ∈ g, ns.Nodup) → g.getD t [] = [] →
    (p ∈ G.digraphPaths g s t (k + 2) ↔
    p.length = k ∧ (s :: p ++ [t]).IsChain (fun a b => b ∈ g.getD a []))

/-- A sequence of indices of objects, among `n` of them, that is a path candidate: no object interacts twice in
a row. -/
def IsCandidate (n : ℕ) (c : List ℤ) : Prop :=
  (∀ i ∈ c, 0 ≤ i ∧ i < n) ∧ ∀ (k : ℕ) (a b : ℤ), c[k]? = some a → c[k + 1]? = some b → a ≠ b

end Spec
end DiffeRT2d
