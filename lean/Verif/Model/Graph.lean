import Verif.Model.Float

/-!
# Model of path candidates: `all_path_candidates` of `differt2d/scene.py` on top of `differt_core.rt`

`differt_core` is a compiled library outside the repository. Its two path enumerators are a parameter
(`GraphLib`), about which the theorems only assume the documented contract (`Spec/Graph.lean`); `refLib` is an
executable enumerator, proved to meet that contract. The edge-editing operations of `DiGraph` are
modelled on adjacency lists.
-/

namespace DiffeRT2d

/-- `differt_core.rt.DiGraph`: `adj[i]` lists the successors of node `i`. -/
abbrev DiGraph := List (List ℕ)

/-- `DiGraph.from_complete_graph(CompleteGraph(n))`: every node is linked to every other node (used at
scene.py:159). -/
def DiGraph.fromCompleteGraph (n : ℕ) : DiGraph :=
  (List.range n).map fun i => (List.range n).filter (· ≠ i)

/-- `DiGraph.insert_from_and_to_nodes()` (default `direct_path=True`, used at scene.py:160): two new nodes, the
first linked to every old node and to the second, every old node linked to the second. Returns
`from_`, `to` and the graph. -/
def DiGraph.insertFromAndToNodes (g : DiGraph) : ℕ × ℕ × DiGraph :=
  let n := g.length
  (n, n + 1, g.map (fun ns => ns ++ [n + 1]) ++ [List.range n ++ [n + 1], []])

/-- `DiGraph.disconnect_nodes(*nodes)` (used at scene.py:161): removes all edges from and to the nodes. -/
def DiGraph.disconnectNodes (g : DiGraph) (nodes : List ℕ) : DiGraph :=
  g.zipIdx.map fun ns => if ns.2 ∈ nodes then [] else ns.1.filter (· ∉ nodes)

/-- The path enumerators of `differt_core.rt`: `CompleteGraph(n).all_paths(from_, to, depth,
include_from_and_to=False)` and `DiGraph.all_paths(from_, to, depth, include_from_and_to=False)`, each
path being the list of the intermediate nodes. -/
structure GraphLib where
  completePaths : (n from_ to_ depth : ℕ) → List (List ℕ)
  digraphPaths : (g : DiGraph) → (from_ to_ depth : ℕ) → List (List ℕ)

/-- Python `range(a, b)` on integers. -/
def pyRange (a b : ℤ) : List ℤ := (List.range (b - a).toNat).map fun (i : ℕ) => a + (i : ℤ)

/-- `all_path_candidates` (scene.py:122-175), the module-level function. A negative depth is rejected by the
library (`OverflowError`). The cache of `filter_jit` is not modelled (the result only depends on the
arguments). -/
def allPathCandidates (G : GraphLib) (numNodes : ℕ) (minOrder maxOrder : ℤ) (order : Option ℤ)
    (filterNodes : Option (List ℕ)) : Except PyErr (List (List ℤ)) := do
  let paths : ℕ → List (List ℕ) :=
    match filterNodes with
    | none =>
      let from_ := numNodes
      let to_ := from_ + 1
      G.completePaths numNodes from_ to_
    | some nodes =>
      let graph := DiGraph.fromCompleteGraph numNodes
      let r := graph.insertFromAndToNodes
      let graph := r.2.2.disconnectNodes nodes
      G.digraphPaths graph r.1 r.2.1
  let minOrder := order.getD minOrder
  let maxOrder := order.getD maxOrder
  let cands ← (pyRange minOrder (maxOrder + 1)).mapM fun order =>
    if order + 2 < 0 then .error .overflowError
    else .ok (paths (order + 2).toNat)
  pure (cands.flatten.map fun p => p.map Int.ofNat)

/-! ## A reference enumerator -/

/-- All node sequences `p` of length `k` such that `cur, p, to` follows edges of the graph. -/
def walks (edge : ℕ → List ℕ) (to_ : ℕ) : ℕ → ℕ → List (List ℕ)
  | 0, cur => if to_ ∈ edge cur then [[]] else []
  | k + 1, cur => ((edge cur).filter (· ≠ to_)).flatMap fun x => (walks edge to_ k x).map (x :: ·)

/-- Depth-first enumeration of the paths with `depth` nodes, ends included. -/
def digraphPathsRef (g : DiGraph) (from_ to_ depth : ℕ) : List (List ℕ) :=
  if depth < 2 then [] else walks (fun i => g.getD i []) to_ (depth - 2) from_

/-- The same on a complete graph to which the two ends are added. -/
def completePathsRef (n from_ to_ depth : ℕ) : List (List ℕ) :=
  if depth < 2 then []
  else walks (fun i => (List.range n).filter (· ≠ i) ++ [to_]) to_ (depth - 2) from_

/-- An executable instance of the library (not the code of `differt_core`; it shows that the contract can
be met). -/
def refLib : GraphLib := ⟨completePathsRef, digraphPathsRef⟩

end DiffeRT2d
