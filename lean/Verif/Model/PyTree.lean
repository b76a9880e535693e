import Verif.Model.Scene
import Mathlib.Algebra.BigOperators.Group.List.Basic

/-! # Model of `stack_leaves`, `unstack_leaves` and of the scene methods that use them -/

namespace DiffeRT2d

open Classical

/-- A JAX array: shape and entries in row-major order. All leaves of one kind have the same dtype (promotion is
not modelled). -/
structure Arr (α : Type) where
  shape : List ℕ
  data : List α

/-- A pytree: its structure and its leaves. -/
structure PyTree (T α : Type) where
  treedef : T
  leaves : List (Arr α)

/-- `jnp.stack(xs, axis=axis)`: a `ValueError` without arrays, for different shapes, or for an axis out of
range. The entries before the axis vary slowest. -/
noncomputable def stackArrays {α : Type} (xs : List (Arr α)) (axis : ℤ) : Except PyErr (Arr α) :=
  match xs with
  | [] => .error .valueError
  | x :: rest =>
    let ndim : ℤ := x.shape.length + 1
    let k := if axis < 0 then axis + ndim else axis
    if ∃ y ∈ rest, y.shape ≠ x.shape then .error .valueError
    else if k < 0 ∨ ndim ≤ k then .error .valueError
    else
      let before := x.shape.take k.toNat
      let after := x.shape.drop k.toNat
      .ok ⟨before ++ (x :: rest).length :: after,
        (List.range before.prod).flatMap fun o =>
          (x :: rest).flatMap fun y => (y.data.drop (o * after.prod)).take after.prod⟩

/-- `stack_leaves` (geometry.py:42-64) without `is_leaf`: no pytree is a `TypeError` of `tree_map`, another
structure than the first one a `ValueError` (simplification: also when the first structure is a prefix of the
other one). -/
noncomputable def stackLeaves {T α : Type} (pytrees : List (PyTree T α)) (axis : ℤ := 0) :
    Except PyErr (PyTree T α) :=
  match pytrees with
  | [] => .error .typeError
  | t :: rest =>
    if ∃ u ∈ rest, u.treedef ≠ t.treedef then .error .valueError
    else do
      let leaves ← (List.range t.leaves.length).mapM fun (i : ℕ) =>
        stackArrays ((t :: rest).filterMap fun u => u.leaves[i]?) axis
      pure ⟨t.treedef, leaves⟩

/-- Iterating over an array: its entries along the first axis; a 0-dimensional array is a `TypeError`. -/
def Arr.iter {α : Type} (x : Arr α) : Except PyErr (List (Arr α)) :=
  match x.shape with
  | [] => .error .typeError
  | n :: s => .ok ((List.range n).map fun i => ⟨s, (x.data.drop (i * s.prod)).take s.prod⟩)

/-- `list(zip(*xss))`: as many tuples as the shortest iterable has elements; none without iterables. -/
def zipStar {α : Type} (xss : List (List α)) : List (List α) :=
  match xss with
  | [] => []
  | xs :: rest =>
    (List.range (rest.foldl (fun m ys => min m ys.length) xs.length)).map fun i =>
      (xs :: rest).filterMap fun ys => ys[i]?

/-- `unstack_leaves` (geometry.py:67-80). -/
def unstackLeaves {T α : Type} (pytree : PyTree T α) : Except PyErr (List (PyTree T α)) := do
  let leaves ← pytree.leaves.mapM Arr.iter
  pure ((zipStar leaves).map fun leaf => ⟨pytree.treedef, leaf⟩)

/-- The pytree of a library object (fields in order: geometry.py:295-299, 456-460, 689-693); the structure is the
class. User-defined objects are not modelled: `none`. -/
def Obj.tree : Obj → Option (PyTree String F)
  | .wall w => some ⟨"Wall", [⟨[2, 2], [w.origin.x, w.origin.y, w.dest.x, w.dest.y]⟩]⟩
  | .ris r => some ⟨"RIS", [⟨[2, 2], [r.origin.x, r.origin.y, r.dest.x, r.dest.y]⟩, ⟨[], [r.phi]⟩]⟩
  | .vertex v => some ⟨"Vertex", [⟨[2], [v.xy.x, v.xy.y]⟩]⟩
  | .user _ _ _ => none

/-- The object of a pytree, when the leaves have the shapes of a single object. -/
def Obj.ofTree (t : PyTree String F) : Option Obj :=
  match t with
  | ⟨"Wall", [⟨[2, 2], [a, b, c, d]⟩]⟩ => some (.wall ⟨⟨a, b⟩, ⟨c, d⟩⟩)
  | ⟨"RIS", [⟨[2, 2], [a, b, c, d]⟩, ⟨[], [phi]⟩]⟩ => some (.ris ⟨⟨⟨a, b⟩, ⟨c, d⟩⟩, phi⟩)
  | ⟨"Vertex", [⟨[2], [a, b]⟩]⟩ => some (.vertex ⟨⟨a, b⟩⟩)
  | _ => none

/-- `Scene.stacked_objects` (scene.py:347-359), for scenes of library objects. -/
noncomputable def Scene.stackedObjects (s : Scene) : Option (Except PyErr (PyTree String F)) :=
  (s.objects.mapM Obj.tree).map fun trees => stackLeaves trees

/-- `Scene.from_stacked_objects` (scene.py:393-411), for library objects. -/
def Scene.fromStackedObjects (objects : PyTree String F) : Except PyErr (Option Scene) := do
  let trees ← unstackLeaves objects
  pure ((trees.mapM Obj.ofTree).map fun os => Scene.make [] [] os)

/-- `Wall(xys=...)`: a shape other than `(2, 2)` is rejected by the type checker of the class. -/
def wallOfArr (x : Arr F) : Except PyErr Wall :=
  match x with
  | ⟨[2, 2], [a, b, c, d]⟩ => .ok ⟨⟨a, b⟩, ⟨c, d⟩⟩
  | _ => .error .typeCheckError

/-- `Scene.from_walls_array` (scene.py:413-426). -/
def Scene.fromWallsArray (walls : Arr F) : Except PyErr Scene := do
  let ws ← (← walls.iter).mapM wallOfArr
  pure (Scene.make [] [] (ws.map Obj.wall))

end DiffeRT2d
