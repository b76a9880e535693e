import Verif.Model.PyTree
import Verif.Spec.Scene

/-! # Specification vocabulary for arrays and pytrees -/

namespace DiffeRT2d
namespace Spec

/-- An array has as many entries as its shape says. -/
def Arr.Wf {α : Type} (x : Arr α) : Prop := x.data.length = x.shape.prod

/-- `i` is an index of the shape: one coordinate per dimension, each in range. -/
def InShape (i shape : List ℕ) : Prop := List.Forall₂ (· < ·) i shape

/-- Position of an index in row-major order (the last coordinate varies fastest). -/
def rowMajor : List ℕ → List ℕ → ℕ
  | _ :: shape, i :: is => i * shape.prod + rowMajor shape is
  | _, _ => 0

/-- The entry at an index. -/
def entry {α : Type} (x : Arr α) (i : List ℕ) : Option α := x.data[rowMajor x.shape i]?

/-- Pytrees of the same structure and shapes, with well-formed leaves. -/
structure Alike {T α : Type} (t u : PyTree T α) : Prop where
  treedef : u.treedef = t.treedef
  shapes : u.leaves.map Arr.shape = t.leaves.map Arr.shape

/-- All leaves are well-formed arrays. -/
def PyTree.Wf {T α : Type} (t : PyTree T α) : Prop := ∀ x ∈ t.leaves, Arr.Wf x

end Spec
end DiffeRT2d
