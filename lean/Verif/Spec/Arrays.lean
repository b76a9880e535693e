import Verif.Model.Arrays

/-! # Vocabulary for the properties of arrays -/

namespace DiffeRT2d.Spec

/-- The multi-index denotes an entry of arrays of that shape: as many numbers as dimensions, each below its dimension. -/
def IndexOf (idx shape : List ℕ) : Prop := List.Forall₂ (· < ·) idx shape

/-- The call returned an array of the given shape whose entry at each index of the shape is the given one. -/
def Returns {α : Type*} (call : Except PyErr (NdArr α)) (shape : List ℕ) (entry : List ℕ → α) : Prop :=
  ∃ r, call = .ok r ∧ r.shape = shape ∧ ∀ idx, IndexOf idx shape → r.get idx = entry idx

/-- The call raised the given exception. -/
def Raises {α : Type*} (call : Except PyErr α) (e : PyErr) : Prop := call = .error e

/-- All entries of an array have the same dtype. -/
def Uniform (a : NdArr Truthy) : Prop := (∀ idx, ∃ v, a.get idx = .b v) ∨ ∀ idx, ∃ v, a.get idx = .f v

/-- An array of floats. -/
def OfFloats (a : NdArr Truthy) : Prop := ∀ idx, ∃ v, a.get idx = .f v

/-- An array of Booleans. -/
def OfBools (a : NdArr Truthy) : Prop := ∀ idx, ∃ v, a.get idx = .b v

end DiffeRT2d.Spec
