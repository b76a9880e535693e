import Verif.Spec.Grad

/-! # Vocabulary for exceptional positions

A line is given by two distinct points. -/

namespace DiffeRT2d
namespace Spec

/-- Finitely many lines. -/
def Lines (L : List (Pt × Pt)) : Prop := ∀ l ∈ L, l.1 ≠ l.2

/-- The point `p` is on none of the lines `L`. -/
def OffLines (L : List (Pt × Pt)) (p : Pt) : Prop := ∀ l ∈ L, side l.1 l.2 p ≠ 0

/-- The walls `w` and `w'` are on one line. -/
def Collinear (w w' : Pt × Pt) : Prop := side w.1 w.2 w'.1 = 0 ∧ side w.1 w.2 w'.2 = 0

/-- No two walls of the scene are on one line. -/
def Untangled (walls : List (Pt × Pt)) : Prop := ∀ (i j : ℕ) (w w' : Pt × Pt), i ≠ j → walls[i]? = some w → walls[j]? = some w' → ¬ Collinear w w'

end Spec
end DiffeRT2d
