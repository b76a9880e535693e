import Verif.Spec.Specular

/-! # Placing a transmitter by plain gradient descent -/

namespace DiffeRT2d.Spec

/-- No wall stops the line of sight between `t` and `r` (walls are longer than drawn by the patch and the tolerance of the obstruction test). -/
def Sees (walls : List (Pt × Pt)) (patch : ℝ) (t r : Pt) : Prop := ∀ w ∈ walls, ¬ Blocks w patch t r

/-- The receiver `r`, moved by the guard `eps` of the path length: the place where the power is largest. -/
def guarded (eps : ℝ) (r : Pt) : Pt := ⟨r.x + eps, r.y + eps⟩

/-- The power of the line of sight from `t` to `r`: zero if a wall stops it. -/
noncomputable def seenPower (eps height : ℝ) (walls : List (Pt × Pt)) (patch : ℝ) (t r : Pt) : ℝ :=
  open Classical in if Sees walls patch t r then 1 / (height ^ 2 + eucl t (guarded eps r) ^ 2) else 0

/-- What an exact derivative of the power is with respect to the transmitter: it points to the receiver. There is none at the receiver itself. -/
noncomputable def seenGradient (eps height : ℝ) (walls : List (Pt × Pt)) (patch : ℝ) (t r : Pt) : V2 F :=
  open Classical in if t = guarded eps r then ⟨F.nan, F.nan⟩ else
    V2.fin ⟨2 * seenPower eps height walls patch t r ^ 2 * ((guarded eps r).x - t.x), 2 * seenPower eps height walls patch t r ^ 2 * ((guarded eps r).y - t.y)⟩

end DiffeRT2d.Spec
