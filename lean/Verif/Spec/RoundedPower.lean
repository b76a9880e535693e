import Verif.Spec.Rounded

/-! # Vocabulary for the power in floating point -/

namespace DiffeRT2d
namespace Spec

/-- Rounding a number of the format leaves it unchanged. -/
def Idempotent (A : FloatOps) : Prop := ∀ x r, A.rnd x = F.fin r → A.rnd r = F.fin r

/-- The image method, in floating point, gives a path with finite coordinates over the candidate. -/
def TracesFinite (A : FloatOps) (tx rx : V2 F) (walls : List Wall) (c : List ℤ) : Prop :=
  ∃ (pts : List Pt) (loss : F), A.imagePath tx (FloatOps.interacting walls c) rx = ⟨pts.map V2.fin, loss⟩

end Spec
end DiffeRT2d
