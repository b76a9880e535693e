import Verif.Spec.Laws
import Verif.Spec.Fields
import Verif.Spec.Lines

/-! # Vocabulary for reciprocity -/

namespace DiffeRT2d
namespace Spec

/-- A tuple of `all_paths`, traversed from the receiver to the transmitter. -/
def reverseTuple (x : Scene.Traced) : Scene.Traced :=
  ⟨x.rx, x.tx, x.valid, ⟨x.path.xys.reverse, x.path.loss⟩, x.candidate.reverse⟩

/-- The function has the same value on a path and on the path traversed backwards. -/
def DirectionBlind (f : Scene.PathFun) : Prop :=
  ∀ t r pts loss (os os' : List Obj), os.length = os'.length →
    f (V2.fin r) (V2.fin t) (finitePath pts.reverse loss) os' = f (V2.fin t) (V2.fin r) (finitePath pts loss) os

/-- For the points `t` and `r`, whatever the walls (of an order from `lo` to `hi`), the image path traced from `r` to `t` is the one
traced from `t` to `r`, backwards, and has the same loss. -/
def Reversible (walls : List (Pt × Pt)) (lo hi : ℤ) (t r : Pt) : Prop :=
  ∀ c pts loss, InRange walls.length lo hi c → traceImage t (wallsAt walls c) r = .ok (finitePath pts loss) →
    traceImage r (wallsAt walls c.reverse) t = .ok (finitePath pts.reverse loss)

end Spec
end DiffeRT2d
