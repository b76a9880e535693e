import Verif.Spec.Grad
import Verif.Model.GradGrid
import Verif.Spec.Lines
import Verif.Spec.Fields
import Verif.Spec.Laws

/-! # Vocabulary for maps of gradients of the received power -/

namespace DiffeRT2d
namespace Spec

/-- What a map of the received power depends on, other than the scene: `kw` under differentiation is `kw'` as it is. -/
structure PowerSettings where
  lo : ℤ
  hi : ℤ
  E : Env
  ap : Option Bool
  tol : ℝ
  patch : ℝ
  kw : Rev.ActKw Rev.Coord
  kw' : ActKw
  coef : ℝ
  height : ℝ

/-- Some path candidate exists, `eps` and `height` are positive, no wall is reduced to a point; in approximate mode, moreover: one of the two
activations of the library with a positive slope, a patch of more than -1/2, and no two walls on one line if paths may have two bounces. -/
structure Covered (S : PowerSettings) (walls : List (Pt × Pt)) : Prop where
  lo : 0 ≤ S.lo
  some : ∃ c, InRange walls.length S.lo S.hi c
  eps : 0 < S.E.eps
  height : 0 < S.height
  proper : ∀ w ∈ walls, w.1 ≠ w.2
  mode : (Hard S.E S.ap ∧ SameKw S.kw S.kw') ∨
    (Soft S.E S.ap ∧ (2 ≤ S.hi → Untangled walls) ∧ -(1 / 2) < S.patch ∧ ∃ a, 0 < a ∧ LibraryActivation a S.kw S.kw')

/-- The received powers of the transmitters `tx` at a receiver at `r`. -/
noncomputable def powersAt (Key : Type) (G : GraphLib) (S : PowerSettings) (tx : PyDict Pt) (walls : List (Pt × Pt)) (r : Pt) : Except PyErr (List F) :=
  ((wallScene tx [("rx", r)] walls).accumulateOverPaths G (fun _ _ => []) (imageMethod Key) { minOrder := S.lo, maxOrder := S.hi }
    ⟨S.E, F.fin S.tol, F.fin S.patch, S.ap, S.kw'⟩ none (powerFun S.E S.coef S.height)).map (List.map fun e => e.2.2)

/-- The map of the gradients of the received power with respect to the position of the receiver. -/
noncomputable def gradientMap (G : GraphLib) (S : PowerSettings) (tx rx : PyDict Pt) (walls : List (Pt × Pt)) (P : Scene.Grid (ℝ × ℝ)) :
    Except PyErr (List (String × Scene.GridOut)) :=
  Rev.accumulateOnReceiversGrid (wallScene tx rx walls) G { minOrder := S.lo, maxOrder := S.hi } ⟨S.E, F.fin S.tol, F.fin S.patch, S.ap, S.kw⟩ true false
    (Rev.receivedPower S.E (F.fin S.coef) (F.fin S.height)) (gridX P) (gridY P)

/-- The received powers at the receivers `rx` of a transmitter at `t`. -/
noncomputable def powersFrom (Key : Type) (G : GraphLib) (S : PowerSettings) (rx : PyDict Pt) (walls : List (Pt × Pt)) (t : Pt) : Except PyErr (List F) :=
  ((wallScene [("tx", t)] rx walls).accumulateOverPaths G (fun _ _ => []) (imageMethod Key) { minOrder := S.lo, maxOrder := S.hi }
    ⟨S.E, F.fin S.tol, F.fin S.patch, S.ap, S.kw'⟩ none (powerFun S.E S.coef S.height)).map (List.map fun e => e.2.2)

/-- The map of the gradients of the received power with respect to the position of the transmitter. -/
noncomputable def gradientMapTx (G : GraphLib) (S : PowerSettings) (tx rx : PyDict Pt) (walls : List (Pt × Pt)) (P : Scene.Grid (ℝ × ℝ)) :
    Except PyErr (List (String × Scene.GridOut)) :=
  Rev.accumulateOnTransmittersGrid (wallScene tx rx walls) G { minOrder := S.lo, maxOrder := S.hi } ⟨S.E, F.fin S.tol, F.fin S.patch, S.ap, S.kw⟩ true false
    (Rev.receivedPower S.E (F.fin S.coef) (F.fin S.height)) (gridX P) (gridY P)

/-- `walls'` are the walls moved by the affine map, in any order, and drawn from any end. -/
def MovedWalls (A : Affine) (walls walls' : List (Pt × Pt)) : Prop := ∃ ws, Redrawn (walls.map (mapWall A)) ws ∧ ws.Perm walls'

/-- An affine map, on pairs. -/
def Affine.pair (A : Affine) (p : ℝ × ℝ) : ℝ × ℝ := ((A.app ⟨p.1, p.2⟩).x, (A.app ⟨p.1, p.2⟩).y)

/-- The gradient `g` is the gradient `g'` seen through the affine map: its linear part transposed, applied to `g'`. (For a translation `g = g'`; for a
rotation, `g'` is `g` rotated.) -/
def Affine.Pulls (A : Affine) (g' g : Pt) : Prop := g = ⟨A.a * g'.x + A.c * g'.y, A.b * g'.x + A.d * g'.y⟩

end Spec
end DiffeRT2d
