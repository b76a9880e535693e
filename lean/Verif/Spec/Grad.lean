import Verif.Spec.Smooth
import Verif.Model.Grad
import Mathlib.Analysis.Calculus.FDeriv.Basic

/-! # Vocabulary for gradients

Inputs `ι` are coordinates of a space `X` of parameters (for instance, positions of the receiver): `e i` is the direction in which
only the input `i` grows. -/

namespace DiffeRT2d
namespace Spec

variable {ι X : Type} [NormedAddCommGroup X] [NormedSpace ℝ X]

/-- The differentiated number `r` is right about the real function `f` at `x0`: its value is that of `f`, and what it sends back to
the inputs is the derivative of `f`, times the cotangent. -/
structure Differentiates (e : ι → X) (x0 : X) (r : Rev ι) (f : X → ℝ) : Prop where
  value : r.val = F.fin (f x0)
  pulls : ∃ f' : X →L[ℝ] ℝ, HasFDerivAt f f' x0 ∧ ∀ (c : ℝ) (i : ι), r.pull (F.fin c) i = F.fin (c * f' (e i))

/-- The same for points. -/
def DifferentiatesPt (e : ι → X) (x0 : X) (r : V2 (Rev ι)) (p : X → Pt) : Prop :=
  Differentiates e x0 r.x (fun x => (p x).x) ∧ Differentiates e x0 r.y (fun x => (p x).y)

/-- The same for walls, which must have different ends. -/
def DifferentiatesWall (e : ι → X) (x0 : X) (r : Rev.RWall ι) (w : X → Pt × Pt) : Prop :=
  DifferentiatesPt e x0 r.origin (fun x => (w x).1) ∧ DifferentiatesPt e x0 r.dest (fun x => (w x).2) ∧ (w x0).1 ≠ (w x0).2

/-- The differentiated function `f` of the points of a path is right about the real function `g`, at the paths that satisfy `Q`. -/
def DifferentiatesFun (Q : List Pt → Prop) (f : List (V2 (Rev ι)) → Rev ι) (g : List Pt → ℝ) : Prop :=
  ∀ (X : Type) [NormedAddCommGroup X] [NormedSpace ℝ X] (e : ι → X) (x0 : X) (ps : List (V2 (Rev ι))) (pts : List (X → Pt)), 2 ≤ ps.length →
    List.Forall₂ (DifferentiatesPt e x0) ps pts → Q (pts.map (· x0)) → Differentiates e x0 (f ps) fun x => g (pts.map (· x))

/-- The differentiated activation computes the activation. -/
def SameKw (kw : Rev.ActKw ι) (kw' : ActKw) : Prop := ∀ x : Rev ι, (Rev.activation kw x).val = activation kw' x.val

/-- The settings are one of the two activations of the library, with the slope `a`: `kw` under differentiation, `kw'` as it is. -/
def LibraryActivation (a : ℝ) (kw : Rev.ActKw ι) (kw' : ActKw) : Prop :=
  (kw = ⟨F.fin a, Rev.sigmoid⟩ ∧ kw' = ⟨F.fin a, sigmoid⟩) ∨ (kw = ⟨F.fin a, Rev.hardSigmoid⟩ ∧ kw' = ⟨F.fin a, hardSigmoid⟩)

/-- The differentiated function of the path computes the user's function, which does not look at anything else. -/
def SameFun (f : List (V2 (Rev ι)) → Rev ι) (g : Scene.PathFun) : Prop :=
  ∀ xys loss t r os, (f xys).val = g t r ⟨xys.map Rev.valV, loss⟩ os

/-- No step of the path is the opposite of the guard `(eps, eps)` that `path_length` adds to every step. -/
def OffGuard (eps : ℝ) (pts : List Pt) : Prop :=
  ∀ (i : ℕ) (a b : Pt), pts[i]? = some a → pts[i + 1]? = some b → b ≠ ⟨a.x - eps, a.y - eps⟩

/-- Every reflection point of the path `pts` from `t` over the walls `ws` is determined: no line from an image of `t` to the
following point of the path is parallel to the wall (in particular, no wall is reduced to a point). -/
def Determined (t : Pt) (ws : List (Pt × Pt)) (pts : List Pt) : Prop := ∃ imgs, MirrorChain t ws imgs ∧ NoParallelStep ws imgs pts

/-- The length of a path, each step of which is moved by the guard `(eps, eps)`. -/
noncomputable def guardedLength (eps : ℝ) : List Pt → ℝ
  | a :: b :: ps => eucl a ⟨b.x + eps, b.y + eps⟩ + guardedLength eps (b :: ps)
  | _ => 0

/-- The power received along a path: a coefficient for each reflection, over the square of the distance. -/
noncomputable def powerAlong (eps coef height : ℝ) (pts : List Pt) : ℝ :=
  coef ^ (pts.length - 2) / (height ^ 2 + guardedLength eps pts ^ 2)

/-- `g` is the gradient of `v` at `p`: the vector of its two partial derivatives, and `v` is differentiable there. -/
def GradientAt (v : ℝ × ℝ → ℝ) (p : ℝ × ℝ) (g : V2 F) : Prop :=
  ∃ v' : ℝ × ℝ →L[ℝ] ℝ, HasFDerivAt v v' p ∧ g = V2.fin ⟨v' (1, 0), v' (0, 1)⟩

/-- The result of a grid accumulation without the entries of its gradients. -/
def forgetGradients : Scene.GridOut → Scene.GridOut
  | .value z => .value z
  | .gradient dz => .gradient (dz.map fun row => row.map fun _ => ⟨F.fin 0, F.fin 0⟩)
  | .both z dz => .both z (dz.map fun row => row.map fun _ => ⟨F.fin 0, F.fin 0⟩)

/-- The arrays of x-coordinates and of y-coordinates of an array of points. -/
def gridX (P : Scene.Grid (ℝ × ℝ)) : Scene.Grid F := P.map fun row => row.map fun p => F.fin p.1
def gridY (P : Scene.Grid (ℝ × ℝ)) : Scene.Grid F := P.map fun row => row.map fun p => F.fin p.2

end Spec
end DiffeRT2d
