import Verif.Spec.Objects
import Verif.Model.Paths

/-! # Specification vocabulary for traced paths -/

namespace DiffeRT2d
namespace Spec

/-- Scene walls given by their finite end points. -/
def wallsOf (ws : List (Pt × Pt)) : List Obj := ws.map fun w => .wall (Wall.ofPts w.1 w.2)

/-- `ImagePath.from_tx_objects_rx(tx, walls, rx)` on finite points and walls. -/
noncomputable def traceImage (tx : Pt) (ws : List (Pt × Pt)) (rx : Pt) : Except PyErr Path :=
  ImagePath.fromTxObjectsRx (V2.fin tx) (wallsOf ws) (V2.fin rx)

/-- A path with finite coordinates and loss. -/
def finitePath (pts : List Pt) (loss : ℝ) : Path := ⟨pts.map V2.fin, F.fin loss⟩

/-- `imgs` are the successive mirror images of `p` in the lines of `ws`. -/
def MirrorChain (p : Pt) : List (Pt × Pt) → List Pt → Prop
  | [], [] => True
  | w :: ws, q :: qs => Mirror w.1 w.2 p q ∧ MirrorChain q ws qs
  | _, _ => False

/-- No step of the image path is parallel to its wall: for each `i`, the line from the `i`-th image to the
point following the `i`-th interaction is not parallel to the `i`-th wall. -/
def NoParallelStep (ws : List (Pt × Pt)) (imgs pts : List Pt) : Prop :=
  ∀ i w img c, ws[i]? = some w → imgs[i]? = some img → pts[i + 2]? = some c → ¬ Parallel w.1 w.2 img c

/-- Side of the line `o d` on which `p` lies: positive on the left, negative on the right, zero on
the line (for `o ≠ d`). -/
def side (o d p : Pt) : ℝ := (d.x - o.x) * (p.y - o.y) - (d.y - o.y) * (p.x - o.x)

/-- Segment `i` of a path (from point `i` to point `i + 1`) leaves from, or arrives at, the object with
index `j` of the scene: the path candidate lists, in order, the objects at points `1, 2, ...`. -/
def Adjacent (candidate : List ℤ) (i j : ℕ) : Prop :=
  candidate[i]? = some (j : ℤ) ∨ ∃ k, i = k + 1 ∧ candidate[k]? = some (j : ℤ)

/-- `x` is a truth degree `r`, or a NaN. -/
def DegreeOrNan (x : Truthy) : Prop := x = .f F.nan ∨ ∃ r, Degree x r

/-- The containment and intersection tests of an object return truth degrees (or NaN). -/
def FuzzyObject (E : Env) (ap : Option Bool) (kw : ActKw) (o : Interactable) : Prop :=
  (∀ q, DegreeOrNan (o.contains E ap kw (o.toParam q))) ∧
  ∀ patch a b, DegreeOrNan (o.intersects E ap kw patch a b)

/-- The wall with end points `w` after the map `f`. -/
def mapWall (f : Affine) (w : Pt × Pt) : Pt × Pt := (f.app w.1, f.app w.2)

/-- The orthogonal projection of `q` on the line of the wall `w` is not an end point of the wall (this
excludes zero-length walls). -/
def NotLevelWithEnds (w : Pt × Pt) (q : Pt) : Prop :=
  ¬ Orthogonal w.1 w.2 w.1 q ∧ ¬ Orthogonal w.1 w.2 w.2 q

/-- The lines `p1 p2` and `p3 p4` are parallel, or do not cross exactly at the ends of the segments
extended by `tol` (relatively to their lengths). -/
def NotCrossingAtEnds (p1 p2 p3 p4 : Pt) (tol : ℝ) : Prop :=
  Parallel p1 p2 p3 p4 ∨ ∀ s t, pointAt p1 p2 s = pointAt p3 p4 t →
    (s ≠ -tol ∧ s ≠ 1 + tol) ∧ (t ≠ -tol ∧ t ≠ 1 + tol)

/-- Generic position: none of the comparisons a validity check makes is an exact tie. `ws` are the walls
of the interactions, `scene` all the walls; walls are extended by `patch` at both ends, and segments are
tested with the fixed tolerance 1/200. -/
structure Generic (ws scene : List (Pt × Pt)) (candidate : List ℤ) (pts : List Pt) (loss tol patch : ℝ) :
    Prop where
  on : ∀ i w q, ws[i]? = some w → pts[i + 1]? = some q → NotLevelWithEnds w q
  hit : ∀ i j w a b, pts[i]? = some a → pts[i + 1]? = some b → scene[j]? = some w →
    ¬ Adjacent candidate i j →
    NotCrossingAtEnds (pointAt w.1 w.2 (-patch)) (pointAt w.1 w.2 (1 + patch)) a b (1 / 200)
  loss : loss ≠ tol

/-- What the minimizing methods need of their surroundings: positive numbers of steps and trials, and
shape-preserving random generator, gradient, optimizer (in the states it can reach from its initial state
for a vector of the same size) and key splitting. -/
structure Shaped {Key : Type} (M : Minimizer Key) (many : ℕ) : Prop where
  steps : 1 ≤ M.steps
  many : 1 ≤ many
  uniform : ∀ k n, (M.uniform k n).length = n
  grad : ∀ f x, (M.grad f x).length = x.length
  update : ∃ StateFor : ℕ → M.optimizer.State → Prop, (∀ x0, StateFor x0.length (M.optimizer.init x0)) ∧
    ∀ g st, StateFor g.length st → (M.optimizer.update g st).1.length = g.length ∧
      StateFor g.length (M.optimizer.update g st).2
  split : ∀ k n, (M.split k n).length = n

/-- A built-in object with finite coordinates. -/
inductive Shape where
  | wall (o d : Pt)
  | ris (o d : Pt) (phi : ℝ)
  | vertex (p : Pt)

/-- The object itself. -/
def Shape.obj : Shape → Obj
  | .wall o d => .wall (Wall.ofPts o d)
  | .ris o d φ => .ris ⟨Wall.ofPts o d, F.fin φ⟩
  | .vertex p => .vertex ⟨V2.fin p⟩

/-- The point `q` lies on the line supporting a wall or a RIS, or is the vertex. -/
def Shape.Carries : Shape → Pt → Prop
  | .wall o d, q => OnLine o d q
  | .ris o d _, q => OnLine o d q
  | .vertex p, q => q = p

/-- The middle of a wall or a RIS, or the vertex. -/
noncomputable def Shape.middle : Shape → Pt
  | .wall o d => midpoint o d
  | .ris o d _ => midpoint o d
  | .vertex p => p

/-- Number of parameters. -/
def Shape.count : Shape → ℕ
  | .vertex _ => 0
  | _ => 1

/-- `loss` is the sum, over the objects, of the object's score at the three consecutive points of the path
around it. -/
def TotalScore (objects : List Interactable) (xys : List (V2 F)) (loss : F) : Prop :=
  ∃ scores : List F, scores.length = objects.length ∧ loss = F.sum scores ∧
    ∀ i o a b c, objects[i]? = some o → xys[i]? = some a → xys[i + 1]? = some b → xys[i + 2]? = some c →
      scores[i]? = some (o.evaluate a b c)

/-- The convex combination `(1 - t) θ₁ + t θ₂`, coordinate by coordinate. -/
def mixture (t : ℝ) (θ₁ θ₂ : List ℝ) : List ℝ := List.zipWith (fun a b => (1 - t) * a + t * b) θ₁ θ₂

end Spec
end DiffeRT2d
