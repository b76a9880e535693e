import Verif.Spec.Traversal

/-! # Specular (mirror) reflection paths, as optics describes them

Nothing here mentions images, losses or scores. -/

namespace DiffeRT2d
namespace Spec

/-- Component of the step from `a` to `b` along the wall `w` (times the length of the wall). -/
def along (w : Pt × Pt) (a b : Pt) : ℝ := (w.2.x - w.1.x) * (b.x - a.x) + (w.2.y - w.1.y) * (b.y - a.y)

/-- A ray coming from `a` is reflected by the wall `w` at `b` towards `c`: `b` is on the line of the wall, `a` and `c`
are strictly on the same side of it, and the law of reflection holds: the angles that the incoming and the
outgoing step make with the wall are equal (their cosines, along the wall, are the same). -/
structure Reflects (w : Pt × Pt) (a b c : Pt) : Prop where
  on : OnLine w.1 w.2 b
  same : 0 < side w.1 w.2 a * side w.1 w.2 c
  law : along w a b * eucl b c = along w b c * eucl a b

/-- `pts` is a path of mirror reflections on the walls `ws`, in this order. -/
def Specular (ws : List (Pt × Pt)) (pts : List Pt) : Prop :=
  pts.length = ws.length + 2 ∧ ∀ (i : ℕ) (w : Pt × Pt) (a b c : Pt), ws[i]? = some w → pts[i]? = some a →
    pts[i + 1]? = some b → pts[i + 2]? = some c → Reflects w a b c

/-- No two consecutive points are equal. -/
def NoPause (pts : List Pt) : Prop := ∀ (i : ℕ) (a b : Pt), pts[i]? = some a → pts[i + 1]? = some b → a ≠ b

/-- The points are not all equal: the path goes somewhere. -/
def Moves (pts : List Pt) : Prop := ∃ p ∈ pts, ∃ q ∈ pts, p ≠ q

/-- The wall `w`, extended by `patch` (relatively to its length) at both ends, stops the step from `a` to `b`: they
are not parallel and they cross, up to a tolerance of 1/200 of their lengths. -/
def Blocks (w : Pt × Pt) (patch : ℝ) (a b : Pt) : Prop :=
  ¬ Parallel w.1 w.2 a b ∧ ∃ s t, pointAt w.1 w.2 s = pointAt a b t ∧
    (-(patch + 5 / 1000 * (1 + 2 * patch)) ≤ s ∧ s ≤ 1 + (patch + 5 / 1000 * (1 + 2 * patch))) ∧
    (-(5 / 1000) ≤ t ∧ t ≤ 1 + 5 / 1000)

/-- `pts` is a physical ray path from `t` to `r` in the scene of walls `walls`: it is reflected, as in a mirror, by
the walls that the candidate `c` names, at points that are on these walls, and no other wall stops it. -/
structure RayPath (walls : List (Pt × Pt)) (patch : ℝ) (t r : Pt) (c : List ℤ) (pts : List Pt) : Prop where
  start : pts.head? = some t
  finish : pts.getLast? = some r
  count : pts.length = c.length + 2
  reflected : ∀ (i j : ℕ) (w : Pt × Pt) (p q q' : Pt), c[i]? = some (j : ℤ) → walls[j]? = some w →
    pts[i]? = some p → pts[i + 1]? = some q → pts[i + 2]? = some q' → Reflects w p q q' ∧ OnSegment w.1 w.2 q
  clear : ∀ (i j : ℕ) (w : Pt × Pt) (p q : Pt), pts[i]? = some p → pts[i + 1]? = some q → walls[j]? = some w →
    ¬ Adjacent c i j → ¬ Blocks w patch p q

/-- The walls a candidate names. -/
def wallsAt (walls : List (Pt × Pt)) (c : List ℤ) : List (Pt × Pt) := c.filterMap fun i => walls[i.toNat]?

/-- A scene made of walls. -/
def wallScene (tx rx : PyDict Pt) (walls : List (Pt × Pt)) : Scene :=
  sceneOf tx rx (walls.map fun w => .wall w.1 w.2)

end Spec
end DiffeRT2d
