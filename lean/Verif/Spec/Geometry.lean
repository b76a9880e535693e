import Verif.Model.Float
import Mathlib.Data.Real.Basic
import Mathlib.Algebra.BigOperators.Group.List.Basic

/-!
# Specification vocabulary for plane geometry

Points of the plane are pairs of reals.  Nothing here mentions how the code computes.
-/

namespace DiffeRT2d.Spec

/-- A point (or a vector) of the plane. -/
abbrev Pt := V2 ℝ

/-- Euclidean distance. -/
noncomputable def eucl (p q : Pt) : ℝ := Real.sqrt ((q.x - p.x) ^ 2 + (q.y - p.y) ^ 2)

/-- The point with parameter `s` on the line through `p` and `q` (`0` is `p`, `1` is `q`). -/
def pointAt (p q : Pt) (s : ℝ) : Pt := ⟨p.x + s * (q.x - p.x), p.y + s * (q.y - p.y)⟩

/-- `r` is on the line through `p` and `q`. -/
def OnLine (p q r : Pt) : Prop := ∃ s, r = pointAt p q s

/-- `r` is on the closed segment from `p` to `q`. -/
def OnSegment (p q r : Pt) : Prop := ∃ s, 0 ≤ s ∧ s ≤ 1 ∧ r = pointAt p q s

/-- The directions `p1→p2` and `p3→p4` are parallel (or one of them is null). -/
def Parallel (p1 p2 p3 p4 : Pt) : Prop :=
  (p2.x - p1.x) * (p4.y - p3.y) = (p2.y - p1.y) * (p4.x - p3.x)

/-- The directions `p1→p2` and `p3→p4` are orthogonal (or one of them is null). -/
def Orthogonal (p1 p2 p3 p4 : Pt) : Prop :=
  (p2.x - p1.x) * (p4.x - p3.x) + (p2.y - p1.y) * (p4.y - p3.y) = 0

/-- Midpoint. -/
noncomputable def midpoint (p q : Pt) : Pt := ⟨(p.x + q.x) / 2, (p.y + q.y) / 2⟩

/-- `q` is the mirror image of `p` in the line through `o` and `d`: the segment `p q` is orthogonal to
the line, and its midpoint is on it. -/
def Mirror (o d p q : Pt) : Prop := Orthogonal o d p q ∧ OnLine o d (midpoint p q)

/-- Euclidean length of a polyline. -/
noncomputable def polyLength : List Pt → ℝ
  | p :: q :: ps => eucl p q + polyLength (q :: ps)
  | _ => 0

/-- An affine map of the plane, `p ↦ M p + t`. -/
structure Affine where
  a : ℝ
  b : ℝ
  c : ℝ
  d : ℝ
  tx : ℝ
  ty : ℝ

/-- Application of an affine map. -/
def Affine.app (f : Affine) (p : Pt) : Pt :=
  ⟨f.a * p.x + f.b * p.y + f.tx, f.c * p.x + f.d * p.y + f.ty⟩

/-- The map is invertible. -/
def Affine.Invertible (f : Affine) : Prop := f.a * f.d - f.b * f.c ≠ 0

/-- The map multiplies all distances by `k > 0`: its linear part is `k` times an orthogonal matrix
(rotations, mirrorings, uniform scalings, translations and their compositions). -/
structure Affine.Similarity (f : Affine) (k : ℝ) : Prop where
  pos : 0 < k
  col1 : f.a ^ 2 + f.c ^ 2 = k ^ 2
  col2 : f.b ^ 2 + f.d ^ 2 = k ^ 2
  orth : f.a * f.b + f.c * f.d = 0

/-- Rotation of `p` by the angle `θ` about `c`. -/
noncomputable def rotated (c : Pt) (θ : ℝ) (p : Pt) : Pt :=
  ⟨c.x + Real.cos θ * (p.x - c.x) - Real.sin θ * (p.y - c.y),
   c.y + Real.sin θ * (p.x - c.x) + Real.cos θ * (p.y - c.y)⟩

/-- `u` is the unit vector in the direction of `v` (null if `v` is null). -/
def IsDirection (v u : Pt) : Prop :=
  (v = ⟨0, 0⟩ ∧ u = ⟨0, 0⟩) ∨
    (u.x ^ 2 + u.y ^ 2 = 1 ∧ ∃ l : ℝ, 0 < l ∧ v = ⟨l * u.x, l * u.y⟩)

end DiffeRT2d.Spec
