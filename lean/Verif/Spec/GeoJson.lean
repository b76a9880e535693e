import Verif.Model.GeoJson
import Verif.Spec.Scene

/-! # Specification vocabulary for GeoJSON documents (RFC 7946) -/

namespace DiffeRT2d
namespace Spec

/-- A position: longitude and latitude. -/
def position (p : Pt) : Json := .arr [.num (.fin p.x), .num (.fin p.y)]

/-- A ring: an array of positions. -/
def ringJson (ps : List Pt) : Json := .arr (ps.map position)

/-- The geometry `g` is what the feature carries. -/
def Carried (feature g : Json) : Prop := ∃ d, feature = .obj d ∧ d.lookup "geometry" = some g

/-- `feature` is a polygon with this outer ring (and any holes). -/
def IsPolygon (feature : Json) (outer : List Pt) : Prop :=
  ∃ g holes, Carried feature (.obj g) ∧ g.lookup "type" = some (.str "Polygon") ∧
    g.lookup "coordinates" = some (.arr (ringJson outer :: holes))

/-- `feature` has no geometry. -/
def NoGeometry (feature : Json) : Prop :=
  (∃ d, feature = .obj d ∧ d.lookup "geometry" = none) ∨ Carried feature .null

/-- `feature` has a geometry that Python takes for false. -/
def FalsyGeometry (feature : Json) : Prop :=
  ∃ g, Carried feature g ∧ (g = .null ∨ g = .bool false ∨ g = .num (.fin 0) ∨ g = .str "" ∨ g = .arr [] ∨ g = .obj [])

/-- `feature` has a geometry that Python takes for true and that has no entries: `true`, a non-zero number, a text or a list. -/
def ScalarGeometry (feature : Json) : Prop :=
  ∃ g, Carried feature g ∧ (g = .bool true ∨ (∃ x, x ≠ F.fin 0 ∧ g = .num x) ∨ (∃ s, s ≠ "" ∧ g = .str s) ∨ ∃ x xs, g = .arr (x :: xs))

/-- `feature` has a geometry of another type, given by a nonempty array of arrays (all types but `Point` and
`GeometryCollection`). -/
def OtherGeometry (feature : Json) : Prop :=
  ∃ g type c cs, Carried feature (.obj g) ∧ g.lookup "type" = some (.str type) ∧ type ≠ "Polygon" ∧
    g.lookup "coordinates" = some (.arr (.arr c :: cs))

/-- What a feature contributes: the outer ring of a polygon, or nothing. -/
def Contributes (feature : Json) (outer : List Pt) : Prop :=
  IsPolygon feature outer ∨ (outer = [] ∧ (NoGeometry feature ∨ OtherGeometry feature))

/-- A document with these features (possibly none at all). -/
def Document (doc : Json) (features : List Json) : Prop :=
  ∃ d, doc = .obj d ∧
    (d.lookup "features" = some (.arr features) ∨ (d.lookup "features" = none ∧ features = []))

/-- Cyclically consecutive vertices: the last and the first, the first and the second, and so on. -/
def cyclicPairs : List Pt → List (Pt × Pt)
  | [] => []
  | p :: ps => ((p :: ps).getLast (List.cons_ne_nil p ps), p) :: (p :: ps).zip ps

/-- The walls joining cyclically consecutive vertices. -/
def ringShapes (ps : List Pt) : List Shape := (cyclicPairs ps).map fun ab => .wall ab.1 ab.2

/-- A closed ring: the first vertex is repeated at the end (RFC 7946, 3.1.6). -/
def ClosedRing (ps : List Pt) : Prop := 2 ≤ ps.length ∧ ps.getLast? = ps.head?

/-- The line segments of a ring: consecutive positions. -/
def segmentsOf (ps : List Pt) : List (Pt × Pt) := ps.zip ps.tail

end Spec
end DiffeRT2d
