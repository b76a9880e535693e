import Verif.Lemmas.BBox

/-! # Properties C25, C26: bounding boxes, locations, grids -/

namespace DiffeRT2d.Props
open Classical Spec

/-! ## C25 — bounding boxes are tight -/

theorem C25_point (p : Pt) : TightBox (pointBBox (V2.fin p)) [p] :=
  ⟨p, p, rfl, by simp, ⟨p, by simp⟩, ⟨p, by simp⟩, ⟨p, by simp⟩, ⟨p, by simp⟩⟩

theorem C25_wall (o d : Pt) : TightBox (Wall.ofPts o d).bbox [o, d] := bboxOf_tight o [d]

theorem C25_path (p : Pt) (ps : List Pt) (loss : F) :
    ∃ b, (Path.mk ((p :: ps).map V2.fin) loss).bbox = .ok b ∧ TightBox b (p :: ps) :=
  ⟨_, rfl, bboxOf_tight p ps⟩

theorem C25_path_empty (loss : F) : (Path.mk [] loss).bbox = .error .valueError := rfl

/-- A tight box is unique: the code has no freedom. -/
theorem C25_unique (b b' : BBox) (ps : List Pt) (h : TightBox b ps) (h' : TightBox b' ps) : b = b' := by
  obtain ⟨lo, hi, rfl, hin, ⟨p1, m1, e1⟩, ⟨p2, m2, e2⟩, ⟨p3, m3, e3⟩, ⟨p4, m4, e4⟩⟩ := h
  obtain ⟨lo', hi', rfl, hin', ⟨p1', m1', e1'⟩, ⟨p2', m2', e2'⟩, ⟨p3', m3', e3'⟩, ⟨p4', m4', e4'⟩⟩ := h'
  have hlo : lo = lo' := by
    ext
    · exact le_antisymm (e1' ▸ (hin _ m1').1) (e1 ▸ (hin' _ m1).1)
    · exact le_antisymm (e3' ▸ (hin _ m3').2.2.1) (e3 ▸ (hin' _ m3).2.2.1)
  have hhi : hi = hi' := by
    ext
    · exact le_antisymm (e2 ▸ (hin' _ m2).2.1) (e2' ▸ (hin _ m2').2.1)
    · exact le_antisymm (e4 ▸ (hin' _ m4).2.2.2) (e4' ▸ (hin _ m4').2.2.2)
  rw [hlo, hhi]

theorem C25_center (lo hi : Pt) :
    BBox.center ⟨V2.fin lo, V2.fin hi⟩ = V2.fin (midpoint lo hi) := by
  ext
  · simp [BBox.center, midpoint]; ring
  · simp [BBox.center, midpoint]; ring

/-- Non-vacuity: the box of a three point path. -/
example : TightBox ⟨V2.fin ⟨-1, 0⟩, V2.fin ⟨2, 5⟩⟩ [⟨0, 0⟩, ⟨2, 5⟩, ⟨-1, 3⟩] := by
  refine ⟨_, _, rfl, ?_, ⟨⟨-1, 3⟩, by simp⟩, ⟨⟨2, 5⟩, by simp⟩, ⟨⟨0, 0⟩, by simp⟩, ⟨⟨2, 5⟩, by simp⟩⟩
  intro p hp
  simp only [List.mem_cons, List.not_mem_nil, or_false] at hp
  rcases hp with rfl | rfl | rfl <;> norm_num

/-! ## C26 — locations and grids -/

/-- Location names in compass terms: west/east are the least/greatest abscissa, south/north the
least/greatest ordinate. -/
theorem C26_location (lo hi : Pt) (loc : Loc) :
    ∃ p : Pt, BBox.getLocation ⟨V2.fin lo, V2.fin hi⟩ loc = V2.fin p ∧
      (loc ∈ [Loc.W, .NW, .SW] → p.x = lo.x) ∧ (loc ∈ [Loc.E, .NE, .SE] → p.x = hi.x) ∧
      (loc ∈ [Loc.N, .S, .C] → p.x = (midpoint lo hi).x) ∧
      (loc ∈ [Loc.S, .SE, .SW] → p.y = lo.y) ∧ (loc ∈ [Loc.N, .NE, .NW] → p.y = hi.y) ∧
      (loc ∈ [Loc.E, .W, .C] → p.y = (midpoint lo hi).y) := by
  have hh : ∀ a b : ℝ, (0.5 : F) * (F.fin a + F.fin b) = F.fin ((a + b) / 2) := by
    intro a b; simp; ring
  cases loc
  case N => exact ⟨⟨(lo.x + hi.x) / 2, hi.y⟩, by ext <;> simp [BBox.getLocation, ← hh], by simp [midpoint]⟩
  case E => exact ⟨⟨hi.x, (lo.y + hi.y) / 2⟩, by ext <;> simp [BBox.getLocation, ← hh], by simp [midpoint]⟩
  case S => exact ⟨⟨(lo.x + hi.x) / 2, lo.y⟩, by ext <;> simp [BBox.getLocation, ← hh], by simp [midpoint]⟩
  case W => exact ⟨⟨lo.x, (lo.y + hi.y) / 2⟩, by ext <;> simp [BBox.getLocation, ← hh], by simp [midpoint]⟩
  case C => exact ⟨midpoint lo hi, by ext <;> simp [BBox.getLocation, midpoint, ← hh], by simp [midpoint]⟩
  case NE => exact ⟨⟨hi.x, hi.y⟩, by ext <;> simp [BBox.getLocation], by simp [midpoint]⟩
  case NW => exact ⟨⟨lo.x, hi.y⟩, by ext <;> simp [BBox.getLocation], by simp [midpoint]⟩
  case SE => exact ⟨⟨hi.x, lo.y⟩, by ext <;> simp [BBox.getLocation], by simp [midpoint]⟩
  case SW => exact ⟨⟨lo.x, lo.y⟩, by ext <;> simp [BBox.getLocation], by simp [midpoint]⟩

/-- Every location lies in the box. -/
theorem C26_location_inside (lo hi : Pt) (hx : lo.x ≤ hi.x) (hy : lo.y ≤ hi.y) (loc : Loc) :
    ∃ p : Pt, BBox.getLocation ⟨V2.fin lo, V2.fin hi⟩ loc = V2.fin p ∧
      lo.x ≤ p.x ∧ p.x ≤ hi.x ∧ lo.y ≤ p.y ∧ p.y ≤ hi.y := by
  obtain ⟨p, h, h1, h2, h3, h4, h5, h6⟩ := C26_location lo hi loc
  refine ⟨p, h, ?_⟩
  simp only [midpoint] at h3 h6
  cases loc <;> simp_all <;> (try refine ⟨?_, ?_, ?_, ?_⟩) <;> (try constructor) <;> linarith

/-- Non-vacuity: a box of size 2 × 3. -/
example := C26_location_inside ⟨0, 1⟩ ⟨2, 4⟩ (by norm_num) (by norm_num) .C

/-- Shape of the grid. -/
theorem C26_shape (b : BBox) (m n : ℕ) :
    (b.grid m (some n)).1.length = n ∧ (b.grid m (some n)).2.length = n ∧
    (∀ row ∈ (b.grid m (some n)).1, row.length = m) ∧ (∀ row ∈ (b.grid m (some n)).2, row.length = m) ∧
    b.grid m none = b.grid m (some m) := by
  have hl : ∀ (a c : F) (k : ℕ), (linspace a c k).length = k := by
    intro a c k; unfold linspace; split <;> simp_all
  refine ⟨?_, ?_, ?_, ?_, rfl⟩
  · simp [BBox.grid, meshgrid, hl]
  · simp [BBox.grid, meshgrid, hl]
  · simp only [BBox.grid, meshgrid, Option.getD_some, List.mem_map]
    rintro row ⟨_, _, rfl⟩; exact hl _ _ _
  · simp only [BBox.grid, meshgrid, Option.getD_some, List.mem_map]
    rintro row ⟨_, _, rfl⟩; rw [List.length_map]; exact hl _ _ _

/-- Grid points: column `j` of row `i` is at `j` equal steps from the west side and `i` equal steps
from the south side; all lie in the box. -/
theorem C26_grid (lo hi : Pt) (hx : lo.x ≤ hi.x) (hy : lo.y ≤ hi.y) (m n i j : ℕ) (hi' : i < n) (hj : j < m) :
    ∃ x y : ℝ, ((BBox.grid ⟨V2.fin lo, V2.fin hi⟩ m (some n)).1[i]?.bind (·[j]?)) = some (F.fin x) ∧
      ((BBox.grid ⟨V2.fin lo, V2.fin hi⟩ m (some n)).2[i]?.bind (·[j]?)) = some (F.fin y) ∧
      lo.x ≤ x ∧ x ≤ hi.x ∧ lo.y ≤ y ∧ y ≤ hi.y ∧
      (1 < m → x = lo.x + j * ((hi.x - lo.x) / (m - 1))) ∧ (1 < n → y = lo.y + i * ((hi.y - lo.y) / (n - 1))) ∧
      (j = 0 → x = lo.x) ∧ (1 < m → j = m - 1 → x = hi.x) ∧
      (i = 0 → y = lo.y) ∧ (1 < n → i = n - 1 → y = hi.y) := by
  have hlast : ∀ (a b : ℝ) (k : ℕ), 1 < k → evenly a b k (k - 1) = b := by
    intro a b k hk
    have : ((k - 1 : ℕ) : ℝ) ≠ 0 := by
      have : k - 1 ≠ 0 := by omega
      exact_mod_cast this
    unfold evenly; field_simp; ring
  refine ⟨evenly lo.x hi.x m j, evenly lo.y hi.y n i, ?_, ?_, (evenly_mem hx hj).1, (evenly_mem hx hj).2,
    (evenly_mem hy hi').1, (evenly_mem hy hi').2, ?_, ?_, ?_, ?_, ?_, ?_⟩
  · simp [BBox.grid, meshgrid, linspace_fin, hi', hj]
  · simp [BBox.grid, meshgrid, linspace_fin, hi', hj]
  · intro h; unfold evenly; rw [Nat.cast_sub h.le]; simp
  · intro h; unfold evenly; rw [Nat.cast_sub h.le]; simp
  · rintro rfl; simp [evenly]
  · rintro h rfl; exact hlast _ _ _ h
  · rintro rfl; simp [evenly]
  · rintro h rfl; exact hlast _ _ _ h

/-- Non-vacuity: a 3 by 2 grid over `[0,4] x [1,2]`. -/
example : (BBox.grid ⟨V2.fin ⟨0, 1⟩, V2.fin ⟨4, 2⟩⟩ 3 (some 2)).1[1]?.bind (·[1]?) = some (F.fin 2) := by
  obtain ⟨x, y, h1, -, -, -, -, -, h2, -⟩ := C26_grid ⟨0, 1⟩ ⟨4, 2⟩ (by norm_num) (by norm_num) 3 2 1 1
    (by norm_num) (by norm_num)
  rw [h1, h2 (by norm_num)]; norm_num

end DiffeRT2d.Props
