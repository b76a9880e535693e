import Verif.Lemmas.Length
import Verif.Lemmas.Argmin

/-! # Properties C13–C15: lengths, normalization, nearest points -/

namespace DiffeRT2d.Props
open Classical Spec

/-! ## C13 — path length -/

theorem C13_close (E : Env) (pts : List Pt) :
    ∃ L : ℝ, pathLength E (pts.map V2.fin) = F.fin L ∧ 0 ≤ L ∧
      |L - polyLength pts| ≤ (pts.length - 1 : ℕ) * (Real.sqrt 2 * |E.eps|) :=
  ⟨_, pathLength_fin E pts, plen_nonneg _ _, plen_approx _ _⟩

theorem C13_straight (E : Env) (p : Pt) (ps : List Pt) :
    ∃ L : ℝ, pathLength E ((p :: ps).map V2.fin) = F.fin L ∧
      eucl p ((p :: ps).getLast (by simp)) - ps.length * (Real.sqrt 2 * |E.eps|) ≤ L := by
  obtain ⟨L, h, -, ha⟩ := C13_close E (p :: ps)
  refine ⟨L, h, ?_⟩
  have h1 := eucl_le_polyLength p ps
  have h2 := (abs_le.mp ha).1
  simp only [List.length_cons, Nat.add_sub_cancel] at h2
  linarith

theorem C13_translate (E : Env) (t : Pt) (pts : List Pt) :
    pathLength E ((pts.map (· + t)).map V2.fin) = pathLength E (pts.map V2.fin) := by
  rw [pathLength_fin, pathLength_fin, plen_translate]

theorem C13_reverse (E : Env) (pts : List Pt) :
    ∃ L L' : ℝ, pathLength E (pts.map V2.fin) = F.fin L ∧ pathLength E (pts.reverse.map V2.fin) = F.fin L' ∧
      |L - L'| ≤ 2 * ((pts.length - 1 : ℕ) * (Real.sqrt 2 * |E.eps|)) := by
  refine ⟨_, _, pathLength_fin E pts, pathLength_fin E pts.reverse, ?_⟩
  have h1 := plen_approx E.eps pts
  have h2 := plen_approx E.eps pts.reverse
  rw [polyLength_reverse, List.length_reverse] at h2
  rw [abs_le] at *
  constructor <;> linarith

/-- With `eps = 0` (exact arithmetic) the length is exactly the Euclidean one. -/
theorem C13_exact (E : Env) (h : E.eps = 0) (pts : List Pt) :
    pathLength E (pts.map V2.fin) = F.fin (polyLength pts) := by
  obtain ⟨L, h1, -, h2⟩ := C13_close E pts
  rw [h] at h2
  simp only [abs_zero, mul_zero] at h2
  rw [h1, sub_eq_zero.mp (abs_eq_zero.mp (le_antisymm h2 (abs_nonneg _)))]

/-- Non-vacuity: exact arithmetic, a path of three points. -/
example : pathLength ⟨false, 0⟩ ([⟨0, 0⟩, ⟨3, 0⟩, ⟨3, 4⟩].map V2.fin) = F.fin (polyLength [⟨0, 0⟩, ⟨3, 0⟩, ⟨3, 4⟩]) :=
  C13_exact ⟨false, 0⟩ rfl [⟨0, 0⟩, ⟨3, 0⟩, ⟨3, 4⟩]

/-- Non-vacuity: a 3-4-5 path has Euclidean length 7, its end points are at distance 5. -/
example : polyLength [⟨0, 0⟩, ⟨3, 0⟩, ⟨3, 4⟩] = 7 ∧ eucl ⟨0, 0⟩ ⟨3, 4⟩ = 5 := by
  have h9 : Real.sqrt 9 = 3 := by rw [show (9:ℝ) = 3 ^ 2 by norm_num]; exact Real.sqrt_sq (by norm_num)
  have h16 : Real.sqrt 16 = 4 := by rw [show (16:ℝ) = 4 ^ 2 by norm_num]; exact Real.sqrt_sq (by norm_num)
  have h25 : Real.sqrt 25 = 5 := by rw [show (25:ℝ) = 5 ^ 2 by norm_num]; exact Real.sqrt_sq (by norm_num)
  constructor <;> norm_num [polyLength, eucl, h9, h16, h25]

/-! ## C14 — normalize -/

theorem C14_normalize (v : Pt) :
    ∃ (u : Pt) (l : ℝ), normalize (V2.fin v) = (V2.fin u, F.fin l) ∧
      0 < l ∧ v = ⟨l * u.x, l * u.y⟩ ∧
      (v ≠ ⟨0, 0⟩ → u.x ^ 2 + u.y ^ 2 = 1 ∧ l = eucl ⟨0, 0⟩ v) ∧
      (v = ⟨0, 0⟩ → u = ⟨0, 0⟩ ∧ l = 1) := by
  refine ⟨_, _, normalize_fin v, len1_pos v, (unit_mul v).symm, ?_, ?_⟩
  · intro h
    refine ⟨by have := unit_sq h; nlinarith, ?_⟩
    have h0 : nrm v ≠ 0 := fun e => h ((nrm_eq_zero v).mp e)
    rw [eucl_eq_nrm]
    have : v - ⟨0, 0⟩ = v := by ext <;> simp
    rw [this]; simp [len1, h0]
  · rintro rfl
    exact ⟨unit_zero, by simp [len1, nrm]⟩

theorem C14_idempotent (v : Pt) :
    (normalize (normalize (V2.fin v)).1).1 = (normalize (V2.fin v)).1 := by
  simp only [normalize_fin]
  congr 1
  by_cases h : v = ⟨0, 0⟩
  · rw [h, unit_zero, unit_zero]
  · exact unit_of_sq (unit_sq h)

theorem C14_odd (v : Pt) :
    (normalize (V2.fin (-v))).1 = -(normalize (V2.fin v)).1 ∧
    (normalize (V2.fin (-v))).2 = (normalize (V2.fin v)).2 := by
  simp only [normalize_fin, unit_neg, V2.fin_neg, true_and]
  simp [len1, nrm_neg]

theorem C14_scale (v : Pt) (k : ℝ) (hk : 0 < k) :
    (normalize (V2.fin ⟨k * v.x, k * v.y⟩)).1 = (normalize (V2.fin v)).1 := by
  simp only [normalize_fin]
  exact congrArg V2.fin (unit_smul_pos hk v)

/-- Non-vacuity: the direction of (6, 8) is that of (3, 4). -/
example : (normalize (V2.fin ⟨2 * 3, 2 * 4⟩)).1 = (normalize (V2.fin ⟨3, 4⟩)).1 := C14_scale ⟨3, 4⟩ 2 (by norm_num)

/-- Non-vacuity. -/
example : (⟨3, 4⟩ : Pt) ≠ ⟨0, 0⟩ := by intro h; have := congrArg V2.x h; norm_num at this

/-! ## C15 — nearest point -/

/-- `closest_point` returns the first index with the least distance, and that distance. -/
theorem C15_closest (pts : List Pt) (target : Pt) (hne : pts ≠ []) :
    ∃ (i : ℕ) (p : Pt), closestPoint (pts.map V2.fin) (V2.fin target) = some (i, F.fin (eucl p target)) ∧
      pts[i]? = some p ∧ (∀ q ∈ pts, eucl p target ≤ eucl q target) ∧
      (∀ j, j < i → ∀ q, pts[j]? = some q → eucl p target < eucl q target) := by
  have hd : (pts.map V2.fin).map (fun p => V2.norm (p - V2.fin target)) =
      pts.map fun p => F.fin (eucl p target) := by
    rw [List.map_map]; apply List.map_congr_left; intro p _
    simp only [Function.comp, V2.fin_sub, V2.fin_norm']
    rw [eucl_comm, eucl_eq_nrm]
  obtain ⟨i, b, hi, hb, hmin, hfirst⟩ := F.argmin_spec (xs := pts.map fun p => F.fin (eucl p target))
    (by simpa using hne) (by intro x hx; simp only [List.mem_map] at hx; obtain ⟨q, -, rfl⟩ := hx; simp)
  have hb' : (pts.map fun p => F.fin (eucl p target)).getD i F.nan = b := by
    simp only [List.getD_eq_getElem?_getD, hb, Option.getD_some]
  rw [List.getElem?_map] at hb
  obtain ⟨p, hp, rfl⟩ := Option.map_eq_some_iff.mp hb
  refine ⟨i, p, ?_, hp, ?_, ?_⟩
  · simp only [closestPoint, hd, hi, Option.map_some, hb']
  · intro q hq
    have := hmin (F.fin (eucl q target)) (List.mem_map.mpr ⟨q, hq, rfl⟩)
    simpa using this
  · intro j hj q hq
    have := hfirst j hj (F.fin (eucl q target)) (by rw [List.getElem?_map, hq]; rfl)
    simpa using this

/-- No candidates: an error. -/
theorem C15_empty (target : V2 F) : closestPoint [] target = none := rfl

/-- Non-vacuity: with two equidistant points the earlier index wins. -/
example : ∃ d, closestPoint ([⟨5, 0⟩, ⟨1, 0⟩, ⟨-1, 0⟩].map V2.fin) (V2.fin ⟨0, 0⟩) = some (1, d) := by
  obtain ⟨i, p, h, hp, hmin, hfirst⟩ := C15_closest [⟨5, 0⟩, ⟨1, 0⟩, ⟨-1, 0⟩] ⟨0, 0⟩ (by simp)
  have e5 : eucl ⟨5, 0⟩ ⟨0, 0⟩ = 5 := by
    unfold eucl; rw [show ((0:ℝ) - 5) ^ 2 + (0 - 0) ^ 2 = 5 ^ 2 by norm_num]; exact Real.sqrt_sq (by norm_num)
  have e1 : eucl ⟨1, 0⟩ ⟨0, 0⟩ = 1 := by
    unfold eucl; rw [show ((0:ℝ) - 1) ^ 2 + (0 - 0) ^ 2 = 1 ^ 2 by norm_num]; exact Real.sqrt_sq (by norm_num)
  have e2 : eucl ⟨-1, 0⟩ ⟨0, 0⟩ = 1 := by
    unfold eucl; rw [show ((0:ℝ) - -1) ^ 2 + (0 - 0) ^ 2 = 1 ^ 2 by norm_num]; exact Real.sqrt_sq (by norm_num)
  have : i = 1 := by
    match i, hp with
    | 0, hp => simp at hp; subst hp; have := hmin ⟨1, 0⟩ (by simp); rw [e5, e1] at this; norm_num at this
    | 1, _ => rfl
    | 2, hp =>
      simp at hp; subst hp
      have := hfirst 1 (by norm_num) ⟨1, 0⟩ (by simp); rw [e1, e2] at this; norm_num at this
    | n + 3, hp => simp at hp
  exact ⟨_, by rw [h, this]⟩

end DiffeRT2d.Props
