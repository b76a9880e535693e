import Verif.Lemmas.Similarity
import Verif.Props.Geometry
import Mathlib.Analysis.SpecialFunctions.Trigonometric.Basic

/-! # Properties C16–C24: walls, vertices, RIS, rotation -/

namespace DiffeRT2d.Props
open Classical Spec

/-! ## C16 — images are mirror reflections -/

theorem C16_mirror (o d p : Pt) (h : o ≠ d) :
    ∃ q : Pt, (Wall.ofPts o d).imageOf (V2.fin p) = V2.fin q ∧ Mirror o d p q := by
  refine ⟨rimg o d p, imageOf_fin o d p, ?_, ?_⟩
  · have h1 := rn_orth o d
    simp only [dp, V2.sub_x, V2.sub_y] at h1
    simp only [Orthogonal, rimg]
    linear_combination (-2 * dp (p - o) (rn o d)) * h1
  · rw [onLine_iff h]
    have hs := rn_sq h
    simp only [dp, midpoint, rimg, V2.sub_x, V2.sub_y] at *
    linear_combination (-((p.x - o.x) * (rn o d).x + (p.y - o.y) * (rn o d).y)) * hs

/-- Non-vacuity: an oblique wall. -/
example := C16_mirror ⟨0, 0⟩ ⟨3, 4⟩ ⟨1, 2⟩ (by intro h; have := congrArg V2.x h; norm_num at this)

/-- The mirror image is unique, so `image_of` is *the* mirror image. -/
theorem C16_unique (o d p q : Pt) (h : o ≠ d) (hm : Mirror o d p q) :
    (Wall.ofPts o d).imageOf (V2.fin p) = V2.fin q := by
  rw [imageOf_fin]; congr 1
  obtain ⟨h1, h2⟩ := hm
  rw [onLine_iff h] at h2
  obtain ⟨l, hl, e1, e2⟩ := rn_scaled o d
  have hs := rn_sq h
  simp only [dp, midpoint, Orthogonal, V2.sub_x, V2.sub_y] at *
  have e3 : d.x - o.x = -(l * (rn o d).y) := by linarith
  rw [e3, e1] at h1
  have h3 : (q.y - p.y) * (rn o d).x - (q.x - p.x) * (rn o d).y = 0 := by
    apply mul_left_cancel₀ hl.ne'; linear_combination h1
  ext
  · simp only [rimg, dp, V2.sub_x, V2.sub_y]
    linear_combination (q.x - p.x) * hs + (rn o d).y * h3 - 2 * (rn o d).x * h2
  · simp only [rimg, dp, V2.sub_x, V2.sub_y]
    linear_combination (q.y - p.y) * hs - (rn o d).x * h3 - 2 * (rn o d).y * h2

theorem C16_involution (o d p : Pt) :
    (Wall.ofPts o d).imageOf ((Wall.ofPts o d).imageOf (V2.fin p)) = V2.fin p := by
  rw [imageOf_fin, imageOf_fin]; congr 1
  rcases rn_sq_cases o d with hs | h0
  · simp only [dp] at hs
    ext
    · simp only [rimg, dp, V2.sub_x, V2.sub_y]
      linear_combination (4 * ((p.x - o.x) * (rn o d).x + (p.y - o.y) * (rn o d).y) * (rn o d).x) * hs
    · simp only [rimg, dp, V2.sub_x, V2.sub_y]
      linear_combination (4 * ((p.x - o.x) * (rn o d).x + (p.y - o.y) * (rn o d).y) * (rn o d).y) * hs
  · ext <;> simp [rimg, h0]

theorem C16_isometry (o d p q : Pt) :
    ∃ p' q' : Pt, (Wall.ofPts o d).imageOf (V2.fin p) = V2.fin p' ∧
      (Wall.ofPts o d).imageOf (V2.fin q) = V2.fin q' ∧ eucl p' q' = eucl p q := by
  refine ⟨_, _, imageOf_fin o d p, imageOf_fin o d q, ?_⟩
  unfold eucl; congr 1
  rcases rn_sq_cases o d with hs | h0
  · simp only [dp, rimg, V2.sub_x, V2.sub_y] at *
    linear_combination (4 * ((q.x - p.x) * (rn o d).x + (q.y - p.y) * (rn o d).y) ^ 2) * hs
  · simp [rimg, h0]

theorem C16_fixed (o d p : Pt) (h : o ≠ d) :
    (Wall.ofPts o d).imageOf (V2.fin p) = V2.fin p ↔ OnLine o d p := by
  rw [imageOf_fin, V2.fin_inj, onLine_iff h]
  have hs := rn_sq h
  constructor
  · intro e
    have hx := congrArg V2.x e
    have hy := congrArg V2.y e
    simp only [rimg] at hx hy
    have h1 : dp (p - o) (rn o d) * (rn o d).x = 0 := by linarith
    have h2 : dp (p - o) (rn o d) * (rn o d).y = 0 := by linarith
    simp only [dp] at hs
    linear_combination (rn o d).x * h1 + (rn o d).y * h2 - dp (p - o) (rn o d) * hs
  · intro e; ext <;> simp [rimg, e]

/-- Non-vacuity: a point of the line, beyond the end of an oblique wall, is its own image. -/
example : (Wall.ofPts ⟨0, 0⟩ ⟨3, 4⟩).imageOf (V2.fin ⟨6, 8⟩) = V2.fin ⟨6, 8⟩ :=
  (C16_fixed ⟨0, 0⟩ ⟨3, 4⟩ ⟨6, 8⟩ (by intro h; have := congrArg V2.x h; norm_num at this)).2 ⟨2, by norm_num [pointAt]⟩

theorem C16_degenerate (o p : Pt) : (Wall.ofPts o o).imageOf (V2.fin p) = V2.fin p := by
  rw [imageOf_fin]; congr 1; ext <;> simp [rimg, rn_self]

/-- Non-vacuity: mirroring `(1, 2)` in the x axis gives `(1, -2)`. -/
example : (Wall.ofPts ⟨0, 0⟩ ⟨3, 0⟩).imageOf (V2.fin ⟨1, 2⟩) = V2.fin ⟨1, -2⟩ := by
  apply C16_unique
  · intro h; have := congrArg V2.x h; norm_num at this
  · exact ⟨by norm_num [Orthogonal], 1/3, by ext <;> norm_num [midpoint, pointAt]⟩

/-! ## C17 — normals -/

theorem C17_normal (o d : Pt) :
    ∃ n : Pt, (Wall.ofPts o d).normal = V2.fin n ∧
      Orthogonal o d ⟨0, 0⟩ n ∧ (o ≠ d → n.x ^ 2 + n.y ^ 2 = 1) ∧ (o = d → n = ⟨0, 0⟩) ∧
      (Wall.ofPts d o).normal = V2.fin ⟨-n.x, -n.y⟩ := by
  refine ⟨rn o d, normal_fin o d, ?_, ?_, ?_, ?_⟩
  · have := rn_orth o d
    simp only [dp, V2.sub_x, V2.sub_y, Orthogonal] at *; linarith
  · intro h; have := rn_sq h; simp only [dp] at this; nlinarith
  · rintro rfl; exact rn_self o
  · rw [normal_fin, rn_swap]; rfl

/-- The normal points to the right-hand side of the wall (from origin to destination). -/
theorem C17_orientation (o d : Pt) (h : o ≠ d) :
    ∃ n : Pt, (Wall.ofPts o d).normal = V2.fin n ∧ (d.x - o.x) * n.y - (d.y - o.y) * n.x < 0 := by
  refine ⟨rn o d, normal_fin o d, ?_⟩
  obtain ⟨l, hl, e1, e2⟩ := rn_scaled o d
  have hs := rn_sq h
  have e3 : d.x - o.x = -(l * (rn o d).y) := by linarith
  rw [e3, e1]
  simp only [dp] at hs
  have : -(l * (rn o d).y) * (rn o d).y - l * (rn o d).x * (rn o d).x = -l := by
    linear_combination (-l) * hs
  rw [this]; linarith

/-- Non-vacuity: an oblique wall. -/
example := C17_orientation ⟨0, 0⟩ ⟨3, 4⟩ (by intro h; have := congrArg V2.x h; norm_num at this)

example : (⟨0, 0⟩ : Pt) ≠ ⟨3, 4⟩ := by intro h; have := congrArg V2.x h; norm_num at this

/-! ## C18 — parametric coordinates -/

theorem C18_roundtrip (o d : Pt) (h : o ≠ d) (t : ℝ) :
    (Wall.ofPts o d).toParam ((Wall.ofPts o d).toCart (F.fin t)) = F.fin t := by
  rw [toCart_fin, toParam_fin, rpar_pointAt h]

/-- Non-vacuity: a parameter outside of `[0, 1]`. -/
example := C18_roundtrip ⟨0, 0⟩ ⟨3, 4⟩ (by intro h; have := congrArg V2.x h; norm_num at this) (-2)

/-- Going to parameters and back is the orthogonal projection on the line. -/
theorem C18_projection (o d p : Pt) (h : o ≠ d) :
    ∃ q : Pt, (Wall.ofPts o d).toCart ((Wall.ofPts o d).toParam (V2.fin p)) = V2.fin q ∧
      OnLine o d q ∧ Orthogonal o d p q ∧ (q = p ↔ OnLine o d p) := by
  rw [toParam_fin, toCart_fin]
  refine ⟨_, rfl, ⟨_, rfl⟩, ?_, ?_⟩
  · have h0 : dp (d - o) (d - o) ≠ 0 := fun e => h ((dp_self_eq_zero o d).mp e)
    have e : rpar o d p * dp (d - o) (d - o) = dp (d - o) (p - o) := by
      rw [rpar, if_neg h0, div_mul_cancel₀ _ h0]
    simp only [Orthogonal, pointAt]
    simp only [dp, V2.sub_x, V2.sub_y] at e
    linear_combination e
  · constructor
    · intro e; exact ⟨_, e.symm⟩
    · rintro ⟨s, rfl⟩; rw [rpar_pointAt h]

/-- Non-vacuity: a point beside an oblique wall. -/
example := C18_projection ⟨0, 0⟩ ⟨3, 4⟩ ⟨1, 2⟩ (by intro h; have := congrArg V2.x h; norm_num at this)

theorem C18_endpoints (o d : Pt) :
    (Wall.ofPts o d).toCart (F.fin 0) = V2.fin o ∧ (Wall.ofPts o d).toCart (F.fin 1) = V2.fin d := by
  rw [toCart_fin, toCart_fin]
  constructor <;> congr 1 <;> ext <;> simp [pointAt]

/-! ## C19 — containment -/

theorem C19_parameter (E : Env) (ap : Option Bool) (h : Hard E ap) (kw : ActKw) (w : Wall) (s : ℝ) :
    ∃ r, w.contains E ap kw (F.fin s) = .b r ∧ (r = true ↔ 0 ≤ s ∧ s ≤ 1) :=
  ⟨_, contains_hard h w kw s, by simp⟩

/-- Non-vacuity: hard mode by argument, and by the setting. -/
example (kw : ActKw) (w : Wall) := And.intro (C19_parameter ⟨true, 1⟩ (some false) (.inl rfl) kw w (1 / 2))
  (C19_parameter ⟨false, 1⟩ none (.inr ⟨rfl, rfl⟩) kw w 2)

/-- For points of the supporting line, containment means lying on the closed segment. -/
theorem C19_segment (E : Env) (ap : Option Bool) (h : Hard E ap) (kw : ActKw) (o d p : Pt) (hod : o ≠ d)
    (hp : OnLine o d p) :
    ∃ r, (Wall.ofPts o d).contains E ap kw ((Wall.ofPts o d).toParam (V2.fin p)) = .b r ∧
      (r = true ↔ OnSegment o d p) := by
  obtain ⟨s, rfl⟩ := hp
  rw [toParam_fin, rpar_pointAt hod]
  refine ⟨_, contains_hard h _ kw s, ?_⟩
  simp only [decide_eq_true_eq]
  constructor
  · rintro ⟨h0, h1⟩; exact ⟨s, h0, h1, rfl⟩
  · rintro ⟨t, h0, h1, e⟩
    have := congrArg (rpar o d) e
    rw [rpar_pointAt hod, rpar_pointAt hod] at this
    subst this; exact ⟨h0, h1⟩

/-- Non-vacuity: a point of the supporting line outside of the wall is not contained. -/
example (E : Env) (kw : ActKw) :
    ∃ r, (Wall.ofPts ⟨0, 0⟩ ⟨3, 4⟩).contains E (some false) kw ((Wall.ofPts ⟨0, 0⟩ ⟨3, 4⟩).toParam (V2.fin ⟨6, 8⟩)) = .b r ∧
      (r = true ↔ OnSegment ⟨0, 0⟩ ⟨3, 4⟩ ⟨6, 8⟩) :=
  C19_segment E (some false) (.inl rfl) kw ⟨0, 0⟩ ⟨3, 4⟩ ⟨6, 8⟩ (by intro h; have := congrArg V2.x h; norm_num at this)
    ⟨2, by norm_num [pointAt]⟩

theorem C19_soft (E : Env) (ap : Option Bool) (h : Soft E ap) (kw : ActKw) (hk : GoodKw kw) (w : Wall) (s : ℝ) :
    ∃ r : ℝ, w.contains E ap kw (F.fin s) = .f (F.fin r) ∧ 0 ≤ r ∧ r ≤ 1 ∧
      (1 / 2 < r ↔ 0 < s ∧ s < 1) := by
  obtain ⟨f, hf, -, -, -, hr, -, -, hab, -⟩ := hk.real
  refine ⟨_, contains_soft h w hf s, le_min (hr _).1 (hr _).1, (min_le_left _ _).trans (hr _).2, ?_⟩
  rw [lt_min_iff, hab, hab, sub_pos]

/-- Non-vacuity: the default activation. -/
example (E : Env) := C19_soft E (some true) (.inl rfl) {} goodKw_default (Wall.ofPts ⟨0, 0⟩ ⟨3, 4⟩) (1 / 2)

/-- Samples lie on the object and are contained in it. -/
theorem C19_sample {Key : Type} (E : Env) (ap : Option Bool) (h : Hard E ap) (kw : ActKw) (o d : Pt)
    (u : Uniform Key) (hu : IsUniform u) (k : Key) :
    ∃ p : Pt, (Wall.ofPts o d).interact.sample u k = V2.fin p ∧ OnSegment o d p ∧
      (Wall.ofPts o d).interact.contains E ap kw ((Wall.ofPts o d).interact.toParam (V2.fin p)) =
        .b true := by
  obtain ⟨hl, hx⟩ := hu k 1
  obtain ⟨x, hx'⟩ := List.length_eq_one_iff.mp hl
  obtain ⟨r, rfl, h0, h1⟩ := hx x (by simp [hx'])
  refine ⟨pointAt o d r, ?_, ⟨r, h0, h1.le, rfl⟩, ?_⟩
  · simp only [Interactable.sample, Wall.interact, hx', List.headD_cons]
    exact toCart_fin o d r
  · simp only [Wall.interact, List.headD_cons, toParam_fin]
    rw [contains_hard h]
    by_cases hod : o = d
    · subst hod; rw [rpar_self]; simp
    · rw [rpar_pointAt hod]; simp [h0, h1.le]

/-- Non-vacuity: a generator that always draws 1/2. -/
example (E : Env) (kw : ActKw) := C19_sample E (some false) (.inl rfl) kw ⟨0, 0⟩ ⟨3, 4⟩ (fun (_ : Unit) n => List.replicate n (F.fin (1 / 2)))
  (by
    intro k n
    refine ⟨by simp, fun x hx => ⟨1 / 2, ?_, by norm_num, by norm_num⟩⟩
    rw [List.mem_replicate] at hx
    exact hx.2) ()

theorem C19_vertex {Key : Type} (E : Env) (ap : Option Bool) (kw : ActKw) (v : Vertex) (ps : List F)
    (u : Uniform Key) (k : Key) :
    (Hard E ap → v.interact.contains E ap kw ps = .b true) ∧
    (Soft E ap → v.interact.contains E ap kw ps = .f (F.fin 1)) ∧
    v.interact.sample u k = v.xy := by
  refine ⟨fun h => ?_, fun h => ?_, rfl⟩ <;> simp [Vertex.interact, trueValue, h.eq]

/-- A zero-length wall contains every point. -/
theorem C19_degenerate (E : Env) (ap : Option Bool) (h : Hard E ap) (kw : ActKw) (o p : Pt) :
    (Wall.ofPts o o).contains E ap kw ((Wall.ofPts o o).toParam (V2.fin p)) = .b true := by
  rw [toParam_fin, rpar_self, contains_hard h]; simp

/-- Non-vacuity: hard mode. -/
example (E : Env) (kw : ActKw) := C19_degenerate E (some false) (.inl rfl) kw ⟨1, 1⟩ ⟨5, -3⟩

/-- Non-vacuity. -/
example : IsUniform (fun (_ : Unit) n => List.replicate n (F.fin (1 / 2))) := by
  intro k n
  refine ⟨by simp, fun x hx => ⟨1 / 2, (List.mem_replicate.mp hx).2, by norm_num, by norm_num⟩⟩

/-! ## C20 — patch -/

/-- The patched wall is the wall extended at both ends by `patch` times its length. -/
theorem C20_extended (E : Env) (ap : Option Bool) (h : Hard E ap) (kw : ActKw) (o d r0 r1 : Pt) (patch : ℝ) :
    ∃ r, (Wall.ofPts o d).intersects E ap kw (F.fin patch) (V2.fin r0) (V2.fin r1) = .b r ∧
      (r = true ↔
        ¬ Parallel (pointAt o d (-patch)) (pointAt o d (1 + patch)) r0 r1 ∧
        ∃ s t, pointAt (pointAt o d (-patch)) (pointAt o d (1 + patch)) s = pointAt r0 r1 t ∧
        (-(5 / 1000) ≤ s ∧ s ≤ 1 + 5 / 1000) ∧ (-(5 / 1000) ≤ t ∧ t ≤ 1 + 5 / 1000)) := by
  have e1 : (Wall.ofPts o d).origin - V2.smul (F.fin patch) (Wall.ofPts o d).t =
      V2.fin (pointAt o d (-patch)) := by
    ext <;> simp [Wall.ofPts, Wall.t, pointAt] <;> ring
  have e2 : (Wall.ofPts o d).dest + V2.smul (F.fin patch) (Wall.ofPts o d).t =
      V2.fin (pointAt o d (1 + patch)) := by
    ext <;> simp [Wall.ofPts, Wall.t, pointAt] <;> ring
  have e3 : SEG_TOL = F.fin (5 / 1000) := by simp [SEG_TOL]; norm_num
  unfold Wall.intersects
  rw [e1, e2, e3]
  exact C10_hard E ap h kw _ _ _ _ _

/-- Non-vacuity: hard mode, a patch of one percent. -/
example (E : Env) (kw : ActKw) := C20_extended E (some false) (.inl rfl) kw ⟨0, 0⟩ ⟨1, 0⟩ ⟨1/2, -1⟩ ⟨1/2, 1⟩ (1 / 100)

/-- Same, in terms of the parameter on the original wall. -/
theorem C20_parameter (E : Env) (ap : Option Bool) (h : Hard E ap) (kw : ActKw) (o d r0 r1 : Pt) (patch : ℝ)
    (hp : -(1 / 2) < patch) :
    (Wall.ofPts o d).intersects E ap kw (F.fin patch) (V2.fin r0) (V2.fin r1) = .b true ↔
        ¬ Parallel o d r0 r1 ∧ ∃ s t, pointAt o d s = pointAt r0 r1 t ∧
        (-(patch + 5 / 1000 * (1 + 2 * patch)) ≤ s ∧ s ≤ 1 + (patch + 5 / 1000 * (1 + 2 * patch))) ∧
        (-(5 / 1000) ≤ t ∧ t ≤ 1 + 5 / 1000) := by
  obtain ⟨r, hr, hiff⟩ := C20_extended E ap h kw o d r0 r1 patch
  have hk : 0 < 1 + 2 * patch := by linarith
  have hpar : Parallel (pointAt o d (-patch)) (pointAt o d (1 + patch)) r0 r1 ↔ Parallel o d r0 r1 := by
    simp only [Parallel, pointAt]
    constructor
    · intro e; apply mul_left_cancel₀ hk.ne'; linear_combination e
    · intro e; linear_combination (1 + 2 * patch) * e
  have hpt : ∀ s, pointAt (pointAt o d (-patch)) (pointAt o d (1 + patch)) s =
      pointAt o d (-patch + s * (1 + 2 * patch)) := by
    intro s; ext <;> simp only [pointAt] <;> ring
  rw [hr, Truthy.b.injEq, hiff, hpar]
  simp only [hpt]
  refine and_congr_right fun _ => ?_
  constructor
  · rintro ⟨s, t, e, ⟨h1, h2⟩, h3⟩
    refine ⟨_, t, e, ⟨?_, ?_⟩, h3⟩ <;> nlinarith
  · rintro ⟨s, t, e, ⟨h1, h2⟩, h3⟩
    refine ⟨(s + patch) / (1 + 2 * patch), t, ?_, ⟨?_, ?_⟩, h3⟩
    · rw [← e]; congr 1; rw [div_mul_cancel₀ _ hk.ne']; ring
    · rw [le_div_iff₀ hk]; linarith
    · rw [div_le_iff₀ hk]; linarith

/-- Non-vacuity: a segment that crosses the wall. -/
example (E : Env) (kw : ActKw) :
    (Wall.ofPts ⟨0, 0⟩ ⟨1, 0⟩).intersects E (some false) kw (F.fin (1 / 10)) (V2.fin ⟨1/2, -1⟩) (V2.fin ⟨1/2, 1⟩) = .b true :=
  (C20_parameter E (some false) (.inl rfl) kw ⟨0, 0⟩ ⟨1, 0⟩ ⟨1/2, -1⟩ ⟨1/2, 1⟩ (1 / 10) (by norm_num)).2
    ⟨by norm_num [Parallel], 1/2, 1/2, by norm_num [pointAt], by norm_num, by norm_num⟩

theorem C20_monotone (E : Env) (ap : Option Bool) (h : Hard E ap) (kw : ActKw) (o d r0 r1 : Pt)
    (patch patch' : ℝ) (h0 : -(1 / 2) ≤ patch) (h1 : patch ≤ patch')
    (hit : (Wall.ofPts o d).intersects E ap kw (F.fin patch) (V2.fin r0) (V2.fin r1) = .b true) :
    (Wall.ofPts o d).intersects E ap kw (F.fin patch') (V2.fin r0) (V2.fin r1) = .b true := by
  rcases h0.lt_or_eq with h0 | h0
  · rw [C20_parameter E ap h kw _ _ _ _ _ h0] at hit
    rw [C20_parameter E ap h kw _ _ _ _ _ (by linarith)]
    obtain ⟨hp, s, t, e, ⟨h2, h3⟩, h4⟩ := hit
    exact ⟨hp, s, t, e, ⟨by linarith, by linarith⟩, h4⟩
  · exfalso
    obtain ⟨r, hr, hiff⟩ := C20_extended E ap h kw o d r0 r1 patch
    rw [hr, Truthy.b.injEq] at hit
    refine (hiff.mp hit).1 ?_
    rw [← h0]
    simp only [Parallel, pointAt]; ring

/-- Non-vacuity: a segment that crosses the unpatched wall crosses the patched one. -/
example (E : Env) (kw : ActKw) :
    (Wall.ofPts ⟨0, 0⟩ ⟨1, 0⟩).intersects E (some false) kw (F.fin (1 / 10)) (V2.fin ⟨1/2, -1⟩) (V2.fin ⟨1/2, 1⟩) = .b true :=
  C20_monotone E (some false) (.inl rfl) kw ⟨0, 0⟩ ⟨1, 0⟩ ⟨1/2, -1⟩ ⟨1/2, 1⟩ 0 (1 / 10) (by norm_num) (by norm_num)
    ((C20_parameter E (some false) (.inl rfl) kw ⟨0, 0⟩ ⟨1, 0⟩ ⟨1/2, -1⟩ ⟨1/2, 1⟩ 0 (by norm_num)).2
      ⟨by norm_num [Parallel], 1/2, 1/2, by norm_num [pointAt], by norm_num, by norm_num⟩)

/-- `patch = 0` is the wall itself. -/
theorem C20_zero (E : Env) (ap : Option Bool) (h : Hard E ap) (kw : ActKw) (o d r0 r1 : Pt) :
    (Wall.ofPts o d).intersects E ap kw (F.fin 0) (V2.fin r0) (V2.fin r1) = .b true ↔
        ¬ Parallel o d r0 r1 ∧ ∃ s t, pointAt o d s = pointAt r0 r1 t ∧
        (-(5 / 1000) ≤ s ∧ s ≤ 1 + 5 / 1000) ∧ (-(5 / 1000) ≤ t ∧ t ≤ 1 + 5 / 1000) := by
  rw [C20_parameter E ap h kw _ _ _ _ _ (by norm_num)]
  norm_num

theorem C20_vertex (E : Env) (ap : Option Bool) (kw : ActKw) (v : Vertex) (patch : F) (r0 r1 : V2 F) :
    (Hard E ap → v.interact.intersects E ap kw patch r0 r1 = .b false) ∧
    (Soft E ap → v.interact.intersects E ap kw patch r0 r1 = .f (F.fin 0)) := by
  refine ⟨fun h => ?_, fun h => ?_⟩ <;> simp [Vertex.interact, falseValue, h.eq]

/-- Non-vacuity: a ray that crosses the unpatched wall. -/
example (E : Env) (kw : ActKw) :
    (Wall.ofPts ⟨0, 0⟩ ⟨1, 0⟩).intersects E (some false) kw (F.fin 0) (V2.fin ⟨1/2, -1⟩) (V2.fin ⟨1/2, 1⟩) =
      .b true := by
  rw [C20_zero E _ (.inl rfl)]
  refine ⟨by norm_num [Parallel], 1/2, 1/2, by ext <;> norm_num [pointAt], by norm_num, by norm_num⟩

/-! ## C21 — the documented meaning of a patch in `(0, 1)` is wrong -/

/-- A patch of 1/2 makes the wall hit a ray that the unpatched wall does not hit. -/
theorem C21_refuted : ∃ (o d r0 r1 : Pt) (patch : ℝ), 0 < patch ∧ patch < 1 ∧ ∀ (E : Env) (kw : ActKw),
    (Wall.ofPts o d).intersects E (some false) kw (F.fin 0) (V2.fin r0) (V2.fin r1) = .b false ∧
    (Wall.ofPts o d).intersects E (some false) kw (F.fin patch) (V2.fin r0) (V2.fin r1) = .b true := by
  refine ⟨⟨0, 0⟩, ⟨1, 0⟩, ⟨5/4, -1⟩, ⟨5/4, 1⟩, 1/2, by norm_num, by norm_num, fun E kw => ⟨?_, ?_⟩⟩
  · obtain ⟨r, hr, -⟩ := C20_extended E (some false) (.inl rfl) kw ⟨0, 0⟩ ⟨1, 0⟩ ⟨5/4, -1⟩ ⟨5/4, 1⟩ 0
    cases r with
    | false => exact hr
    | true =>
      exfalso
      rw [C20_zero E _ (.inl rfl)] at hr
      obtain ⟨-, s, t, e, ⟨-, h2⟩, -⟩ := hr
      have := congrArg V2.x e
      norm_num [pointAt] at this
      rw [this] at h2; norm_num at h2
  · rw [C20_parameter E _ (.inl rfl) _ _ _ _ _ _ (by norm_num)]
    refine ⟨by norm_num [Parallel], 5/4, 1/2, by ext <;> norm_num [pointAt], by norm_num, by norm_num⟩

/-- What does hold: only a patch in `[-1/2, 0]` compresses. -/
theorem C21_partial (E : Env) (ap : Option Bool) (h : Hard E ap) (kw : ActKw) (o d r0 r1 : Pt) (patch : ℝ)
    (h0 : -(1 / 2) ≤ patch) (h1 : patch ≤ 0)
    (hit : (Wall.ofPts o d).intersects E ap kw (F.fin patch) (V2.fin r0) (V2.fin r1) = .b true) :
    (Wall.ofPts o d).intersects E ap kw (F.fin 0) (V2.fin r0) (V2.fin r1) = .b true :=
  C20_monotone E ap h kw o d r0 r1 patch 0 h0 h1 hit

/-- Non-vacuity: a segment that crosses the wall compressed by a patch of -1/10. -/
example (E : Env) (kw : ActKw) :
    (Wall.ofPts ⟨0, 0⟩ ⟨1, 0⟩).intersects E (some false) kw (F.fin 0) (V2.fin ⟨1/2, -1⟩) (V2.fin ⟨1/2, 1⟩) = .b true :=
  C21_partial E (some false) (.inl rfl) kw ⟨0, 0⟩ ⟨1, 0⟩ ⟨1/2, -1⟩ ⟨1/2, 1⟩ (-(1 / 10)) (by norm_num) (by norm_num)
    ((C20_parameter E (some false) (.inl rfl) kw ⟨0, 0⟩ ⟨1, 0⟩ ⟨1/2, -1⟩ ⟨1/2, 1⟩ (-(1 / 10)) (by norm_num)).2
      ⟨by norm_num [Parallel], 1/2, 1/2, by norm_num [pointAt], by norm_num, by norm_num⟩)

/-! ## C22 — specular reflection score -/

theorem C22_range (o d a b c : Pt) :
    ∃ e : ℝ, (Wall.ofPts o d).evaluate (V2.fin a) (V2.fin b) (V2.fin c) = F.fin e ∧ 0 ≤ e ∧ e ≤ 4 := by
  refine ⟨_, evaluate_fin o d a b c, ?_, ?_⟩
  · simp only [reval, dp]; exact add_nonneg (mul_self_nonneg _) (mul_self_nonneg _)
  · have h1 := unit_sq_le (b - a)
    have h2 := unit_sq_le (c - b)
    have h3 := refl_sq (rn_sq_cases o d) (unit (b - a))
    simp only [reval]
    simp only [dp] at *
    set i := unit (b - a)
    set r := unit (c - b)
    set n := rn o d
    nlinarith [sq_nonneg (r.x + (i.x - 2 * (i.x * n.x + i.y * n.y) * n.x)),
      sq_nonneg (r.y + (i.y - 2 * (i.x * n.x + i.y * n.y) * n.y))]

/-- Zero exactly when the outgoing direction `r` is the mirror image of the incoming direction `i`. -/
theorem C22_zero (o d a b c i r : Pt) (hod : o ≠ d) (hi : IsDirection (b - a) i) (hr : IsDirection (c - b) r) :
    (Wall.ofPts o d).evaluate (V2.fin a) (V2.fin b) (V2.fin c) = F.fin 0 ↔ Mirror ⟨0, 0⟩ (d - o) i r := by
  have h1 := IsDirection.eq_unit hi
  have h2 := IsDirection.eq_unit hr
  have hrn : rn ⟨0, 0⟩ (d - o) = rn o d := by
    unfold rn; congr 1; ext <;> simp
  have h0 : (⟨0, 0⟩ : Pt) ≠ d - o := by
    intro e
    have hx := congrArg V2.x e
    have hy := congrArg V2.y e
    simp only [V2.sub_x, V2.sub_y] at hx hy
    exact hod (V2.ext (by linarith) (by linarith))
  have himg : rimg ⟨0, 0⟩ (d - o) i = ⟨i.x - 2 * dp i (rn o d) * (rn o d).x, i.y - 2 * dp i (rn o d) * (rn o d).y⟩ := by
    have : i - ⟨0, 0⟩ = i := by ext <;> simp
    simp only [rimg, hrn, this]
  have hmir : Mirror ⟨0, 0⟩ (d - o) i r ↔ r = rimg ⟨0, 0⟩ (d - o) i := by
    constructor
    · intro hm
      have := C16_unique _ _ _ _ h0 hm
      rw [imageOf_fin, V2.fin_inj] at this; exact this.symm
    · rintro rfl
      obtain ⟨q, hq, hm⟩ := C16_mirror ⟨0, 0⟩ (d - o) i h0
      rw [imageOf_fin, V2.fin_inj] at hq; rw [hq]; exact hm
  rw [evaluate_fin, F.fin_inj, hmir, himg]
  simp only [reval, ← h1, ← h2]
  have := V2.eq_zero_iff ⟨r.x - (i.x - 2 * dp i (rn o d) * (rn o d).x), r.y - (i.y - 2 * dp i (rn o d) * (rn o d).y)⟩
  simp only at this
  unfold dp at this ⊢
  rw [← this, V2.ext_iff, V2.ext_iff, sub_eq_zero, sub_eq_zero]

/-- On a zero-length wall the score compares the directions themselves. -/
theorem C22_degenerate (o a b c i r : Pt) (hi : IsDirection (b - a) i) (hr : IsDirection (c - b) r) :
    (Wall.ofPts o o).evaluate (V2.fin a) (V2.fin b) (V2.fin c) = F.fin 0 ↔ r = i := by
  have h1 := IsDirection.eq_unit hi
  have h2 := IsDirection.eq_unit hr
  rw [evaluate_fin, F.fin_inj]
  simp only [reval, ← h1, ← h2, rn_self]
  have := V2.eq_zero_iff ⟨r.x - i.x, r.y - i.y⟩
  simp only [dp, mul_zero, sub_zero, add_zero] at this ⊢
  rw [← this, V2.ext_iff, V2.ext_iff, sub_eq_zero, sub_eq_zero]

/-- Non-vacuity: a straight passage through the point has score 0. -/
example : (Wall.ofPts ⟨1, 0⟩ ⟨1, 0⟩).evaluate (V2.fin ⟨0, 0⟩) (V2.fin ⟨1, 0⟩) (V2.fin ⟨3, 0⟩) = F.fin 0 :=
  (C22_degenerate ⟨1, 0⟩ ⟨0, 0⟩ ⟨1, 0⟩ ⟨3, 0⟩ ⟨1, 0⟩ ⟨1, 0⟩ (.inr ⟨by norm_num, 1, by norm_num, by ext <;> norm_num⟩)
    (.inr ⟨by norm_num, 2, by norm_num, by ext <;> norm_num⟩)).2 rfl

theorem C22_reverse (o d a b c : Pt) :
    (Wall.ofPts o d).evaluate (V2.fin c) (V2.fin b) (V2.fin a) =
      (Wall.ofPts o d).evaluate (V2.fin a) (V2.fin b) (V2.fin c) := by
  rw [evaluate_fin, evaluate_fin, reval_eq, reval_eq]
  have e1 : b - c = -(c - b) := by ext <;> simp
  have e2 : a - b = -(b - a) := by ext <;> simp
  rw [e1, e2, unit_neg, unit_neg]
  simp only [dp, V2.neg_x, V2.neg_y]; congr 1; ring

/-- The orientation of the wall is irrelevant. -/
theorem C22_swap (o d a b c : Pt) :
    (Wall.ofPts d o).evaluate (V2.fin a) (V2.fin b) (V2.fin c) =
      (Wall.ofPts o d).evaluate (V2.fin a) (V2.fin b) (V2.fin c) := by
  rw [evaluate_fin, evaluate_fin, reval_eq, reval_eq, rn_swap]
  simp only [dp, V2.neg_x, V2.neg_y]; congr 1; ring

theorem C22_similarity (o d a b c : Pt) (f : Affine) (k : ℝ) (hf : f.Similarity k) :
    (Wall.ofPts (f.app o) (f.app d)).evaluate (V2.fin (f.app a)) (V2.fin (f.app b)) (V2.fin (f.app c)) =
      (Wall.ofPts o d).evaluate (V2.fin a) (V2.fin b) (V2.fin c) := by
  rw [evaluate_fin, evaluate_fin, hf.reval_app]

/-- Non-vacuity: the map that exchanges the axes, doubles and translates. -/
example := C22_similarity ⟨0, 0⟩ ⟨1, 0⟩ ⟨0, 5⟩ ⟨0, 0⟩ ⟨0, 1⟩ ⟨0, 2, 2, 0, 1, 1⟩ 2 ⟨by norm_num, by norm_num, by norm_num, by norm_num⟩

/-- Non-vacuity: a mirror reflection on the x axis, and a similarity that mirrors and doubles. -/
example : (Wall.ofPts ⟨0, 0⟩ ⟨1, 0⟩).evaluate (V2.fin ⟨0, 5⟩) (V2.fin ⟨0, 0⟩) (V2.fin ⟨0, 1⟩) = F.fin 0 ∧
    (⟨0, 2, 2, 0, 1, 1⟩ : Affine).Similarity 2 := by
  constructor
  · rw [C22_zero ⟨0, 0⟩ ⟨1, 0⟩ ⟨0, 5⟩ ⟨0, 0⟩ ⟨0, 1⟩ ⟨0, -1⟩ ⟨0, 1⟩]
    · refine ⟨by norm_num [Orthogonal], 0, by ext <;> norm_num [midpoint, pointAt]⟩
    · intro h; have := congrArg V2.x h; norm_num at this
    · right; exact ⟨by norm_num, 5, by norm_num, by ext <;> norm_num⟩
    · right; exact ⟨by norm_num, 1, by norm_num, by ext <;> norm_num⟩
  · constructor <;> norm_num

/-! ## C23 — RIS score -/

theorem ris_fin (o d b c : Pt) (a : V2 F) (phi : ℝ) :
    (RIS.mk (Wall.ofPts o d) (F.fin phi)).evaluate a (V2.fin b) (V2.fin c) =
      F.fin ((-(unit (c - b)).x * (rn o d).y + (unit (c - b)).y * (rn o d).x - Real.sin phi) ^ 2 +
        (-dp (unit (c - b)) (rn o d) - Real.cos phi) ^ 2) := by
  simp only [RIS.evaluate, normal_fin, V2.fin_sub, normalize_fin, RIS.sq, V2.fin_neg, V2.fin_cross, V2.fin_dot,
    F.sin_fin, F.cos_fin, F.fin_sub, F.fin_mul, F.fin_add]
  congr 1
  simp only [V2.cross, V2.dot, V2.neg_x, V2.neg_y, dp]; ring

theorem C23_range (o d b c : Pt) (a : V2 F) (phi : ℝ) :
    ∃ e : ℝ, (RIS.mk (Wall.ofPts o d) (F.fin phi)).evaluate a (V2.fin b) (V2.fin c) = F.fin e ∧
      0 ≤ e ∧ e ≤ 4 := by
  refine ⟨_, ris_fin o d b c a phi, by positivity, ?_⟩
  have h1 := unit_sq_le (c - b)
  have h2 := Real.sin_sq_add_cos_sq phi
  have h3 : dp (rn o d) (rn o d) ≤ 1 := by
    rcases rn_sq_cases o d with h | h
    · exact h.le
    · rw [h]; simp [dp]
  set r := unit (c - b)
  set n := rn o d
  simp only [dp] at *
  set s := Real.sin phi
  set k := Real.cos phi
  have h4 : (r.x * r.x + r.y * r.y) * (n.x * n.x + n.y * n.y) ≤ 1 := by
    have := mul_self_nonneg r.x
    have := mul_self_nonneg r.y
    have := mul_self_nonneg n.x
    have := mul_self_nonneg n.y
    exact mul_le_one₀ h1 (by linarith) h3
  nlinarith [sq_nonneg (-r.x * n.y + r.y * n.x + s), sq_nonneg (-(r.x * n.x + r.y * n.y) + k)]

/-- The score does not depend on the incident point. -/
theorem C23_incident (w : RIS) (a a' b c : V2 F) : w.evaluate a b c = w.evaluate a' b c := rfl

/-- Zero exactly when the outgoing direction makes the angle `phi` with the normal `n`. -/
theorem C23_zero (o d b c r n : Pt) (a : V2 F) (phi : ℝ) (hr : IsDirection (c - b) r)
    (hn : (Wall.ofPts o d).normal = V2.fin n) :
    (RIS.mk (Wall.ofPts o d) (F.fin phi)).evaluate a (V2.fin b) (V2.fin c) = F.fin 0 ↔
      (-r.x) * n.y - (-r.y) * n.x = Real.sin phi ∧ (-r.x) * n.x + (-r.y) * n.y = Real.cos phi := by
  rw [normal_fin, V2.fin_inj] at hn
  rw [ris_fin, F.fin_inj, ← IsDirection.eq_unit hr, hn]
  constructor
  · intro h
    have h1 := sq_nonneg (-r.x * n.y + r.y * n.x - Real.sin phi)
    have h2 := sq_nonneg (-dp r n - Real.cos phi)
    have h3 := pow_eq_zero_iff (two_ne_zero) |>.mp (by linarith : (-r.x * n.y + r.y * n.x - Real.sin phi) ^ 2 = 0)
    have h4 := pow_eq_zero_iff (two_ne_zero) |>.mp (by linarith : (-dp r n - Real.cos phi) ^ 2 = 0)
    simp only [dp] at h4
    constructor <;> linarith
  · rintro ⟨h1, h2⟩
    have e1 : -r.x * n.y + r.y * n.x - Real.sin phi = 0 := by linarith
    have e2 : -dp r n - Real.cos phi = 0 := by simp only [dp]; linarith
    rw [e1, e2]; norm_num

/-- Non-vacuity: the default angle, a wall on the x axis and an outgoing ray along it. -/
example : ∃ n : Pt, (Wall.ofPts ⟨0, 0⟩ ⟨1, 0⟩).normal = V2.fin n ∧
    ((RIS.mk (Wall.ofPts ⟨0, 0⟩ ⟨1, 0⟩) (F.fin (Real.pi / 4))).evaluate (V2.fin ⟨0, 5⟩) (V2.fin ⟨1/2, 0⟩) (V2.fin ⟨5/2, 0⟩) = F.fin 0 ↔
      (-1) * n.y - (-0) * n.x = Real.sin (Real.pi / 4) ∧ (-1) * n.x + (-0) * n.y = Real.cos (Real.pi / 4)) := by
  obtain ⟨n, hn, -⟩ := C17_orientation ⟨0, 0⟩ ⟨1, 0⟩ (by intro h; have := congrArg V2.x h; norm_num at this)
  exact ⟨n, hn, C23_zero ⟨0, 0⟩ ⟨1, 0⟩ ⟨1/2, 0⟩ ⟨5/2, 0⟩ ⟨1, 0⟩ n _ _ (.inr ⟨by norm_num, 2, by norm_num, by ext <;> norm_num⟩) hn⟩

theorem C23_period (w : Wall) (phi : ℝ) (a b c : V2 F) :
    (RIS.mk w (F.fin (phi + 2 * Real.pi))).evaluate a b c = (RIS.mk w (F.fin phi)).evaluate a b c := by
  simp [RIS.evaluate, Real.sin_add_two_pi, Real.cos_add_two_pi]

/-- The rest of the interface of a RIS is that of its wall. -/
theorem C23_inherits (w : RIS) :
    w.interact.paramCount = w.toWall.interact.paramCount ∧ w.interact.toCart = w.toWall.interact.toCart ∧
    w.interact.toParam = w.toWall.interact.toParam ∧ w.interact.contains = w.toWall.interact.contains ∧
    w.interact.intersects = w.toWall.interact.intersects := ⟨rfl, rfl, rfl, rfl, rfl⟩

/-! ## C24 — rotation -/

/-- `rotate` rotates both end points iff the sine is zero or the relative position is special. -/
theorem C24_iff (o d c : Pt) (θ : ℝ) :
    (Wall.ofPts o d).rotate (F.fin θ) (V2.fin c) = Wall.ofPts (rotated c θ o) (rotated c θ d) ↔
      Real.sin θ = 0 ∨ (d.x - c.x = o.y - c.y ∧ d.y - c.y = -(o.x - c.x)) := by
  have e : (Wall.ofPts o d).rotate (F.fin θ) (V2.fin c) =
      Wall.ofPts ⟨Real.cos θ * (o.x - c.x) + -Real.sin θ * (d.x - c.x) + c.x,
          Real.cos θ * (o.y - c.y) + -Real.sin θ * (d.y - c.y) + c.y⟩
        ⟨Real.sin θ * (o.x - c.x) + Real.cos θ * (d.x - c.x) + c.x,
          Real.sin θ * (o.y - c.y) + Real.cos θ * (d.y - c.y) + c.y⟩ := by
    ext <;> simp [Wall.rotate, Wall.ofPts]
  rw [e]
  simp only [Wall.ofPts, Wall.mk.injEq, V2.fin_inj, rotated, V2.mk.injEq]
  constructor
  · rintro ⟨⟨h1, h2⟩, -, -⟩
    by_cases hs : Real.sin θ = 0
    · exact .inl hs
    · right
      constructor
      · apply mul_left_cancel₀ hs; linarith
      · apply mul_left_cancel₀ hs; linarith
  · rintro (hs | ⟨h1, h2⟩)
    · rw [hs]; refine ⟨⟨?_, ?_⟩, ?_, ?_⟩ <;> ring
    · refine ⟨⟨?_, ?_⟩, ?_, ?_⟩
      · linear_combination (-Real.sin θ) * h1
      · linear_combination (-Real.sin θ) * h2
      · linear_combination (Real.sin θ) * h2
      · linear_combination (-Real.sin θ) * h1

/-- The documented behaviour fails: a quarter turn of the ray `(1,0) → (2,0)` about the origin. -/
theorem C24_refuted : ∃ (o d c : Pt) (θ : ℝ),
    (Wall.ofPts o d).rotate (F.fin θ) (V2.fin c) ≠ Wall.ofPts (rotated c θ o) (rotated c θ d) := by
  refine ⟨⟨1, 0⟩, ⟨2, 0⟩, ⟨0, 0⟩, Real.pi / 2, ?_⟩
  rw [Ne, C24_iff, not_or]
  constructor <;> norm_num

/-- What does hold: rotations by multiples of π (any ray, any centre). -/
theorem C24_partial (o d c : Pt) (n : ℤ) :
    (Wall.ofPts o d).rotate (F.fin (n * Real.pi)) (V2.fin c) =
      Wall.ofPts (rotated c (n * Real.pi) o) (rotated c (n * Real.pi) d) := by
  rw [C24_iff]; left; exact Real.sin_int_mul_pi n

end DiffeRT2d.Props
