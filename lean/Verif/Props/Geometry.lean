import Verif.Lemmas.Geometry

/-! # Properties C10–C14: segments, lengths, normalization -/

namespace DiffeRT2d.Props
open Classical Spec

/-! ## C10 — hard segment intersection -/

theorem C10_hard (E : Env) (ap : Option Bool) (h : Hard E ap) (kw : ActKw) (p1 p2 p3 p4 : Pt) (tol : ℝ) :
    ∃ r, segmentsIntersect E (V2.fin p1) (V2.fin p2) (V2.fin p3) (V2.fin p4) (F.fin tol) ap kw = .b r ∧
      (r = true ↔ ¬ Parallel p1 p2 p3 p4 ∧ ∃ s t, pointAt p1 p2 s = pointAt p3 p4 t ∧
        (-tol ≤ s ∧ s ≤ 1 + tol) ∧ (-tol ≤ t ∧ t ≤ 1 + tol)) := by
  rw [segmentsIntersect_fin, segTest_hard h, segTest_hard h]
  refine ⟨_, by simp only [logicalAnd, h.eq]; rfl, ?_⟩
  rw [← segD_eq_zero]
  by_cases hd : segD p1 p2 p3 p4 = 0
  · simp [Truthy.toBool, hd]
  · simp only [cross_iff hd, Truthy.toBool]
    simp [hd]

/-- Non-vacuity: hard mode through the argument or through the global setting. -/
example (kw : ActKw) := And.intro (C10_hard ⟨true, 1⟩ (some false) (.inl rfl) kw ⟨0, 0⟩ ⟨1, 1⟩ ⟨0, 1⟩ ⟨1, 0⟩ 0)
  (C10_hard ⟨false, 1⟩ none (.inr ⟨rfl, rfl⟩) kw ⟨0, 0⟩ ⟨1, 1⟩ ⟨0, 1⟩ ⟨1, 0⟩ 0)

/-- With `tol = 0` and directions that are not parallel: the closed segments share a point. -/
theorem C10_share_point (E : Env) (ap : Option Bool) (h : Hard E ap) (kw : ActKw) (p1 p2 p3 p4 : Pt)
    (hp : ¬ Parallel p1 p2 p3 p4) :
    segmentsIntersect E (V2.fin p1) (V2.fin p2) (V2.fin p3) (V2.fin p4) (F.fin 0) ap kw = .b true ↔
      ∃ p, OnSegment p1 p2 p ∧ OnSegment p3 p4 p := by
  obtain ⟨r, hr, hiff⟩ := C10_hard E ap h kw p1 p2 p3 p4 0
  rw [hr]
  simp only [Truthy.b.injEq, hiff]
  constructor
  · rintro ⟨-, s, t, e, hs, ht⟩
    exact ⟨_, ⟨s, by linarith, by linarith, rfl⟩, ⟨t, by linarith, by linarith, e⟩⟩
  · rintro ⟨p, ⟨s, hs0, hs1, rfl⟩, ⟨t, ht0, ht1, e⟩⟩
    exact ⟨hp, s, t, e, by constructor <;> linarith, by constructor <;> linarith⟩

/-- Non-vacuity: the diagonals of a square cross. -/
example (E : Env) (kw : ActKw) :
    segmentsIntersect E (V2.fin ⟨0, 0⟩) (V2.fin ⟨1, 1⟩) (V2.fin ⟨0, 1⟩) (V2.fin ⟨1, 0⟩) (F.fin 0) (some false) kw = .b true :=
  (C10_share_point E (some false) (.inl rfl) kw ⟨0, 0⟩ ⟨1, 1⟩ ⟨0, 1⟩ ⟨1, 0⟩ (by norm_num [Parallel])).2
    ⟨⟨1/2, 1/2⟩, ⟨1/2, by norm_num [pointAt]⟩, ⟨1/2, by norm_num [pointAt]⟩⟩

/-- Parallel, collinear (even overlapping) or degenerate segments never intersect. -/
theorem C10_parallel (E : Env) (ap : Option Bool) (h : Hard E ap) (kw : ActKw) (p1 p2 p3 p4 : Pt)
    (tol : ℝ) (hp : Parallel p1 p2 p3 p4) :
    segmentsIntersect E (V2.fin p1) (V2.fin p2) (V2.fin p3) (V2.fin p4) (F.fin tol) ap kw = .b false := by
  obtain ⟨r, hr, hiff⟩ := C10_hard E ap h kw p1 p2 p3 p4 tol
  rw [hr]; congr 1
  by_contra hc
  exact (hiff.mp (by simpa using hc)).1 hp

/-- Non-vacuity: two overlapping collinear segments. -/
example (E : Env) (kw : ActKw) :
    segmentsIntersect E (V2.fin ⟨0, 0⟩) (V2.fin ⟨2, 0⟩) (V2.fin ⟨1, 0⟩) (V2.fin ⟨3, 0⟩) (F.fin 0) (some false) kw = .b false :=
  C10_parallel E (some false) (.inl rfl) kw ⟨0, 0⟩ ⟨2, 0⟩ ⟨1, 0⟩ ⟨3, 0⟩ 0 (by norm_num [Parallel])

/-- Non-vacuity: two crossing diagonals, and two overlapping collinear segments. -/
example : ¬ Parallel ⟨0, 0⟩ ⟨1, 1⟩ ⟨0, 1⟩ ⟨1, 0⟩ ∧
    OnSegment ⟨0, 0⟩ ⟨1, 1⟩ ⟨1/2, 1/2⟩ ∧ OnSegment ⟨0, 1⟩ ⟨1, 0⟩ ⟨1/2, 1/2⟩ ∧
    Parallel ⟨0, 0⟩ ⟨2, 0⟩ ⟨1, 0⟩ ⟨3, 0⟩ ∧
    OnSegment ⟨0, 0⟩ ⟨2, 0⟩ ⟨1, 0⟩ ∧ OnSegment ⟨1, 0⟩ ⟨3, 0⟩ ⟨1, 0⟩ := by
  refine ⟨by norm_num [Parallel], ⟨1/2, ?_⟩, ⟨1/2, ?_⟩, by norm_num [Parallel], ⟨1/2, ?_⟩, ⟨0, ?_⟩⟩ <;>
    norm_num [pointAt]

/-! ## C11 — symmetries -/

theorem C11_exchange (E : Env) (ap : Option Bool) (kw : ActKw) (p1 p2 p3 p4 : Pt) (tol : F) :
    segmentsIntersect E (V2.fin p3) (V2.fin p4) (V2.fin p1) (V2.fin p2) tol ap kw =
      segmentsIntersect E (V2.fin p1) (V2.fin p2) (V2.fin p3) (V2.fin p4) tol ap kw := by
  have hd : segD p3 p4 p1 p2 = -segD p1 p2 p3 p4 := by unfold segD; ring
  have ha : segA p3 p4 p1 p2 = -segB p1 p2 p3 p4 := by unfold segA segB; ring
  have hb : segB p3 p4 p1 p2 = -segA p1 p2 p3 p4 := by unfold segA segB; ring
  rw [segmentsIntersect_params, segmentsIntersect_params]
  unfold segParams
  rw [hd, ha, hb]
  by_cases h : segD p1 p2 p3 p4 = 0
  · simp [h]
  · simp only [neg_eq_zero, h, if_false, neg_div_neg_eq, segOutcome]
    exact logicalAnd_comm _ _ _ _

theorem C11_reverse (E : Env) (ap : Option Bool) (kw : ActKw) (p1 p2 p3 p4 : Pt) (tol : ℝ) :
    segmentsIntersect E (V2.fin p2) (V2.fin p1) (V2.fin p3) (V2.fin p4) (F.fin tol) ap kw =
      segmentsIntersect E (V2.fin p1) (V2.fin p2) (V2.fin p3) (V2.fin p4) (F.fin tol) ap kw ∧
    segmentsIntersect E (V2.fin p1) (V2.fin p2) (V2.fin p4) (V2.fin p3) (F.fin tol) ap kw =
      segmentsIntersect E (V2.fin p1) (V2.fin p2) (V2.fin p3) (V2.fin p4) (F.fin tol) ap kw := by
  have key : ∀ p1 p2 p3 p4 : Pt,
      segmentsIntersect E (V2.fin p2) (V2.fin p1) (V2.fin p3) (V2.fin p4) (F.fin tol) ap kw =
      segmentsIntersect E (V2.fin p1) (V2.fin p2) (V2.fin p3) (V2.fin p4) (F.fin tol) ap kw := by
    intro p1 p2 p3 p4
    have hd : segD p2 p1 p3 p4 = -segD p1 p2 p3 p4 := by unfold segD; ring
    have ha : segA p2 p1 p3 p4 = segA p1 p2 p3 p4 - segD p1 p2 p3 p4 := by unfold segA segD; ring
    have hb : segB p2 p1 p3 p4 = -segB p1 p2 p3 p4 := by unfold segB; ring
    rw [segmentsIntersect_params, segmentsIntersect_params]
    unfold segParams
    rw [hd, ha, hb]
    by_cases h : segD p1 p2 p3 p4 = 0
    · simp [h]
    · simp only [neg_eq_zero, h, if_false, neg_div_neg_eq, segOutcome]
      have : (segA p1 p2 p3 p4 - segD p1 p2 p3 p4) / -segD p1 p2 p3 p4 =
          1 - segA p1 p2 p3 p4 / segD p1 p2 p3 p4 := by field_simp; ring
      rw [this, intervalTest_flip]
  refine ⟨key _ _ _ _, ?_⟩
  rw [C11_exchange, key, ← C11_exchange]

theorem C11_affine (E : Env) (ap : Option Bool) (kw : ActKw) (p1 p2 p3 p4 : Pt) (tol : F)
    (f : Affine) (hf : f.Invertible) :
    segmentsIntersect E (V2.fin (f.app p1)) (V2.fin (f.app p2)) (V2.fin (f.app p3)) (V2.fin (f.app p4))
        tol ap kw =
      segmentsIntersect E (V2.fin p1) (V2.fin p2) (V2.fin p3) (V2.fin p4) tol ap kw := by
  have hf' : f.a * f.d - f.b * f.c ≠ 0 := hf
  have hd : segD (f.app p1) (f.app p2) (f.app p3) (f.app p4) =
      (f.a * f.d - f.b * f.c) * segD p1 p2 p3 p4 := by unfold segD Affine.app; ring
  have ha : segA (f.app p1) (f.app p2) (f.app p3) (f.app p4) =
      (f.a * f.d - f.b * f.c) * segA p1 p2 p3 p4 := by unfold segA Affine.app; ring
  have hb : segB (f.app p1) (f.app p2) (f.app p3) (f.app p4) =
      (f.a * f.d - f.b * f.c) * segB p1 p2 p3 p4 := by unfold segB Affine.app; ring
  rw [segmentsIntersect_params, segmentsIntersect_params]
  congr 1
  unfold segParams
  rw [hd, ha, hb]
  simp only [mul_eq_zero, hf', false_or, mul_div_mul_left _ _ hf']

/-- Non-vacuity: a shear with a translation. -/
example (E : Env) (kw : ActKw) := C11_affine E none kw ⟨0, 0⟩ ⟨1, 1⟩ ⟨0, 1⟩ ⟨1, 0⟩ (F.fin 0) ⟨1, 3, 0, 2, 5, -7⟩ (by norm_num [Affine.Invertible])

/-- Non-vacuity: an invertible shear with translation. -/
example : (⟨1, 3, 0, 2, 5, -7⟩ : Affine).Invertible := by norm_num [Affine.Invertible]

/-! ## C12 — approximate segment intersection -/

theorem C12_soft (E : Env) (ap : Option Bool) (h : Soft E ap) (kw : ActKw) (hk : GoodKw kw)
    (p1 p2 p3 p4 : Pt) (tol : ℝ) :
    ∃ r : ℝ, segmentsIntersect E (V2.fin p1) (V2.fin p2) (V2.fin p3) (V2.fin p4) (F.fin tol) ap kw =
        .f (F.fin r) ∧ 0 ≤ r ∧ r ≤ 1 ∧
      (Parallel p1 p2 p3 p4 → r = 0) ∧
      (1 / 2 < r ↔ ¬ Parallel p1 p2 p3 p4 ∧ ∃ s t, pointAt p1 p2 s = pointAt p3 p4 t ∧
        (-tol < s ∧ s < 1 + tol) ∧ (-tol < t ∧ t < 1 + tol)) := by
  obtain ⟨s, hs, hp, hn, -, hr, hm, h0, hab, -⟩ := hk.real
  rw [segmentsIntersect_fin, segTest_soft h hs hp hn, segTest_soft h hs hp hn]
  refine ⟨_, by simp only [logicalAnd, h.eq, Truthy.minimum, Truthy.toF, if_true, F.min_fin]; rfl, ?_⟩
  rw [← segD_eq_zero]
  by_cases hd : segD p1 p2 p3 p4 = 0
  · simp [hd]
  · simp only [cross_iff hd]
    simp only [hd, if_false, false_implies, true_and, not_false_eq_true]
    refine ⟨?_, ?_, ?_⟩
    · exact le_min (le_min (hr _).1 (hr _).1) (le_min (hr _).1 (hr _).1)
    · exact (min_le_left _ _).trans ((min_le_left _ _).trans (hr _).2)
    · simp only [lt_min_iff, hab]
      constructor
      · rintro ⟨⟨h1, h2⟩, h3, h4⟩
        exact ⟨_, _, ⟨rfl, rfl⟩, ⟨by linarith, by linarith⟩, by linarith, by linarith⟩
      · rintro ⟨_, _, ⟨rfl, rfl⟩, ⟨h1, h2⟩, h3, h4⟩
        exact ⟨⟨by linarith, by linarith⟩, by linarith, by linarith⟩

/-- Non-vacuity: the diagonals of a square get a value above 1/2. -/
example (E : Env) : ∃ r : ℝ, segmentsIntersect E (V2.fin ⟨0, 0⟩) (V2.fin ⟨1, 1⟩) (V2.fin ⟨0, 1⟩) (V2.fin ⟨1, 0⟩) (F.fin 0) (some true) {} =
    .f (F.fin r) ∧ 1 / 2 < r := by
  obtain ⟨r, h, -, -, -, hr⟩ := C12_soft E (some true) (.inl rfl) {} goodKw_default ⟨0, 0⟩ ⟨1, 1⟩ ⟨0, 1⟩ ⟨1, 0⟩ 0
  exact ⟨r, h, hr.2 ⟨by norm_num [Parallel], 1/2, 1/2, by norm_num [pointAt]⟩⟩

/-- Non-vacuity: the default settings are good, and so is the smooth sigmoid. -/
example : GoodKw {} ∧ GoodKw { alpha := F.fin 3, function := sigmoid } :=
  ⟨goodKw_default, softStep_sigmoid, 3, by norm_num, rfl⟩

end DiffeRT2d.Props
