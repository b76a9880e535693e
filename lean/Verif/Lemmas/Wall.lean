import Verif.Lemmas.Length

/-! Walls with finite end points: real forms of the methods. -/

namespace DiffeRT2d
open Spec Classical

/-- Real scalar product. -/
noncomputable def dp (a b : Pt) : ℝ := a.x * b.x + a.y * b.y

theorem V2.fin_dot' (a b : Pt) : V2.dot (V2.fin a) (V2.fin b) = F.fin (dp a b) := V2.fin_dot a b

/-- Real form of `Wall.normal`. -/
noncomputable def rn (o d : Pt) : Pt := unit ⟨d.y - o.y, -(d.x - o.x)⟩

theorem normal_fin (o d : Pt) : (Wall.ofPts o d).normal = V2.fin (rn o d) := by
  have : (⟨(V2.fin d - V2.fin o).y, -(V2.fin d - V2.fin o).x⟩ : V2 F) =
      V2.fin ⟨d.y - o.y, -(d.x - o.x)⟩ := by ext <;> simp
  simp only [Wall.normal, Wall.t, Wall.ofPts]
  rw [this, normalize_fin]; rfl

theorem rn_self (o : Pt) : rn o o = ⟨0, 0⟩ := by
  have : (⟨o.y - o.y, -(o.x - o.x)⟩ : Pt) = ⟨0, 0⟩ := by ext <;> simp
  rw [rn, this, unit_zero]

theorem perp_ne_zero {o d : Pt} (h : o ≠ d) : (⟨d.y - o.y, -(d.x - o.x)⟩ : Pt) ≠ ⟨0, 0⟩ := by
  intro e
  have h1 := congrArg V2.x e
  have h2 := congrArg V2.y e
  simp only at h1 h2
  exact h (V2.ext (by linarith) (by linarith))

theorem rn_sq {o d : Pt} (h : o ≠ d) : dp (rn o d) (rn o d) = 1 := unit_sq (perp_ne_zero h)

theorem rn_sq_cases (o d : Pt) : dp (rn o d) (rn o d) = 1 ∨ rn o d = ⟨0, 0⟩ := by
  by_cases h : o = d
  · right; rw [h, rn_self]
  · left; exact rn_sq h

/-- `n` is proportional to the rotated direction. -/
theorem rn_scaled (o d : Pt) : ∃ l : ℝ, 0 < l ∧ d.y - o.y = l * (rn o d).x ∧
    -(d.x - o.x) = l * (rn o d).y := by
  refine ⟨len1 ⟨d.y - o.y, -(d.x - o.x)⟩, len1_pos _, ?_, ?_⟩
  · have := congrArg V2.x (unit_mul ⟨d.y - o.y, -(d.x - o.x)⟩)
    simp only [V2.smul_x] at this; exact this.symm
  · have := congrArg V2.y (unit_mul ⟨d.y - o.y, -(d.x - o.x)⟩)
    simp only [V2.smul_y] at this; exact this.symm

theorem rn_orth (o d : Pt) : dp (d - o) (rn o d) = 0 := by
  obtain ⟨l, hl, h1, h2⟩ := rn_scaled o d
  simp only [dp, V2.sub_x, V2.sub_y]
  have h3 : d.x - o.x = -(l * (rn o d).y) := by linarith
  rw [h3, h1]; ring

theorem rn_swap (o d : Pt) : rn d o = -rn o d := by
  have : (⟨o.y - d.y, -(o.x - d.x)⟩ : Pt) = -⟨d.y - o.y, -(d.x - o.x)⟩ := by ext <;> simp
  rw [rn, this, unit_neg]; rfl

theorem onLine_iff {o d : Pt} (h : o ≠ d) (p : Pt) : OnLine o d p ↔ dp (p - o) (rn o d) = 0 := by
  obtain ⟨l, hl, h1, h2⟩ := rn_scaled o d
  have hs := rn_sq h
  simp only [dp, V2.sub_x, V2.sub_y] at hs ⊢
  constructor
  · rintro ⟨s, rfl⟩
    simp only [pointAt]
    have h3 : d.x - o.x = -(l * (rn o d).y) := by linarith
    rw [h1, h3]; ring
  · intro e
    refine ⟨((p.y - o.y) * (rn o d).x - (p.x - o.x) * (rn o d).y) / l, ?_⟩
    have h3 : d.x - o.x = -(l * (rn o d).y) := by linarith
    ext
    · simp only [pointAt]; rw [h3]; field_simp
      linear_combination (rn o d).x * e - (p.x - o.x) * hs
    · simp only [pointAt]; rw [h1]; field_simp
      linear_combination (rn o d).y * e - (p.y - o.y) * hs

/-- Real form of `Wall.image_of`. -/
noncomputable def rimg (o d p : Pt) : Pt :=
  ⟨p.x - 2 * dp (p - o) (rn o d) * (rn o d).x, p.y - 2 * dp (p - o) (rn o d) * (rn o d).y⟩

theorem imageOf_fin (o d p : Pt) : (Wall.ofPts o d).imageOf (V2.fin p) = V2.fin (rimg o d p) := by
  simp only [Wall.imageOf, normal_fin]
  simp only [Wall.ofPts, V2.fin_sub, V2.fin_dot']
  ext
  · simp [rimg]; norm_num
  · simp [rimg]; norm_num

/-- Real form of `Wall.parametric_to_cartesian` is `pointAt`. -/
theorem toCart_fin (o d : Pt) (s : ℝ) : (Wall.ofPts o d).toCart (F.fin s) = V2.fin (pointAt o d s) := by
  ext <;> simp [Wall.toCart, Wall.ofPts, Wall.t, pointAt]

/-- Real form of `Wall.cartesian_to_parametric`. -/
noncomputable def rpar (o d p : Pt) : ℝ :=
  if dp (d - o) (d - o) = 0 then dp (d - o) (p - o) else dp (d - o) (p - o) / dp (d - o) (d - o)

theorem toParam_fin (o d p : Pt) : (Wall.ofPts o d).toParam (V2.fin p) = F.fin (rpar o d p) := by
  simp only [Wall.toParam, Wall.ofPts, Wall.t, V2.fin_sub, V2.fin_dot']
  by_cases h : dp (d - o) (d - o) = 0
  · simp [h, rpar, F.fin_div]
  · simp [h, rpar, F.fin_div _ h]

theorem dp_self_eq_zero (o d : Pt) : dp (d - o) (d - o) = 0 ↔ o = d := by
  have := V2.eq_zero_iff (d - o)
  unfold dp
  rw [← this]
  constructor
  · intro h
    have h1 := congrArg V2.x h
    have h2 := congrArg V2.y h
    simp only [V2.sub_x, V2.sub_y] at h1 h2
    exact V2.ext (by linarith) (by linarith)
  · rintro rfl; ext <;> simp

theorem rpar_self (o p : Pt) : rpar o o p = 0 := by
  have h : dp (o - o) (o - o) = 0 := (dp_self_eq_zero o o).mpr rfl
  rw [rpar, if_pos h]; simp [dp]

theorem rpar_pointAt {o d : Pt} (h : o ≠ d) (s : ℝ) : rpar o d (pointAt o d s) = s := by
  have h0 : dp (d - o) (d - o) ≠ 0 := fun e => h ((dp_self_eq_zero o d).mp e)
  rw [rpar, if_neg h0, div_eq_iff h0]
  simp only [dp, pointAt, V2.sub_x, V2.sub_y]; ring

theorem contains_hard {E : Env} {ap : Option Bool} (h : Hard E ap) (w : Wall) (kw : ActKw) (s : ℝ) :
    w.contains E ap kw (F.fin s) = .b (decide (0 ≤ s ∧ s ≤ 1)) := by
  simp only [Wall.contains, F.zero_eq, F.one_eq]
  exact interval_hard h kw s 0 1

theorem contains_soft {E : Env} {ap : Option Bool} (h : Soft E ap) (w : Wall) {kw : ActKw} {f : ℝ → ℝ}
    (hf : ∀ x : ℝ, activation kw (F.fin x) = F.fin (f x)) (s : ℝ) :
    w.contains E ap kw (F.fin s) = .f (F.fin (min (f s) (f (1 - s)))) := by
  simp only [Wall.contains, F.zero_eq, F.one_eq]
  rw [interval_soft h hf]; simp

/-- Real form of `Wall.evaluate_cartesian`. -/
noncomputable def reval (o d a b c : Pt) : ℝ :=
  let i := unit (b - a)
  let r := unit (c - b)
  let n := rn o d
  let e : Pt := ⟨r.x - (i.x - 2 * dp i n * n.x), r.y - (i.y - 2 * dp i n * n.y)⟩
  dp e e

theorem evaluate_fin (o d a b c : Pt) :
    (Wall.ofPts o d).evaluate (V2.fin a) (V2.fin b) (V2.fin c) = F.fin (reval o d a b c) := by
  simp only [Wall.evaluate, normal_fin, V2.fin_sub, normalize_fin, V2.fin_dot', F.ofNat_eq, F.fin_mul,
    V2.fin_smul]
  rfl

/-- Reflection of a direction by a (unit or null) normal preserves the norm. -/
theorem refl_sq {n : Pt} (hn : dp n n = 1 ∨ n = ⟨0, 0⟩) (i : Pt) :
    dp (⟨i.x - 2 * dp i n * n.x, i.y - 2 * dp i n * n.y⟩ : Pt) ⟨i.x - 2 * dp i n * n.x, i.y - 2 * dp i n * n.y⟩ =
      dp i i := by
  rcases hn with hn | rfl
  · simp only [dp] at *
    linear_combination (4 * (i.x * n.x + i.y * n.y) ^ 2) * hn
  · simp [dp]

theorem reval_expand {n : Pt} (hn : dp n n = 1 ∨ n = ⟨0, 0⟩) (i r : Pt) :
    dp (⟨r.x - (i.x - 2 * dp i n * n.x), r.y - (i.y - 2 * dp i n * n.y)⟩ : Pt)
      ⟨r.x - (i.x - 2 * dp i n * n.x), r.y - (i.y - 2 * dp i n * n.y)⟩ =
      dp r r + dp i i - 2 * dp r i + 4 * dp i n * dp r n := by
  have h := refl_sq hn i
  simp only [dp] at *
  linear_combination h

theorem reval_eq (o d a b c : Pt) : reval o d a b c =
    dp (unit (c - b)) (unit (c - b)) + dp (unit (b - a)) (unit (b - a))
      - 2 * dp (unit (c - b)) (unit (b - a))
      + 4 * dp (unit (b - a)) (rn o d) * dp (unit (c - b)) (rn o d) :=
  reval_expand (rn_sq_cases o d) _ _

end DiffeRT2d
