import Verif.Lemmas.SignedRoot
import Verif.Lemmas.ImageSym
import Verif.Lemmas.NonFlat

/-! The reflection points of a path whose receiver moves along a line are quotients of affine functions, with a limit at infinity in almost every direction. -/

namespace DiffeRT2d
open Filter Topology Polynomial Spec MeasureTheory

/-- A receiver that moves along a line. -/
def onLine (y : Pt) (d : ℝ × ℝ) (s : ℝ) : Pt := ⟨y.x + s * d.1, y.y + s * d.2⟩

/-- A point whose coordinates are, near time `0`, quotients of polynomials that have a limit at infinity. -/
def Curve (p : ℝ → Pt) : Prop := ∃ (X Y D : ℝ[X]) (l : Pt), D.eval 0 ≠ 0 ∧ (∀ᶠ s in 𝓝 (0 : ℝ), p s = ⟨X.eval s / D.eval s, Y.eval s / D.eval s⟩) ∧
  Tendsto (fun s => X.eval s / D.eval s) atTop (𝓝 l.x) ∧ Tendsto (fun s => Y.eval s / D.eval s) atTop (𝓝 l.y)

theorem affine_limit (a b c d : ℝ) (hd : d ≠ 0) : Tendsto (fun s : ℝ => (a + s * b) / (c + s * d)) atTop (𝓝 (b / d)) := by
  have h1 : Tendsto (fun s : ℝ => a * s⁻¹ + b) atTop (𝓝 (a * 0 + b)) := (tendsto_inv_atTop_zero.const_mul a).add_const b
  have h2 : Tendsto (fun s : ℝ => c * s⁻¹ + d) atTop (𝓝 (c * 0 + d)) := (tendsto_inv_atTop_zero.const_mul c).add_const d
  have h3 := h1.div h2 (by simpa using hd)
  simp only [mul_zero, zero_add] at h3
  refine h3.congr' ?_
  filter_upwards [eventually_gt_atTop 0] with s hs
  have : s ≠ 0 := hs.ne'
  show (a * s⁻¹ + b) / (c * s⁻¹ + d) = _
  rw [← mul_div_mul_left _ _ this]
  congr 1 <;> field_simp

/-- Quotients of affine functions. -/
theorem Curve.of_affine {p : ℝ → Pt} (x0 x1 y0 y1 c d : ℝ) (hc : c ≠ 0) (hd : d ≠ 0) (h : ∀ᶠ s in 𝓝 (0 : ℝ), p s = ⟨(x0 + s * x1) / (c + s * d), (y0 + s * y1) / (c + s * d)⟩) :
    Curve p := by
  have e : ∀ (a b s : ℝ), (C a + X * C b : ℝ[X]).eval s = a + s * b := fun a b s => by simp only [eval_add, eval_mul, eval_C, eval_X]
  refine ⟨C x0 + X * C x1, C y0 + X * C y1, C c + X * C d, ⟨x1 / d, y1 / d⟩, by simpa using hc, ?_, ?_, ?_⟩
  · simpa only [e] using h
  · simpa only [e] using affine_limit x0 x1 c d hd
  · simpa only [e] using affine_limit y0 y1 c d hd

theorem Curve.const (p : Pt) : Curve fun _ => p :=
  ⟨C p.x, C p.y, 1, p, by simp, by simp, by simp, by simp⟩

private theorem step_x (px py D ox oy ix iy nx ny : ℝ) (hD : D ≠ 0) (hD' : nx * (px - D * ix) + ny * (py - D * iy) ≠ 0) :
    px / D + ((ox - px / D) * nx + (oy - py / D) * ny) * (px / D - ix) / ((px / D - ix) * nx + (py / D - iy) * ny) =
      ((nx * (ox - ix) + ny * (oy - iy)) * px + (nx * px + ny * py - D * (nx * ox + ny * oy)) * ix) / (nx * (px - D * ix) + ny * (py - D * iy)) := by
  have e : (px / D - ix) * nx + (py / D - iy) * ny = (nx * (px - D * ix) + ny * (py - D * iy)) / D := by field_simp
  rw [e]
  generalize hq : nx * (px - D * ix) + ny * (py - D * iy) = q at *
  field_simp
  rw [← hq]
  ring

private theorem step_y (px py D ox oy ix iy nx ny : ℝ) (hD : D ≠ 0) (hD' : nx * (px - D * ix) + ny * (py - D * iy) ≠ 0) :
    py / D + ((ox - px / D) * nx + (oy - py / D) * ny) * (py / D - iy) / ((px / D - ix) * nx + (py / D - iy) * ny) =
      ((nx * (ox - ix) + ny * (oy - iy)) * py + (nx * px + ny * py - D * (nx * ox + ny * oy)) * iy) / (nx * (px - D * ix) + ny * (py - D * iy)) := by
  have e : (px / D - ix) * nx + (py / D - iy) * ny = (nx * (px - D * ix) + ny * (py - D * iy)) / D := by field_simp
  rw [e]
  generalize hq : nx * (px - D * ix) + ny * (py - D * iy) = q at *
  field_simp
  rw [← hq]
  ring

/-- The reflection points of the path to a receiver that moves along a line. -/
theorem rpts_line (ws : List RWall) (img y : Pt) (h : Unguarded img y ws) :
    ∃ (b11 b12 b21 b22 : ℝ) (P : Pt) (D : ℝ) (D1 : ℝ × ℝ → ℝ), D ≠ 0 ∧
      (∀ d : ℝ × ℝ, ∀ᶠ s in 𝓝 (0 : ℝ), (rpts img (onLine y d s) ws).headD (onLine y d s) =
        ⟨(P.x + s * (b11 * d.1 + b12 * d.2 + D1 d * img.x)) / (D + s * D1 d), (P.y + s * (b21 * d.1 + b22 * d.2 + D1 d * img.y)) / (D + s * D1 d)⟩) ∧
      (b11 * b22 - b12 * b21 ≠ 0 ∨ (rpts img y ws).headD y = img) ∧
      ∀ᵐ d : ℝ × ℝ, ∃ ps : List (ℝ → Pt), (∀ s, rpts img (onLine y d s) ws = ps.map (· s)) ∧ ∀ p ∈ ps, Curve p := by
  induction ws generalizing img with
  | nil =>
    refine ⟨1, 0, 0, 1, y, 1, fun _ => 0, one_ne_zero, fun d => .of_forall fun s => ?_, .inl (by norm_num), .of_forall fun d => ⟨[], fun s => rfl, by simp⟩⟩
    simp [rpts, onLine]
  | cons w ws ih =>
    obtain ⟨hun, hu⟩ := h
    set im := rimg w.1 w.2 img with him
    obtain ⟨b11, b12, b21, b22, P, D, D1, hD, hhead, hdet, hae⟩ := ih im hu
    have hdet : b11 * b22 - b12 * b21 ≠ 0 := by
      refine hdet.resolve_right fun e => hun ?_
      rw [e]
      simp [un, dp]
    have hhead0 : (rpts im y ws).headD y = ⟨P.x / D, P.y / D⟩ := by
      have := (hhead (0, 0)).self_of_nhds
      simpa [onLine] using this
    rcases rn_sq_cases w.1 w.2 with hn | hn
    swap
    · exact absurd (by simp [un, dp, hn]) hun
    obtain ⟨nx, ny, hrn⟩ : ∃ nx ny, rn w.1 w.2 = ⟨nx, ny⟩ := ⟨_, _, rfl⟩
    have e1 : im.x = img.x - 2 * ((img.x - w.1.x) * nx + (img.y - w.1.y) * ny) * nx := by rw [him]; simp [rimg, dp, hrn]
    have e2 : im.y = img.y - 2 * ((img.x - w.1.x) * nx + (img.y - w.1.y) * ny) * ny := by rw [him]; simp [rimg, dp, hrn]
    rw [hrn] at hn
    simp only [dp] at hn
    rw [hhead0] at hun
    simp only [un, dp, hrn, V2.sub_x, V2.sub_y] at hun
    have hD'0 : nx * (P.x - D * im.x) + ny * (P.y - D * im.y) ≠ 0 := by
      intro e
      apply hun
      field_simp
      linarith
    let c : ℝ := nx * (w.1.x - im.x) + ny * (w.1.y - im.y)
    have hc1 : im.x - img.x = -2 * c * nx := by
      show _ = -2 * (nx * (w.1.x - im.x) + ny * (w.1.y - im.y)) * nx
      rw [e1, e2]
      linear_combination (4 * ((img.x - w.1.x) * nx + (img.y - w.1.y) * ny) * nx) * hn
    have hc2 : im.y - img.y = -2 * c * ny := by
      show _ = -2 * (nx * (w.1.x - im.x) + ny * (w.1.y - im.y)) * ny
      rw [e1, e2]
      linear_combination (4 * ((img.x - w.1.x) * nx + (img.y - w.1.y) * ny) * ny) * hn
    let D' : ℝ := nx * (P.x - D * im.x) + ny * (P.y - D * im.y)
    let D1' : ℝ × ℝ → ℝ := fun d => nx * (b11 * d.1 + b12 * d.2) + ny * (b21 * d.1 + b22 * d.2)
    let P' : Pt := ⟨c * P.x + (nx * P.x + ny * P.y - D * (nx * w.1.x + ny * w.1.y)) * im.x, c * P.y + (nx * P.x + ny * P.y - D * (nx * w.1.x + ny * w.1.y)) * im.y⟩
    have hnew : ∀ d : ℝ × ℝ, ∀ᶠ s in 𝓝 (0 : ℝ), rback w.1 w.2 im ((rpts im (onLine y d s) ws).headD (onLine y d s)) =
        ⟨(P'.x + s * (c * (b11 - 2 * (nx * b11 + ny * b21) * nx) * d.1 + c * (b12 - 2 * (nx * b12 + ny * b22) * nx) * d.2 + D1' d * img.x)) / (D' + s * D1' d),
          (P'.y + s * (c * (b21 - 2 * (nx * b11 + ny * b21) * ny) * d.1 + c * (b22 - 2 * (nx * b12 + ny * b22) * ny) * d.2 + D1' d * img.y)) / (D' + s * D1' d)⟩ := by
      intro d
      have k1 : ∀ᶠ s in 𝓝 (0 : ℝ), D + s * D1 d ≠ 0 := by
        have : ContinuousAt (fun s : ℝ => D + s * D1 d) 0 := by fun_prop
        exact this.eventually_ne (by simpa using hD)
      have k2 : ∀ᶠ s in 𝓝 (0 : ℝ), D' + s * D1' d ≠ 0 := by
        have : ContinuousAt (fun s : ℝ => D' + s * D1' d) 0 := by fun_prop
        exact this.eventually_ne (by simpa using hD'0)
      filter_upwards [hhead d, k1, k2] with s hs k1 k2
      rw [hs]
      have k3 : nx * (P.x + s * (b11 * d.1 + b12 * d.2 + D1 d * im.x) - (D + s * D1 d) * im.x) +
          ny * (P.y + s * (b21 * d.1 + b22 * d.2 + D1 d * im.y) - (D + s * D1 d) * im.y) = D' + s * D1' d := by
        simp only [D', D1']; ring
      have sx := step_x (P.x + s * (b11 * d.1 + b12 * d.2 + D1 d * im.x)) (P.y + s * (b21 * d.1 + b22 * d.2 + D1 d * im.y)) (D + s * D1 d) w.1.x w.1.y im.x im.y nx ny k1
        (by rw [k3]; exact k2)
      have sy := step_y (P.x + s * (b11 * d.1 + b12 * d.2 + D1 d * im.x)) (P.y + s * (b21 * d.1 + b22 * d.2 + D1 d * im.y)) (D + s * D1 d) w.1.x w.1.y im.x im.y nx ny k1
        (by rw [k3]; exact k2)
      have hne : un w.1 w.2 im ⟨(P.x + s * (b11 * d.1 + b12 * d.2 + D1 d * im.x)) / (D + s * D1 d), (P.y + s * (b21 * d.1 + b22 * d.2 + D1 d * im.y)) / (D + s * D1 d)⟩ ≠ 0 := by
        simp only [un, dp, hrn, V2.sub_x, V2.sub_y]
        intro e
        apply k2
        rw [← k3]
        field_simp at e
        linarith
      unfold rback
      rw [if_neg hne]
      simp only [un, dp, hrn, V2.sub_x, V2.sub_y]
      rw [k3] at sx sy
      ext
      · simp only
        rw [sx]
        congr 1
        simp only [P', D1', c]
        have := hc1
        simp only [c] at this
        linear_combination (s * (nx * (b11 * d.1 + b12 * d.2) + ny * (b21 * d.1 + b22 * d.2))) * this
      · simp only
        rw [sy]
        congr 1
        simp only [P', D1', c]
        have := hc2
        simp only [c] at this
        linear_combination (s * (nx * (b11 * d.1 + b12 * d.2) + ny * (b21 * d.1 + b22 * d.2))) * this
    refine ⟨c * (b11 - 2 * (nx * b11 + ny * b21) * nx), c * (b12 - 2 * (nx * b12 + ny * b22) * nx), c * (b21 - 2 * (nx * b11 + ny * b21) * ny),
      c * (b22 - 2 * (nx * b12 + ny * b22) * ny), P', D', D1', hD'0, fun d => ?_, ?_, ?_⟩
    · exact hnew d
    · by_cases hc : c = 0
      · right
        have := (hnew (0, 0)).self_of_nhds
        simp only [onLine, mul_zero, add_zero, zero_mul] at this
        show rback w.1 w.2 im ((rpts im y ws).headD y) = img
        rw [hhead0] at this ⊢
        rw [this]
        have i1 : im.x = img.x := by rw [hc] at hc1; linarith
        have i2 : im.y = img.y := by rw [hc] at hc2; linarith
        have hcc : nx * w.1.x + ny * w.1.y = nx * im.x + ny * im.y := by have : c = 0 := hc; simp only [c] at this; linarith
        ext
        · simp only [P', D', hc, zero_mul, zero_add]
          rw [← i1, div_eq_iff hD'0, hcc]; ring
        · simp only [P', D', hc, zero_mul, zero_add]
          rw [← i2, div_eq_iff hD'0, hcc]; ring
      · left
        have : c * (b11 - 2 * (nx * b11 + ny * b21) * nx) * (c * (b22 - 2 * (nx * b12 + ny * b22) * ny)) -
            c * (b12 - 2 * (nx * b12 + ny * b22) * nx) * (c * (b21 - 2 * (nx * b11 + ny * b21) * ny)) = -(c ^ 2 * (b11 * b22 - b12 * b21)) := by
          linear_combination (-2 * c ^ 2 * (b11 * b22 - b12 * b21)) * hn
        rw [this]
        exact neg_ne_zero.mpr (mul_ne_zero (pow_ne_zero _ hc) hdet)
    · have hd1 : ∀ᵐ d : ℝ × ℝ, (nx * b11 + ny * b21) * d.1 + (nx * b12 + ny * b22) * d.2 + 0 ≠ 0 := by
        refine affine_ae _ _ _ ?_
        rintro ⟨a1, a2⟩
        have z1 : nx * (b11 * b22 - b12 * b21) = 0 := by linear_combination b22 * a1 - b21 * a2
        have z2 : ny * (b11 * b22 - b12 * b21) = 0 := by linear_combination b11 * a2 - b12 * a1
        have := (mul_eq_zero.mp z1).resolve_right hdet
        have := (mul_eq_zero.mp z2).resolve_right hdet
        subst_vars
        simp_all
      filter_upwards [hae, hd1] with d ⟨ps, hps, hcv⟩ hd
      refine ⟨(fun s => rback w.1 w.2 im ((rpts im (onLine y d s) ws).headD (onLine y d s))) :: ps, fun s => ?_, ?_⟩
      · simp only [rpts, List.map_cons]
        rw [← him, hps s]
      · intro p hp
        rcases List.mem_cons.mp hp with rfl | hp
        · refine Curve.of_affine _ _ _ _ D' (D1' d) hD'0 ?_ (hnew d)
          simp only [D1']
          intro e
          apply hd
          linarith
        · exact hcv p hp

end DiffeRT2d
