import Verif.Lemmas.Wall

/-! Similarities act on directions, normals and scores. -/

namespace DiffeRT2d
open Spec Classical

/-- Linear part of an affine map. -/
noncomputable def lin (f : Affine) (v : Pt) : Pt := ⟨f.a * v.x + f.b * v.y, f.c * v.x + f.d * v.y⟩

theorem app_sub (f : Affine) (p q : Pt) : f.app q - f.app p = lin f (q - p) := by
  ext <;> simp [Affine.app, lin] <;> ring

theorem lin_smul (f : Affine) (k : ℝ) (v : Pt) : lin f (V2.smul k v) = V2.smul k (lin f v) := by
  ext <;> simp [lin] <;> ring

namespace Spec.Affine.Similarity
variable {f : Affine} {k : ℝ} (h : f.Similarity k)
include h

theorem dp_lin (u v : Pt) : dp (lin f u) (lin f v) = k ^ 2 * dp u v := by
  simp only [dp, lin]
  linear_combination (u.x * v.x) * h.col1 + (u.y * v.y) * h.col2 + (u.x * v.y + u.y * v.x) * h.orth

theorem nrm_lin (v : Pt) : nrm (lin f v) = k * nrm v := by
  apply nrm_eq (mul_nonneg h.pos.le (nrm_nonneg v))
  have h1 := h.dp_lin v v
  have h2 := nrm_sq v
  simp only [dp] at h1
  rw [h1, ← h2]; ring

theorem eucl_app (p q : Pt) : eucl (f.app p) (f.app q) = k * eucl p q := by
  rw [eucl_eq_nrm, eucl_eq_nrm, app_sub, h.nrm_lin]

theorem inj {p q : Pt} (e : f.app p = f.app q) : p = q := by
  have h1 : eucl (f.app p) (f.app q) = 0 := by rw [e]; exact eucl_self _
  rw [h.eucl_app] at h1
  have h2 : eucl p q = 0 := by
    rcases mul_eq_zero.mp h1 with h3 | h3
    · exact absurd h3 h.pos.ne'
    · exact h3
  rw [eucl_eq_nrm, nrm_eq_zero] at h2
  have hx := congrArg V2.x h2
  have hy := congrArg V2.y h2
  simp only [V2.sub_x, V2.sub_y] at hx hy
  exact V2.ext (by linarith) (by linarith)

theorem sigma : ∃ σ : ℝ, σ * σ = 1 ∧ f.b = -(σ * f.c) ∧ f.d = σ * f.a := by
  have hk : k ^ 2 ≠ 0 := pow_ne_zero 2 h.pos.ne'
  have h1 := h.col1
  have h2 := h.col2
  have h3 := h.orth
  have hd : f.d = (f.a * f.d - f.b * f.c) / k ^ 2 * f.a := by
    rw [div_mul_eq_mul_div, eq_div_iff hk, ← h1]
    linear_combination f.c * h3
  have hb : f.b = -((f.a * f.d - f.b * f.c) / k ^ 2 * f.c) := by
    rw [div_mul_eq_mul_div, ← neg_div, eq_div_iff hk, ← h1]
    linear_combination f.a * h3
  refine ⟨(f.a * f.d - f.b * f.c) / k ^ 2, ?_, hb, hd⟩
  set σ := (f.a * f.d - f.b * f.c) / k ^ 2
  have h4 : σ * σ * k ^ 2 = 1 * k ^ 2 := by
    rw [hb, hd] at h2
    linear_combination h2 - σ * σ * h1
  exact mul_right_cancel₀ hk h4

theorem invertible : f.Invertible := by
  obtain ⟨σ, h1, hb, hd⟩ := h.sigma
  unfold Affine.Invertible
  intro e
  rw [hb, hd] at e
  have h2 := h.col1
  have h3 : σ * k ^ 2 = 0 := by rw [← h2]; linarith
  rcases mul_eq_zero.mp h3 with h4 | h4
  · rw [h4] at h1; norm_num at h1
  · exact pow_ne_zero 2 h.pos.ne' h4

theorem unit_lin (v : Pt) : unit (lin f v) = V2.smul (1 / k) (lin f (unit v)) := by
  by_cases hv : v = ⟨0, 0⟩
  · subst hv
    have : lin f ⟨0, 0⟩ = ⟨0, 0⟩ := by ext <;> simp [lin]
    rw [this, unit_zero, this]; ext <;> simp
  · have h0 : nrm v ≠ 0 := fun e => hv ((nrm_eq_zero v).mp e)
    have h1 : nrm (lin f v) ≠ 0 := by rw [h.nrm_lin]; exact mul_ne_zero h.pos.ne' h0
    have hk := h.pos.ne'
    have e1 : len1 (lin f v) = k * nrm v := by rw [len1, if_neg h1, h.nrm_lin]
    have e2 : len1 v = nrm v := by rw [len1, if_neg h0]
    ext
    · simp only [unit, V2.smul_x]; rw [e1, e2]; simp only [lin]; field_simp
    · simp only [unit, V2.smul_y]; rw [e1, e2]; simp only [lin]; field_simp

theorem rn_app : ∃ σ : ℝ, σ * σ = 1 ∧ ∀ o d,
    rn (f.app o) (f.app d) = V2.smul (σ / k) (lin f (rn o d)) := by
  obtain ⟨σ, h1, hb, hd⟩ := h.sigma
  refine ⟨σ, h1, fun o d => ?_⟩
  have e : (⟨(f.app d).y - (f.app o).y, -((f.app d).x - (f.app o).x)⟩ : Pt) =
      V2.smul σ (lin f ⟨d.y - o.y, -(d.x - o.x)⟩) := by
    ext
    · simp only [V2.smul_x, lin, Affine.app]; rw [hb, hd]
      linear_combination (f.c * (d.x - o.x) * (-1)) * (h1 - 0 * h1)
    · simp only [V2.smul_y, lin, Affine.app]; rw [hb, hd]
      linear_combination (f.a * (d.x - o.x)) * h1
  rw [rn, e, rn]
  have hσ : σ = 1 ∨ σ = -1 := by
    have : (σ - 1) * (σ + 1) = 0 := by linarith
    rcases mul_eq_zero.mp this with h3 | h3
    · left; linarith
    · right; linarith
  rcases hσ with rfl | rfl
  · rw [unit_smul_pos one_pos, h.unit_lin]
  · rw [unit_smul_neg (by norm_num), h.unit_lin]
    ext <;> simp <;> ring

theorem reval_app (o d a b c : Pt) :
    reval (f.app o) (f.app d) (f.app a) (f.app b) (f.app c) = reval o d a b c := by
  obtain ⟨σ, h1, hr⟩ := h.rn_app
  have hk := h.pos.ne'
  have hdp : ∀ (x y : ℝ) (u v : Pt), dp (V2.smul x u) (V2.smul y v) = x * y * dp u v := by
    intro x y u v; simp only [dp, V2.smul_x, V2.smul_y]; ring
  rw [reval_eq, reval_eq]
  simp only [app_sub, h.unit_lin, hr, hdp, h.dp_lin]
  field_simp
  have : σ ^ 2 = 1 := by rw [pow_two]; exact h1
  rw [this]; ring

end Spec.Affine.Similarity
end DiffeRT2d
