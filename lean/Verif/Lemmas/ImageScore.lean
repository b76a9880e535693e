import Verif.Lemmas.Image

/-! Scores of image paths. -/

namespace DiffeRT2d
open Classical Spec

/-- Sign of a real number, as a real. -/
noncomputable def sgn (k : ℝ) : ℝ := if 0 < k then 1 else if k < 0 then -1 else 0

theorem sgn_pos {k : ℝ} (h : 0 < k) : sgn k = 1 := by simp [sgn, h]
theorem sgn_neg {k : ℝ} (h : k < 0) : sgn k = -1 := by simp [sgn, h, not_lt.mpr h.le]
theorem sgn_zero : sgn 0 = 0 := by simp [sgn]
theorem sgn_cases (k : ℝ) : (0 < k ∧ sgn k = 1) ∨ (k < 0 ∧ sgn k = -1) ∨ (k = 0 ∧ sgn k = 0) := by
  rcases lt_trichotomy k 0 with h | h | h
  · exact .inr (.inl ⟨h, sgn_neg h⟩)
  · exact .inr (.inr ⟨h, by rw [h, sgn_zero]⟩)
  · exact .inl ⟨h, sgn_pos h⟩

theorem unit_smul (k : ℝ) (v : Pt) : unit (V2.smul k v) = V2.smul (sgn k) (unit v) := by
  rcases sgn_cases k with ⟨h, e⟩ | ⟨h, e⟩ | ⟨h, e⟩
  · rw [unit_smul_pos h, e]; ext <;> simp
  · rw [unit_smul_neg h, e]; ext <;> simp
  · have : V2.smul k v = ⟨0, 0⟩ := by ext <;> simp [h]
    rw [this, unit_zero, e]; ext <;> simp

/-- Mirror image of a direction. -/
noncomputable def refl (n v : Pt) : Pt := ⟨v.x - 2 * dp v n * n.x, v.y - 2 * dp v n * n.y⟩

theorem refl_refl {n : Pt} (hn : dp n n = 1 ∨ n = ⟨0, 0⟩) (v : Pt) : refl n (refl n v) = v := by
  rcases hn with hn | rfl
  · simp only [dp] at hn
    ext
    · simp only [refl, dp]; linear_combination (4 * (v.x * n.x + v.y * n.y) * n.x) * hn
    · simp only [refl, dp]; linear_combination (4 * (v.x * n.x + v.y * n.y) * n.y) * hn
  · simp [refl]

theorem nrm_refl {n : Pt} (hn : dp n n = 1 ∨ n = ⟨0, 0⟩) (v : Pt) : nrm (refl n v) = nrm v := by
  apply nrm_eq (nrm_nonneg v)
  have h := refl_sq hn v
  rw [nrm_sq]
  simp only [dp, refl] at *; linarith

theorem unit_refl {n : Pt} (hn : dp n n = 1 ∨ n = ⟨0, 0⟩) (v : Pt) : unit (refl n v) = refl n (unit v) := by
  have h : len1 (refl n v) = len1 v := by simp only [len1, nrm_refl hn]
  ext
  · simp only [unit, h]; simp only [refl, dp]; ring
  · simp only [unit, h]; simp only [refl, dp]; ring

theorem dp_unit_cases (v : Pt) : (v = ⟨0, 0⟩ ∧ dp (unit v) (unit v) = 0) ∨
    (v ≠ ⟨0, 0⟩ ∧ dp (unit v) (unit v) = 1) := by
  by_cases h : v = ⟨0, 0⟩
  · left; refine ⟨h, ?_⟩; rw [h, unit_zero]; simp [dp]
  · right; exact ⟨h, unit_sq h⟩

/-- If the incoming and outgoing vectors are multiples of a vector and of its mirror image, the score
depends only on the signs. -/
theorem reval_aligned (o d a b c v : Pt) (m k : ℝ) (h1 : b - a = V2.smul m v)
    (h2 : c - b = V2.smul k (refl (rn o d) v)) :
    reval o d a b c = (sgn k - sgn m) ^ 2 * dp (unit v) (unit v) := by
  have hn := rn_sq_cases o d
  have e := refl_sq hn (unit v)
  simp only [reval, h1, h2, unit_smul, unit_refl hn]
  simp only [dp, refl, V2.smul_x, V2.smul_y] at *
  linear_combination (sgn k - sgn m) ^ 2 * e

theorem dp_rimg (o d p : Pt) : dp (rimg o d p - o) (rn o d) = -dp (p - o) (rn o d) := by
  rcases rn_sq_cases o d with h | h
  · simp only [dp, rimg, V2.sub_x, V2.sub_y] at *
    linear_combination (-2 * ((p.x - o.x) * (rn o d).x + (p.y - o.y) * (rn o d).y)) * h
  · rw [h]; simp [dp]

theorem un_eq (o d im pt : Pt) : un o d im pt = dp (pt - o) (rn o d) - dp (im - o) (rn o d) := by
  simp only [un, dp, V2.sub_x, V2.sub_y]; ring

theorem un_rimg (o d img pt : Pt) :
    un o d (rimg o d img) pt = dp (pt - o) (rn o d) + dp (img - o) (rn o d) := by
  rw [un_eq, dp_rimg]; ring

theorem rback_guard {o d im pt : Pt} (h : un o d im pt = 0) : rback o d im pt = pt := by
  rw [rback, if_pos h]

/-- An unguarded step lands on the wall's line. -/
theorem rback_on {o d im pt : Pt} (h : un o d im pt ≠ 0) : dp (rback o d im pt - o) (rn o d) = 0 := by
  rw [rback, if_neg h]
  simp only [dp, V2.sub_x, V2.sub_y]
  have e : un o d im pt = (pt.x - im.x) * (rn o d).x + (pt.y - im.y) * (rn o d).y := rfl
  set u := un o d im pt
  field_simp
  rw [e]; ring

/-- The step moves along the line through the point and the image. -/
theorem rback_next {o d im pt : Pt} (h : un o d im pt ≠ 0) :
    pt - rback o d im pt = V2.smul (dp (pt - o) (rn o d) / un o d im pt) (pt - im) := by
  rw [rback, if_neg h]
  ext <;> simp [dp] <;> ring

theorem rback_image {o d im pt : Pt} (h : un o d im pt ≠ 0) :
    rback o d im pt - im = V2.smul (-dp (im - o) (rn o d) / un o d im pt) (pt - im) := by
  have e := rback_next h
  have hx := congrArg V2.x e
  have hy := congrArg V2.y e
  have hu := un_eq o d im pt
  simp only [V2.sub_x, V2.sub_y, V2.smul_x, V2.smul_y] at hx hy
  have h3 : -dp (im - o) (rn o d) / un o d im pt = 1 - dp (pt - o) (rn o d) / un o d im pt := by
    rw [eq_sub_iff_add_eq, ← add_div, div_eq_one_iff_eq h, hu]; ring
  ext
  · simp only [V2.sub_x, V2.smul_x, h3]; linarith
  · simp only [V2.sub_y, V2.smul_y, h3]; linarith

/-- For a point of the wall's line, the vector from the mirror image is the mirrored vector. -/
theorem refl_sub {o d p : Pt} (hp : dp (p - o) (rn o d) = 0) (img : Pt) :
    refl (rn o d) (p - img) = p - rimg o d img := by
  simp only [dp, V2.sub_x, V2.sub_y] at hp
  ext
  · simp only [refl, rimg, dp, V2.sub_x, V2.sub_y]; linear_combination (-2 * (rn o d).x) * hp
  · simp only [refl, rimg, dp, V2.sub_x, V2.sub_y]; linear_combination (-2 * (rn o d).y) * hp

/-- Everything about one interaction of the image path. `img` is the image before the wall, `nxt` the
next path point, `prev` the previous one, known to be on the line from `img`. -/
theorem interaction (o d img nxt prev : Pt) (m : ℝ)
    (hprev : rback o d (rimg o d img) nxt - prev = V2.smul m (rback o d (rimg o d img) nxt - img)) :
    (reval o d prev (rback o d (rimg o d img) nxt) nxt = 0 ∨
     reval o d prev (rback o d (rimg o d img) nxt) nxt = 1 ∨
     reval o d prev (rback o d (rimg o d img) nxt) nxt = 4) ∧
    (0 < m → reval o d prev (rback o d (rimg o d img) nxt) nxt = 0 →
      dp (rback o d (rimg o d img) nxt - o) (rn o d) = 0 ∧
      (∃ k, 0 < k ∧ nxt - rback o d (rimg o d img) nxt = V2.smul k (nxt - rimg o d img)) ∧
      eucl (rimg o d img) (rback o d (rimg o d img) nxt) + eucl (rback o d (rimg o d img) nxt) nxt =
        eucl (rimg o d img) nxt) ∧
    (dp (rback o d (rimg o d img) nxt - o) (rn o d) = 0 →
      (0 < dp (prev - o) (rn o d) * dp (nxt - o) (rn o d) →
        reval o d prev (rback o d (rimg o d img) nxt) nxt = 0) ∧
      (dp (prev - o) (rn o d) * dp (nxt - o) (rn o d) < 0 →
        reval o d prev (rback o d (rimg o d img) nxt) nxt = 4)) := by
  set im := rimg o d img with him
  set p := rback o d im nxt with hp
  set al := dp (img - o) (rn o d) with hal
  set be := dp (nxt - o) (rn o d) with hbe
  have hun : un o d im nxt = be + al := un_rimg o d img nxt
  by_cases hg : un o d im nxt = 0
  · -- guarded: p = nxt
    have hpn : p = nxt := rback_guard hg
    have hs : reval o d prev p nxt = dp (unit (p - prev)) (unit (p - prev)) := by
      rw [reval_aligned o d prev p nxt (p - prev) 1 0 (by ext <;> simp) (by rw [hpn]; ext <;> simp),
        sgn_zero, sgn_pos one_pos]
      ring
    refine ⟨?_, ?_, ?_⟩
    · rcases dp_unit_cases (p - prev) with ⟨-, h⟩ | ⟨-, h⟩
      · left; rw [hs, h]
      · right; left; rw [hs, h]
    · intro hm h0
      rw [hs] at h0
      have hpp : p - prev = ⟨0, 0⟩ := by
        rcases dp_unit_cases (p - prev) with ⟨h, -⟩ | ⟨-, h⟩
        · exact h
        · rw [h] at h0; norm_num at h0
      rw [hpp] at hprev
      have hx := congrArg V2.x hprev
      have hy := congrArg V2.y hprev
      simp only [V2.smul_x, V2.smul_y, V2.sub_x, V2.sub_y] at hx hy
      have ex : p.x - img.x = 0 := (mul_eq_zero.mp hx.symm).resolve_left hm.ne'
      have ey : p.y - img.y = 0 := (mul_eq_zero.mp hy.symm).resolve_left hm.ne'
      have hpi : p = img := V2.ext (by linarith) (by linarith)
      have hab : al = be := by rw [hal, hbe, ← hpi, hpn]
      have hal0 : al = 0 := by linarith
      have himg : im = img := by
        rw [him]; ext <;> simp only [rimg] <;> rw [← hal, hal0] <;> ring
      refine ⟨?_, ⟨1, one_pos, ?_⟩, ?_⟩
      · rw [hpi, ← hal, hal0]
      · rw [himg, ← hpi]; ext <;> simp
      · rw [hpn, eucl_self, add_zero]
    · intro hon
      have : be = 0 := by rw [hbe, ← hpn, hon]
      rw [this, mul_zero]
      exact ⟨fun h => absurd h (lt_irrefl 0), fun h => absurd h (lt_irrefl 0)⟩
  · -- unguarded
    have hon : dp (p - o) (rn o d) = 0 := rback_on hg
    have hnx : nxt - p = V2.smul (be / un o d im nxt) (nxt - im) := rback_next hg
    have hpi : p - im = V2.smul (al / un o d im nxt) (nxt - im) := by
      have := rback_image hg
      rw [him, dp_rimg, neg_neg, ← him] at this; exact this
    have hrefl : refl (rn o d) (p - img) = p - im := refl_sub hon img
    have hgam : dp (prev - o) (rn o d) = m * al := by
      have hx := congrArg V2.x hprev
      have hy := congrArg V2.y hprev
      simp only [V2.smul_x, V2.smul_y, V2.sub_x, V2.sub_y] at hx hy
      rw [hal]
      simp only [dp, V2.sub_x, V2.sub_y] at hon ⊢
      linear_combination (1 - m) * hon - (rn o d).x * hx - (rn o d).y * hy
    by_cases hal0 : al = 0
    · -- the image is on the line: p = im = img
      have hpim : p - im = ⟨0, 0⟩ := by rw [hpi, hal0]; ext <;> simp
      have himg : im = img := by
        rw [him]; ext <;> simp only [rimg] <;> rw [← hal, hal0] <;> ring
      have hpp : p - prev = ⟨0, 0⟩ := by rw [hprev, ← himg, hpim]; ext <;> simp
      have hs : reval o d prev p nxt = dp (unit (nxt - p)) (unit (nxt - p)) := by
        have hn := rn_sq_cases o d
        rw [reval_aligned o d prev p nxt (refl (rn o d) (nxt - p)) 0 1 (by rw [hpp]; ext <;> simp)
          (by rw [refl_refl hn]; ext <;> simp), sgn_zero, sgn_pos one_pos, unit_refl hn]
        have := refl_sq hn (unit (nxt - p))
        simp only [refl]; rw [this]; ring
      refine ⟨?_, ?_, ?_⟩
      · rcases dp_unit_cases (nxt - p) with ⟨-, h⟩ | ⟨-, h⟩
        · left; rw [hs, h]
        · right; left; rw [hs, h]
      · intro hm h0
        exfalso
        rw [hs] at h0
        have hnp : nxt - p = ⟨0, 0⟩ := by
          rcases dp_unit_cases (nxt - p) with ⟨h, -⟩ | ⟨-, h⟩
          · exact h
          · rw [h] at h0; norm_num at h0
        apply hg
        have hx := congrArg V2.x hnp
        have hy := congrArg V2.y hnp
        have hx' := congrArg V2.x hpim
        have hy' := congrArg V2.y hpim
        simp only [V2.sub_x, V2.sub_y] at hx hy hx' hy'
        have : nxt - im = ⟨0, 0⟩ := V2.ext (by simp; linarith) (by simp; linarith)
        rw [un, this]; simp [dp]
      · intro _
        rw [hgam, hal0, mul_zero, zero_mul]
        exact ⟨fun h => absurd h (lt_irrefl 0), fun h => absurd h (lt_irrefl 0)⟩
    · have hnx' : nxt - p = V2.smul (be / al) (refl (rn o d) (p - img)) := by
        rw [hrefl, hpi, hnx]
        ext <;> simp only [V2.smul_x, V2.smul_y] <;> field_simp
      have hs : reval o d prev p nxt = (sgn (be / al) - sgn m) ^ 2 *
          dp (unit (p - img)) (unit (p - img)) :=
        reval_aligned o d prev p nxt (p - img) m (be / al) hprev hnx'
      have hv : dp (unit (p - img)) (unit (p - img)) = 1 := by
        rcases dp_unit_cases (p - img) with ⟨h, -⟩ | ⟨-, h⟩
        · exfalso; apply hal0
          have hx := congrArg V2.x h
          have hy := congrArg V2.y h
          simp only [V2.sub_x, V2.sub_y] at hx hy
          have : p = img := V2.ext (by linarith) (by linarith)
          rw [hal, ← this, hon]
        · exact h
      rw [hv, mul_one] at hs
      refine ⟨?_, ?_, ?_⟩
      · rw [hs]
        rcases sgn_cases (be / al) with ⟨-, e⟩ | ⟨-, e⟩ | ⟨-, e⟩ <;>
          rcases sgn_cases m with ⟨-, e'⟩ | ⟨-, e'⟩ | ⟨-, e'⟩ <;> rw [e, e'] <;> norm_num
      · intro hm h0
        rw [hs, sgn_pos hm] at h0
        have hk : 0 < be / al := by
          rcases sgn_cases (be / al) with ⟨h, -⟩ | ⟨-, e⟩ | ⟨-, e⟩
          · exact h
          · rw [e] at h0; norm_num at h0
          · rw [e] at h0; norm_num at h0
        -- be and al have the same sign
        have hk2 : 0 < be / un o d im nxt := by
          rw [hun]
          have h1 : be / (be + al) = (be / al) / (be / al + 1) := by
            have : be / al + 1 = (be + al) / al := by field_simp
            rw [this, div_div_div_cancel_right₀ hal0]
          rw [h1]; positivity
        have hk3 : 0 < al / un o d im nxt := by
          rw [hun]
          have h1 : al / (be + al) = 1 / (be / al + 1) := by
            have : be / al + 1 = (be + al) / al := by field_simp
            rw [this, one_div_div]
          rw [h1]; positivity
        refine ⟨hon, ⟨_, hk2, hnx⟩, ?_⟩
        rw [eucl_eq_nrm, eucl_eq_nrm, eucl_eq_nrm, hpi, hnx, nrm_smul, nrm_smul, abs_of_pos hk2,
          abs_of_pos hk3, ← add_mul, ← add_div, hun, add_comm al be, div_self (by rw [← hun]; exact hg), one_mul]
      · intro _
        rw [hgam, hs]
        have hsq : 0 < al ^ 2 := by positivity
        have e : m * al * be = (m * (be / al)) * al ^ 2 := by field_simp
        rw [e]
        constructor
        · intro h
          have h' : 0 < m * (be / al) := by
            by_contra hc
            have := mul_nonpos_of_nonpos_of_nonneg (not_lt.mp hc) hsq.le
            linarith
          rcases mul_pos_iff.mp h' with ⟨h1, h2⟩ | ⟨h1, h2⟩
          · rw [sgn_pos h1, sgn_pos h2]; norm_num
          · rw [sgn_neg h1, sgn_neg h2]; norm_num
        · intro h
          have h' : m * (be / al) < 0 := by
            by_contra hc
            have := mul_nonneg (not_lt.mp hc) hsq.le
            linarith
          rcases mul_neg_iff.mp h' with ⟨h1, h2⟩ | ⟨h1, h2⟩
          · rw [sgn_pos h1, sgn_neg h2]; norm_num
          · rw [sgn_neg h1, sgn_pos h2]; norm_num

end DiffeRT2d
