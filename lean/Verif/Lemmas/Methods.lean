import Verif.Lemmas.Specular
import Verif.Spec.Methods
import Verif.Props.Objectives

/-! # Lemmas to compare the path tracing methods -/

namespace DiffeRT2d
open Classical Spec

/-- Equality in the triangle inequality: the three points are on a line. -/
theorem eucl_eq_cross {a b c : Pt} (h : eucl a b + eucl b c ≤ eucl a c) :
    (b.x - a.x) * (c.y - a.y) = (b.y - a.y) * (c.x - a.x) := by
  rw [eucl_eq_nrm, eucl_eq_nrm, eucl_eq_nrm] at h
  have h1 := nrm_sq (b - a)
  have h2 := nrm_sq (c - b)
  have h3 := nrm_sq (c - a)
  have h4 := nrm_nonneg (b - a)
  have h5 := nrm_nonneg (c - b)
  have h6 := nrm_nonneg (c - a)
  have hc := cauchy (b - a) (c - b)
  simp only [V2.sub_x, V2.sub_y] at *
  have h7 : nrm (b - a) * nrm (c - b) ≤ (b.x - a.x) * (c.x - b.x) + (b.y - a.y) * (c.y - b.y) := by
    have : (nrm (b - a) + nrm (c - b)) * (nrm (b - a) + nrm (c - b)) ≤ nrm (c - a) * nrm (c - a) := mul_self_le_mul_self (by linarith) h
    nlinarith
  have h8 : ((b.x - a.x) * (c.y - a.y) - (b.y - a.y) * (c.x - a.x)) ^ 2 = 0 := by
    have e : nrm (b - a) * nrm (c - b) = (b.x - a.x) * (c.x - b.x) + (b.y - a.y) * (c.y - b.y) := le_antisymm h7 hc
    have e2 : (nrm (b - a) * nrm (b - a)) * (nrm (c - b) * nrm (c - b)) = ((b.x - a.x) * (c.x - b.x) + (b.y - a.y) * (c.y - b.y)) ^ 2 := by
      rw [← e]; ring
    rw [h1, h2] at e2
    linear_combination e2
  have := pow_eq_zero_iff (two_ne_zero) |>.mp h8
  linarith

theorem polyLength_cons_app (a q : Pt) (rest : List Pt) (rx : Pt) :
    polyLength (a :: (q :: rest) ++ [rx]) = eucl a q + polyLength (q :: rest ++ [rx]) := by simp [polyLength]

theorem polyLength_head (a : Pt) (rest : List Pt) (rx : Pt) :
    polyLength (a :: rest ++ [rx]) = eucl a (rest.headD rx) + polyLength (rest ++ [rx]) := by
  cases rest <;> simp [polyLength]

/-- A specular path is strictly shorter than any other polyline over the same lines. -/
theorem shortest_unique (ws : List RWall) (hnd : ∀ w ∈ ws, w.1 ≠ w.2) (img rx prev : Pt) (qs qs' : List Pt) (m : ℝ)
    (hm : 0 < m) (hlen : qs.length = ws.length)
    (hprev : qs.headD rx - prev = V2.smul m (qs.headD rx - img))
    (hc : ReflChain ws (prev :: qs ++ [rx]))
    (hq : List.Forall₂ (fun w p => dp (p - w.1) (rn w.1 w.2) = 0) ws qs')
    (hle : polyLength (img :: qs' ++ [rx]) ≤ eucl (rimgs img ws) rx) : qs' = qs := by
  induction ws generalizing img prev qs qs' m with
  | nil =>
    have : qs = [] := List.length_eq_zero_iff.mp (by simpa using hlen)
    subst this; cases hq; rfl
  | cons w ws ih =>
    match qs, hlen with
    | q :: rest, hlen =>
      cases hq with
      | @cons _ q' _ rest' hon' hq =>
      rw [reflChain_cons] at hc
      obtain ⟨hr, hc⟩ := hc
      obtain ⟨hon, hne, k, hk, hkv⟩ := reflects_aligned (hnd w (by simp)) hr
      simp only [List.headD_cons] at hprev
      have hrimg := refl_sub hon img
      have hq'im := eucl_rimg hon' img
      have hdp := dp_rimg w.1 w.2 img
      have hrs : rimgs img (w :: ws) = rimgs (rimg w.1 w.2 img) ws := by simp [rimgs]
      rw [hrs] at hle
      set n := rn w.1 w.2 with hn
      set im := rimg w.1 w.2 img with him
      have hkm : 0 < k * m := mul_pos hk hm
      have e1 : rest.headD rx - q = V2.smul (k * m) (q - im) := by
        rw [hkv, hprev, ← hrimg]
        ext <;> simp only [refl, dp, V2.smul_x, V2.smul_y] <;> ring
      have e2 : rest.headD rx - q = V2.smul (k * m / (k * m + 1)) (rest.headD rx - im) := by
        have hx := congrArg V2.x e1
        have hy := congrArg V2.y e1
        simp only [V2.sub_x, V2.sub_y, V2.smul_x, V2.smul_y] at hx hy
        ext
        · simp only [V2.sub_x, V2.smul_x]; field_simp; linear_combination hx
        · simp only [V2.sub_y, V2.smul_y]; field_simp; linear_combination hy
      rw [polyLength_cons_app, ← hq'im, polyLength_head] at hle
      have hrest : rest' = rest := by
        refine ih (fun v hv => hnd v (by simp [hv])) im q rest rest' (k * m / (k * m + 1)) (by positivity) (by simpa using hlen) e2 hc hq ?_
        rw [polyLength_head]
        have := eucl_triangle im q' (rest'.headD rx)
        linarith
      subst hrest
      have hlow := unfold_le ws im rx rest' hq
      rw [polyLength_head] at hlow
      have hcr := eucl_eq_cross (a := im) (b := q') (c := rest'.headD rx) (by linarith)
      congr 1
      set nxt := rest'.headD rx with hnxt
      have h2 : dp (q - im) n = -dp (q - img) n := by
        simp only [dp, V2.sub_x, V2.sub_y] at hdp hon ⊢; linear_combination 2 * hon - hdp
      have h3 : dp (q - prev) n = m * dp (q - img) n := by rw [hprev]; simp only [dp, V2.smul_x, V2.smul_y]; ring
      have hx := congrArg V2.x e1
      have hy := congrArg V2.y e1
      simp only [V2.sub_x, V2.sub_y, V2.smul_x, V2.smul_y] at hx hy
      have hun : dp (q - im) n ≠ 0 := by
        rw [h2]; intro h0; apply hne; rw [h3, neg_eq_zero.mp h0, mul_zero]
      -- both q and q' are on the line of the wall and on the line from im to nxt
      have hcr' : (q'.x - im.x) * (q.y - im.y) = (q'.y - im.y) * (q.x - im.x) := by
        have hx' : nxt.x - im.x = (k * m + 1) * (q.x - im.x) := by linear_combination hx
        have hy' : nxt.y - im.y = (k * m + 1) * (q.y - im.y) := by linear_combination hy
        rw [hx', hy'] at hcr
        have : (k * m + 1) ≠ 0 := by positivity
        apply mul_left_cancel₀ this
        linear_combination hcr
      have hd : (q'.x - q.x) * n.x + (q'.y - q.y) * n.y = 0 := by
        simp only [dp, V2.sub_x, V2.sub_y] at hon hon'
        linear_combination hon' - hon
      simp only [dp, V2.sub_x, V2.sub_y] at hun
      -- (q' - q) is parallel to (q - im) and orthogonal to n
      have hp : (q'.x - q.x) * (q.y - im.y) = (q'.y - q.y) * (q.x - im.x) := by linear_combination hcr'
      refine V2.ext ?_ ?_
      · have : (q'.x - q.x) * ((q.x - im.x) * n.x + (q.y - im.y) * n.y) = 0 := by
          linear_combination (q.x - im.x) * hd + n.y * hp
        have := (mul_eq_zero.mp this).resolve_right hun
        linarith
      · have : (q'.y - q.y) * ((q.x - im.x) * n.x + (q.y - im.y) * n.y) = 0 := by
          linear_combination (q.y - im.y) * hd - n.x * hp
        have := (mul_eq_zero.mp this).resolve_right hun
        linarith

/-! ## Drift -/

theorem driftPts_cons (e : ℝ) (k : ℕ) (p : Pt) (ps : List Pt) : driftPts e k (p :: ps) = drift e k p :: driftPts e (k + 1) ps := by
  simp [driftPts, List.zipIdx_cons]

theorem driftPts_append (e : ℝ) (k : ℕ) (ps qs : List Pt) : driftPts e k (ps ++ qs) = driftPts e k ps ++ driftPts e (k + ps.length) qs := by
  simp [driftPts, List.zipIdx_append]

theorem driftPts_length (e : ℝ) (k : ℕ) (ps : List Pt) : (driftPts e k ps).length = ps.length := by simp [driftPts]

theorem drift_zero (e : ℝ) (p : Pt) : drift e 0 p = p := by ext <;> simp [drift]

theorem plen_drift (e : ℝ) (k : ℕ) (ps : List Pt) : plen e ps = polyLength (driftPts e k ps) := by
  induction ps generalizing k with
  | nil => rfl
  | cons p ps ih =>
    cases ps with
    | nil => simp [plen, driftPts, polyLength]
    | cons q ps =>
      rw [driftPts_cons, driftPts_cons, polyLength, plen, ih (k + 1), driftPts_cons, eucl_eq_nrm]
      congr 2
      ext <;> simp [drift] <;> ring

theorem drift_pointAt (e : ℝ) (k : ℕ) (a b : Pt) (s : ℝ) : drift e k (pointAt a b s) = pointAt (drift e k a) (drift e k b) s := by
  ext <;> simp [drift, pointAt] <;> ring

/-- Walls numbered from `k`. -/
def driftWallsFrom (e : ℝ) (k : ℕ) (ws : List (Pt × Pt)) : List (Pt × Pt) := (ws.zipIdx k).map fun w => (drift e w.2 w.1.1, drift e w.2 w.1.2)

theorem driftPts_pointsAt (e : ℝ) (k : ℕ) (ws : List (Pt × Pt)) (θ : List ℝ) :
    driftPts e k (pointsAt ws θ) = pointsAt (driftWallsFrom e k ws) θ := by
  induction ws generalizing k θ with
  | nil => rfl
  | cons w ws ih =>
    cases θ with
    | nil => simp [pointsAt, driftPts, driftWallsFrom]
    | cons s θ =>
      have e1 : pointsAt (w :: ws) (s :: θ) = pointAt w.1 w.2 s :: pointsAt ws θ := rfl
      have e2 : driftWallsFrom e k (w :: ws) = (drift e k w.1, drift e k w.2) :: driftWallsFrom e (k + 1) ws := by
        simp [driftWallsFrom, List.zipIdx_cons]
      rw [e1, e2, driftPts_cons, ih, drift_pointAt]; rfl

theorem drift_inj {e : ℝ} {k : ℕ} {p q : Pt} (h : drift e k p = drift e k q) : p = q := by
  have hx := congrArg V2.x h
  have hy := congrArg V2.y h
  simp only [drift] at hx hy
  exact V2.ext (by linarith) (by linarith)

theorem place_pointsAt (ws : List (Pt × Pt)) (θ : List ℝ) (h : θ.length = ws.length) :
    place (ws.map fun w => Shape.wall w.1 w.2) θ = pointsAt ws θ := by
  induction ws generalizing θ with
  | nil => rfl
  | cons w ws ih =>
    cases θ with
    | nil => simp at h
    | cons a θ => simp only [List.map_cons, place, List.headD_cons, List.tail_cons, ih θ (by simpa using h)]; rfl

theorem pointsAt_on (ws : List (Pt × Pt)) (θ : List ℝ) (h : θ.length = ws.length) :
    List.Forall₂ (fun w p => OnLine w.1 w.2 p) ws (pointsAt ws θ) := by
  rw [← place_pointsAt ws θ h]; exact Props.place_on ws θ h

theorem exists_params {ws : List (Pt × Pt)} {qs : List Pt} (h : List.Forall₂ (fun w p => OnLine w.1 w.2 p) ws qs) :
    ∃ θ : List ℝ, θ.length = ws.length ∧ pointsAt ws θ = qs := by
  induction h with
  | nil => exact ⟨[], rfl, rfl⟩
  | @cons w q ws qs hw _ ih =>
    obtain ⟨s, rfl⟩ := hw
    obtain ⟨θ, h1, h2⟩ := ih
    exact ⟨s :: θ, by simp [h1], by rw [← h2]; rfl⟩

end DiffeRT2d
