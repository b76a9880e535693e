import Verif.Lemmas.ImagePath

/-! Index view, reciprocity and similarity invariance of the image method. -/

namespace DiffeRT2d
open Classical Spec

/-- Each interaction point is the backward step from the next point towards its image, and the
previous point is on the line from the previous image. -/
theorem rpts_index (ws : List RWall) (img rx prev : Pt) (m : ℝ)
    (hprev : (rpts img rx ws).headD rx - prev = V2.smul m ((rpts img rx ws).headD rx - img))
    (i : ℕ) (w : RWall) (a b c : Pt) (hw : ws[i]? = some w)
    (ha : (prev :: rpts img rx ws ++ [rx])[i]? = some a)
    (hb : (prev :: rpts img rx ws ++ [rx])[i + 1]? = some b)
    (hc : (prev :: rpts img rx ws ++ [rx])[i + 2]? = some c) :
    b = rback w.1 w.2 (rimg w.1 w.2 (rimgs img (ws.take i))) c ∧
    ∃ k, b - a = V2.smul k (b - rimgs img (ws.take i)) := by
  induction i generalizing ws img prev m with
  | zero =>
    cases ws with
    | nil => simp at hw
    | cons w' ws =>
      simp only [List.getElem?_cons_zero, Option.some.injEq] at hw; subst hw
      simp only [rpts, List.headD_cons] at hprev
      have e : ∀ (x y : Pt) (rest : List Pt), (x :: (y :: rest) ++ [rx])[0 + 2]? = some (rest.headD rx) := by
        intro x y rest; cases rest <;> simp
      simp only [rpts] at ha hb hc
      rw [e] at hc
      simp at ha hb hc
      subst ha hc
      rw [List.headD_eq_head?_getD] at hprev
      rw [hb] at hprev
      simp only [List.take_zero, rimgs, List.foldl_nil]
      exact ⟨hb.symm, m, hprev⟩
  | succ i ih =>
    cases ws with
    | nil => simp at hw
    | cons w' ws =>
      obtain ⟨k, hk⟩ := rback_param w'.1 w'.2 (rimg w'.1 w'.2 img) ((rpts (rimg w'.1 w'.2 img) rx ws).headD rx)
      have := ih ws (rimg w'.1 w'.2 img) _ k hk (by simpa using hw)
        (by simpa [rpts] using ha) (by simpa [rpts] using hb) (by simpa [rpts] using hc)
      simpa [rimgs] using this

/-! ### Reciprocity -/

/-- No guarded denominator vanishes. -/
noncomputable def Unguarded (img rx : Pt) : List RWall → Prop
  | [] => True
  | w :: ws => un w.1 w.2 (rimg w.1 w.2 img) ((rpts (rimg w.1 w.2 img) rx ws).headD rx) ≠ 0 ∧
      Unguarded (rimg w.1 w.2 img) rx ws

theorem rimgs_append (p : Pt) (ws : List RWall) (w : RWall) :
    rimgs p (ws ++ [w]) = rimg w.1 w.2 (rimgs p ws) := by simp [rimgs]

theorem rpts_snoc (a b : Pt) (ws : List RWall) (w : RWall) :
    rpts a b (ws ++ [w]) = rpts a (rback w.1 w.2 (rimgs a (ws ++ [w])) b) ws ++
      [rback w.1 w.2 (rimgs a (ws ++ [w])) b] := by
  induction ws generalizing a with
  | nil => simp [rpts, rimgs]
  | cons v ws ih =>
    have e : rimgs a (v :: ws ++ [w]) = rimgs (rimg v.1 v.2 a) (ws ++ [w]) := by simp [rimgs]
    simp only [List.cons_append, rpts] at e ⊢
    rw [ih (rimg v.1 v.2 a), e]
    congr 2
    cases rpts (rimg v.1 v.2 a) (rback w.1 w.2 (rimgs (rimg v.1 v.2 a) (ws ++ [w])) b) ws <;> simp

theorem unguarded_snoc (a b : Pt) (ws : List RWall) (w : RWall) :
    Unguarded a b (ws ++ [w]) ↔ un w.1 w.2 (rimgs a (ws ++ [w])) b ≠ 0 ∧
      Unguarded a (rback w.1 w.2 (rimgs a (ws ++ [w])) b) ws := by
  induction ws generalizing a with
  | nil => simp [Unguarded, rpts, rimgs]
  | cons v ws ih =>
    have e : rimgs a (v :: ws ++ [w]) = rimgs (rimg v.1 v.2 a) (ws ++ [w]) := by simp [rimgs]
    simp only [List.cons_append, Unguarded] at e ⊢
    rw [ih, e, rpts_snoc]
    have : ∀ (l : List Pt) (x y : Pt), (l ++ [x]).headD y = l.headD x := by
      intro l x y; cases l <;> simp
    rw [this]
    tauto

/-- The basic symmetry: mirroring the one or the other end gives the same point. -/
theorem rback_swap (o d p q : Pt) (h : un o d (rimg o d p) q ≠ 0) :
    un o d (rimg o d q) p ≠ 0 ∧ rback o d (rimg o d q) p = rback o d (rimg o d p) q := by
  have e1 := un_rimg o d p q
  have e2 := un_rimg o d q p
  have h' : un o d (rimg o d q) p ≠ 0 := by rw [e2, add_comm, ← e1]; exact h
  refine ⟨h', ?_⟩
  rw [rback, if_neg h', rback, if_neg h]
  have ho1 : dp (o - p) (rn o d) = -dp (p - o) (rn o d) := by simp [dp]; ring
  have ho2 : dp (o - q) (rn o d) = -dp (q - o) (rn o d) := by simp [dp]; ring
  rw [ho1, ho2, e1, e2]
  rw [e1] at h; rw [e2] at h'
  ext
  · simp only [V2.sub_x, rimg]; field_simp; ring
  · simp only [V2.sub_y, rimg]; field_simp; ring

/-- Moving the target along the ray from the image does not change the point. -/
theorem rback_ray (o d im x y : Pt) (s : ℝ) (hx : x - im = V2.smul s (y - im)) (h : un o d im x ≠ 0) :
    un o d im y ≠ 0 ∧ rback o d im x = rback o d im y := by
  have e : un o d im x = s * un o d im y := by
    simp only [un, hx]; simp [dp]; ring
  have hs : s ≠ 0 := by rintro rfl; apply h; rw [e, zero_mul]
  have hy : un o d im y ≠ 0 := by intro h0; apply h; rw [e, h0, mul_zero]
  refine ⟨hy, ?_⟩
  have h1 := rback_image h
  have h2 := rback_image hy
  have h3 : rback o d im x - im = rback o d im y - im := by
    rw [h1, h2, hx, e]; ext <;> simp <;> field_simp
  have hx' := congrArg V2.x h3
  have hy' := congrArg V2.y h3
  simp only [V2.sub_x, V2.sub_y] at hx' hy'
  exact V2.ext (by linarith) (by linarith)

/-- The first point of an unguarded image path is on the ray towards the total image of the receiver. -/
theorem first_on_ray (ws : List RWall) (tx rx : Pt) (h : Unguarded tx rx ws) :
    (∃ s, (rpts tx rx ws).headD rx - tx = V2.smul s (rimgs rx ws.reverse - tx)) ∧
    (∀ w ws', ws = w :: ws' →
      un w.1 w.2 (rimgs rx ws.reverse) tx ≠ 0 ∧
      (rpts tx rx ws).headD rx = rback w.1 w.2 (rimgs rx ws.reverse) tx) := by
  induction ws generalizing tx with
  | nil => exact ⟨⟨1, by simp [rpts, rimgs]; ext <;> simp⟩, by simp⟩
  | cons w ws ih =>
    obtain ⟨hg, hu⟩ := h
    obtain ⟨⟨s, hs⟩, -⟩ := ih _ hu
    obtain ⟨hg', he⟩ := rback_ray w.1 w.2 (rimg w.1 w.2 tx) _ (rimgs rx ws.reverse) s hs hg
    obtain ⟨hg2, he2⟩ := rback_swap w.1 w.2 tx _ hg'
    have hK : rimgs rx (w :: ws).reverse = rimg w.1 w.2 (rimgs rx ws.reverse) := by
      rw [List.reverse_cons, rimgs_append]
    have hhd : (rpts tx rx (w :: ws)).headD rx = rback w.1 w.2 (rimgs rx (w :: ws).reverse) tx := by
      simp only [rpts, List.headD_cons]; rw [he, hK, he2]
    refine ⟨?_, ?_⟩
    · rw [hhd]
      rw [← hK] at hg2
      have h3 := rback_next hg2
      refine ⟨dp (tx - w.1) (rn w.1 w.2) / un w.1 w.2 (rimgs rx (w :: ws).reverse) tx, ?_⟩
      have hx := congrArg V2.x h3
      have hy := congrArg V2.y h3
      simp only [V2.sub_x, V2.sub_y, V2.smul_x, V2.smul_y] at hx hy
      ext
      · simp only [V2.sub_x, V2.smul_x]; linarith
      · simp only [V2.sub_y, V2.smul_y]; linarith
    · rintro w' ws' e
      injection e with e1 e2; subst e1 e2
      rw [← hK] at hg2
      exact ⟨hg2, hhd⟩

/-- Reciprocity of the image method. -/
theorem rpts_reverse (ws : List RWall) (tx rx : Pt) (h : Unguarded tx rx ws)
    (h' : Unguarded rx tx ws.reverse) : rpts rx tx ws.reverse = (rpts tx rx ws).reverse := by
  induction ws generalizing tx with
  | nil => rfl
  | cons w ws ih =>
    obtain ⟨-, hf⟩ := first_on_ray (w :: ws) tx rx h
    obtain ⟨-, hq⟩ := hf w ws rfl
    obtain ⟨hg, hu⟩ := h
    rw [List.reverse_cons, unguarded_snoc] at h'
    rw [List.reverse_cons, rpts_snoc]
    rw [List.reverse_cons] at hq
    simp only [rpts, List.headD_cons] at hq ⊢
    rw [← hq] at h' ⊢
    rw [List.reverse_cons]
    congr 1
    -- remaining: moving the receiver of the reverse path from the image to the first point
    set im := rimg w.1 w.2 tx
    set p1 := rback w.1 w.2 im ((rpts im rx ws).headD rx)
    cases ws with
    | nil => rfl
    | cons v ws =>
      obtain ⟨-, hf'⟩ := first_on_ray (v :: ws) im rx hu
      obtain ⟨hgv, hqv⟩ := hf' v ws rfl
      have hrev := h'.2
      rw [List.reverse_cons, unguarded_snoc] at hrev
      rw [List.reverse_cons] at hgv hqv
      set J := rimgs rx (ws.reverse ++ [v])
      -- p1 is on the line through im and J
      have hline : ∃ s, p1 - J = V2.smul s (im - J) := by
        have h3 := rback_image hg
        have h4 := rback_next hgv
        rw [← hqv] at h4
        refine ⟨1 - (-dp (im - w.1) (rn w.1 w.2) / un w.1 w.2 im ((rpts im rx (v :: ws)).headD rx)) *
          (dp (im - v.1) (rn v.1 v.2) / un v.1 v.2 J im), ?_⟩
        have hx := congrArg V2.x h3
        have hy := congrArg V2.y h3
        have hx' := congrArg V2.x h4
        have hy' := congrArg V2.y h4
        simp only [V2.sub_x, V2.sub_y, V2.smul_x, V2.smul_y] at hx hy hx' hy'
        ext
        · simp only [V2.sub_x, V2.smul_x]
          linear_combination hx - (-dp (im - w.1) (rn w.1 w.2) / un w.1 w.2 im ((rpts im rx (v :: ws)).headD rx)) * hx'
        · simp only [V2.sub_y, V2.smul_y]
          linear_combination hy - (-dp (im - w.1) (rn w.1 w.2) / un w.1 w.2 im ((rpts im rx (v :: ws)).headD rx)) * hy'
      obtain ⟨s, hs⟩ := hline
      obtain ⟨hgi, hei⟩ := rback_ray v.1 v.2 J p1 im s hs hrev.1
      have hmove : rpts rx p1 (v :: ws).reverse = rpts rx im (v :: ws).reverse := by
        rw [List.reverse_cons, rpts_snoc, rpts_snoc]
        rw [show rback v.1 v.2 (rimgs rx (ws.reverse ++ [v])) p1 =
          rback v.1 v.2 (rimgs rx (ws.reverse ++ [v])) im from hei]
      rw [hmove]
      apply ih im hu
      rw [List.reverse_cons, unguarded_snoc]
      refine ⟨hgi, ?_⟩
      have := hrev.2
      rw [show rback v.1 v.2 (rimgs rx (ws.reverse ++ [v])) p1 =
          rback v.1 v.2 (rimgs rx (ws.reverse ++ [v])) im from hei] at this
      exact this

theorem reval_reverse (o d a b c : Pt) : reval o d c b a = reval o d a b c := by
  rw [reval_eq, reval_eq]
  have e1 : b - c = -(c - b) := by ext <;> simp
  have e2 : a - b = -(b - a) := by ext <;> simp
  rw [e1, e2, unit_neg, unit_neg]
  simp only [dp, V2.neg_x, V2.neg_y]; ring

theorem scores_snoc (ws : List RWall) (w : RWall) (pts : List Pt) (a b c : Pt)
    (h : pts.length = ws.length) :
    scores (ws ++ [w]) (pts ++ [a, b, c]) = scores ws (pts ++ [a, b]) ++ [reval w.1 w.2 a b c] := by
  induction ws generalizing pts with
  | nil =>
    have : pts = [] := List.length_eq_zero_iff.mp (by simpa using h)
    subst this; simp [scores]
  | cons v ws ih =>
    match pts, h with
    | [x], h => simp at h; subst h; simp [scores]
    | [x, y], h =>
      match ws, h with
      | [u], _ => simp [scores]
    | x :: y :: z :: pts, h =>
      have := ih (y :: z :: pts) (by simpa using h)
      simp only [List.cons_append, scores] at this ⊢
      rw [this]

theorem scores_reverse (ws : List RWall) (pts : List Pt) (h : pts.length = ws.length + 2) :
    scores ws.reverse pts.reverse = (scores ws pts).reverse := by
  induction ws generalizing pts with
  | nil => simp [scores]
  | cons w ws ih =>
    match pts, h with
    | a :: b :: c :: pts, h =>
      have h1 := ih (b :: c :: pts) (by simpa using h)
      simp only [scores, List.reverse_cons, List.append_assoc, List.singleton_append] at h1 ⊢
      rw [List.cons_append, List.singleton_append, scores_snoc _ _ _ _ _ _ (by simp at h ⊢; omega)]
      rw [h1, reval_reverse]

/-! ### Similarity -/

/-- Image of a wall under a similarity. -/
def mapW (f : Affine) (w : RWall) : RWall := (f.app w.1, f.app w.2)

namespace Spec.Affine.Similarity
variable {f : Affine} {k : ℝ} (h : f.Similarity k)
include h

theorem dp_app {σ : ℝ} (hr : ∀ o d, rn (f.app o) (f.app d) = V2.smul (σ / k) (lin f (rn o d))) (o d p q : Pt) :
    dp (f.app q - f.app p) (rn (f.app o) (f.app d)) = σ * k * dp (q - p) (rn o d) := by
  have hk := h.pos.ne'
  have e : ∀ (c : ℝ) (u v : Pt), dp u (V2.smul c v) = c * dp u v := by
    intro c u v; simp [dp]; ring
  rw [app_sub, hr, e, h.dp_lin]; field_simp

theorem rimg_app (o d p : Pt) : rimg (f.app o) (f.app d) (f.app p) = f.app (rimg o d p) := by
  obtain ⟨σ, h1, hr⟩ := h.rn_app
  have hk := h.pos.ne'
  have e := h.dp_app hr o d o p
  have e1 : (f.app p).x - 2 * (σ * k * dp (p - o) (rn o d)) * (σ / k * (lin f (rn o d)).x) =
      (f.app p).x - 2 * dp (p - o) (rn o d) * (lin f (rn o d)).x := by
    field_simp; linear_combination (-(2 * dp (p - o) (rn o d) * (lin f (rn o d)).x)) * h1
  have e2 : (f.app p).y - 2 * (σ * k * dp (p - o) (rn o d)) * (σ / k * (lin f (rn o d)).y) =
      (f.app p).y - 2 * dp (p - o) (rn o d) * (lin f (rn o d)).y := by
    field_simp; linear_combination (-(2 * dp (p - o) (rn o d) * (lin f (rn o d)).y)) * h1
  ext
  · simp only [rimg, e]; rw [hr]; simp only [V2.smul_x]; rw [e1]
    simp only [Affine.app, lin]; ring
  · simp only [rimg, e]; rw [hr]; simp only [V2.smul_y]; rw [e2]
    simp only [Affine.app, lin]; ring

theorem rback_app (o d im pt : Pt) :
    rback (f.app o) (f.app d) (f.app im) (f.app pt) = f.app (rback o d im pt) := by
  obtain ⟨σ, h1, hr⟩ := h.rn_app
  have hk := h.pos.ne'
  have hσ : σ ≠ 0 := by rintro rfl; norm_num at h1
  have e1 : un (f.app o) (f.app d) (f.app im) (f.app pt) = σ * k * un o d im pt := h.dp_app hr o d im pt
  have e2 : dp (f.app o - f.app pt) (rn (f.app o) (f.app d)) = σ * k * dp (o - pt) (rn o d) :=
    h.dp_app hr o d pt o
  have hz : un (f.app o) (f.app d) (f.app im) (f.app pt) = 0 ↔ un o d im pt = 0 := by
    rw [e1]; simp [hσ, hk]
  by_cases hg : un o d im pt = 0
  · rw [rback_guard hg, rback_guard (hz.mpr hg)]
  · have hg' := fun e => hg (hz.mp e)
    rw [rback, if_neg hg', rback, if_neg hg, e1, e2]
    ext
    · simp only [V2.sub_x, V2.sub_y, Affine.app]; field_simp; ring
    · simp only [V2.sub_x, V2.sub_y, Affine.app]; field_simp; ring

theorem rpts_app (tx rx : Pt) (ws : List RWall) :
    rpts (f.app tx) (f.app rx) (ws.map (mapW f)) = (rpts tx rx ws).map f.app := by
  induction ws generalizing tx with
  | nil => rfl
  | cons w ws ih =>
    simp only [List.map_cons, rpts, mapW]
    rw [h.rimg_app, ih, headD_map, h.rback_app]

theorem scores_app (ws : List RWall) (pts : List Pt) :
    scores (ws.map (mapW f)) (pts.map f.app) = scores ws pts := by
  induction ws generalizing pts with
  | nil => simp [scores]
  | cons w ws ih =>
    match pts with
    | [] => simp [scores]
    | [_] => simp [scores]
    | [_, _] => simp [scores]
    | a :: b :: c :: pts =>
      have := ih (b :: c :: pts)
      simp only [List.map_cons, scores, mapW] at this ⊢
      rw [h.reval_app, this]

theorem rpar_app (o d p : Pt) : rpar (f.app o) (f.app d) (f.app p) = rpar o d p := by
  have hk : k ^ 2 ≠ 0 := pow_ne_zero 2 h.pos.ne'
  unfold rpar
  rw [app_sub, app_sub, h.dp_lin, h.dp_lin]
  by_cases h0 : dp (d - o) (d - o) = 0
  · have : o = d := (dp_self_eq_zero o d).mp h0
    subst this
    simp [dp]
  · rw [if_neg h0, if_neg (mul_ne_zero hk h0), mul_div_mul_left _ _ hk]

end Spec.Affine.Similarity

end DiffeRT2d
