import Verif.Lemmas.ImageScore

/-! Image paths: scores of all interactions, minimal length. -/

namespace DiffeRT2d
open Classical Spec

/-- Image through all walls. -/
noncomputable def rimgs (p : Pt) (ws : List RWall) : Pt := ws.foldl (fun p w => rimg w.1 w.2 p) p

theorem rimg_isometry (o d p q : Pt) : eucl (rimg o d p) (rimg o d q) = eucl p q := by
  unfold eucl; congr 1
  rcases rn_sq_cases o d with hs | h0
  · simp only [dp, rimg, V2.sub_x, V2.sub_y] at *
    linear_combination (4 * ((q.x - p.x) * (rn o d).x + (q.y - p.y) * (rn o d).y) ^ 2) * hs
  · simp [rimg, h0]

theorem rimgs_isometry (p q : Pt) (ws : List RWall) : eucl (rimgs p ws) (rimgs q ws) = eucl p q := by
  induction ws generalizing p q with
  | nil => rfl
  | cons w ws ih => simp only [rimgs, List.foldl_cons] at ih ⊢; rw [ih, rimg_isometry]

theorem rimg_fix {o d p : Pt} (h : dp (p - o) (rn o d) = 0) : rimg o d p = p := by
  ext <;> simp only [rimg, h] <;> ring

theorem eucl_rimg {o d p : Pt} (h : dp (p - o) (rn o d) = 0) (q : Pt) : eucl (rimg o d q) p = eucl q p := by
  have := rimg_isometry o d q p
  rwa [rimg_fix h] at this

theorem scores_cons (w : RWall) (ws : List RWall) (prev p : Pt) (rest : List Pt) (rx : Pt) :
    scores (w :: ws) (prev :: (p :: rest) ++ [rx]) =
      reval w.1 w.2 prev p (rest.headD rx) :: scores ws (p :: rest ++ [rx]) := by
  cases rest <;> simp [scores]

theorem rback_param (o d im nxt : Pt) : ∃ k, nxt - rback o d im nxt = V2.smul k (nxt - im) := by
  by_cases h : un o d im nxt = 0
  · exact ⟨0, by rw [rback_guard h]; ext <;> simp⟩
  · exact ⟨_, rback_next h⟩

theorem scores_mem (ws : List RWall) (img rx prev : Pt) (m : ℝ)
    (hprev : (rpts img rx ws).headD rx - prev = V2.smul m ((rpts img rx ws).headD rx - img)) :
    ∀ s ∈ scores ws (prev :: rpts img rx ws ++ [rx]), s = 0 ∨ s = 1 ∨ s = 4 := by
  induction ws generalizing img prev m with
  | nil => simp [scores]
  | cons w ws ih =>
    simp only [rpts, List.headD_cons] at hprev ⊢
    rw [scores_cons]
    intro s hs
    rcases List.mem_cons.mp hs with rfl | hs
    · exact (interaction w.1 w.2 img _ prev m hprev).1
    · obtain ⟨k, hk⟩ := rback_param w.1 w.2 (rimg w.1 w.2 img) ((rpts (rimg w.1 w.2 img) rx ws).headD rx)
      exact ih _ _ k hk s hs

theorem scores_zero (ws : List RWall) (img rx prev : Pt) (m : ℝ) (hm : 0 < m)
    (hprev : (rpts img rx ws).headD rx - prev = V2.smul m ((rpts img rx ws).headD rx - img))
    (h0 : ∀ s ∈ scores ws (prev :: rpts img rx ws ++ [rx]), s = 0) :
    List.Forall₂ (fun w p => dp (p - w.1) (rn w.1 w.2) = 0) ws (rpts img rx ws) ∧
    eucl img ((rpts img rx ws).headD rx) + polyLength (rpts img rx ws ++ [rx]) = eucl (rimgs img ws) rx := by
  induction ws generalizing img prev m with
  | nil => simp [rpts, rimgs, polyLength]
  | cons w ws ih =>
    simp only [rpts, List.headD_cons] at hprev h0 ⊢
    rw [scores_cons] at h0
    obtain ⟨hon, ⟨k, hk, hnx⟩, hlen⟩ := (interaction w.1 w.2 img _ prev m hprev).2.1 hm (h0 _ (by simp))
    obtain ⟨h1, h2⟩ := ih (rimg w.1 w.2 img) _ k hk hnx (fun s hs => h0 s (by simp only [List.mem_cons]; exact .inr hs))
    refine ⟨List.Forall₂.cons hon h1, ?_⟩
    rw [← eucl_rimg hon img]
    have hp : ∀ (a : Pt) (rest : List Pt), polyLength (a :: rest ++ [rx]) =
        eucl a (rest.headD rx) + polyLength (rest ++ [rx]) := by
      intro a rest; cases rest <;> simp [polyLength]
    rw [hp]
    simp only [rimgs, List.foldl_cons] at h2 ⊢
    rw [← h2, ← hlen]; ring

theorem sum_small {xs : List ℝ} (h : ∀ s ∈ xs, s = 0 ∨ s = 1 ∨ s = 4) (hs : xs.sum < 1) : ∀ s ∈ xs, s = 0 := by
  have hnn : ∀ s ∈ xs, 0 ≤ s := by
    intro s hs; rcases h s hs with rfl | rfl | rfl <;> norm_num
  intro s hm
  have := List.single_le_sum hnn s hm
  rcases h s hm with h | h | h
  · exact h
  · linarith
  · linarith

/-- Lower bound: any polyline touching the lines in order is at least as long as the unfolded path. -/
theorem unfold_le (ws : List RWall) (a rx : Pt) (qs : List Pt)
    (hq : List.Forall₂ (fun w p => dp (p - w.1) (rn w.1 w.2) = 0) ws qs) :
    eucl (rimgs a ws) rx ≤ polyLength (a :: qs ++ [rx]) := by
  induction hq generalizing a with
  | nil => simp [rimgs, polyLength]
  | @cons w q ws qs hon _ ih =>
    have hp : polyLength (a :: (q :: qs) ++ [rx]) = eucl a q + polyLength (q :: qs ++ [rx]) := by
      simp [polyLength]
    rw [hp]
    have h1 := ih q
    have h2 := rimgs_isometry (rimg w.1 w.2 a) q ws
    rw [eucl_rimg hon] at h2
    have h3 := eucl_triangle (rimgs (rimg w.1 w.2 a) ws) (rimgs q ws) rx
    simp only [rimgs, List.foldl_cons] at *
    linarith

theorem rpath_first (tx rx : Pt) (ws : List RWall) :
    (rpts tx rx ws).headD rx - tx = V2.smul 1 ((rpts tx rx ws).headD rx - tx) := by ext <;> simp

theorem scores_length (ws : List RWall) (pts : List Pt) (h : ws.length + 2 ≤ pts.length) :
    (scores ws pts).length = ws.length := by
  induction ws generalizing pts with
  | nil => rfl
  | cons w ws ih =>
    match pts, h with
    | a :: b :: c :: pts, h =>
      simp only [scores, List.length_cons]
      rw [ih]; simp at h ⊢; omega
    | [], h => simp at h
    | [_], h => simp at h
    | [_, _], h => simp at h

theorem scores_get (ws : List RWall) (pts : List Pt) (i : ℕ) (w : RWall) (a b c : Pt)
    (hw : ws[i]? = some w) (ha : pts[i]? = some a) (hb : pts[i + 1]? = some b) (hc : pts[i + 2]? = some c) :
    (scores ws pts)[i]? = some (reval w.1 w.2 a b c) := by
  induction i generalizing ws pts with
  | zero =>
    match ws, pts, hw, ha, hb, hc with
    | w' :: ws, a' :: b' :: c' :: pts, hw, ha, hb, hc =>
      simp at hw ha hb hc; subst hw ha hb hc; simp [scores]
  | succ i ih =>
    match ws, pts, hw, ha, hb, hc with
    | w' :: ws, a' :: b' :: c' :: pts, hw, ha, hb, hc =>
      simp only [scores, List.getElem?_cons_succ] at *
      exact ih ws (b' :: c' :: pts) hw ha hb hc
    | w' :: ws, [a'], hw, ha, hb, hc => simp at hb
    | w' :: ws, [a', b'], hw, ha, hb, hc => simp at hc

end DiffeRT2d
