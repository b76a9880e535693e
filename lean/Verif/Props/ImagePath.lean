import Verif.Spec.Paths
import Verif.Lemmas.ImageSym
import Verif.Props.Wall

/-! # Properties C30–C35: the image method -/

namespace DiffeRT2d.Props
open Classical Spec

theorem traceImage_eq (tx rx : Pt) (ws : List (Pt × Pt)) :
    traceImage tx ws rx = .ok (finitePath (rpath tx rx ws) (scores ws (rpath tx rx ws)).sum) := by
  have : wallsOf ws = (mkWalls ws).map Obj.wall := by simp [wallsOf, mkWalls]
  rw [traceImage, this, imagePath_fin]; rfl

theorem finitePath_inj {p q : List Pt} {l m : ℝ} (h : finitePath p l = finitePath q m) : p = q ∧ l = m := by
  simp only [finitePath, Path.mk.injEq, F.fin.injEq] at h
  refine ⟨?_, h.2⟩
  exact List.map_injective_iff.mpr (fun a b => V2.fin_inj.mp) h.1

theorem traceImage_iff {tx rx : Pt} {ws : List (Pt × Pt)} {pts : List Pt} {loss : ℝ}
    (h : traceImage tx ws rx = .ok (finitePath pts loss)) :
    pts = rpath tx rx ws ∧ loss = (scores ws pts).sum := by
  rw [traceImage_eq] at h
  obtain ⟨h1, h2⟩ := finitePath_inj (Except.ok.inj h)
  exact ⟨h1.symm, by rw [← h2, h1]⟩

theorem un_parallel (o d im pt : Pt) : un o d im pt = 0 ↔ Parallel o d im pt := by
  obtain ⟨l, hl, h1, h2⟩ := rn_scaled o d
  have e : l * un o d im pt = (d.y - o.y) * (pt.x - im.x) - (d.x - o.x) * (pt.y - im.y) := by
    simp only [un, dp, V2.sub_x, V2.sub_y]
    linear_combination (-(pt.x - im.x)) * h1 - (pt.y - im.y) * h2
  unfold Parallel
  constructor
  · intro h; rw [h, mul_zero] at e; linarith
  · intro h
    have : l * un o d im pt = 0 := by rw [e]; linarith
    rcases mul_eq_zero.mp this with h | h
    · exact absurd h hl.ne'
    · exact h

theorem mirror_rimg {o d p q : Pt} (h : o ≠ d) (hm : Mirror o d p q) : q = rimg o d p := by
  have := C16_unique o d p q h hm
  rw [imageOf_fin] at this
  exact (V2.fin_inj.mp this).symm

theorem mirror_self (o d p : Pt) (h : o ≠ d) : Mirror o d p (rimg o d p) := by
  obtain ⟨q, hq, hm⟩ := C16_mirror o d p h
  rw [imageOf_fin] at hq
  rwa [V2.fin_inj.mp hq]

theorem mirrorChain_get {p : Pt} {ws : List (Pt × Pt)} {imgs : List Pt} (hnd : ∀ w ∈ ws, w.1 ≠ w.2)
    (h : MirrorChain p ws imgs) {i : ℕ} {w : Pt × Pt} {q : Pt} (hw : ws[i]? = some w)
    (hq : imgs[i]? = some q) : q = rimg w.1 w.2 (rimgs p (ws.take i)) := by
  induction ws generalizing p imgs i with
  | nil => simp at hw
  | cons v ws ih =>
    cases imgs with
    | nil => simp at hq
    | cons r imgs =>
      obtain ⟨h1, h2⟩ := h
      have hr := mirror_rimg (hnd v (by simp)) h1
      cases i with
      | zero =>
        simp at hw hq; subst hw hq; simpa [rimgs] using hr
      | succ i =>
        simp at hw hq
        have := ih (fun w hw => hnd w (by simp [hw])) h2 hw hq
        rw [this, hr]; simp [rimgs]

theorem mirrorChain_last {p : Pt} {ws : List (Pt × Pt)} {imgs : List Pt} (hnd : ∀ w ∈ ws, w.1 ≠ w.2)
    (h : MirrorChain p ws imgs) : imgs.getLastD p = rimgs p ws := by
  induction ws generalizing p imgs with
  | nil => cases imgs with
    | nil => rfl
    | cons _ _ => exact absurd h (by simp [MirrorChain])
  | cons v ws ih =>
    cases imgs with
    | nil => exact absurd h (by simp [MirrorChain])
    | cons r imgs =>
      obtain ⟨h1, h2⟩ := h
      have hr := mirror_rimg (hnd v (by simp)) h1
      have := ih (fun w hw => hnd w (by simp [hw])) h2
      simp only [rimgs, List.foldl_cons, List.getLastD_cons] at this ⊢
      rw [this, hr]

/-- Mirror images exist. -/
theorem mirrorChain_exists (p : Pt) (ws : List (Pt × Pt)) (hnd : ∀ w ∈ ws, w.1 ≠ w.2) :
    ∃ imgs, MirrorChain p ws imgs := by
  induction ws generalizing p with
  | nil => exact ⟨[], trivial⟩
  | cons v ws ih =>
    obtain ⟨imgs, h⟩ := ih (rimg v.1 v.2 p) (fun w hw => hnd w (by simp [hw]))
    exact ⟨_ :: imgs, mirror_self _ _ _ (hnd v (by simp)), h⟩

/-! ## C33 — no NaN, no infinity -/

/-- For finite data — walls may be of zero length, parallel, or contain the transmitter or the
receiver — tracing succeeds and every coordinate and the loss are finite. -/
theorem C33_finite (tx rx : Pt) (ws : List (Pt × Pt)) :
    ∃ (inner : List Pt) (loss : ℝ), inner.length = ws.length ∧
      traceImage tx ws rx = .ok (finitePath (tx :: inner ++ [rx]) loss) :=
  ⟨rpts tx rx ws, _, rpts_length tx rx ws, traceImage_eq tx rx ws⟩

/-- The interaction scores of walls and RISs at finite points are finite, whatever the points. -/
theorem C33_evaluate_finite (o d a b c : Pt) (φ : ℝ) :
    (∃ l : ℝ, (Wall.ofPts o d).interact.evaluate (V2.fin a) (V2.fin b) (V2.fin c) = F.fin l) ∧
    (∃ l : ℝ, (RIS.mk (Wall.ofPts o d) (F.fin φ)).interact.evaluate (V2.fin a) (V2.fin b) (V2.fin c) =
      F.fin l) := by
  refine ⟨⟨_, evaluate_fin o d a b c⟩, ?_⟩
  simp only [RIS.interact, RIS.evaluate, RIS.sq, normal_fin, V2.fin_sub, normalize_fin, F.sin, F.cos]
  simp only [V2.cross, V2.dot, V2.neg_x, V2.neg_y, V2.fin, F.fin_neg, F.fin_mul, F.fin_sub, F.fin_add]
  exact ⟨_, rfl⟩

/-- Non-vacuity: a zero-length wall at the transmitter. -/
example : ∃ inner loss, inner.length = 1 ∧
    traceImage ⟨0, 0⟩ [(⟨0, 0⟩, ⟨0, 0⟩)] ⟨1, 1⟩ = .ok (finitePath (⟨0, 0⟩ :: inner ++ [⟨1, 1⟩]) loss) :=
  C33_finite _ _ [(⟨0, 0⟩, ⟨0, 0⟩)]

/-! ## C30 — the points are on the walls' lines -/

/-- `a = pts[i]`-style indexing: the points of the path before, at and after the `i`-th wall. -/
theorem C30_points (tx rx : Pt) (ws : List (Pt × Pt)) (pts imgs : List Pt) (loss : ℝ)
    (h : traceImage tx ws rx = .ok (finitePath pts loss)) (hnd : ∀ w ∈ ws, w.1 ≠ w.2)
    (himgs : MirrorChain tx ws imgs) (i : ℕ) (w : Pt × Pt) (img b c : Pt)
    (hw : ws[i]? = some w) (hi : imgs[i]? = some img) (hb : pts[i + 1]? = some b)
    (hc : pts[i + 2]? = some c) :
    (¬ Parallel w.1 w.2 img c → OnLine w.1 w.2 b ∧ OnLine img c b) ∧
    (Parallel w.1 w.2 img c → b = c) := by
  obtain ⟨rfl, -⟩ := traceImage_iff h
  have hi' := mirrorChain_get hnd himgs hw hi
  obtain ⟨ha, -⟩ : (∃ a, (rpath tx rx ws)[i]? = some a) ∧ True := by
    refine ⟨?_, trivial⟩
    have : i < (rpath tx rx ws).length := by
      have := List.getElem?_eq_some_iff.mp hw
      obtain ⟨hlt, -⟩ := this
      rw [rpath_length]; omega
    exact ⟨_, List.getElem?_eq_getElem this⟩
  obtain ⟨a, ha⟩ := ha
  obtain ⟨hbk, -⟩ := rpts_index ws tx rx tx 1 (rpath_first tx rx ws) i w a b c hw ha hb hc
  rw [← hi'] at hbk
  have hne := hnd w (List.mem_of_getElem? hw)
  rw [← un_parallel]
  refine ⟨fun hu => ⟨?_, ?_⟩, fun hu => ?_⟩
  · rw [onLine_iff hne, hbk]; exact rback_on hu
  · rw [hbk]
    refine ⟨-dp (img - w.1) (rn w.1 w.2) / un w.1 w.2 img c, ?_⟩
    have := rback_image hu
    have hx := congrArg V2.x this
    have hy := congrArg V2.y this
    simp only [V2.sub_x, V2.smul_x, V2.sub_y, V2.smul_y] at hx hy
    ext
    · simp only [pointAt]; linarith
    · simp only [pointAt]; linarith
  · rw [hbk, rback_guard hu]

/-- A path with loss below 1 touches all its walls' lines. -/
theorem C30_on_lines (tx rx : Pt) (ws : List (Pt × Pt)) (inner : List Pt) (loss : ℝ)
    (h : traceImage tx ws rx = .ok (finitePath (tx :: inner ++ [rx]) loss)) (hnd : ∀ w ∈ ws, w.1 ≠ w.2)
    (hl : loss < 1) : List.Forall₂ (fun w p => OnLine w.1 w.2 p) ws inner := by
  obtain ⟨h1, h2⟩ := traceImage_iff h
  have : inner = rpts tx rx ws := by simpa [rpath] using h1
  subst this
  have hm := scores_mem ws tx rx tx 1 (rpath_first tx rx ws)
  have h0 := sum_small hm (by rw [← h2]; exact hl)
  have hz := (scores_zero ws tx rx tx 1 one_pos (rpath_first tx rx ws) h0).1
  clear h h1 h2 hl hm h0
  generalize rpts tx rx ws = qs at hz
  induction hz with
  | nil => exact .nil
  | cons hab _ ih =>
    exact .cons ((onLine_iff (hnd _ (by simp)) _).mpr hab) (ih (fun w hw => hnd w (by simp [hw])))

/-- Non-vacuity: the reflection of `(0,1) → (2,1)` on the x axis is at `(1, 0)`: its image is `(0,-1)`
and the wall is not parallel to the line from it to the receiver. -/
example : MirrorChain ⟨0, 1⟩ [(⟨0, 0⟩, ⟨3, 0⟩)] [⟨0, -1⟩] ∧
    ¬ Parallel (⟨0, 0⟩ : Pt) ⟨3, 0⟩ ⟨0, -1⟩ ⟨2, 1⟩ := by
  refine ⟨⟨⟨by norm_num [Orthogonal], 0, by ext <;> norm_num [midpoint, pointAt]⟩, trivial⟩, ?_⟩
  norm_num [Parallel]

/-! ## C31 — the loss -/

theorem side_dp (o d p : Pt) : ∃ l : ℝ, 0 < l ∧ side o d p = -(l * dp (p - o) (rn o d)) := by
  obtain ⟨l, hl, h1, h2⟩ := rn_scaled o d
  refine ⟨l, hl, ?_⟩
  simp only [side, dp, V2.sub_x, V2.sub_y]
  linear_combination (-(p.x - o.x)) * h1 - (p.y - o.y) * h2

/-- Every interaction scores 0, 1 or 4 and the loss is the sum of the scores. -/
theorem C31_scores (tx rx : Pt) (ws : List (Pt × Pt)) (pts : List Pt) (loss : ℝ)
    (h : traceImage tx ws rx = .ok (finitePath pts loss)) :
    ∃ ss : List ℝ, ss.length = ws.length ∧ loss = ss.sum ∧
      ∀ i w a b c, ws[i]? = some w → pts[i]? = some a → pts[i + 1]? = some b → pts[i + 2]? = some c →
        ∃ s, ss[i]? = some s ∧ (s = 0 ∨ s = 1 ∨ s = 4) ∧
          (Wall.ofPts w.1 w.2).evaluate (V2.fin a) (V2.fin b) (V2.fin c) = F.fin s := by
  obtain ⟨rfl, h2⟩ := traceImage_iff h
  refine ⟨_, scores_length _ _ (by rw [rpath_length]), h2, ?_⟩
  intro i w a b c hw ha hb hc
  have hg := scores_get ws _ i w a b c hw ha hb hc
  exact ⟨_, hg, scores_mem ws tx rx tx 1 (rpath_first tx rx ws) _ (List.mem_of_getElem? hg),
    evaluate_fin _ _ _ _ _⟩

/-- Same side: a mirror reflection, score 0. Opposite sides: score 4. -/
theorem C31_sides (tx rx : Pt) (ws : List (Pt × Pt)) (pts : List Pt) (loss : ℝ)
    (h : traceImage tx ws rx = .ok (finitePath pts loss)) (i : ℕ) (w : Pt × Pt) (a b c : Pt)
    (hw : ws[i]? = some w) (ha : pts[i]? = some a) (hb : pts[i + 1]? = some b) (hc : pts[i + 2]? = some c)
    (hon : OnLine w.1 w.2 b) :
    (0 < side w.1 w.2 a * side w.1 w.2 c →
      (Wall.ofPts w.1 w.2).evaluate (V2.fin a) (V2.fin b) (V2.fin c) = F.fin 0) ∧
    (side w.1 w.2 a * side w.1 w.2 c < 0 →
      (Wall.ofPts w.1 w.2).evaluate (V2.fin a) (V2.fin b) (V2.fin c) = F.fin 4) := by
  obtain ⟨rfl, h2⟩ := traceImage_iff h
  obtain ⟨l, hl, e1, e2⟩ := rn_scaled w.1 w.2
  have hs : ∀ p, side w.1 w.2 p = -(l * dp (p - w.1) (rn w.1 w.2)) := by
    intro p
    simp only [side, dp, V2.sub_x, V2.sub_y]
    linear_combination (-(p.x - w.1.x)) * e1 - (p.y - w.1.y) * e2
  have hprod : side w.1 w.2 a * side w.1 w.2 c =
      l ^ 2 * (dp (a - w.1) (rn w.1 w.2) * dp (c - w.1) (rn w.1 w.2)) := by rw [hs, hs]; ring
  have hl2 : 0 < l ^ 2 := by positivity
  obtain ⟨hbk, k, hk⟩ := rpts_index ws tx rx tx 1 (rpath_first tx rx ws) i w a b c hw ha hb hc
  by_cases hne : w.1 = w.2
  · have : ∀ p, side w.1 w.2 p = 0 := by intro p; rw [hne]; simp [side]
    simp [this]
  rw [onLine_iff hne] at hon
  rw [hbk] at hon hk
  have hI := (interaction w.1 w.2 _ c a k hk).2.2 hon
  rw [hprod, evaluate_fin, hbk]
  refine ⟨fun hp => ?_, fun hp => ?_⟩
  · rw [hI.1 (pos_of_mul_pos_right hp hl2.le)]
  · rw [hI.2 (by by_contra hc'; push Not at hc'; nlinarith)]

/-- The loss is below a tolerance in `(0, 1]` iff it is zero. -/
theorem C31_threshold (tx rx : Pt) (ws : List (Pt × Pt)) (pts : List Pt) (loss tol : ℝ)
    (h : traceImage tx ws rx = .ok (finitePath pts loss)) (h0 : 0 < tol) (h1 : tol ≤ 1) :
    loss < tol ↔ loss = 0 := by
  obtain ⟨rfl, h2⟩ := traceImage_iff h
  refine ⟨fun hl => ?_, fun hl => by rw [hl]; exact h0⟩
  have hm := scores_mem ws tx rx tx 1 (rpath_first tx rx ws)
  have hz := sum_small hm (by have := h2; simp only [rpath] at this; linarith)
  rw [h2]
  exact List.sum_eq_zero hz

/-- Non-vacuity: the reflection of `(0,1) → (2,1)` on the x axis is at `(1, 0)`, with loss 0. -/
theorem example_reflection : traceImage ⟨0, 1⟩ [(⟨0, 0⟩, ⟨3, 0⟩)] ⟨2, 1⟩ =
    .ok (finitePath [⟨0, 1⟩, ⟨1, 0⟩, ⟨2, 1⟩] 0) := by
  obtain ⟨inner, loss, hlen, h⟩ := C33_finite ⟨0, 1⟩ ⟨2, 1⟩ [(⟨0, 0⟩, ⟨3, 0⟩)]
  obtain ⟨b, rfl⟩ : ∃ b, inner = [b] := List.length_eq_one_iff.mp hlen
  have hne : (⟨0, 0⟩ : Pt) ≠ ⟨3, 0⟩ := by intro e; have := congrArg V2.x e; norm_num at this
  have hm : MirrorChain ⟨0, 1⟩ [(⟨0, 0⟩, ⟨3, 0⟩)] [⟨0, -1⟩] :=
    ⟨⟨by norm_num [Orthogonal], 0, by ext <;> norm_num [midpoint, pointAt]⟩, trivial⟩
  have hp := (C30_points _ _ _ _ _ _ h (by simpa using hne) hm 0 _ _ b ⟨2, 1⟩ rfl rfl rfl rfl).1
    (by norm_num [Parallel])
  have hb : b = ⟨1, 0⟩ := by
    obtain ⟨⟨s, hs⟩, ⟨t, ht⟩⟩ := hp
    have h1 := congrArg V2.y hs
    have h2 := congrArg V2.x ht
    have h3 := congrArg V2.y ht
    simp [pointAt] at h1 h2 h3
    ext <;> simp <;> linarith
  subst hb
  have hs := (C31_sides _ _ _ _ _ h 0 _ ⟨0, 1⟩ ⟨1, 0⟩ ⟨2, 1⟩ rfl rfl rfl rfl
    ⟨1 / 3, by ext <;> norm_num [pointAt]⟩).1 (by norm_num [side])
  obtain ⟨ss, h1, h2, h3⟩ := C31_scores _ _ _ _ _ h
  obtain ⟨s, h4, -, h5⟩ := h3 0 _ ⟨0, 1⟩ ⟨1, 0⟩ ⟨2, 1⟩ rfl rfl rfl rfl
  obtain ⟨s', rfl⟩ : ∃ s', ss = [s'] := List.length_eq_one_iff.mp h1
  simp at h4; subst h4
  rw [hs] at h5
  have : s' = 0 := (F.fin_inj.mp h5).symm
  rw [h, h2, this]; simp

/-- Non-vacuity of C30 and C31: this reflection. -/
example := C30_points ⟨0, 1⟩ ⟨2, 1⟩ _ _ [⟨0, -1⟩] 0 example_reflection (by simp)
  ⟨⟨by norm_num [Orthogonal], 0, by ext <;> norm_num [midpoint, pointAt]⟩, trivial⟩ 0 _ _ _ _ rfl rfl rfl rfl

example : List.Forall₂ (fun (w : Pt × Pt) p => OnLine w.1 w.2 p) [(⟨0, 0⟩, ⟨3, 0⟩)] [⟨1, 0⟩] :=
  C30_on_lines ⟨0, 1⟩ ⟨2, 1⟩ _ [⟨1, 0⟩] 0 example_reflection (by simp) (by norm_num)
/-- Non-vacuity: a reflection on a wall. -/
example := C31_scores _ _ _ _ _ example_reflection
/-- Non-vacuity: the two ends are on the same side of the wall, and the score is 0. -/
example : (Wall.ofPts ⟨0, 0⟩ ⟨3, 0⟩).evaluate (V2.fin ⟨0, 1⟩) (V2.fin ⟨1, 0⟩) (V2.fin ⟨2, 1⟩) = F.fin 0 :=
  (C31_sides _ _ _ _ _ example_reflection 0 (⟨0, 0⟩, ⟨3, 0⟩) ⟨0, 1⟩ ⟨1, 0⟩ ⟨2, 1⟩ rfl rfl rfl rfl
    ⟨1 / 3, by ext <;> norm_num [pointAt]⟩).1 (by norm_num [side])
/-- Non-vacuity: the default tolerance. -/
example := C31_threshold _ _ _ _ _ (1 / 100) example_reflection (by norm_num) (by norm_num)

/-! ## C32 — minimal length -/

/-- If the loss is below 1 the path is no longer than the distance from the last image of the
transmitter to the receiver, and no polyline touching the same lines in the same order is shorter. -/
theorem C32_minimal (tx rx : Pt) (ws : List (Pt × Pt)) (pts imgs : List Pt) (loss : ℝ)
    (h : traceImage tx ws rx = .ok (finitePath pts loss)) (hnd : ∀ w ∈ ws, w.1 ≠ w.2)
    (himgs : MirrorChain tx ws imgs) (hl : loss < 1) :
    polyLength pts = eucl (imgs.getLastD tx) rx ∧
    ∀ qs : List Pt, List.Forall₂ (fun w q => OnLine w.1 w.2 q) ws qs →
      polyLength pts ≤ polyLength (tx :: qs ++ [rx]) := by
  obtain ⟨rfl, h2⟩ := traceImage_iff h
  have hm := scores_mem ws tx rx tx 1 (rpath_first tx rx ws)
  have h0 := sum_small hm (by have := h2; simp only [rpath] at this; linarith)
  have hz := (scores_zero ws tx rx tx 1 one_pos (rpath_first tx rx ws) h0).2
  have hlen : polyLength (rpath tx rx ws) = eucl (rimgs tx ws) rx := by
    rw [← hz]
    unfold rpath
    cases rpts tx rx ws <;> simp [polyLength]
  rw [mirrorChain_last hnd himgs]
  refine ⟨hlen, fun qs hq => ?_⟩
  rw [hlen]
  apply unfold_le
  clear himgs hl hlen hz h0 hm h h2
  induction hq with
  | nil => exact .nil
  | cons hab _ ih =>
    exact .cons ((onLine_iff (hnd _ (by simp)) _).mp hab) (ih (fun w hw => hnd w (by simp [hw])))

/-- The lower bound needs nothing but the lines: every polyline touching them in order is at least as
long as the distance from the last image to the receiver. -/
theorem C32_lower_bound (tx rx : Pt) (ws : List (Pt × Pt)) (imgs qs : List Pt)
    (hnd : ∀ w ∈ ws, w.1 ≠ w.2) (himgs : MirrorChain tx ws imgs)
    (hq : List.Forall₂ (fun w q => OnLine w.1 w.2 q) ws qs) :
    eucl (imgs.getLastD tx) rx ≤ polyLength (tx :: qs ++ [rx]) := by
  rw [mirrorChain_last hnd himgs]
  apply unfold_le
  clear himgs
  induction hq with
  | nil => exact .nil
  | cons hab _ ih =>
    exact .cons ((onLine_iff (hnd _ (by simp)) _).mp hab) (ih (fun w hw => hnd w (by simp [hw])))

/-- Non-vacuity: any point of the wall. -/
example := C32_lower_bound ⟨0, 1⟩ ⟨2, 1⟩ [(⟨0, 0⟩, ⟨3, 0⟩)] [⟨0, -1⟩] [⟨3, 0⟩] (by simp)
  ⟨⟨by norm_num [Orthogonal], 0, by ext <;> norm_num [midpoint, pointAt]⟩, trivial⟩
  (.cons ⟨1, by ext <;> norm_num [pointAt]⟩ .nil)

/-- Non-vacuity: `example_reflection` has loss 0, one non-degenerate wall and the image `(0, -1)`. -/
example : polyLength [⟨0, 1⟩, ⟨1, 0⟩, ⟨2, 1⟩] = eucl ⟨0, -1⟩ ⟨2, 1⟩ := by
  refine (C32_minimal _ _ _ _ [⟨0, -1⟩] _ example_reflection ?_ ?_ (by norm_num)).1
  · intro w hw e
    simp at hw; subst hw
    have := congrArg V2.x e; norm_num at this
  · exact ⟨⟨by norm_num [Orthogonal], 0, by ext <;> norm_num [midpoint, pointAt]⟩, trivial⟩

/-! ## C34 — reciprocity -/

theorem unguarded_of (tx rx : Pt) (ws : List (Pt × Pt)) (imgs : List Pt) (hI : MirrorChain tx ws imgs)
    (hn : NoParallelStep ws imgs (rpath tx rx ws)) : Unguarded tx rx ws := by
  suffices H : ∀ (ws : List (Pt × Pt)) (p img : Pt) (imgs : List Pt), MirrorChain img ws imgs →
      NoParallelStep ws imgs (p :: rpts img rx ws ++ [rx]) → Unguarded img rx ws from
    H ws tx tx imgs hI hn
  clear hn hI imgs
  intro ws
  induction ws with
  | nil => intros; trivial
  | cons w ws ih =>
    intro p img imgs hI hn
    cases imgs with
    | nil => exact absurd hI (by simp [MirrorChain])
    | cons q qs =>
      obtain ⟨h1, h2⟩ := hI
      have hc : (p :: rpts img rx (w :: ws) ++ [rx])[0 + 2]? =
          some ((rpts (rimg w.1 w.2 img) rx ws).headD rx) := by
        simp only [rpts]
        cases rpts (rimg w.1 w.2 img) rx ws <;> simp
      have h0 := hn 0 w q _ rfl rfl hc
      have hne : w.1 ≠ w.2 := by
        intro e; apply h0; rw [e]; simp [Parallel]
      have hq := mirror_rimg hne h1
      subst hq
      refine ⟨fun e => h0 ((un_parallel _ _ _ _).mp e), ?_⟩
      apply ih p _ _ h2
      · intro i v im c hv him hc'
        exact hn (i + 1) v im c (by simpa using hv) (by simpa using him) (by simpa [rpts] using hc')

/-- Exchanging transmitter and receiver and reversing the walls reverses the path and keeps the loss,
provided no step is parallel to its wall in either direction. -/
theorem C34_reciprocal (tx rx : Pt) (ws : List (Pt × Pt)) (pts pts' imgs imgs' : List Pt)
    (loss loss' : ℝ) (h : traceImage tx ws rx = .ok (finitePath pts loss))
    (h' : traceImage rx ws.reverse tx = .ok (finitePath pts' loss'))
    (hI : MirrorChain tx ws imgs) (hI' : MirrorChain rx ws.reverse imgs')
    (hn : NoParallelStep ws imgs pts) (hn' : NoParallelStep ws.reverse imgs' pts') :
    pts' = pts.reverse ∧ loss' = loss := by
  obtain ⟨rfl, rfl⟩ := traceImage_iff h
  obtain ⟨rfl, rfl⟩ := traceImage_iff h'
  have e := rpts_reverse ws tx rx (unguarded_of _ _ _ _ hI hn) (unguarded_of _ _ _ _ hI' hn')
  have e' : rpath rx tx ws.reverse = (rpath tx rx ws).reverse := by
    simp [rpath, e]
  refine ⟨e', ?_⟩
  rw [e', scores_reverse _ _ (rpath_length _ _ _), List.sum_reverse]

/-- Non-vacuity: `(0,1) → (2,1)` over the x axis satisfies the hypotheses in both directions. -/
example : NoParallelStep [(⟨0, 0⟩, ⟨3, 0⟩)] [⟨0, -1⟩] [⟨0, 1⟩, ⟨1, 0⟩, ⟨2, 1⟩] ∧
    NoParallelStep [(⟨0, 0⟩, ⟨3, 0⟩)] [⟨2, -1⟩] [⟨2, 1⟩, ⟨1, 0⟩, ⟨0, 1⟩] := by
  constructor
  all_goals
    intro i w img c hw hi hc
    cases i with
    | zero => simp at hw hi hc; subst hw hi hc; norm_num [Parallel]
    | succ i => simp at hw

end DiffeRT2d.Props
