import Verif.Lemmas.Methods
import Verif.Props.Specular
import Verif.Lemmas.Rounded

/-! # Properties C92 and C93: the three tracing methods agree when the optimizer has converged -/

namespace DiffeRT2d.Props
open Classical Spec

/-! ## C92 — the objective of `MinPath` and the tolerance of `is_valid` -/

theorem reval_nonneg (o d a b c : Pt) : 0 ≤ reval o d a b c := by
  simp only [reval, dp]
  exact add_nonneg (mul_self_nonneg _) (mul_self_nonneg _)
theorem scores_nonneg (ws : List RWall) (pts : List Pt) : ∀ s ∈ scores ws pts, 0 ≤ s := by
  induction ws generalizing pts with
  | nil => simp [scores]
  | cons w ws ih =>
    match pts with
    | a :: b :: c :: pts =>
      intro s hs
      simp only [scores, List.mem_cons] at hs
      rcases hs with rfl | hs
      · exact reval_nonneg ..
      · exact ih _ s hs
    | [] | [_] | [_, _] => simp [scores]

theorem walls_loss (ws : List (Pt × Pt)) (pts : List Pt) (h : ws.length + 2 ≤ pts.length) :
    pathLoss 0 ((wallsOf ws).map Obj.interact) (pts.map V2.fin) = F.fin (scores ws pts).sum := by
  have : (wallsOf ws).map Obj.interact = (mkWalls ws).map Wall.interact := by simp [wallsOf, mkWalls, Obj.interact]
  rw [this, F.zero_eq, pathLoss_fin _ _ _ h, zero_add]

theorem walls_minLoss (ws : List (Pt × Pt)) (tx rx : Pt) (θ : List ℝ) (h : θ.length = ws.length) :
    minLoss ((wallsOf ws).map Obj.interact) (V2.fin tx) (V2.fin rx) (θ.map F.fin) =
      F.fin (scores ws (tx :: pointsAt ws θ ++ [rx])).sum := by
  have hobj : (wallsOf ws).map Obj.interact = (ws.map fun w => Shape.wall w.1 w.2).map fun s => s.obj.interact := by
    simp [wallsOf, Shape.obj]
  rw [minLoss, hobj, cartesian_fin _ _ _ _ (by rw [walls_count, h]), place_pointsAt ws θ h, ← hobj, walls_loss]
  simp [pointsAt, h]

/-- A wall's score in terms of the angle between the outgoing ray and the reflected incoming ray. -/
theorem reval_angle {w : Pt × Pt} (hw : w.1 ≠ w.2) {a b c : Pt} (hab : a ≠ b) (hbc : b ≠ c) :
    (bounce w (b - a)).x * (c - b).x + (bounce w (b - a)).y * (c - b).y = (1 - reval w.1 w.2 a b c / 2) * (eucl a b * eucl b c) := by
  have hne : ∀ {p q : Pt}, p ≠ q → q - p ≠ ⟨0, 0⟩ := by
    intro p q h e; apply h
    have hx := congrArg V2.x e; have hy := congrArg V2.y e
    simp only [V2.sub_x, V2.sub_y] at hx hy
    exact V2.ext (by linarith) (by linarith)
  have hn := rn_sq hw
  obtain ⟨l, hl, h1, h2⟩ := rn_scaled w.1 w.2
  have ui := unit_sq (hne hab)
  have ur := unit_sq (hne hbc)
  have mi := unit_mul (b - a)
  have mr := unit_mul (c - b)
  have li : len1 (b - a) = eucl a b := by
    rw [eucl_eq_nrm, len1, if_neg (nrm_pos (hne hab)).ne']
  have lr : len1 (c - b) = eucl b c := by
    rw [eucl_eq_nrm, len1, if_neg (nrm_pos (hne hbc)).ne']
  rw [li] at mi; rw [lr] at mr
  have rs := refl_sq (.inl hn) (unit (b - a))
  -- bounce is the reflection with normal `rn`
  have hb : bounce w (b - a) = refl (rn w.1 w.2) (b - a) := by
    simp only [dp] at hn
    have hx : w.2.x - w.1.x = -(l * (rn w.1 w.2).y) := by linarith
    have hy : w.2.y - w.1.y = l * (rn w.1 w.2).x := h1
    have hd : (w.2.x - w.1.x) * (w.2.x - w.1.x) + (w.2.y - w.1.y) * (w.2.y - w.1.y) = l * l := by
      rw [hx, hy]; linear_combination (l * l) * hn
    simp only [bounce, hd, refl, dp]
    rw [hx, hy]
    have hl' : l * l ≠ 0 := (mul_pos hl hl).ne'
    ext
    · simp only; field_simp; linear_combination (2 * (b - a).x) * hn
    · simp only; field_simp; linear_combination (2 * (b - a).y) * hn
  rw [hb]
  conv_lhs => rw [← mi, ← mr]
  simp only [reval, dp, refl, V2.smul_x, V2.smul_y] at rs ui ur ⊢
  set i := unit (b - a)
  set r := unit (c - b)
  set n := rn w.1 w.2
  linear_combination (eucl a b * eucl b c / 2) * ur + (eucl a b * eucl b c / 2) * (rs + ui)

/-- **C92.** What the tolerance means: along a path over walls, without repeated points, whose loss is the total score of its points
and is below `tol`, each outgoing ray makes with the mirror direction an angle of cosine more than `1 - tol / 2` (0.995 for the
default tolerance). This holds for every path, from whichever method. -/
theorem C92_tolerance (ws : List (Pt × Pt)) (hnd : ∀ w ∈ ws, w.1 ≠ w.2) (pts : List Pt) (loss : F) (tol : ℝ)
    (hlen : pts.length = ws.length + 2) (hs : TotalScore ((wallsOf ws).map Obj.interact) (pts.map V2.fin) loss) (hl : Lt loss (F.fin tol))
    (hp : NoPause pts) (i : ℕ) (w : Pt × Pt) (a b c : Pt) (hw : ws[i]? = some w) (ha : pts[i]? = some a) (hb : pts[i + 1]? = some b)
    (hc : pts[i + 2]? = some c) :
    (1 - tol / 2) * (eucl a b * eucl b c) < (bounce w (b - a)).x * (c - b).x + (bounce w (b - a)).y * (c - b).y := by
  have h1 := totalScore_pathLoss ((wallsOf ws).map Obj.interact) (pts.map V2.fin) (by simp [wallsOf, hlen])
  have e := totalScore_unique (by simp [wallsOf, hlen]) hs h1
  rw [walls_loss ws pts (by omega)] at e
  rw [e, Spec.Lt.fin] at hl
  have hab := hp i a b ha hb
  have hbc := hp (i + 1) b c hb hc
  rw [reval_angle (hnd w (List.mem_of_getElem? hw)) hab hbc]
  have hsi := List.mem_of_getElem? (scores_get ws pts i w a b c hw ha hb hc)
  have := List.single_le_sum (scores_nonneg ws pts) _ hsi
  have pos : ∀ {p q : Pt}, p ≠ q → 0 < eucl p q := by
    intro p q h
    rcases (eucl_nonneg p q).lt_or_eq with h0 | h0
    · exact h0
    · exfalso; apply h
      rw [eucl_eq_nrm] at h0
      have e := (nrm_eq_zero _).mp h0.symm
      have hx := congrArg V2.x e; have hy := congrArg V2.y e
      simp only [V2.sub_x, V2.sub_y] at hx hy
      exact V2.ext (by linarith) (by linarith)
  have := mul_pos (pos hab) (pos hbc)
  nlinarith

/-- **C92.** Over at least one wall, the objective of `MinPath` vanishes at a path that has no repeated points and does not run along
its walls iff this path is specular. -/
theorem C92_zero_iff (tx rx : Pt) (ws : List (Pt × Pt)) (hnd : ∀ w ∈ ws, w.1 ≠ w.2) (hne : ws ≠ []) (θ : List ℝ) (hθ : θ.length = ws.length) :
    Specular ws (tx :: pointsAt ws θ ++ [rx]) ↔
      minLoss ((wallsOf ws).map Obj.interact) (V2.fin tx) (V2.fin rx) (θ.map F.fin) = F.fin 0 ∧
      NoPause (tx :: pointsAt ws θ ++ [rx]) ∧ OffWalls ws (tx :: pointsAt ws θ ++ [rx]) := by
  have hlp : (pointsAt ws θ).length = ws.length := by simp [pointsAt, hθ]
  rw [walls_minLoss ws tx rx θ hθ, F.fin_inj]
  constructor
  · intro h
    refine ⟨?_, noPause_of_specular h hne, ?_⟩
    · exact List.sum_eq_zero (rpts_of_specular ws hnd tx rx tx (pointsAt ws θ) 1 one_pos hlp (by ext <;> simp) (reflChain_of _ _ h.2)).2
    · intro i w a hw ha hon
      have hi : i < ws.length := (List.getElem?_eq_some_iff.mp hw).1
      have hl : (tx :: pointsAt ws θ ++ [rx]).length = ws.length + 2 := by simp [hlp]
      have hr := h.2 i w a _ _ hw ha (List.getElem?_eq_getElem (by omega)) (List.getElem?_eq_getElem (by omega))
      obtain ⟨s, rfl⟩ := hon
      have := hr.same
      rw [show side w.1 w.2 (pointAt w.1 w.2 s) = 0 by simp only [side, pointAt]; ring, zero_mul] at this
      exact lt_irrefl _ this
  · rintro ⟨h0, hp, hoff⟩
    refine ⟨by simp [hlp], fun i w a b c hw ha hb hc => ?_⟩
    have hw' := hnd w (List.mem_of_getElem? hw)
    have hz : reval w.1 w.2 a b c = 0 := by
      have hsi := List.mem_of_getElem? (scores_get ws _ i w a b c hw ha hb hc)
      have h1 := List.single_le_sum (scores_nonneg ws (tx :: pointsAt ws θ ++ [rx])) _ hsi
      have := scores_nonneg ws _ _ hsi
      linarith
    have hab := hp i a b ha hb
    have hbc := hp (i + 1) b c hb hc
    have hbon : OnLine w.1 w.2 b := by
      have hi : i < ws.length := (List.getElem?_eq_some_iff.mp hw).1
      have : (pointsAt ws θ)[i]? = some b := by
        rw [List.cons_append, List.getElem?_cons_succ, List.getElem?_append_left (by omega)] at hb
        exact hb
      simp only [pointsAt, List.getElem?_zipWith_eq_some] at this
      obtain ⟨w', s, h1, -, rfl⟩ := this
      rw [hw] at h1; obtain rfl := Option.some.inj h1
      exact ⟨s, rfl⟩
    have hon := (onLine_iff hw' b).mp hbon
    have haoff : dp (a - w.1) (rn w.1 w.2) ≠ 0 := fun h => hoff i w a hw ha ((onLine_iff hw' a).mpr h)
    have hdir : unit (c - b) = refl (rn w.1 w.2) (unit (b - a)) := by
      simp only [reval, dp] at hz
      have hx := mul_self_eq_zero.mp (le_antisymm (by linarith [mul_self_nonneg ((unit (c - b)).y - ((unit (b - a)).y - 2 * ((unit (b - a)).x * (rn w.1 w.2).x + (unit (b - a)).y * (rn w.1 w.2).y) * (rn w.1 w.2).y))]) (mul_self_nonneg ((unit (c - b)).x - ((unit (b - a)).x - 2 * ((unit (b - a)).x * (rn w.1 w.2).x + (unit (b - a)).y * (rn w.1 w.2).y) * (rn w.1 w.2).x))))
      have hy := mul_self_eq_zero.mp (le_antisymm (by linarith [mul_self_nonneg ((unit (c - b)).x - ((unit (b - a)).x - 2 * ((unit (b - a)).x * (rn w.1 w.2).x + (unit (b - a)).y * (rn w.1 w.2).y) * (rn w.1 w.2).x))]) (mul_self_nonneg ((unit (c - b)).y - ((unit (b - a)).y - 2 * ((unit (b - a)).x * (rn w.1 w.2).x + (unit (b - a)).y * (rn w.1 w.2).y) * (rn w.1 w.2).y))))
      ext
      · simp only [refl, dp]; linarith
      · simp only [refl, dp]; linarith
    refine reflects_of_aligned (k := len1 (c - b) / len1 (b - a)) hw' hon ?_ (div_pos (len1_pos _) (len1_pos _)) ?_
    · simp only [dp, V2.sub_x, V2.sub_y] at hon haoff ⊢
      intro h; apply haoff; linarith
    · conv_lhs => rw [← unit_mul (c - b), hdir]
      conv_rhs => rw [← unit_mul (b - a)]
      have hl := (len1_pos (b - a)).ne'
      rw [unit_mul]
      have mi := unit_mul (b - a)
      have hx := congrArg V2.x mi
      have hy := congrArg V2.y mi
      simp only [V2.smul_x, V2.smul_y] at hx hy
      ext
      · simp only [V2.smul_x, refl, dp]; rw [← hx, ← hy]; field_simp
      · simp only [V2.smul_y, refl, dp]; rw [← hx, ← hy]; field_simp

/-- **C92.** So, a traced path over walls with a null total score (on a path without repeated points that does not run along its walls)
has the points of `ImagePath`. -/
theorem C92_same_path (tx rx : Pt) (ws : List (Pt × Pt)) (hnd : ∀ w ∈ ws, w.1 ≠ w.2) (hne : ws ≠ [])
    (θ : List ℝ) (hθ : θ.length = ws.length) (p : Path) (hx : p.xys = (tx :: pointsAt ws θ ++ [rx]).map V2.fin)
    (h0 : TotalScore ((wallsOf ws).map Obj.interact) p.xys (F.fin 0))
    (hp : NoPause (tx :: pointsAt ws θ ++ [rx])) (ho : OffWalls ws (tx :: pointsAt ws θ ++ [rx])) :
    ∃ q, traceImage tx ws rx = .ok q ∧ q.xys = p.xys ∧ q.loss = F.fin 0 := by
  have hlp : (pointsAt ws θ).length = ws.length := by simp [pointsAt, hθ]
  refine ⟨_, C73_complete tx rx ws hnd _ ((C92_zero_iff tx rx ws hnd hne θ hθ).mpr ⟨?_, hp, ho⟩), hx.symm, rfl⟩
  have h1 := totalScore_pathLoss ((wallsOf ws).map Obj.interact) p.xys (by simp [wallsOf, hx, hlp])
  have e := totalScore_unique (by simp [wallsOf, hx, hlp]) h1 h0
  rw [hx, walls_loss ws _ (by simp [hlp])] at e
  rw [walls_minLoss ws tx rx θ hθ, e]

/-- Non-vacuity: at the parameter 1/3 of the wall from `(0,0)` to `(3,0)` the objective for `(0,1) → (2,1)` vanishes, and the points neither
pause nor run along the wall. -/
example : minLoss ((wallsOf [(⟨0, 0⟩, ⟨3, 0⟩)]).map Obj.interact) (V2.fin ⟨0, 1⟩) (V2.fin ⟨2, 1⟩) ([1 / 3].map F.fin) = F.fin 0 ∧
    NoPause [⟨0, 1⟩, ⟨1, 0⟩, ⟨2, 1⟩] ∧ OffWalls [(⟨0, 0⟩, ⟨3, 0⟩)] [⟨0, 1⟩, ⟨1, 0⟩, ⟨2, 1⟩] := by
  have hpt : pointsAt [(⟨0, 0⟩, ⟨3, 0⟩)] [1 / 3] = [⟨1, 0⟩] := by norm_num [pointsAt, pointAt]
  have := (C92_zero_iff ⟨0, 1⟩ ⟨2, 1⟩ [(⟨0, 0⟩, ⟨3, 0⟩)] (by
    intro w hw e
    simp at hw; subst hw
    have := congrArg V2.x e; norm_num at this) (by simp) [1 / 3] rfl).mp (by rw [hpt]; exact example_specular)
  rw [hpt] at this
  exact this

/-- Non-vacuity of the tolerance: the same path has a total score below the default tolerance. -/
example : ∃ l : ℝ, TotalScore ((wallsOf [(⟨0, 0⟩, ⟨3, 0⟩)]).map Obj.interact) ([⟨0, 1⟩, ⟨1, 0⟩, ⟨2, 1⟩].map V2.fin) (F.fin l) ∧ l < 1 / 100 := by
  have h1 := totalScore_pathLoss ((wallsOf [(⟨0, 0⟩, ⟨3, 0⟩)]).map Obj.interact) (([⟨0, 1⟩, ⟨1, 0⟩, ⟨2, 1⟩] : List Pt).map V2.fin) (by simp [wallsOf])
  rw [walls_loss _ _ (by simp)] at h1
  refine ⟨_, h1, ?_⟩
  have := rpts_of_specular [(⟨0, 0⟩, ⟨3, 0⟩)] (by
    intro w hw e
    simp at hw; subst hw
    have := congrArg V2.x e; norm_num at this) ⟨0, 1⟩ ⟨2, 1⟩ ⟨0, 1⟩ [⟨1, 0⟩] 1 one_pos rfl (by ext <;> simp) (reflChain_of _ _ example_specular.2)
  have e := List.sum_eq_zero this.2
  simp only [List.cons_append, List.nil_append] at e
  rw [e]; norm_num

/-! ## C93 — the minimisers of the objective of `FermatPath` -/

theorem driftWalls_eq (e : ℝ) (ws : List (Pt × Pt)) : driftWalls e ws = driftWallsFrom e 1 ws := rfl

theorem driftWalls_nd (e : ℝ) (ws : List (Pt × Pt)) (hnd : ∀ w ∈ ws, w.1 ≠ w.2) : ∀ w ∈ driftWalls e ws, w.1 ≠ w.2 := by
  intro w hw
  simp only [driftWalls, List.mem_map] at hw
  obtain ⟨⟨v, k⟩, hv, rfl⟩ := hw
  intro h
  exact hnd v (List.fst_mem_of_mem_zipIdx hv) (drift_inj h)

theorem driftWalls_zero (ws : List (Pt × Pt)) : driftWalls 0 ws = ws := by
  simp [driftWalls, drift, List.zipIdx_map_fst]

theorem driftPts_zero (k : ℕ) (ps : List Pt) : driftPts 0 k ps = ps := by
  simp [driftPts, drift, List.zipIdx_map_fst]

theorem forall_dp {ws : List (Pt × Pt)} (hnd : ∀ w ∈ ws, w.1 ≠ w.2) {qs : List Pt}
    (hq : List.Forall₂ (fun w q => OnLine w.1 w.2 q) ws qs) : List.Forall₂ (fun w p => dp (p - w.1) (rn w.1 w.2) = 0) ws qs := by
  induction hq with
  | nil => exact .nil
  | cons hab _ ih => exact .cons ((onLine_iff (hnd _ (by simp)) _).mp hab) (ih (fun w hw => hnd w (by simp [hw])))

theorem walls_fermatLoss (E : Env) (ws : List (Pt × Pt)) (tx rx : Pt) (θ : List ℝ) (h : θ.length = ws.length) :
    fermatLoss E ((wallsOf ws).map Obj.interact) (V2.fin tx) (V2.fin rx) (θ.map F.fin) =
      F.fin (polyLength (tx :: pointsAt (driftWalls E.eps ws) θ ++ [drift E.eps (ws.length + 1) rx])) := by
  have hobj : (wallsOf ws).map Obj.interact = (ws.map fun w => Shape.wall w.1 w.2).map fun s => s.obj.interact := by
    simp [wallsOf, Shape.obj]
  have hlp : (pointsAt ws θ).length = ws.length := by simp [pointsAt, h]
  rw [hobj, fermatLoss_fin E _ tx rx θ (by rw [walls_count, h]), fermatReal, place_pointsAt ws θ h, plen_drift E.eps 0, List.cons_append,
    driftPts_cons, drift_zero, driftPts_append, driftPts_pointsAt, hlp, driftWalls_eq]
  simp [driftPts, add_comm]

/-- **C93.** The objective of `FermatPath` measures each step with an offset of `eps` in both coordinates, so that its walls are, in
effect, the given ones moved by `eps`, `2 eps`, ... and its receiver is moved too. If there is a specular path `qs` in this moved scene,
then its parameters are the one and only minimiser of the objective, over all real vectors. -/
theorem C93_minimizer (E : Env) (tx rx : Pt) (ws : List (Pt × Pt)) (hnd : ∀ w ∈ ws, w.1 ≠ w.2) (qs : List Pt)
    (h : Specular (driftWalls E.eps ws) (tx :: qs ++ [drift E.eps (ws.length + 1) rx])) (θ : List ℝ) :
    Minimizes (fermatLoss E ((wallsOf ws).map Obj.interact) (V2.fin tx) (V2.fin rx)) ws.length θ ↔
      θ.length = ws.length ∧ driftPts E.eps 1 (pointsAt ws θ) = qs := by
  set W := driftWalls E.eps ws with hW
  set r := drift E.eps (ws.length + 1) rx with hr
  have hWl : W.length = ws.length := by simp [hW, driftWalls]
  have hndW := driftWalls_nd E.eps ws hnd
  have hlen : qs.length = W.length := by have := h.1; simp at this; omega
  have hch := reflChain_of _ _ h.2
  obtain ⟨h1, h2⟩ := rpts_of_specular W hndW tx r tx qs 1 one_pos hlen (by ext <;> simp) hch
  obtain ⟨h3, h4⟩ := scores_zero W tx r tx 1 one_pos (by rw [h1]; ext <;> simp) (by rw [h1]; exact h2)
  rw [h1] at h3 h4
  have h5 : polyLength (tx :: qs ++ [r]) = eucl (rimgs tx W) r := by rw [polyLength_head, h4]
  have low : ∀ θ' : List ℝ, θ'.length = ws.length → eucl (rimgs tx W) r ≤ polyLength (tx :: pointsAt W θ' ++ [r]) := fun θ' hθ' =>
    unfold_le W tx r _ (forall_dp hndW (pointsAt_on W θ' (hθ'.trans hWl.symm)))
  have hqs : List.Forall₂ (fun w p => OnLine w.1 w.2 p) W qs := by
    rw [List.forall₂_iff_get] at h3 ⊢
    refine ⟨h3.1, fun i hi hi' => ?_⟩
    exact (onLine_iff (hndW _ (List.getElem_mem _)) _).mpr (h3.2 i hi hi')
  obtain ⟨θ₀, hθ₀, hp₀⟩ := exists_params hqs
  have hd : driftPts E.eps 1 (pointsAt ws θ) = pointsAt W θ := by rw [driftPts_pointsAt, hW, driftWalls_eq]
  rw [hd]
  constructor
  · rintro ⟨hl, hmin⟩
    refine ⟨hl, ?_⟩
    have := hmin θ₀ (hθ₀.trans hWl)
    rw [walls_fermatLoss E ws tx rx θ hl, walls_fermatLoss E ws tx rx θ₀ (hθ₀.trans hWl), Spec.Le.fin, ← hW, ← hr, hp₀, h5] at this
    exact shortest_unique W hndW tx r tx qs _ 1 one_pos hlen (by ext <;> simp) hch (forall_dp hndW (pointsAt_on W θ (hl.trans hWl.symm))) this
  · rintro ⟨hl, hq⟩
    refine ⟨hl, fun θ' hθ' => ?_⟩
    rw [walls_fermatLoss E ws tx rx θ hl, walls_fermatLoss E ws tx rx θ' hθ', Spec.Le.fin, ← hW, ← hr, hq, h5]
    exact low θ' hθ'

/-- **C93.** In exact arithmetic (`eps = 0`): where there is a specular path, the minimisers of the objective of `FermatPath` are the
parameters of its points. -/
theorem C93_exact (E : Env) (he : E.eps = 0) (tx rx : Pt) (ws : List (Pt × Pt)) (hnd : ∀ w ∈ ws, w.1 ≠ w.2) (qs : List Pt)
    (h : Specular ws (tx :: qs ++ [rx])) (θ : List ℝ) :
    Minimizes (fermatLoss E ((wallsOf ws).map Obj.interact) (V2.fin tx) (V2.fin rx)) ws.length θ ↔
      θ.length = ws.length ∧ pointsAt ws θ = qs := by
  have := C93_minimizer E tx rx ws hnd qs (by rw [he, driftWalls_zero]; simpa [drift] using h) θ
  rwa [he, driftPts_zero] at this

/-- **C93.** So, where `FermatPath` reaches the minimum of its objective, it returns the path of `ImagePath`: same points, null loss. -/
theorem C93_same_path {Key : Type} (E : Env) (he : E.eps = 0) (M : Minimizer Key) (many : ℕ) (tx rx : Pt) (ws : List (Pt × Pt))
    (hnd : ∀ w ∈ ws, w.1 ≠ w.2) (hne : ws ≠ []) (qs : List Pt) (h : Specular ws (tx :: qs ++ [rx])) (key : Key) (θ : List ℝ) (p : Path)
    (hp : FermatPath.fromTxObjectsRx E M (V2.fin tx) ((wallsOf ws).map Obj.interact) (V2.fin rx) key many = .ok p)
    (hx : p.xys = (tx :: pointsAt ws θ ++ [rx]).map V2.fin)
    (hθ : Minimizes (fermatLoss E ((wallsOf ws).map Obj.interact) (V2.fin tx) (V2.fin rx)) ws.length θ) :
    traceImage tx ws rx = .ok p := by
  obtain ⟨hl, hq⟩ := (C93_exact E he tx rx ws hnd qs h θ).mp hθ
  rw [C73_complete tx rx ws hnd qs h]
  have hlen : qs.length = ws.length := by have := h.1; simp at this; omega
  rw [hq] at hx
  unfold FermatPath.fromTxObjectsRx at hp
  rw [if_neg (by simpa [wallsOf] using hne)] at hp
  cases hm : minimizeManyRandomUniform M (fermatLoss E ((wallsOf ws).map Obj.interact) (V2.fin tx) (V2.fin rx)) key
      (nUnknowns ((wallsOf ws).map Obj.interact)) many with
  | error e => rw [hm] at hp; cases hp
  | ok x =>
    rw [hm] at hp
    obtain rfl := Except.ok.inj hp
    simp only at hx
    show Except.ok _ = Except.ok _
    congr 1
    rw [hx, walls_loss ws _ (by simp [hlen])]
    have hs := rpts_of_specular ws hnd tx rx tx qs 1 one_pos hlen (by ext <;> simp) (reflChain_of _ _ h.2)
    rw [List.sum_eq_zero hs.2]
    rfl

/-- Non-vacuity: the reflection of `(0,1) → (2,1)` on the x axis is at the parameter 1/3 of the wall from `(0,0)` to `(3,0)`. -/
example (E : Env) (he : E.eps = 0) (θ : List ℝ) :
    Minimizes (fermatLoss E ((wallsOf [(⟨0, 0⟩, ⟨3, 0⟩)]).map Obj.interact) (V2.fin ⟨0, 1⟩) (V2.fin ⟨2, 1⟩)) 1 θ ↔ θ = [1 / 3] := by
  have := C93_exact E he ⟨0, 1⟩ ⟨2, 1⟩ [(⟨0, 0⟩, ⟨3, 0⟩)] (by
    intro w hw e
    simp at hw; subst hw
    have := congrArg V2.x e; norm_num at this) [⟨1, 0⟩] example_specular θ
  rw [show [((⟨0, 0⟩ : Pt), (⟨3, 0⟩ : Pt))].length = 1 from rfl] at this
  rw [this]
  constructor
  · rintro ⟨h1, h2⟩
    match θ, h1 with
    | [s], _ =>
      simp [pointsAt, pointAt] at h2
      rw [show s = 1 / 3 by linarith]
  · rintro rfl
    refine ⟨rfl, ?_⟩
    norm_num [pointsAt, pointAt]

end DiffeRT2d.Props
