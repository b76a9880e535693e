import Verif.Lemmas.Generic
import Verif.Props.Validity
import Verif.Props.Tracing

/-! # Properties C35 and C39: invariance of validity, agreement of the two modes -/

namespace DiffeRT2d.Props
open Classical Spec Filter

/-! ## C35 — similarity invariance -/

/-- Tracing commutes with similarities, and the loss is unchanged. -/
theorem C35_trace (f : Affine) (k : ℝ) (hf : f.Similarity k) (tx rx : Pt) (ws : List (Pt × Pt))
    (pts : List Pt) (loss : ℝ) (h : traceImage tx ws rx = .ok (finitePath pts loss)) :
    traceImage (f.app tx) (ws.map (mapWall f)) (f.app rx) = .ok (finitePath (pts.map f.app) loss) := by
  obtain ⟨rfl, rfl⟩ := traceImage_iff h
  have e : rpath (f.app tx) (f.app rx) (ws.map (mapWall f)) = (rpath tx rx ws).map f.app := by
    have := hf.rpts_app tx rx ws
    simp only [rpath, List.map_append, List.map_cons, List.map_nil]
    rw [← this]; rfl
  rw [traceImage_eq, e]
  rw [show scores (ws.map (mapWall f)) ((rpath tx rx ws).map f.app) = scores ws (rpath tx rx ws) from
    hf.scores_app ws _]

theorem app_pointAt (f : Affine) (o d : Pt) (s : ℝ) : pointAt (f.app o) (f.app d) s = f.app (pointAt o d s) := by
  ext <;> simp only [pointAt, Affine.app] <;> ring

theorem rnth_map (f : Pt → Pt) (pts : List Pt) (i : ℕ) (h : pts ≠ []) : rnth (pts.map f) i = f (rnth pts i) := by
  have hl : 0 < pts.length := List.length_pos_iff.mpr h
  have hi : min i (pts.length - 1) < pts.length := by omega
  simp [rnth, List.getD_eq_getElem?_getD, hi]

theorem hitPairs_map (n : ℕ) (g : RWall → RWall) (ws : List RWall) (candidate : List ℤ) :
    hitPairs n (ws.map g) candidate = (hitPairs n ws candidate).map fun x => (x.1, g x.2.1, x.2.2) := by
  unfold hitPairs
  rw [List.map_flatMap]
  congr 1
  funext i
  rw [List.zipIdx_map, List.filter_map, List.map_map, List.map_map]
  rfl

/-- Validity — of any path with respect to any walls, in both modes — is invariant under similarities. -/
theorem C35_validity (f : Affine) (k : ℝ) (hf : f.Similarity k) (E : Env) (ap : Option Bool) (kw : ActKw)
    (ws scene : List (Pt × Pt)) (candidate : List ℤ) (pts : List Pt) (loss patch : ℝ) (tol : F)
    (hne : pts ≠ []) (hlen : pts.length ≤ candidate.length + 2) :
    (finitePath (pts.map f.app) loss).isValid E ((wallsOf (scene.map (mapWall f))).map Obj.interact)
        candidate ((wallsOf (ws.map (mapWall f))).map Obj.interact) tol (F.fin patch) ap kw =
      (finitePath pts loss).isValid E ((wallsOf scene).map Obj.interact) candidate
        ((wallsOf ws).map Obj.interact) tol (F.fin patch) ap kw := by
  have hne' : pts.map f.app ≠ [] := by simpa using hne
  have h1 : onVals (finitePath (pts.map f.app) loss) E ((wallsOf (ws.map (mapWall f))).map Obj.interact) ap kw =
      onVals (finitePath pts loss) E ((wallsOf ws).map Obj.interact) ap kw := by
    unfold finitePath
    rw [onVals_walls _ _ hne', onVals_walls _ _ hne, List.zipIdx_map, List.map_map]
    apply List.map_congr_left
    rintro ⟨w, i⟩ -
    simp only [Function.comp, Prod.map, id, mapWall, rnth_map _ _ _ hne, hf.rpar_app]
    rfl
  have h2 : hitVals (finitePath (pts.map f.app) loss) E ((wallsOf (scene.map (mapWall f))).map Obj.interact)
        candidate (F.fin patch) ap kw =
      hitVals (finitePath pts loss) E ((wallsOf scene).map Obj.interact) candidate (F.fin patch) ap kw := by
    unfold finitePath
    rw [hitVals_walls _ _ hne', hitVals_walls _ _ hne, hitPairs_map, List.map_map, List.length_map]
    apply List.map_congr_left
    rintro ⟨i, w, j⟩ -
    simp only [Function.comp, mapWall, rnth_map _ _ _ hne]
    rw [patched, patched, app_pointAt, app_pointAt, C11_affine _ _ _ _ _ _ _ _ _ hf.invertible]
  have l1 : (finitePath (pts.map f.app) loss).xys.length ≤ candidate.length + 2 := by
    simpa [finitePath] using hlen
  have l2 : (finitePath pts loss).xys.length ≤ candidate.length + 2 := by simpa [finitePath] using hlen
  unfold Path.isValid
  rw [intersects_eq _ _ _ _ _ _ _ l1, intersects_eq _ _ _ _ _ _ _ l2, onObjects_eq, onObjects_eq, h1, h2]
  rfl

/-- Traced and checked: the image path of the transformed configuration is valid to the same degree. -/
theorem C35_traced_validity (f : Affine) (k : ℝ) (hf : f.Similarity k) (E : Env) (ap : Option Bool)
    (kw : ActKw) (tx rx : Pt) (ws scene : List (Pt × Pt)) (candidate : List ℤ) (patch : ℝ) (tol : F)
    (hc : candidate.length = ws.length) (p p' : Path)
    (h : traceImage tx ws rx = .ok p)
    (h' : traceImage (f.app tx) (ws.map (mapWall f)) (f.app rx) = .ok p') :
    p'.isValid E ((wallsOf (scene.map (mapWall f))).map Obj.interact) candidate
        ((wallsOf (ws.map (mapWall f))).map Obj.interact) tol (F.fin patch) ap kw =
      p.isValid E ((wallsOf scene).map Obj.interact) candidate ((wallsOf ws).map Obj.interact) tol
        (F.fin patch) ap kw := by
  obtain ⟨inner, loss, hlen, he⟩ := C33_finite tx rx ws
  have hp : p = finitePath (tx :: inner ++ [rx]) loss := by rw [h] at he; exact Except.ok.inj he
  subst hp
  have := C35_trace f k hf tx rx ws _ _ h
  rw [this] at h'
  obtain rfl := Except.ok.inj h'
  exact C35_validity f k hf E ap kw ws scene candidate _ loss patch tol (by simp)
    (by simp; omega)

/-- Non-vacuity: a rotation by a right angle followed by a scaling by 2 and a translation. -/
theorem quarterTurn_similarity : (⟨0, -2, 2, 0, 5, 7⟩ : Affine).Similarity 2 :=
  ⟨by norm_num, by norm_num, by norm_num, by norm_num⟩

/-! ## C39 — generic position -/

theorem generic_noTie {ws scene : List (Pt × Pt)} {candidate : List ℤ} {pts : List Pt} {loss tol patch : ℝ}
    (hlen : pts.length = candidate.length + 2) (hws : ws.length = candidate.length)
    (h : Generic ws scene candidate pts loss tol patch) :
    (fmValid ws scene candidate pts loss tol patch).NoTie := by
  simp only [fmValid, Fm.NoTie, Fm.conj, Fm.disj, Fm.noTie_foldl_and, Fm.noTie_foldl_or, List.mem_map,
    forall_exists_index, and_imp, true_and, forall_apply_eq_imp_iff₂]
  refine ⟨⟨?_, ?_⟩, ?_⟩
  · rintro ⟨w, i⟩ hx
    rw [List.mem_zipIdx_iff_getElem?] at hx
    obtain ⟨hlt, -⟩ := List.getElem?_eq_some_iff.mp hx
    obtain ⟨h1, h2⟩ := h.on i w _ hx (rnth_eq (by simp only at hlt; omega))
    have hne : dp (w.2 - w.1) (w.2 - w.1) ≠ 0 := by
      intro e
      have := (dp_self_eq_zero w.1 w.2).mp e
      apply h1; rw [this]; simp [Orthogonal]
    simp only [fmOn, Fm.NoTie, rpar, if_neg hne]
    refine ⟨div_ne_zero ?_ hne, ?_⟩
    · intro e; apply h1
      simp only [dp, V2.sub_x, V2.sub_y] at e; simpa [Orthogonal] using e
    · intro e
      rw [sub_eq_zero, eq_comm, div_eq_iff hne, one_mul] at e
      apply h2
      simp only [dp, V2.sub_x, V2.sub_y] at e
      simp only [Orthogonal]; linarith
  · rintro ⟨i, w, j⟩ hx
    obtain ⟨h1, h2, h3⟩ := mem_hitPairs hlen.le hx
    simp only at h1 h2 h3
    have hg := h.hit i j w _ _ (rnth_eq (by omega)) (rnth_eq h1) h2 h3
    simp only [fmSeg, segParams]
    split
    · trivial
    · rename_i s t e
      split at e
      · cases e
      · rename_i hd
        simp only [Option.some.injEq, Prod.mk.injEq] at e
        rcases hg with hg | hg
        · exact absurd ((segD_eq_zero _ _ _ _).mpr hg) hd
        · obtain ⟨⟨g1, g2⟩, g3, g4⟩ := hg s t ((cross_iff hd s t).mpr ⟨e.1.symm, e.2.symm⟩)
          refine ⟨⟨?_, ?_⟩, ?_, ?_⟩
          · intro e; apply g1; linarith
          · intro e; apply g2; linarith
          · intro e; apply g3; linarith
          · intro e; apply g4; linarith
  · intro e; exact h.loss (by linarith)

/-- In generic position the two modes agree, for every slope and every soft step: thresholding the
approximate validity gives the exact one. -/
theorem C39_agree (E E' : Env) (ap ap' : Option Bool) (hh : Hard E ap) (hs : Soft E' ap') (kw kw' : ActKw)
    (hk : GoodKw kw') (ws scene : List (Pt × Pt)) (candidate : List ℤ) (pts : List Pt) (loss tol patch : ℝ)
    (hlen : pts.length = candidate.length + 2) (hws : ws.length = candidate.length)
    (hg : Generic ws scene candidate pts loss tol patch) :
    ∃ v r,
      (finitePath pts loss).isValid E ((wallsOf scene).map Obj.interact) candidate
        ((wallsOf ws).map Obj.interact) (F.fin tol) (F.fin patch) ap kw = .ok (.b v) ∧
      (finitePath pts loss).isValid E' ((wallsOf scene).map Obj.interact) candidate
        ((wallsOf ws).map Obj.interact) (F.fin tol) (F.fin patch) ap' kw' = .ok (.f (F.fin r)) ∧
      isTrue E' ap' (.f (F.fin r)) = .ok v ∧ isFalse E' ap' (.f (F.fin r)) = !v := by
  obtain ⟨s, h1, h2, h3, -, h5, -, h7, h8, h9⟩ := hk.real
  have hn := generic_noTie hlen hws hg
  refine ⟨_, _, fmValid_hard hh kw ws scene candidate pts loss tol patch hlen hn,
    fmValid_soft hs h1 h2 h3 ws scene candidate pts loss tol patch hlen, ?_⟩
  have hneg : ∀ x, s x < 1 / 2 ↔ x < 0 := by
    intro x
    have := h8 (-x)
    rw [h9] at this
    constructor
    · intro hx; have := this.mp (by linarith); linarith
    · intro hx; have := this.mpr (by linarith); linarith
  have := Fm.eval_half h8 hneg _ hn
  have e5 : (0.5 : F) = F.fin (1 / 2) := by simp only [OfScientific.ofScientific]; norm_num
  simp only [isTrue, isFalse, hs.eq, if_true, Truthy.toF, e5, F.one_eq, F.fin_sub, F.lt, Except.ok.injEq]
  by_cases hv : (fmValid ws scene candidate pts loss tol patch).hv = true
  · rw [if_pos hv] at this
    rw [hv]; simp only [decide_eq_true_eq, Bool.not_true, decide_eq_false_iff_not]
    constructor <;> linarith
  · rw [if_neg hv] at this
    rw [Bool.not_eq_true] at hv
    rw [hv]; simp only [decide_eq_false_iff_not, Bool.not_false, decide_eq_true_eq]
    constructor <;> linarith

/-- In generic position the approximate validity converges to the exact one as the slope grows. -/
theorem C39_limit (E E' : Env) (ap ap' : Option Bool) (hh : Hard E ap) (hs : Soft E' ap') (kw : ActKw)
    (f : F → F → F) (hf : SoftStep f) (ws scene : List (Pt × Pt)) (candidate : List ℤ) (pts : List Pt)
    (loss tol patch : ℝ) (hlen : pts.length = candidate.length + 2) (hws : ws.length = candidate.length)
    (hg : Generic ws scene candidate pts loss tol patch) :
    ∃ v r,
      (finitePath pts loss).isValid E ((wallsOf scene).map Obj.interact) candidate
        ((wallsOf ws).map Obj.interact) (F.fin tol) (F.fin patch) ap kw = .ok (.b v) ∧
      (∀ a : ℝ, 0 < a → (finitePath pts loss).isValid E' ((wallsOf scene).map Obj.interact) candidate
        ((wallsOf ws).map Obj.interact) (F.fin tol) (F.fin patch) ap' ⟨F.fin a, f⟩ = .ok (.f (F.fin (r a)))) ∧
      Tendsto r atTop (nhds (if v = true then 1 else 0)) := by
  obtain ⟨s, h1, h2, h3⟩ := hf
  have hn := generic_noTie hlen hws hg
  refine ⟨_, fun a => (fmValid ws scene candidate pts loss tol patch).eval (s a),
    fmValid_hard hh kw ws scene candidate pts loss tol patch hlen hn, ?_, ?_⟩
  · intro a ha
    exact fmValid_soft (kw := ⟨F.fin a, f⟩) hs (fun x => h2 a x ha) (h3 a ha).1 (h3 a ha).2.1 ws scene candidate pts loss tol patch hlen
  · have := Fm.eval_limit h1.limitPos h1.limitNeg _ hn
    convert this

/-- With `hard_sigmoid` the approximate validity *is* 0.0 or 1.0 for all large enough slopes. -/
theorem C39_exact (E E' : Env) (ap ap' : Option Bool) (hh : Hard E ap) (hs : Soft E' ap') (kw : ActKw)
    (ws scene : List (Pt × Pt)) (candidate : List ℤ) (pts : List Pt)
    (loss tol patch : ℝ) (hlen : pts.length = candidate.length + 2) (hws : ws.length = candidate.length)
    (hg : Generic ws scene candidate pts loss tol patch) :
    ∃ v, (finitePath pts loss).isValid E ((wallsOf scene).map Obj.interact) candidate
        ((wallsOf ws).map Obj.interact) (F.fin tol) (F.fin patch) ap kw = .ok (.b v) ∧
      ∃ a0 : ℝ, ∀ a ≥ a0, (finitePath pts loss).isValid E' ((wallsOf scene).map Obj.interact) candidate
        ((wallsOf ws).map Obj.interact) (F.fin tol) (F.fin patch) ap' ⟨F.fin a, hardSigmoid⟩ =
          .ok (crisp v) := by
  have hn := generic_noTie hlen hws hg
  refine ⟨_, fmValid_hard hh kw ws scene candidate pts loss tol patch hlen hn, ?_⟩
  have hpos : ∀ x : ℝ, 0 < x → ∀ᶠ a : ℝ in atTop, min (max (a * x + 3) 0) 6 / 6 = (1 : ℝ) := by
    intro x hx
    filter_upwards [eventually_ge_atTop (3 / x)] with a ha
    have : 3 ≤ a * x := by rwa [div_le_iff₀ hx] at ha
    rw [max_eq_left (by linarith), min_eq_right (by linarith)]; norm_num
  have hneg : ∀ x : ℝ, x < 0 → ∀ᶠ a : ℝ in atTop, min (max (a * x + 3) 0) 6 / 6 = (0 : ℝ) := by
    intro x hx
    filter_upwards [eventually_ge_atTop (3 / (-x))] with a ha
    have : 3 ≤ a * (-x) := by rwa [div_le_iff₀ (by linarith)] at ha
    rw [max_eq_right (by linarith)]; norm_num
  have ev := (Fm.eval_eventually (s := fun a x => min (max (a * x + 3) 0) 6 / 6) hpos hneg _ hn).and
    (eventually_gt_atTop 0)
  obtain ⟨a0, h0⟩ := eventually_atTop.mp ev
  refine ⟨a0, fun a ha => ?_⟩
  obtain ⟨e, hpos⟩ := h0 a ha
  have h1 : ∀ x : ℝ, activation ⟨F.fin a, hardSigmoid⟩ (F.fin x) = F.fin (min (max (a * x + 3) 0) 6 / 6) :=
    fun x => hardSigmoid_fin a x
  have hg' : GoodKw ⟨F.fin a, hardSigmoid⟩ := ⟨softStep_hardSigmoid, a, hpos, rfl⟩
  obtain ⟨-, -, h2, h3, -⟩ := hg'.real
  rw [fmValid_soft hs h1 h2 h3 ws scene candidate pts loss tol patch hlen, e, crisp]

/-- Non-vacuity: the reflection of `(0,1) → (2,1)` at `(1,0)` on the wall `(0,0)–(3,0)`, the only wall of
the scene, is in generic position. -/
theorem oneWall_generic : Generic [(⟨0, 0⟩, ⟨3, 0⟩)] [(⟨0, 0⟩, ⟨3, 0⟩)] [0] [⟨0, 1⟩, ⟨1, 0⟩, ⟨2, 1⟩] 0 (1 / 100) 0 := by
  refine ⟨?_, ?_, by norm_num⟩
  · intro i w q hw hq
    cases i with
    | zero => simp at hw hq; subst hw hq; norm_num [NotLevelWithEnds, Orthogonal]
    | succ i => simp at hw
  · intro i j w a b ha hb hw hadj
    exfalso; apply hadj
    have hj : j = 0 := by
      cases j with
      | zero => rfl
      | succ j => simp at hw
    subst hj
    match i with
    | 0 => exact .inl rfl
    | 1 => exact .inr ⟨0, rfl, rfl⟩
    | i + 2 => simp at hb

/-- Non-vacuity of C39: that path. -/
example (E : Env) (kw : ActKw) := C39_agree E E (some false) (some true) (.inl rfl) (.inl rfl) kw {} goodKw_default _ _ _ _ _ _ _
  rfl rfl oneWall_generic

example (E : Env) (kw : ActKw) := C39_limit E E (some false) (some true) (.inl rfl) (.inl rfl) kw sigmoid softStep_sigmoid _ _ _ _ _ _ _
  rfl rfl oneWall_generic

example (E : Env) (kw : ActKw) := C39_exact E E (some false) (some true) (.inl rfl) (.inl rfl) kw _ _ _ _ _ _ _
  rfl rfl oneWall_generic

/-- Non-vacuity of C35: a reflection on one wall, turned, scaled and moved. -/
example (E : Env) (ap : Option Bool) (kw : ActKw) :=
  C35_validity _ 2 quarterTurn_similarity E ap kw [(⟨0, 0⟩, ⟨3, 0⟩)] [(⟨0, 0⟩, ⟨3, 0⟩), (⟨0, 5⟩, ⟨3, 5⟩)] [0]
    [⟨0, 1⟩, ⟨1, 0⟩, ⟨2, 1⟩] 0 0 (F.fin (1 / 100)) (by simp) (by simp)

example (E : Env) (ap : Option Bool) (kw : ActKw) : True := by
  obtain ⟨p, h⟩ := C28_image_total (V2.fin ⟨0, 1⟩) (V2.fin ⟨2, 1⟩) (wallsOf [(⟨0, 0⟩, ⟨3, 0⟩)]) (.inl (by simp [wallsOf]))
  obtain ⟨p', h'⟩ := C28_image_total (V2.fin ((⟨0, -2, 2, 0, 5, 7⟩ : Affine).app ⟨0, 1⟩)) (V2.fin ((⟨0, -2, 2, 0, 5, 7⟩ : Affine).app ⟨2, 1⟩))
    (wallsOf ([(⟨0, 0⟩, ⟨3, 0⟩)].map (mapWall ⟨0, -2, 2, 0, 5, 7⟩))) (.inl (by simp [wallsOf]))
  have := C35_traced_validity _ 2 quarterTurn_similarity E ap kw ⟨0, 1⟩ ⟨2, 1⟩ [(⟨0, 0⟩, ⟨3, 0⟩)] [(⟨0, 0⟩, ⟨3, 0⟩)] [0] 0 (F.fin (1 / 100)) rfl p p' h h'
  trivial

end DiffeRT2d.Props
