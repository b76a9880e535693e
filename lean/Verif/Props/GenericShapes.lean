import Verif.Lemmas.GenericShapes
import Verif.Props.Generic

/-! # Property C39 for scenes of walls, RIS and vertices in any mix -/

namespace DiffeRT2d.Props
open Classical Spec Filter

/-- **C39, any objects.** -/
theorem C39_agree_shapes (E E' : Env) (ap ap' : Option Bool) (hh : Hard E ap) (hs : Soft E' ap') (kw kw' : ActKw)
    (hk : GoodKw kw') (ws scene : List Shape) (candidate : List ℤ) (pts : List Pt) (loss tol patch : ℝ)
    (hlen : pts.length = candidate.length + 2) (hws : ws.length = candidate.length)
    (hg : GenericShapes ws scene candidate pts loss tol patch) :
    ∃ v r,
      (finitePath pts loss).isValid E (scene.map fun s => s.obj.interact) candidate
        (ws.map fun s => s.obj.interact) (F.fin tol) (F.fin patch) ap kw = .ok (.b v) ∧
      (finitePath pts loss).isValid E' (scene.map fun s => s.obj.interact) candidate
        (ws.map fun s => s.obj.interact) (F.fin tol) (F.fin patch) ap' kw' = .ok (.f (F.fin r)) ∧
      isTrue E' ap' (.f (F.fin r)) = .ok v ∧ isFalse E' ap' (.f (F.fin r)) = !v := by
  obtain ⟨s, h1, h2, h3, -, h5, -, h7, h8, h9⟩ := hk.real
  have hn := genericShapes_noTie hlen hws hg
  refine ⟨_, _, fmShapes_hard hh kw ws scene candidate pts loss tol patch hlen hn,
    fmShapes_soft hs h1 h2 h3 ws scene candidate pts loss tol patch hlen, ?_⟩
  have hneg : ∀ x, s x < 1 / 2 ↔ x < 0 := by
    intro x
    have := h8 (-x)
    rw [h9] at this
    constructor
    · intro hx; have := this.mp (by linarith); linarith
    · intro hx; have := this.mpr (by linarith); linarith
  have := Fm.eval_half h8 hneg _ hn
  have e5 : (0.5 : F) = F.fin (1 / 2) := by simp only [OfScientific.ofScientific]; norm_num
  simp only [isTrue, isFalse, hs.eq, if_true, Truthy.toF, e5, F.one_eq, F.fin_sub, F.lt, Except.ok.injEq]
  by_cases hv : (fmShapes ws scene candidate pts loss tol patch).hv = true
  · rw [if_pos hv] at this
    rw [hv]; simp only [decide_eq_true_eq, Bool.not_true, decide_eq_false_iff_not]
    constructor <;> linarith
  · rw [if_neg hv] at this
    rw [Bool.not_eq_true] at hv
    rw [hv]; simp only [decide_eq_false_iff_not, Bool.not_false, decide_eq_true_eq]
    constructor <;> linarith

/-- **C39, any objects.** The approximate validity converges to the exact one as the slope grows. -/
theorem C39_limit_shapes (E E' : Env) (ap ap' : Option Bool) (hh : Hard E ap) (hs : Soft E' ap') (kw : ActKw)
    (f : F → F → F) (hf : SoftStep f) (ws scene : List Shape) (candidate : List ℤ) (pts : List Pt)
    (loss tol patch : ℝ) (hlen : pts.length = candidate.length + 2) (hws : ws.length = candidate.length)
    (hg : GenericShapes ws scene candidate pts loss tol patch) :
    ∃ v r,
      (finitePath pts loss).isValid E (scene.map fun s => s.obj.interact) candidate
        (ws.map fun s => s.obj.interact) (F.fin tol) (F.fin patch) ap kw = .ok (.b v) ∧
      (∀ a : ℝ, 0 < a → (finitePath pts loss).isValid E' (scene.map fun s => s.obj.interact) candidate
        (ws.map fun s => s.obj.interact) (F.fin tol) (F.fin patch) ap' ⟨F.fin a, f⟩ = .ok (.f (F.fin (r a)))) ∧
      Tendsto r atTop (nhds (if v = true then 1 else 0)) := by
  obtain ⟨s, h1, h2, h3⟩ := hf
  have hn := genericShapes_noTie hlen hws hg
  refine ⟨_, fun a => (fmShapes ws scene candidate pts loss tol patch).eval (s a),
    fmShapes_hard hh kw ws scene candidate pts loss tol patch hlen hn, ?_, ?_⟩
  · intro a ha
    exact fmShapes_soft (kw := ⟨F.fin a, f⟩) hs (fun x => h2 a x ha) (h3 a ha).1 (h3 a ha).2.1 ws scene candidate pts loss tol patch hlen
  · have := Fm.eval_limit h1.limitPos h1.limitNeg _ hn
    convert this

/-- **C39, any objects.** With `hard_sigmoid` the approximate validity *is* 0.0 or 1.0 for all large enough slopes. -/
theorem C39_exact_shapes (E E' : Env) (ap ap' : Option Bool) (hh : Hard E ap) (hs : Soft E' ap') (kw : ActKw)
    (ws scene : List Shape) (candidate : List ℤ) (pts : List Pt)
    (loss tol patch : ℝ) (hlen : pts.length = candidate.length + 2) (hws : ws.length = candidate.length)
    (hg : GenericShapes ws scene candidate pts loss tol patch) :
    ∃ v, (finitePath pts loss).isValid E (scene.map fun s => s.obj.interact) candidate
        (ws.map fun s => s.obj.interact) (F.fin tol) (F.fin patch) ap kw = .ok (.b v) ∧
      ∃ a0 : ℝ, ∀ a ≥ a0, (finitePath pts loss).isValid E' (scene.map fun s => s.obj.interact) candidate
        (ws.map fun s => s.obj.interact) (F.fin tol) (F.fin patch) ap' ⟨F.fin a, hardSigmoid⟩ = .ok (crisp v) := by
  have hn := genericShapes_noTie hlen hws hg
  refine ⟨_, fmShapes_hard hh kw ws scene candidate pts loss tol patch hlen hn, ?_⟩
  have hpos : ∀ x : ℝ, 0 < x → ∀ᶠ a : ℝ in atTop, min (max (a * x + 3) 0) 6 / 6 = (1 : ℝ) := by
    intro x hx
    filter_upwards [eventually_ge_atTop (3 / x)] with a ha
    have : 3 ≤ a * x := by rwa [div_le_iff₀ hx] at ha
    rw [max_eq_left (by linarith), min_eq_right (by linarith)]; norm_num
  have hneg : ∀ x : ℝ, x < 0 → ∀ᶠ a : ℝ in atTop, min (max (a * x + 3) 0) 6 / 6 = (0 : ℝ) := by
    intro x hx
    filter_upwards [eventually_ge_atTop (3 / (-x))] with a ha
    have : 3 ≤ a * (-x) := by rwa [div_le_iff₀ (by linarith)] at ha
    rw [max_eq_right (by linarith)]; norm_num
  have ev := (Fm.eval_eventually (s := fun a x => min (max (a * x + 3) 0) 6 / 6) hpos hneg _ hn).and
    (eventually_gt_atTop 0)
  obtain ⟨a0, h0⟩ := eventually_atTop.mp ev
  refine ⟨a0, fun a ha => ?_⟩
  obtain ⟨e, hpos⟩ := h0 a ha
  have h1 : ∀ x : ℝ, activation ⟨F.fin a, hardSigmoid⟩ (F.fin x) = F.fin (min (max (a * x + 3) 0) 6 / 6) :=
    fun x => hardSigmoid_fin a x
  have hg' : GoodKw ⟨F.fin a, hardSigmoid⟩ := ⟨softStep_hardSigmoid, a, hpos, rfl⟩
  obtain ⟨-, -, h2, h3, -⟩ := hg'.real
  rw [fmShapes_soft hs h1 h2 h3 ws scene candidate pts loss tol patch hlen, e, crisp]

/-- Non-vacuity: a reflection at `(1,0)` on a wall, then a diffraction at the vertex `(2,1)`. -/
theorem mixed_generic : GenericShapes [.wall ⟨0, 0⟩ ⟨3, 0⟩, .vertex ⟨2, 1⟩] [.wall ⟨0, 0⟩ ⟨3, 0⟩, .vertex ⟨2, 1⟩] [0, 1]
    [⟨0, 1⟩, ⟨1, 0⟩, ⟨2, 1⟩, ⟨4, 1⟩] 0 (1 / 100) 0 := by
  refine ⟨?_, ?_, by norm_num⟩
  · intro i s w q hs hw hq
    match i with
    | 0 =>
      simp at hs hq; subst hs hq
      simp [Shape.ends] at hw; subst hw
      norm_num [NotLevelWithEnds, Orthogonal]
    | 1 => simp at hs; subst hs; simp [Shape.ends] at hw
    | i + 2 => simp at hs
  · intro i j s w a b ha hb hs hw hadj
    match j with
    | 0 =>
      simp at hs; subst hs
      simp [Shape.ends] at hw; subst hw
      match i with
      | 0 => exact absurd (Or.inl rfl) hadj
      | 1 => exact absurd (Or.inr ⟨0, rfl, rfl⟩) hadj
      | 2 =>
        simp at ha hb; subst ha hb
        left; simp [Parallel, pointAt]
      | i + 3 => simp at hb
    | 1 => simp at hs; subst hs; simp [Shape.ends] at hw
    | j + 2 => simp at hs

example (E : Env) (kw : ActKw) := C39_agree_shapes E E (some false) (some true) (.inl rfl) (.inl rfl) kw {} goodKw_default _ _ _ _ _ _ _
  rfl rfl mixed_generic

example (E : Env) (kw : ActKw) := C39_limit_shapes E E (some false) (some true) (.inl rfl) (.inl rfl) kw sigmoid softStep_sigmoid _ _ _ _ _ _ _
  rfl rfl mixed_generic

example (E : Env) (kw : ActKw) := C39_exact_shapes E E (some false) (some true) (.inl rfl) (.inl rfl) kw _ _ _ _ _ _ _
  rfl rfl mixed_generic

end DiffeRT2d.Props
