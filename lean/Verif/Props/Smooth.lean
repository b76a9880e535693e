import Verif.Lemmas.Smooth
import Verif.Props.Stability

/-! # Properties C85 and C86: differentiability -/

namespace DiffeRT2d.Props
open Classical Spec Filter Topology

variable {X : Type} [NormedAddCommGroup X] [NormedSpace ℝ X] {x0 : X} {n : ℕ}

/-- The logistic function near minus infinity. -/
theorem sigmoid_low {a : ℝ} (ha : 0 < a) : LipschitzNear (fun y : ℝ => if y ≤ 0 then 0 else 1 / (1 + Real.exp (-(a * (-1 / y))))) 0 := by
  have e : ∀ y : ℝ, 1 / (1 + Real.exp (-(a * (-1 / y)))) = 1 / (1 + Real.exp (a / y)) := by
    intro y; congr 3; ring
  simp only [e]
  have small : ∀ y : ℝ, 0 < y → |1 / (1 + Real.exp (a / y))| ≤ 2 / a * y := by
    intro y hy
    rw [abs_of_pos (by positivity), div_le_iff₀ (by positivity)]
    have := Real.add_one_le_exp (a / y)
    have h1 : 2 / a * y * (a / y) = 2 := by field_simp
    have h2 : 0 < 2 / a * y := by positivity
    nlinarith
  have big : ∀ x y : ℝ, 0 < x → 0 < y → |1 / (1 + Real.exp (a / x)) - 1 / (1 + Real.exp (a / y))| ≤ 2 / a * |x - y| := by
    intro x y hx hy
    have hd : ∀ z ∈ Set.Ioi (0 : ℝ), HasDerivWithinAt (fun z => 1 / (1 + Real.exp (a / z))) (-(Real.exp (a / z) * (a * (-1 / z ^ 2))) / (1 + Real.exp (a / z)) ^ 2) (Set.Ioi 0) z := by
      intro z hz
      have hz' : z ≠ 0 := (Set.mem_Ioi.mp hz).ne'
      have h1 : HasDerivAt (fun z : ℝ => a / z) (a * (-1 / z ^ 2)) z := by
        have := (hasDerivAt_inv hz').const_mul a
        simpa only [div_eq_mul_inv, neg_mul, one_mul] using this
      have h2 : HasDerivAt (fun z : ℝ => 1 + Real.exp (a / z)) (Real.exp (a / z) * (a * (-1 / z ^ 2))) z := h1.exp.const_add 1
      have := (h2.inv (by positivity)).hasDerivWithinAt (s := Set.Ioi 0)
      simp only [one_div]
      exact this
    have hb : ∀ z ∈ Set.Ioi (0 : ℝ), ‖-(Real.exp (a / z) * (a * (-1 / z ^ 2))) / (1 + Real.exp (a / z)) ^ 2‖ ≤ 2 / a := by
      intro z hz
      have hz0 : 0 < z := hz
      have e : -(Real.exp (a / z) * (a * (-1 / z ^ 2))) / (1 + Real.exp (a / z)) ^ 2 = Real.exp (a / z) * (a / z) ^ 2 / (a * (1 + Real.exp (a / z)) ^ 2) := by
        field_simp
      rw [e, Real.norm_eq_abs, abs_of_pos (by positivity), div_le_div_iff₀ (by positivity) ha]
      have hu : 0 < a / z := by positivity
      generalize a / z = u at hu
      have q := Real.quadratic_le_exp_of_nonneg hu.le
      have hE := Real.exp_pos u
      have h1 : u ^ 2 ≤ 2 * Real.exp u := by nlinarith
      have h2 : Real.exp u * u ^ 2 ≤ 2 * (1 + Real.exp u) ^ 2 := by nlinarith
      calc Real.exp u * u ^ 2 * a ≤ 2 * (1 + Real.exp u) ^ 2 * a := mul_le_mul_of_nonneg_right h2 ha.le
        _ = _ := by ring
    have := (convex_Ioi (0 : ℝ)).norm_image_sub_le_of_norm_hasDerivWithin_le hd hb (Set.mem_Ioi.mpr hy) (Set.mem_Ioi.mpr hx)
    simpa only [Real.norm_eq_abs] using this
  refine LipschitzNear.real_iff.mpr ⟨2 / a, by positivity, Set.univ, univ_mem, fun x _ y _ => ?_⟩
  rw [Real.norm_eq_abs]
  have hc : 0 ≤ 2 / a := by positivity
  split_ifs with h1 h2 h2
  · rw [sub_zero, abs_zero]; positivity
  · rw [zero_sub, abs_neg]
    refine (small y (not_le.mp h2)).trans (mul_le_mul_of_nonneg_left ?_ hc)
    rw [abs_sub_comm]; exact le_trans (by linarith) (le_abs_self _)
  · rw [sub_zero]
    refine (small x (not_le.mp h1)).trans (mul_le_mul_of_nonneg_left ?_ hc)
    exact le_trans (by linarith) (le_abs_self _)
  · exact big x y (not_le.mp h1) (not_le.mp h2)

/-- The two activation functions of the library are Lipschitz steps, for every positive slope. -/
theorem C86_steps (a : ℝ) (ha : 0 < a) : LipschitzStep ⟨F.fin a, sigmoid⟩ ∧ LipschitzStep ⟨F.fin a, hardSigmoid⟩ := by
  constructor
  · refine ⟨⟨softStep_sigmoid, a, ha, rfl⟩, fun x => 1 / (1 + Real.exp (-(a * x))), fun x => ?_, fun x => ?_, sigmoid_low ha⟩
    · obtain ⟨s, h1, rfl, -⟩ := (C04_values a x).2.2.2
      exact h1
    · have h : 1 + Real.exp (-(a * x)) ≠ 0 := by positivity
      refine .of_contDiffAt (contDiffAt_const.div (contDiffAt_const.add ?_) h)
      exact (contDiffAt_const.mul contDiffAt_id).neg.exp
  · refine ⟨⟨softStep_hardSigmoid, a, ha, rfl⟩, _, fun x => hardSigmoid_fin a x, fun x => ?_, ?_⟩
    · have h1 : LipschitzNear (fun x : ℝ => min (max (a * x + 3) 0) 6) x :=
        ((LipschitzNear.of_contDiffAt ((contDiffAt_const.mul contDiffAt_id).add contDiffAt_const)).max (.const 0)).min (.const 6)
      have h2 := h1.mul (.const (1 / 6))
      refine h2.congr (Eventually.of_forall fun y => ?_)
      simp only; ring
    · refine (LipschitzNear.const 0).congr ?_
      filter_upwards [eventually_lt_nhds (by positivity : (0 : ℝ) < a / 3)] with y hy
      split_ifs with h
      · rfl
      · have hy0 := not_le.mp h
        have : a * (-1 / y) ≤ -3 := by
          rw [mul_div_assoc', div_le_iff₀ hy0]; linarith
        rw [max_eq_right (by linarith), min_eq_left (by norm_num)]; norm_num

theorem wallsM_smooth {walls : List (X → Pt × Pt)} (hw : ∀ w ∈ walls, WallSmooth n w x0) (c : List ℤ) : ∀ w ∈ wallsM walls c, WallSmooth n w x0 := by
  intro w h
  obtain ⟨i, -, hi⟩ := List.mem_filterMap.mp h
  exact hw w (List.mem_of_getElem? hi)

theorem wallSmooth_moves {w : X → Pt × Pt} (h : WallSmooth n w x0) : WallMoves w x0 := ⟨h.1.movesAt, h.2.1.movesAt, h.2.2⟩

/-- **C85.** The points and the loss of a traced path are `n` times continuously differentiable functions of the positions
of the ends and of the walls, wherever the path does not stand still. -/
theorem C85_path (t r : X → Pt) (ht : SmoothAt n t x0) (hr : SmoothAt n r x0) (walls : List (X → Pt × Pt))
    (hw : ∀ w ∈ walls, SmoothAt n (fun x => (w x).1) x0 ∧ SmoothAt n (fun x => (w x).2) x0 ∧ (w x0).1 ≠ (w x0).2) (c : List ℤ)
    (hreg : c ≠ [] → ∀ pts loss, traceImage (t x0) (wallsAt (wallsX walls x0) c) (r x0) = .ok (finitePath pts loss) → NoPause pts) :
    ∃ (pts : List (X → Pt)) (loss : X → ℝ), (∀ p ∈ pts, SmoothAt n p x0) ∧ ContDiffAt ℝ n loss x0 ∧
      ∀ x, traceImage (t x) (wallsAt (wallsX walls x) c) (r x) = .ok (finitePath (pts.map (· x)) (loss x)) := by
  have hne : wallsM walls c ≠ [] → c ≠ [] := by rintro h rfl; exact h rfl
  have hR := fun h : c ≠ [] => hreg h _ _ (trace_moves t r walls c x0)
  have hm := mpath_smooth ht hr (wallsM_smooth hw c) (fun h => by rw [← mpath_at]; exact hR (hne h))
  exact ⟨_, _, hm, scores_smooth (wallsM_smooth hw c) hm fun h => hR (hne h), fun x => trace_moves t r walls c x⟩

theorem sum_smooth (l : List (List ℤ)) (f : List ℤ → X → ℝ) (h : ∀ c ∈ l, ContDiffAt ℝ n (f c) x0) : ContDiffAt ℝ n (fun x => (l.map fun c => f c x).sum) x0 := by
  induction l with
  | nil => exact contDiffAt_const
  | cons c l ih =>
    simp only [List.map_cons, List.sum_cons]
    exact (h c (by simp)).add (ih fun c hc => h c (by simp [hc]))
theorem sum_lip (l : List (List ℤ)) (f : List ℤ → X → ℝ) (h : ∀ c ∈ l, LipschitzNear (f c) x0) : LipschitzNear (fun x => (l.map fun c => f c x).sum) x0 := by
  induction l with
  | nil => exact .const 0
  | cons c l ih =>
    simp only [List.map_cons, List.sum_cons]
    exact (h c (by simp)).add (ih fun c hc => h c (by simp [hc]))

theorem valid_length {walls : List (X → Pt × Pt)} {c : List ℤ} (hc : IsCandidate walls.length c) (t r : X → Pt) :
    (mpath t r (wallsM walls c)).length = c.length + 2 := by rw [mpath_length, wallsM_length hc]

/-- **C85.** In hard mode, the values of `accumulate_over_paths` are `n` times continuously differentiable functions of the
positions of the points and of the walls, at regular positions without ties, for every smooth function of the path. -/
theorem C85_field {Key : Type} (G : GraphLib) (hG : GraphContract G) (tx rx : PyDict (X → Pt)) (ht : Distinct tx) (hr : Distinct rx)
    (htm : ∀ t ∈ tx, SmoothAt n t.2 x0) (hrm : ∀ r ∈ rx, SmoothAt n r.2 x0) (walls : List (X → Pt × Pt))
    (hw : ∀ w ∈ walls, SmoothAt n (fun x => (w x).1) x0 ∧ SmoothAt n (fun x => (w x).2) x0 ∧ (w x0).1 ≠ (w x0).2)
    (lo hi : ℤ) (hlo : 0 ≤ lo) (hex : ∃ c, InRange walls.length lo hi c)
    (split : Key → ℕ → List Key) (key : Option Key) (f : Scene.PathFun) (g : Pt → Pt → List Pt → ℝ) (hf : RealFun f g)
    (Q : List Pt → Prop) (hg : SmoothFun n Q g)
    (E : Env) (ap : Option Bool) (hh : Hard E ap) (kw : ActKw) (tol patch : ℝ) (hp : -(1 / 2) < patch)
    (hreg : ∀ t ∈ tx, ∀ r ∈ rx, ∀ c, InRange walls.length lo hi c → ∀ pts loss,
      traceImage (t.2 x0) (wallsAt (wallsX walls x0) c) (r.2 x0) = .ok (finitePath pts loss) → RegularPath (wallsX walls x0) c pts ∧
        Generic (wallsAt (wallsX walls x0) c) (wallsX walls x0) c pts loss tol patch ∧ Q pts) :
    ∃ value : String × (X → Pt) → String × (X → Pt) → X → ℝ,
      (∀ x, (wallScene (atX tx x) (atX rx x) (wallsX walls x)).accumulateOverPaths G split (imageMethod Key) { minOrder := lo, maxOrder := hi }
        ⟨E, F.fin tol, F.fin patch, ap, kw⟩ key f = .ok ((tx ×ˢ rx).map fun p => (p.1.1, p.2.1, F.fin (value p.1 p.2 x)))) ∧
      ∀ p ∈ tx ×ˢ rx, ContDiffAt ℝ n (value p.1 p.2) x0 := by
  let pts : String × (X → Pt) → String × (X → Pt) → List ℤ → List (X → Pt) := fun t r c => mpath t.2 r.2 (wallsM walls c)
  let loss : String × (X → Pt) → String × (X → Pt) → List ℤ → X → ℝ := fun t r c x =>
    (scores ((wallsM walls c).map (· x)) ((mpath t.2 r.2 (wallsM walls c)).map (· x))).sum
  let ok : String × (X → Pt) → String × (X → Pt) → List ℤ → X → Prop := fun t r c x =>
    HardOk ((wallsM walls c).map (· x)) (walls.map (· x)) c ((pts t r c).map (· x)) (loss t r c x) tol patch
  have hwm : ∀ w ∈ walls, WallMoves w x0 := fun w h => wallSmooth_moves (hw w h)
  obtain ⟨cs, h1, h2⟩ := accumulate_formula G hG x0 tx rx ht hr walls lo hi hlo hex split key ⟨E, F.fin tol, F.fin patch, ap, kw⟩ f g hf pts loss
    (fun t r c x => if ok t r c x then 1 else 0) (by
      intro t _ r _ c hc x
      refine ⟨trace_moves t.2 r.2 walls c x, .b (decide (ok t r c x)), ?_, ?_⟩
      · rw [wallsAt_X]
        exact isValid_hardOk hh kw _ _ c _ _ tol patch (by simp [pts, valid_length hc.1])
      · by_cases e : ok t r c x <;> simp [Truthy.toF, e])
  refine ⟨fun t r x => (cs.map fun c => (if ok t r c x then 1 else 0) * g (t.2 x) (r.2 x) ((pts t r c).map (· x))).sum, h2, ?_⟩
  intro p hp'
  obtain ⟨hp1, hp2⟩ := List.mem_product.mp hp'
  refine sum_smooth cs _ fun c hc => ?_
  have hc' := h1 c hc
  obtain ⟨q1, q2, q3⟩ := hreg _ hp1 _ hp2 c hc' _ _ (trace_moves p.1.2 p.2.2 walls c x0)
  rw [wallsAt_X] at q2
  have hne : wallsM walls c ≠ [] → c ≠ [] := by rintro h rfl; exact h rfl
  have hm := mpath_smooth (htm _ hp1) (hrm _ hp2) (wallsM_smooth hw c) (fun h => by rw [← mpath_at]; exact q1.moves (hne h))
  have hl := scores_smooth (wallsM_smooth hw c) hm fun h => q1.moves (hne h)
  have hst := hardOk_stable hp (valid_length hc'.1 p.1.2 p.2.2) (wallsM_moves hwm c) hwm (fun p h => (hm p h).movesAt) (wallsM_length hc'.1) hl.continuousAt q1 q2
  have hG' := hg X x0 _ _ _ (htm _ hp1) (hrm _ hp2) hm q3
  refine ((contDiffAt_const (c := if ok p.1 p.2 c x0 then (1 : ℝ) else 0)).mul hG').congr_of_eventuallyEq ?_
  filter_upwards [hst] with x hx
  have hx' : ok p.1 p.2 c x ↔ ok p.1 p.2 c x0 := hx
  by_cases e : ok p.1 p.2 c x0
  · simp only [if_pos e, if_pos (hx'.mpr e), Pi.mul_apply]; rfl
  · simp only [if_neg e, if_neg (fun h => e (hx'.mp h)), Pi.mul_apply]; simp

/-- **C86.** In approximate mode, the values of `accumulate_over_paths` are Lipschitz functions of the positions of the points
and of the walls near every regular position: the traced paths do not stand still and do not run along the line of a wall they are tested
against. They may be parallel to it, and there may be ties. This holds for every continuously differentiable function of the path. -/
theorem C86_field {Key : Type} (G : GraphLib) (hG : GraphContract G) (tx rx : PyDict (X → Pt)) (ht : Distinct tx) (hr : Distinct rx)
    (htm : ∀ t ∈ tx, SmoothAt 1 t.2 x0) (hrm : ∀ r ∈ rx, SmoothAt 1 r.2 x0) (walls : List (X → Pt × Pt))
    (hw : ∀ w ∈ walls, SmoothAt 1 (fun x => (w x).1) x0 ∧ SmoothAt 1 (fun x => (w x).2) x0 ∧ (w x0).1 ≠ (w x0).2)
    (lo hi : ℤ) (hlo : 0 ≤ lo) (hex : ∃ c, InRange walls.length lo hi c)
    (split : Key → ℕ → List Key) (key : Option Key) (f : Scene.PathFun) (g : Pt → Pt → List Pt → ℝ) (hf : RealFun f g)
    (Q : List Pt → Prop) (hg : SmoothFun 1 Q g)
    (E : Env) (ap : Option Bool) (hs : Soft E ap) (kw : ActKw) (hkw : LipschitzStep kw) (tol patch : ℝ) (hp : -(1 / 2) < patch)
    (hreg : ∀ t ∈ tx, ∀ r ∈ rx, ∀ c, InRange walls.length lo hi c → ∀ pts loss,
      traceImage (t.2 x0) (wallsAt (wallsX walls x0) c) (r.2 x0) = .ok (finitePath pts loss) → RegularPath (wallsX walls x0) c pts ∧ Q pts) :
    ∃ value : String × (X → Pt) → String × (X → Pt) → X → ℝ,
      (∀ x, (wallScene (atX tx x) (atX rx x) (wallsX walls x)).accumulateOverPaths G split (imageMethod Key) { minOrder := lo, maxOrder := hi }
        ⟨E, F.fin tol, F.fin patch, ap, kw⟩ key f = .ok ((tx ×ˢ rx).map fun p => (p.1.1, p.2.1, F.fin (value p.1 p.2 x)))) ∧
      ∀ p ∈ tx ×ˢ rx, LipschitzNear (value p.1 p.2) x0 := by
  obtain ⟨⟨⟨f0, h1, h2, h3⟩, a, ha, e⟩, s, hsr, hl, hlow⟩ := hkw
  have hmono : Monotone s := by
    intro x y hxy
    have ex := hsr x
    have ey := hsr y
    rw [activation, e, h2 a _ ha] at ex ey
    rw [← F.fin.inj ex, ← F.fin.inj ey]
    exact h1.mono a ha hxy
  let pts : String × (X → Pt) → String × (X → Pt) → List ℤ → List (X → Pt) := fun t r c => mpath t.2 r.2 (wallsM walls c)
  let loss : String × (X → Pt) → String × (X → Pt) → List ℤ → X → ℝ := fun t r c x =>
    (scores ((wallsM walls c).map (· x)) ((mpath t.2 r.2 (wallsM walls c)).map (· x))).sum
  let val : String × (X → Pt) → String × (X → Pt) → List ℤ → X → ℝ := fun t r c x =>
    (fmValid ((wallsM walls c).map (· x)) (walls.map (· x)) c ((pts t r c).map (· x)) (loss t r c x) tol patch).eval s
  obtain ⟨cs, q1, q2⟩ := accumulate_formula G hG x0 tx rx ht hr walls lo hi hlo hex split key ⟨E, F.fin tol, F.fin patch, ap, kw⟩ f g hf pts loss
    val (by
      intro t _ r _ c hc x
      refine ⟨trace_moves t.2 r.2 walls c x, .f (F.fin (val t r c x)), ?_, rfl⟩
      rw [wallsAt_X]
      refine fmValid_soft hs hsr ?_ ?_ _ _ c _ _ tol patch (by simp [pts, valid_length hc.1])
      · show activation kw F.pinf = _
        rw [activation, e]; exact (h3 a ha).1
      · show activation kw F.ninf = _
        rw [activation, e]; exact (h3 a ha).2.1)
  refine ⟨fun t r x => (cs.map fun c => val t r c x * g (t.2 x) (r.2 x) ((pts t r c).map (· x))).sum, q2, ?_⟩
  intro p hp'
  obtain ⟨hp1, hp2⟩ := List.mem_product.mp hp'
  refine sum_lip cs _ fun c hc => ?_
  have hc' := q1 c hc
  obtain ⟨r1, r2⟩ := hreg _ hp1 _ hp2 c hc' _ _ (trace_moves p.1.2 p.2.2 walls c x0)
  have hne : wallsM walls c ≠ [] → c ≠ [] := by rintro h rfl; exact h rfl
  have hm := mpath_smooth (htm _ hp1) (hrm _ hp2) (wallsM_smooth hw c) (fun h => by rw [← mpath_at]; exact r1.moves (hne h))
  have hll := scores_smooth (wallsM_smooth hw c) hm fun h => r1.moves (hne h)
  have hV := fmValid_lip (X := X) hl hmono hlow tol hp (valid_length hc'.1 p.1.2 p.2.2) (wallsM_smooth hw c) hw hm hll r1
  exact hV.mul (.of_contDiffAt (hg X x0 _ _ _ (htm _ hp1) (hrm _ hp2) hm r2))

/-- **C86.** Hence, in approximate mode, they are differentiable at almost every such position (for instance, at almost every
position of the receiver, `X = ℝ × ℝ`, or of all points and walls together). -/
theorem C86_almost_everywhere {Key : Type} [FiniteDimensional ℝ X] [MeasurableSpace X] [BorelSpace X] (μ : MeasureTheory.Measure X)
    [μ.IsAddHaarMeasure] (G : GraphLib) (hG : GraphContract G) (tx rx : PyDict (X → Pt)) (ht : Distinct tx) (hr : Distinct rx)
    (walls : List (X → Pt × Pt)) (lo hi : ℤ) (hlo : 0 ≤ lo) (hex : ∃ c, InRange walls.length lo hi c)
    (split : Key → ℕ → List Key) (key : Option Key) (f : Scene.PathFun) (g : Pt → Pt → List Pt → ℝ) (hf : RealFun f g)
    (Q : List Pt → Prop) (hg : SmoothFun 1 Q g)
    (E : Env) (ap : Option Bool) (hs : Soft E ap) (kw : ActKw) (hkw : LipschitzStep kw) (tol patch : ℝ) (hp : -(1 / 2) < patch)
    (S : Set X) (htm : ∀ x ∈ S, ∀ t ∈ tx, SmoothAt 1 t.2 x) (hrm : ∀ x ∈ S, ∀ r ∈ rx, SmoothAt 1 r.2 x)
    (hw : ∀ x ∈ S, ∀ w ∈ walls, SmoothAt 1 (fun x => (w x).1) x ∧ SmoothAt 1 (fun x => (w x).2) x ∧ (w x).1 ≠ (w x).2)
    (hreg : ∀ x ∈ S, ∀ t ∈ tx, ∀ r ∈ rx, ∀ c, InRange walls.length lo hi c → ∀ pts loss,
      traceImage (t.2 x) (wallsAt (wallsX walls x) c) (r.2 x) = .ok (finitePath pts loss) → RegularPath (wallsX walls x) c pts ∧ Q pts)
    (value : String × (X → Pt) → String × (X → Pt) → X → ℝ)
    (hval : ∀ x, (wallScene (atX tx x) (atX rx x) (wallsX walls x)).accumulateOverPaths G split (imageMethod Key) { minOrder := lo, maxOrder := hi }
        ⟨E, F.fin tol, F.fin patch, ap, kw⟩ key f = .ok ((tx ×ˢ rx).map fun p => (p.1.1, p.2.1, F.fin (value p.1 p.2 x)))) :
    ∀ p ∈ tx ×ˢ rx, ∀ᵐ x ∂μ, x ∈ S → DifferentiableAt ℝ (value p.1 p.2) x := by
  intro p hp'
  refine LipschitzNear.ae_differentiable μ _ S fun x hx => ?_
  obtain ⟨value', h1, h2⟩ := C86_field (x0 := x) G hG tx rx ht hr (htm x hx) (hrm x hx) walls (hw x hx) lo hi hlo hex split key f g hf Q hg E ap hs kw hkw
    tol patch hp (hreg x hx)
  refine (h2 p hp').congr (Eventually.of_forall fun y => ?_)
  have e := (h1 y).symm.trans (hval y)
  have e' := List.map_inj_left.mp (Except.ok.inj e) p hp'
  simp only [Prod.mk.injEq, true_and] at e'
  exact F.fin.inj e'

/-- The received power is a smooth function of the path, unless some step is exactly the opposite of the guard `(eps, eps)` that
`path_length` adds to it. -/
theorem C85_power (E : Env) (c height : ℝ) (hh : 0 < height) (n : ℕ) :
    ∃ g, RealFun (powerFun E c height) g ∧
      SmoothFun n (fun pts => ∀ (i : ℕ) (a b : Pt), pts[i]? = some a → pts[i + 1]? = some b → b ≠ ⟨a.x - E.eps, a.y - E.eps⟩) g := by
  refine ⟨_, realFun_power E c height hh, ?_⟩
  intro X _ _ x0 t r pts ht hr hpts hQ
  have hlen : ∀ ps : List (X → Pt), (∀ p ∈ ps, SmoothAt n p x0) → (∀ (i : ℕ) (a b : Pt), (ps.map (· x0))[i]? = some a → (ps.map (· x0))[i + 1]? = some b → b ≠ ⟨a.x - E.eps, a.y - E.eps⟩) →
      ContDiffAt ℝ n (fun x => plen E.eps (ps.map (· x))) x0 := by
    intro ps
    induction ps with
    | nil => intro _ _; exact contDiffAt_const
    | cons p ps ih =>
      intro h hq
      cases ps with
      | nil => exact contDiffAt_const
      | cons q ps =>
        have hp := h p (by simp)
        have hq' := h q (by simp)
        have hs : SmoothAt n (fun x => q x - p x + ⟨E.eps, E.eps⟩) x0 :=
          ⟨(hq'.1.sub hp.1).add contDiffAt_const, (hq'.2.sub hp.2).add contDiffAt_const⟩
        refine (hs.nrm ?_).add (ih (fun p h' => h p (by simp [h'])) fun i a b ha hb => hq (i + 1) a b ha hb)
        intro e
        apply hq 0 (p x0) (q x0) rfl rfl
        have e1 : (q x0).x - (p x0).x + E.eps = 0 := congrArg V2.x e
        have e2 : (q x0).y - (p x0).y + E.eps = 0 := congrArg V2.y e
        ext <;> simp only <;> linarith
  have hL := hlen pts hpts hQ
  simp only [List.length_map]
  refine contDiffAt_const.div (contDiffAt_const.add (hL.pow 2)) ?_
  positivity

/-- The hypotheses of C85 and C86 on the paths hold of a scene with one wall, a moving transmitter and a receiver, for the
orders 0 and 1, and for the received power (with the guard of the library, which is positive). The direct path is parallel to the wall. -/
example (E : Env) :
    (∀ t ∈ [("tx", fun x : ℝ => (⟨x, 1⟩ : Pt))], SmoothAt 1 t.2 0) ∧
    (∀ t ∈ [("tx", fun x : ℝ => (⟨x, 1⟩ : Pt))], ∀ r ∈ [("rx", fun _ : ℝ => (⟨3, 1⟩ : Pt))], ∀ c,
      InRange [fun _ : ℝ => ((⟨0, 0⟩, ⟨4, 0⟩) : Pt × Pt)].length 0 1 c → ∀ pts loss,
      traceImage (t.2 0) (wallsAt (wallsX [fun _ : ℝ => ((⟨0, 0⟩, ⟨4, 0⟩) : Pt × Pt)] 0) c) (r.2 0) = .ok (finitePath pts loss) →
        RegularPath (wallsX [fun _ : ℝ => ((⟨0, 0⟩, ⟨4, 0⟩) : Pt × Pt)] 0) c pts ∧
        ∀ (i : ℕ) (a b : Pt), pts[i]? = some a → pts[i + 1]? = some b → 0 < E.eps → b ≠ ⟨a.x - E.eps, a.y - E.eps⟩) := by
  refine ⟨?_, ?_⟩
  · intro t ht
    simp only [List.mem_singleton] at ht
    subst ht
    exact ⟨contDiffAt_id, contDiffAt_const⟩
  · have hsp : Specular [(⟨0, 0⟩, ⟨4, 0⟩)] [⟨0, 1⟩, ⟨3 / 2, 0⟩, ⟨3, 1⟩] := by
      refine ⟨rfl, fun i w a b c hw ha hb hc => ?_⟩
      cases i with
      | succ i => simp at hw
      | zero =>
        simp at hw ha hb hc; subst hw ha hb hc
        refine ⟨⟨3 / 8, by ext <;> norm_num [pointAt]⟩, by norm_num [side], ?_⟩
        norm_num [along, eucl]
    intro t ht r hr c hc pts loss htr
    simp only [List.mem_singleton] at ht hr
    subst ht hr
    rcases range_one hc with rfl | rfl
    · have e := traceImage_eq ⟨0, 1⟩ ⟨3, 1⟩ (wallsAt [(⟨0, 0⟩, ⟨4, 0⟩)] [])
      have e' := e.symm.trans htr
      obtain ⟨rfl, -⟩ := finitePath_inj (Except.ok.inj e')
      refine ⟨⟨fun h => absurd rfl h, ?_⟩, ?_⟩
      · intro i j w a b ha hb hj _
        have hi : i = 0 := by
          rcases i with _ | _ | i <;> simp_all [rpath, rpts, wallsAt]
        subst hi
        have hj0 : j = 0 := by
          rcases j with _ | j <;> simp_all [wallsX]
        subst hj0
        simp [wallsX, rpath, rpts, wallsAt] at ha hb hj
        subst ha hb hj
        rintro ⟨⟨k, hk⟩, -⟩
        have := congrArg V2.y hk
        norm_num [pointAt] at this
      · intro i a b ha hb hpos
        have hi : i = 0 := by
          rcases i with _ | _ | i <;> simp_all [rpath, rpts, wallsAt]
        subst hi
        simp [rpath, rpts, wallsAt] at ha hb
        subst ha hb
        intro h
        have := congrArg V2.x h
        simp only at this
        linarith
    · have e := C73_complete ⟨0, 1⟩ ⟨3, 1⟩ [(⟨0, 0⟩, ⟨4, 0⟩)] (by simp) [⟨3 / 2, 0⟩] hsp
      have e' := e.symm.trans htr
      obtain ⟨rfl, -⟩ := finitePath_inj (Except.ok.inj e')
      refine ⟨⟨fun _ => noPause_of_specular hsp (by simp), ?_⟩, ?_⟩
      · intro i j w a b ha hb hj hadj
        exfalso; apply hadj
        have hj0 : j = 0 := by
          cases j with
          | zero => rfl
          | succ j => simp [wallsX] at hj
        subst hj0
        match i, hb with
        | 0, _ => exact .inl rfl
        | 1, _ => exact .inr ⟨0, rfl, rfl⟩
        | i + 2, hb => simp at hb
      · intro i a b ha hb hpos h
        have hx := congrArg V2.x h
        match i, ha, hb with
        | 0, ha, hb =>
          simp at ha hb; subst ha hb; simp only at hx; linarith
        | 1, ha, hb =>
          simp at ha hb; subst ha hb; simp only at hx; linarith
        | i + 2, _, hb => simp at hb

end DiffeRT2d.Props
