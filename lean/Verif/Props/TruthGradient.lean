import Verif.Spec.TruthGradient
import Verif.Lemmas.TruthGradient
import Verif.Lemmas.GradValue
import Mathlib.Analysis.SpecialFunctions.Exp

/-! # C152: the derivatives of truth values -/

namespace DiffeRT2d.Props
open Classical Spec
variable {ι : Type}

theorem not_differentiable_of_sides {f : ℝ → ℝ} {x d e : ℝ} (hl : HasDerivWithinAt f d (Set.Iic x) x) (hr : HasDerivWithinAt f e (Set.Ici x) x) (hne : d ≠ e) :
    ¬ DifferentiableAt ℝ f x := by
  intro h
  have h1 := (uniqueDiffOn_Iic x x Set.self_mem_Iic).eq_deriv _ hl h.hasDerivAt.hasDerivWithinAt
  have h2 := (uniqueDiffOn_Ici x x Set.self_mem_Ici).eq_deriv _ hr h.hasDerivAt.hasDerivWithinAt
  exact hne (h1.trans h2.symm)

theorem ramp_line {a x : ℝ} (h1 : -3 ≤ a * x) (h2 : a * x ≤ 3) : ramp a x = 1 / 2 + a * x / 6 := by
  unfold ramp; rw [min_eq_right (by linarith), max_eq_right (by linarith)]

theorem ramp_zero {a x : ℝ} (h : a * x ≤ -3) : ramp a x = 0 := by
  unfold ramp; rw [min_eq_right (by linarith), max_eq_left (by linarith)]

theorem ramp_one {a x : ℝ} (h : 3 ≤ a * x) : ramp a x = 1 := by
  unfold ramp; rw [min_eq_left (by linarith), max_eq_right (by norm_num)]

theorem line_deriv (a x : ℝ) : HasDerivAt (fun y : ℝ => 1 / 2 + a * y / 6) (a / 6) x := by
  have := (((hasDerivAt_id x).const_mul a).div_const 6).const_add (1 / 2)
  simpa using this

/-- **C152.** The smooth activation function sends back its derivative, which is positive and at most a quarter of the slope, reached at zero only. -/
theorem C152_sigmoid {x : Rev ι} {v : ℝ} {g : ι → ℝ} (a : ℝ) (h : Gives x v g) :
    Gives (Rev.sigmoid x (F.fin a)) (smooth a v) (fun i => a * (smooth a v * (1 - smooth a v)) * g i) ∧
    HasDerivAt (smooth a) (a * (smooth a v * (1 - smooth a v))) v ∧
    (0 < a → 0 < a * (smooth a v * (1 - smooth a v)) ∧ a * (smooth a v * (1 - smooth a v)) ≤ a / 4 ∧ (a * (smooth a v * (1 - smooth a v)) = a / 4 ↔ v = 0)) := by
  have hE : 0 < Real.exp (-(a * v)) := Real.exp_pos _
  refine ⟨⟨?_, fun c i => ?_⟩, ?_, fun ha => ?_⟩
  · show nnSigmoid (F.fin a * x.val) = _
    rw [h.1, F.fin_mul, nnSigmoid_fin]; rfl
  · show (0 : F) + x.pull (F.fin c * (nnSigmoid (F.fin a * x.val) * (1 - nnSigmoid (F.fin a * x.val))) * F.fin a) i = _
    rw [h.1, F.fin_mul, nnSigmoid_fin, F.one_eq, F.fin_sub, F.fin_mul, F.fin_mul, F.fin_mul, h.2, F.zero_eq, F.fin_add]
    congr 1
    show _ = c * (a * (1 / (1 + Real.exp (-(a * v))) * (1 - 1 / (1 + Real.exp (-(a * v))))) * g i)
    ring
  · have h1 : HasDerivAt (fun y : ℝ => 1 + Real.exp (-(a * y))) (Real.exp (-(a * v)) * (-(a * 1))) v :=
      (((hasDerivAt_id v).const_mul a).neg.exp).const_add 1
    have h2 := h1.inv (by positivity)
    have e : smooth a = fun y => (1 + Real.exp (-(a * y)))⁻¹ := by funext y; unfold smooth; rw [one_div]
    rw [e]
    refine h2.congr_deriv ?_
    field_simp
    ring
  · have hs0 : 0 < smooth a v := by unfold smooth; positivity
    have hs1 : smooth a v < 1 := by unfold smooth; rw [div_lt_one (by positivity)]; linarith
    refine ⟨mul_pos ha (mul_pos hs0 (by linarith)), ?_, ?_⟩
    · nlinarith [mul_nonneg ha.le (sq_nonneg (smooth a v - 1 / 2))]
    · constructor
      · intro he
        have h1 : smooth a v = 1 / 2 := by
          have : a * (smooth a v - 1 / 2) ^ 2 = 0 := by nlinarith
          rcases mul_eq_zero.mp this with h | h
          · exact absurd h ha.ne'
          · have := pow_eq_zero_iff (two_ne_zero) |>.mp h; linarith
        unfold smooth at h1
        rw [div_eq_div_iff (by positivity) (by norm_num)] at h1
        have h2 : Real.exp (-(a * v)) = 1 := by linarith
        rw [Real.exp_eq_one_iff] at h2
        have : a * v = 0 := by linarith
        exact (mul_eq_zero.mp this).resolve_left ha.ne'
      · rintro rfl
        simp [smooth]; norm_num; ring

/-- **C152.** The default activation function sends back a sixth of the slope where it grows, nothing where it is flat, and at the two corners, where it has no derivative,
half of a sixth: the mean of both sides. -/
theorem C152_hard {x : Rev ι} {v : ℝ} {g : ι → ℝ} (a : ℝ) (ha : 0 < a) (h : Gives x v g) :
    Gives (Rev.hardSigmoid x (F.fin a)) (ramp a v) (fun i => (if |v| < 3 / a then a / 6 else if |v| = 3 / a then a / 12 else 0) * g i) ∧
    (|v| ≠ 3 / a → HasDerivAt (ramp a) (if |v| < 3 / a then a / 6 else 0) v) ∧ (|v| = 3 / a → ¬ DifferentiableAt ℝ (ramp a) v) := by
  obtain ⟨b, hb, hb0⟩ : ∃ b : ℝ, 3 / a = b ∧ 0 < b := ⟨_, rfl, by positivity⟩
  have hab : a * b = 3 := by rw [← hb]; field_simp
  rw [hb]
  have up : ∀ y, b ≤ y → 3 ≤ a * y := fun y hy => by rw [← hab]; exact mul_le_mul_of_nonneg_left hy ha.le
  have up' : ∀ y, y ≤ b → a * y ≤ 3 := fun y hy => by rw [← hab]; exact mul_le_mul_of_nonneg_left hy ha.le
  have lo : ∀ y, y ≤ -b → a * y ≤ -3 := fun y hy => by have := mul_le_mul_of_nonneg_left hy ha.le; linarith [mul_neg a b]
  have lo' : ∀ y, -b ≤ y → -3 ≤ a * y := fun y hy => by have := mul_le_mul_of_nonneg_left hy ha.le; linarith [mul_neg a b]
  have hg : Gives (Rev.hardSigmoid x (F.fin a)) (Min.min (Max.max (a * v + 3) 0) 6 / 6)
      (fun i => (share 6 (Max.max (a * v + 3) 0) * share (a * v + 3) 0) * (a / 6) * g i) := by
    have h1 := (((h.scale a).add (gives_const 3)).max (gives_const 0)).min (gives_const 6) |>.div_const (x := 6) (by norm_num)
    exact Gives.congr (k := fun i => (share 6 (Max.max (a * v + 3) 0) * share (a * v + 3) 0) * (a / 6) * g i) (by simpa [Rev.hardSigmoid, Rev.relu6] using h1) rfl fun i => by ring
  have hval : Min.min (Max.max (a * v + 3) 0) 6 / 6 = ramp a v := by
    unfold ramp
    rcases le_total (a * v) (-3) with h1 | h1
    · rw [max_eq_right (by linarith), min_eq_left (by norm_num), min_eq_right (by linarith), max_eq_left (by linarith)]; norm_num
    · rcases le_total (a * v) 3 with h2 | h2
      · rw [max_eq_left (by linarith), min_eq_left (by linarith), min_eq_right (by linarith), max_eq_right (by linarith)]; ring
      · rw [max_eq_left (by linarith), min_eq_right (by linarith), min_eq_left (by linarith), max_eq_right (by norm_num)]; norm_num
  have hin : |v| < b → -3 < a * v ∧ a * v < 3 := by
    intro hv
    obtain ⟨h1, h2⟩ := abs_lt.mp hv
    exact ⟨by nlinarith, by nlinarith⟩
  have hout : b < |v| → 3 < a * v ∨ a * v < -3 := by
    intro hv
    rcases lt_abs.mp hv with h1 | h1
    · left; nlinarith
    · right; nlinarith
  have hon : |v| = b → v = b ∨ v = -b := fun hv => (abs_eq hb0.le).mp hv
  refine ⟨hg.congr hval fun i => ?_, fun hne => ?_, fun he => ?_⟩
  · congr 1
    split_ifs with h1 h2
    · obtain ⟨h3, h4⟩ := hin h1
      rw [max_eq_left (by linarith)]
      unfold share
      rw [if_pos (by linarith), if_pos (by linarith)]; ring
    · rcases hon h2 with e | e
      · have : a * v = 3 := by rw [e, hab]
        rw [this]; unfold share; norm_num; ring
      · have : a * v = -3 := by rw [e, mul_neg, hab]
        rw [this]; unfold share; norm_num; ring
    · rcases hout (lt_of_le_of_ne (not_lt.mp h1) (Ne.symm h2)) with h3 | h3
      · rw [max_eq_left (by linarith)]
        unfold share
        rw [if_neg (by linarith), if_pos (by linarith)]; ring
      · unfold share
        rw [if_neg (show ¬ (0 : ℝ) < a * v + 3 by linarith), if_pos (show a * v + 3 < 0 by linarith)]; ring
  · split_ifs with h1
    · refine (line_deriv a v).congr_of_eventuallyEq ?_
      obtain ⟨h2, h3⟩ := abs_lt.mp h1
      filter_upwards [Ioo_mem_nhds h2 h3] with y hy
      exact ramp_line (lo' y hy.1.le) (up' y hy.2.le)
    · have h2 : b < |v| := lt_of_le_of_ne (not_lt.mp h1) (Ne.symm hne)
      rcases lt_abs.mp h2 with h3 | h3
      · refine (hasDerivAt_const v (1 : ℝ)).congr_of_eventuallyEq ?_
        filter_upwards [Ioi_mem_nhds h3] with y hy
        exact ramp_one (up y (le_of_lt hy))
      · refine (hasDerivAt_const v (0 : ℝ)).congr_of_eventuallyEq ?_
        filter_upwards [Iio_mem_nhds (show v < -b by linarith)] with y hy
        exact ramp_zero (lo y (le_of_lt hy))
  · have ha6 : a / 6 ≠ 0 := by positivity
    rcases hon he with rfl | rfl
    · refine not_differentiable_of_sides (d := a / 6) (e := 0) ?_ ?_ ha6
      · refine (line_deriv a v).hasDerivWithinAt.congr_of_eventuallyEq ?_ (ramp_line (by linarith) hab.le)
        filter_upwards [self_mem_nhdsWithin, mem_nhdsWithin_of_mem_nhds (Ioi_mem_nhds (show -v < v by linarith))] with y hy hy'
        exact ramp_line (lo' y (le_of_lt hy')) (up' y hy)
      · exact (hasDerivWithinAt_const v _ (1 : ℝ)).congr (fun y hy => ramp_one (up y hy)) (ramp_one hab.ge)
    · refine not_differentiable_of_sides (d := 0) (e := a / 6) ?_ ?_ ha6.symm
      · exact (hasDerivWithinAt_const _ _ (0 : ℝ)).congr (fun y hy => ramp_zero (lo y hy)) (ramp_zero (lo _ le_rfl))
      · refine (line_deriv a (-b)).hasDerivWithinAt.congr_of_eventuallyEq ?_ (ramp_line (lo' _ le_rfl) (up' _ (by linarith)))
        filter_upwards [self_mem_nhdsWithin, mem_nhdsWithin_of_mem_nhds (Iio_mem_nhds (show -b < b by linarith))] with y hy hy'
        exact ramp_line (lo' y hy) (up' y (le_of_lt hy'))

/-- **C152.** The figure in the documentation of `activation`: what `vmap(grad(f))(x)` is. -/
theorem C152_figure (a : ℝ) (ha : 0 < a) (xs : List ℝ) :
    activationGradients ⟨F.fin a, Rev.sigmoid⟩ (xs.map F.fin) = xs.map (fun x => F.fin (deriv (smooth a) x)) ∧
    activationGradients ⟨F.fin a, Rev.hardSigmoid⟩ (xs.map F.fin) = xs.map (fun x => F.fin (if |x| = 3 / a then a / 12 else deriv (ramp a) x)) := by
  unfold activationGradients
  rw [List.map_map, List.map_map]
  refine ⟨List.map_congr_left fun x _ => ?_, List.map_congr_left fun x _ => ?_⟩
  · obtain ⟨h1, h2, -⟩ := C152_sigmoid a (gives_var x ())
    show Rev.grad (Rev.sigmoid _ _) () = _
    rw [h1.grad, h2.deriv]; simp
  · obtain ⟨h1, h2, -⟩ := C152_hard a ha (gives_var x ())
    show Rev.grad (Rev.hardSigmoid _ _) () = _
    rw [h1.grad]
    by_cases he : |x| = 3 / a
    · simp [he]
    · rw [if_neg he, if_neg he, (h2 he).deriv]; simp

section
variable {E : Env} {ap : Option Bool} {x y z : Rev ι} {v w u : ℝ} {g k l : ι → ℝ}

/-- **C152.** With approximation, `greater` and `greater_equal` are one function, `less` and `less_equal` too; the value of `less` is one minus that of `greater`, and the
gradient is the opposite. -/
theorem C152_compare (hs : Soft E ap) (a : ℝ) (ha : 0 < a) (kw : Rev.ActKw ι) (hkw : kw = ⟨F.fin a, Rev.sigmoid⟩ ∨ kw = ⟨F.fin a, Rev.hardSigmoid⟩) (hx : Gives x v g) (hy : Gives y w k) :
    ∃ (p q : Rev ι) (d s : ℝ), Rev.greater E ap kw x y = .f p ∧ Rev.greaterEqual E ap kw x y = .f p ∧ Rev.less E ap kw x y = .f q ∧ Rev.lessEqual E ap kw x y = .f q ∧
      0 ≤ s ∧ Gives p d (fun i => s * (g i - k i)) ∧ Gives q (1 - d) fun i => -(s * (g i - k i)) := by
  have hxy := hx.sub hy
  have hyx := hy.sub hx
  refine ⟨Rev.activation kw (x - y), Rev.activation kw (y - x), ?_⟩
  simp only [Rev.greater, Rev.greaterEqual, Rev.less, Rev.lessEqual, hs.eq, if_true, true_and]
  rcases hkw with rfl | rfl
  · obtain ⟨h1, -, h3⟩ := C152_sigmoid a hxy
    obtain ⟨h2, -⟩ := C152_sigmoid a hyx
    have e : smooth a (w - v) = 1 - smooth a (v - w) := by
      unfold smooth
      rw [show -(a * (w - v)) = -(-(a * (v - w))) by ring, Real.exp_neg (-(a * (v - w)))]
      have := Real.exp_pos (-(a * (v - w)))
      field_simp
      ring
    exact ⟨_, _, (h3 ha).1.le, h1, h2.congr e fun i => by rw [e]; ring⟩
  · obtain ⟨h1, -⟩ := C152_hard a ha hxy
    obtain ⟨h2, -⟩ := C152_hard a ha hyx
    refine ⟨_, _, ?_, h1, h2.congr ?_ fun i => by rw [abs_sub_comm w v]; ring⟩
    · split_ifs <;> positivity
    · have e : a * (w - v) = -(a * (v - w)) := by ring
      unfold ramp
      rw [e]
      generalize a * (v - w) = r
      rcases le_total r (-3) with h | h
      · rw [min_eq_left (by linarith), max_eq_right (by norm_num), min_eq_right (by linarith), max_eq_left (by linarith)]; ring
      · rcases le_total r 3 with h' | h'
        · rw [min_eq_right (by linarith), max_eq_right (by linarith), min_eq_right (by linarith), max_eq_right (by linarith)]; ring
        · rw [min_eq_right (by linarith), max_eq_left (by linarith), min_eq_left (by linarith), max_eq_right (by norm_num)]; ring

/-- **C152.** With approximation, `logical_or` and `logical_and` send back the gradient of the operand that decides, or the mean of both if they are equal; `logical_not` sends back the
opposite. -/
theorem C152_connectives (hs : Soft E ap) (hx : Gives x v g) (hy : Gives y w k) :
    Gives (Rev.logicalOr E ap (.f x) (.f y)).toF (max v w) (fun i => if w < v then g i else if v < w then k i else (g i + k i) / 2) ∧
    Gives (Rev.logicalAnd E ap (.f x) (.f y)).toF (min v w) (fun i => if v < w then g i else if w < v then k i else (g i + k i) / 2) ∧
    Gives (Rev.logicalNot E ap (.f x)).toF (1 - v) fun i => -g i := by
  simp only [Rev.logicalOr, Rev.logicalAnd, Rev.logicalNot, hs.eq, if_true]
  refine ⟨(hx.max hy).congr rfl fun i => ?_, (hx.min hy).congr rfl fun i => ?_, ?_⟩
  · unfold share; split_ifs <;> linarith
  · unfold share; split_ifs <;> linarith
  · have h := (gives_const (ι := ι) 1).sub hx
    rw [← F.one_eq] at h
    exact h.congr rfl fun i => by ring

/-- **C152.** These laws hold for values and gradients: negating twice, de Morgan, commutativity and idempotence; absorption holds for the gradients unless the operands are equal. -/
theorem C152_laws (hs : Soft E ap) (hx : Gives x v g) (hy : Gives y w k) :
    (Gives (Rev.logicalNot E ap (Rev.logicalNot E ap (.f x))).toF v g) ∧
    (∃ d m, Gives (Rev.logicalNot E ap (Rev.logicalOr E ap (.f x) (.f y))).toF d m ∧ Gives (Rev.logicalAnd E ap (Rev.logicalNot E ap (.f x)) (Rev.logicalNot E ap (.f y))).toF d m) ∧
    (∃ d m, Gives (Rev.logicalOr E ap (.f x) (.f y)).toF d m ∧ Gives (Rev.logicalOr E ap (.f y) (.f x)).toF d m) ∧
    (∃ d m, Gives (Rev.logicalAnd E ap (.f x) (.f y)).toF d m ∧ Gives (Rev.logicalAnd E ap (.f y) (.f x)).toF d m) ∧
    Gives (Rev.logicalOr E ap (.f x) (.f x)).toF v g ∧ Gives (Rev.logicalAnd E ap (.f x) (.f x)).toF v g ∧
    Gives (Rev.logicalOr E ap (.f x) (Rev.logicalAnd E ap (.f x) (.f y))).toF v (fun i => if v = w then (3 * g i + k i) / 4 else g i) := by
  have hf : ∀ p q : Rev ι, (∃ r, Rev.logicalOr E ap (.f p) (.f q) = .f r) ∧ (∃ r, Rev.logicalAnd E ap (.f p) (.f q) = .f r) ∧ ∃ r, Rev.logicalNot E ap (.f p) = .f r := by
    intro p q
    simp only [Rev.logicalOr, Rev.logicalAnd, Rev.logicalNot, hs.eq, if_true]
    exact ⟨⟨_, rfl⟩, ⟨_, rfl⟩, ⟨_, rfl⟩⟩
  obtain ⟨⟨o, ho⟩, ⟨n, hn⟩, nx, hnx⟩ := hf x y
  obtain ⟨-, -, ny, hny⟩ := hf y y
  obtain ⟨h1, h2, h3⟩ := C152_connectives hs hx hy
  obtain ⟨h4, h5, h6⟩ := C152_connectives hs hy hx
  obtain ⟨h7, h8, -⟩ := C152_connectives hs hx hx
  rw [ho] at h1
  rw [hn] at h2
  rw [hnx] at h3
  rw [hny] at h6
  have h1' : Gives o _ _ := h1
  have h2' : Gives n _ _ := h2
  have h3' : Gives nx _ _ := h3
  have h6' : Gives ny _ _ := h6
  refine ⟨?_, ?_, ⟨_, _, ho ▸ h1, ?_⟩, ⟨_, _, hn ▸ h2, ?_⟩, ?_, ?_, ?_⟩
  · rw [hnx]
    exact (C152_connectives hs h3' h3').2.2.congr (by ring) fun i => by ring
  · rw [ho, hnx, hny]
    refine ⟨_, _, (C152_connectives hs h1' h1').2.2, ?_⟩
    refine (C152_connectives hs h3' h6').2.1.congr ?_ fun i => ?_
    · rcases le_total v w with h | h
      · rw [max_eq_right h, min_eq_right (by linarith)]
      · rw [max_eq_left h, min_eq_left (by linarith)]
    · rcases lt_trichotomy v w with h | rfl | h
      · rw [if_neg (by linarith), if_pos (by linarith), if_neg (by linarith), if_pos h]
      · simp only [lt_irrefl, if_false]; ring
      · rw [if_pos (by linarith), if_pos h]
  · refine h4.congr (max_comm _ _) fun i => ?_
    rcases lt_trichotomy v w with h | rfl | h
    · rw [if_pos h, if_neg (by linarith), if_pos h]
    · simp only [lt_irrefl, if_false]; ring
    · rw [if_neg (by linarith), if_pos h, if_pos h]
  · refine h5.congr (min_comm _ _) fun i => ?_
    rcases lt_trichotomy v w with h | rfl | h
    · rw [if_neg (by linarith), if_pos h, if_pos h]
    · simp only [lt_irrefl, if_false]; ring
    · rw [if_pos h, if_neg (by linarith), if_pos h]
  · exact h7.congr (max_self _) fun i => by simp
  · exact h8.congr (min_self _) fun i => by simp
  · rw [hn]
    refine (C152_connectives hs hx h2').1.congr (max_eq_left (min_le_left _ _)) fun i => ?_
    rcases lt_trichotomy v w with h | rfl | h
    · rw [min_eq_left h.le, if_neg h.ne]; simp [h]
    · simp only [min_self, lt_irrefl, if_false, if_true]; ring
    · rw [min_eq_right h.le, if_pos h, if_neg h.ne']

end

theorem least_of (xs : List ℝ) : ∀ x : ℝ, ∃ m, F.minOf (F.fin x) (xs.map F.fin) = F.fin m ∧ m ∈ x :: xs ∧ ∀ y ∈ x :: xs, m ≤ y := by
  induction xs with
  | nil => exact fun x => ⟨x, rfl, by simp, by simp⟩
  | cons y ys ih =>
    intro x
    obtain ⟨m, h1, h2, h3⟩ := ih (min x y)
    have h4 := h3 (min x y) (by simp)
    refine ⟨m, by simpa [F.minOf] using h1, ?_, ?_⟩
    · rcases List.mem_cons.mp h2 with rfl | h2
      · rcases min_choice x y with e | e <;> simp [e]
      · simp [h2]
    · intro z hz
      simp only [List.mem_cons] at hz
      rcases hz with rfl | rfl | hz
      · exact h4.trans (min_le_left _ _)
      · exact h4.trans (min_le_right _ _)
      · exact h3 z (by simp [hz])

theorem largest_of (xs : List ℝ) : ∀ x : ℝ, ∃ m, F.maxOf (F.fin x) (xs.map F.fin) = F.fin m ∧ m ∈ x :: xs ∧ ∀ y ∈ x :: xs, y ≤ m := by
  induction xs with
  | nil => exact fun x => ⟨x, rfl, by simp, by simp⟩
  | cons y ys ih =>
    intro x
    obtain ⟨m, h1, h2, h3⟩ := ih (max x y)
    have h4 := h3 (max x y) (by simp)
    refine ⟨m, by simpa [F.maxOf] using h1, ?_, ?_⟩
    · rcases List.mem_cons.mp h2 with rfl | h2
      · rcases max_choice x y with e | e <;> simp [e]
      · simp [h2]
    · intro z hz
      simp only [List.mem_cons] at hz
      rcases hz with rfl | rfl | hz
      · exact (le_max_left _ _).trans h4
      · exact (le_max_right _ _).trans h4
      · exact h3 z (by simp [hz])

section
variable (v : Rev ι → ℝ) (g : Rev ι → ι → ℝ) (m : ℝ)

theorem shared_pull (l : List (Rev ι)) (h : ∀ a ∈ l, Gives a (v a) (g a)) (c n : ℝ) (hn : n ≠ 0) (i : ι) (acc : ℝ) :
    (l.map fun y => y.pull (F.where_ (F.eq y.val (F.fin m)) 1 0 * (F.fin c / F.fin n)) i).foldl (· + ·) (F.fin acc) =
      F.fin (acc + c * (((l.filter fun a => v a = m).map fun a => g a i).sum / n)) := by
  induction l generalizing acc with
  | nil => simp
  | cons a l ih =>
    have ha := h a (by simp)
    simp only [List.map_cons, List.foldl_cons]
    rw [F.fin_div _ hn] at ih ⊢
    rw [ha.1, F.eq_fin]
    by_cases he : v a = m
    · rw [decide_eq_true he]
      simp only [F.where_, if_true, F.one_eq, F.fin_mul] at ih ⊢
      rw [ha.2, F.fin_add, ih fun b hb => h b (by simp [hb])]
      rw [List.filter_cons_of_pos (by simpa using he), List.map_cons, List.sum_cons]
      congr 1; ring
    · rw [decide_eq_false he]
      simp only [F.where_, Bool.false_eq_true, if_false, F.zero_eq, F.fin_mul] at ih ⊢
      rw [ha.2, F.fin_add, ih fun b hb => h b (by simp [hb])]
      rw [List.filter_cons_of_neg (by simpa using he)]
      congr 1; ring

theorem tie_count (l : List (Rev ι)) (h : ∀ a ∈ l, Gives a (v a) (g a)) : (l.countP fun y => F.eq y.val (F.fin m)) = (l.filter fun a => v a = m).length := by
  rw [List.countP_eq_length_filter]
  congr 1
  refine List.filter_congr fun a ha => ?_
  rw [(h a ha).1, F.eq_fin]

theorem map_val (l : List (Rev ι)) (h : ∀ a ∈ l, Gives a (v a) (g a)) : l.map Rev.val = (l.map v).map F.fin := by
  rw [List.map_map]
  exact List.map_congr_left fun a ha => (h a ha).1

/-- **C152.** With approximation, `logical_all` and `logical_any` of any number of truth values send back the mean of the gradients of the operands that decide. -/
theorem C152_all_any {E : Env} {ap : Option Bool} (hs : Soft E ap) (l : List (Rev ι)) (hl : l ≠ []) (h : ∀ a ∈ l, Gives a (v a) (g a)) :
    (∃ r m, Rev.logicalAll E ap (l.map .f) = .ok (.f r) ∧ (∃ a ∈ l, v a = m) ∧ (∀ a ∈ l, m ≤ v a) ∧
      Gives r m fun i => ((l.filter fun a => v a = m).map fun a => g a i).sum / (l.filter fun a => v a = m).length) ∧
    (∃ r m, Rev.logicalAny E ap (l.map .f) = .ok (.f r) ∧ (∃ a ∈ l, v a = m) ∧ (∀ a ∈ l, v a ≤ m) ∧
      Gives r m fun i => ((l.filter fun a => v a = m).map fun a => g a i).sum / (l.filter fun a => v a = m).length) := by
  obtain ⟨x, xs, rfl⟩ := List.exists_cons_of_ne_nil hl
  have htoF : (List.map RevTruthy.toF (List.map RevTruthy.f xs)) = xs := by rw [List.map_map]; exact List.map_id xs
  have hB : ((x :: xs).map RevTruthy.f).all (fun y => y.val.isB) = false := by simp [RevTruthy.val, Truthy.isB]
  have hx := (h x (by simp)).1
  have hxs := map_val v g xs fun a ha => h a (by simp [ha])
  have hne : ∀ m, m ∈ v x :: xs.map v → (((x :: xs).filter fun a => v a = m).length : ℝ) ≠ 0 := by
    intro m hm
    rw [← List.map_cons] at hm
    obtain ⟨a, ha, e⟩ := List.mem_map.mp hm
    have : a ∈ (x :: xs).filter fun a => v a = m := List.mem_filter.mpr ⟨ha, by simpa using e⟩
    exact_mod_cast (List.length_pos_of_mem this).ne'
  constructor
  · obtain ⟨m, h1, h2, h3⟩ := least_of (xs.map v) (v x)
    refine ⟨Rev.minOf x xs, m, ?_, ?_, fun a ha => h3 _ (by rw [← List.map_cons]; exact List.mem_map_of_mem ha), ?_, fun c i => ?_⟩
    · simp only [Rev.logicalAll, hs.eq, if_true, List.map_cons] at hB ⊢
      rw [hB]
      simp only [Bool.false_eq_true, if_false, RevTruthy.toF, htoF]
    · rw [← List.map_cons] at h2
      obtain ⟨a, ha, e⟩ := List.mem_map.mp h2
      exact ⟨a, ha, e⟩
    · show F.minOf x.val (xs.map Rev.val) = _
      rw [hx, hxs, h1]
    · have := shared_pull v g m (x :: xs) h c _ (hne m h2) i 0
      simp only [Rev.minOf, hx, hxs, h1]
      rw [F.zero_eq] at this
      rw [tie_count v g m (x :: xs) h, F.zero_eq, this, zero_add]
  · obtain ⟨m, h1, h2, h3⟩ := largest_of (xs.map v) (v x)
    refine ⟨Rev.maxOf x xs, m, ?_, ?_, fun a ha => h3 _ (by rw [← List.map_cons]; exact List.mem_map_of_mem ha), ?_, fun c i => ?_⟩
    · simp only [Rev.logicalAny, hs.eq, if_true, List.map_cons] at hB ⊢
      rw [hB]
      simp only [Bool.false_eq_true, if_false, RevTruthy.toF, htoF]
    · rw [← List.map_cons] at h2
      obtain ⟨a, ha, e⟩ := List.mem_map.mp h2
      exact ⟨a, ha, e⟩
    · show F.maxOf x.val (xs.map Rev.val) = _
      rw [hx, hxs, h1]
    · have := shared_pull v g m (x :: xs) h c _ (hne m h2) i 0
      simp only [Rev.maxOf, hx, hxs, h1]
      rw [F.zero_eq] at this
      rw [tie_count v g m (x :: xs) h, F.zero_eq, this, zero_add]

end

/-- **C152.** What does not hold: with three equal truth values, the gradient of a disjunction depends on the parentheses, and is not that of `logical_any`. -/
theorem C152_associative_refuted (E : Env) (v : ℝ) : ∃ (p q r : Rev (Fin 3)),
    let x : RevTruthy (Fin 3) := .f (.var (F.fin v) 0)
    let y : RevTruthy (Fin 3) := .f (.var (F.fin v) 1)
    let z : RevTruthy (Fin 3) := .f (.var (F.fin v) 2)
    Rev.logicalOr E (some true) (Rev.logicalOr E (some true) x y) z = .f p ∧ Rev.logicalOr E (some true) x (Rev.logicalOr E (some true) y z) = .f q ∧
    Rev.logicalAny E (some true) [x, y, z] = .ok (.f r) ∧
    Rev.grad p 0 = F.fin (1 / 4) ∧ Rev.grad q 0 = F.fin (1 / 2) ∧ Rev.grad r 0 = F.fin (1 / 3) := by
  have hs : Soft E (some true) := .inl rfl
  have hx := gives_var v (0 : Fin 3)
  have hy := gives_var v (1 : Fin 3)
  have hz := gives_var v (2 : Fin 3)
  refine ⟨_, _, Rev.maxOf (.var (F.fin v) 0) [.var (F.fin v) 1, .var (F.fin v) 2], rfl, rfl, rfl, ?_, ?_, ?_⟩
  · have h1 := (hx.max hy).max (hz.congr (w := max v v) (max_self v).symm fun _ => rfl)
    have := h1.grad 0
    refine this.trans ?_
    simp [share]; norm_num
  · have h1 := (hx.congr (w := max v v) (max_self v).symm fun _ => rfl).max (hy.max hz)
    have := h1.grad 0
    refine this.trans ?_
    simp [share]
  · have hm : F.maxOf (F.fin v) [F.fin v, F.fin v] = F.fin v := by simp [F.maxOf]
    simp only [Rev.grad, Rev.maxOf, Rev.var, List.map_cons, List.map_nil, hm, F.eq_fin, decide_true, F.where_, if_true, List.foldl_cons, List.foldl_nil, List.countP_cons, List.countP_nil,
      F.one_eq, F.zero_eq]
    simp [F.fin_div]

/-- **C152.** Under differentiation, `greater` and `logical_any` have the values that they have without. -/
theorem C152_values (E : Env) (ap : Option Bool) (kw : Rev.ActKw ι) (kw' : ActKw) (hk : SameKw kw kw') (x y : Rev ι) (xs : List (RevTruthy ι)) :
    (Rev.greater E ap kw x y).val = greater E ap kw' x.val y.val ∧ (Rev.logicalAny E ap xs).map RevTruthy.val = logicalAny E ap (xs.map RevTruthy.val) := by
  constructor
  · unfold Rev.greater greater
    split_ifs
    · exact congrArg Truthy.f (hk (x - y))
    · rfl
  · unfold Rev.logicalAny logicalAny; split
    · cases xs with
      | nil => rfl
      | cons x xs =>
        simp only [jnpMax, List.map_cons]
        have h1 : (x.val :: xs.map RevTruthy.val).all Truthy.isB = (x :: xs).all fun y => y.val.isB := by simp [List.all_map]; rfl
        have h2 : (x.val :: xs.map RevTruthy.val).any Truthy.toBool = (x :: xs).any fun y => y.val.toBool := by simp [List.any_map]; rfl
        rw [h1, h2]
        split
        · rfl
        · have h3 : ∀ (a : Rev ι) l, (Rev.maxOf a l).val = F.maxOf a.val (l.map Rev.val) := fun _ _ => rfl
          simp only [Except.map, RevTruthy.val, h3, List.map_map, Rev.val_toF]
          congr 3
          exact List.map_congr_left fun y _ => Rev.val_toF y
    · simp [Except.map, RevTruthy.val, List.any_map]; rfl

/-- C152 applies to the test `0 < x < 1` with slope 1: its gradient at `1/4` is `1/6`, and zero in the middle, where both comparisons decide. -/
example (E : Env) : ∀ p : ℝ, (p = 1 / 4 ∨ p = 1 / 2) →
    ∃ r : Rev Unit, Rev.logicalAnd E (some true) (Rev.greater E (some true) ⟨F.fin 1, Rev.hardSigmoid⟩ (.var (F.fin p) ()) (.const (F.fin 0)))
      (Rev.less E (some true) ⟨F.fin 1, Rev.hardSigmoid⟩ (.var (F.fin p) ()) (.const (F.fin 1))) = .f r ∧
      Rev.grad r () = F.fin (if p = 1 / 4 then 1 / 6 else 0) := by
  intro p hp
  refine ⟨_, rfl, ?_⟩
  have h1 := (C152_hard 1 one_pos ((gives_var p ()).sub (gives_const 0))).1
  have h2 := (C152_hard 1 one_pos ((gives_const 1).sub (gives_var p ()))).1
  refine ((C152_connectives (E := E) (ap := some true) (.inl rfl) h1 h2).2.1.grad ()).trans ?_
  rcases hp with rfl | rfl <;> norm_num [ramp, abs_of_pos]

end DiffeRT2d.Props
