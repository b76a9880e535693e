import Verif.Lemmas.RateSoft
import Verif.Props.Rate

/-! # Property C120: in approximate mode too, errors are proportional to the machine precision -/

namespace DiffeRT2d.Props
open Classical Spec Filter Topology Asymptotics

variable {ι : Type} {A : ι → FloatOps} {l : Filter ι} {ε : ι → ℝ} {E : ι → Env} {ap : Option Bool} {kw : ι → ActKw} {s : ℝ → ℝ}

/-- **C120.** IEEE binary formats of growing precision meet the assumptions, with errors of size `2 ^ -precision`. -/
theorem C120_formats {p : ι → ℕ} {emin emax : ι → ℤ} (hp : Tendsto p l atTop) (hx : Tendsto emax l atTop)
    (h4 : ∀ n, 4 ≤ p n) (h0 : ∀ n, emin n ≤ 0) (h3 : ∀ n, 3 ≤ emax n) :
    ErrsEverywhereBy (fun n => ieee (p n) (emin n) (emax n)) l (fun n => 2 ^ (-(p n : ℤ))) := by
  have hE : ∀ n, (2 : ℝ) ^ emin n ≤ 1 := fun n => zpow_le_one_of_nonpos₀ (by norm_num) (h0 n)
  refine ⟨C119_formats hp hx h4 h0 h3, fun n => two_zpow_pos _, fun n x hx => ?_, 1, .of_forall fun n x => ?_⟩
  · have h1 := nearest_error (p n) (emin n) x
    rw [abs_of_pos (by linarith : 0 < x), max_eq_left ((hE n).trans hx)] at h1
    have h2 : (2 : ℝ) ^ (-(p n : ℤ)) ≤ 1 / 2 := by
      calc (2 : ℝ) ^ (-(p n : ℤ)) ≤ 2 ^ (-1 : ℤ) := zpow_le_zpow_right₀ (by norm_num) (by have := h4 n; omega)
        _ = 1 / 2 := by norm_num
    have h3 : x / 2 ≤ nearest (p n) (emin n) x := by
      have := (abs_le.mp h1).1
      nlinarith
    have h5 : ¬ nearest (p n) (emin n) x ≤ -2 ^ (emax n + 1) := by
      have := two_zpow_pos (emax n + 1)
      intro hc; linarith
    simp only [ieee]
    rw [if_neg h5]
    split_ifs
    · exact .pinf (by simp)
    · exact Le.fin.mpr h3
  · have hr : |1 / (1 + Real.exp (-x))| ≤ 1 := by
      rw [abs_of_pos (by positivity), div_le_one (by positivity)]
      have := Real.exp_pos (-x); linarith
    refine ⟨nearest (p n) (emin n) (1 / (1 + Real.exp (-x))), ?_, ?_⟩
    · simp only [ieee, nnSigmoid]
    · refine (nearest_error _ _ _).trans ?_
      exact mul_le_mul_of_nonneg_right (max_le hr (hE n)) (two_zpow_pos _).le

theorem logistic_low {y : ℝ} (hy : 0 < y) : 1 / (1 + Real.exp y) ≤ 1 / y := by
  have := Real.add_one_le_exp y
  exact one_div_le_one_div_of_le hy (by linarith)

/-- **C120.** The activations of the library, computed in floating point, are off from the exact ones by at most a constant times `ε`; so may
the slope be. -/
theorem C120_steps (h : ErrsEverywhereBy A l ε) (α : ι → ℝ) (a : ℝ) (ha : 0 < a) (hα : ∀ n, 0 < α n) (K : ℝ) (ht : ∀ n, |α n - a| ≤ K * ε n) :
    StepsOff l ε (fun n => ⟨F.fin (α n), (A n).sigmoid⟩) (fun x => 1 / (1 + Real.exp (-(a * x)))) ∧
    StepsOff l ε (fun n => ⟨F.fin (α n), (A n).hardSigmoid⟩) (fun x => min (max (a * x + 3) 0) 6 / 6) := by
  have h' := h.toErrsBy
  have hal : OffBy l ε (fun n => F.fin (α n)) a := ⟨K, .of_forall fun n => ⟨α n, rfl, ht n⟩⟩
  constructor
  · refine ⟨fun n => (C87_steps (h.contract n) _ (hα n)).1, ?_, ?_⟩
    · intro f x hf
      obtain ⟨g, g1, g2⟩ := (offBy_iff h.pos).mp (hal.mul h' hf)
      obtain ⟨C, hC⟩ := h.logistic
      have hd : DifferentiableAt ℝ (fun y : ℝ => 1 / (1 + Real.exp (-y))) (a * x) := by
        have : 1 + Real.exp (-(a * x)) ≠ 0 := by positivity
        fun_prop (disch := exact this)
      have hO : (fun n => 1 / (1 + Real.exp (-g n)) - 1 / (1 + Real.exp (-(a * x)))) =O[l] ε :=
        (hd.isBigO_sub.comp_tendsto (bigO_tendsto h' g2)).trans g2
      obtain ⟨D, hD⟩ := hO.bound
      refine ⟨C + D, ?_⟩
      filter_upwards [g1, hC, hD] with n e1 e2 e3
      obtain ⟨y, hy, hy'⟩ := e2 (g n)
      refine ⟨y, ?_, ?_⟩
      · show (A n).logistic ((A n).mul _ _) = _
        rw [e1, hy]
      · rw [Real.norm_eq_abs, Real.norm_eq_abs, abs_of_nonneg (h.pos n)] at e3
        have := abs_sub_le y (1 / (1 + Real.exp (-g n))) (1 / (1 + Real.exp (-(a * x))))
        linarith
    · intro c hc
      obtain ⟨C, hC⟩ := h.logistic
      obtain ⟨g, g1, g2⟩ := hal.approaches h'
      have ha2 : ∀ᶠ n in l, a / 2 < α n := by
        filter_upwards [g1, g2.eventually_const_lt (by linarith : a / 2 < a)] with n e1 e2
        rw [F.fin.inj e1]; exact e2
      set q := a * c / 4 with hq
      have hq0 : 0 < q := by positivity
      refine ⟨C + 1 / q, ?_⟩
      filter_upwards [hC, ha2, large_eventually h (c := a * c / 2) (by positivity) 1] with n e1 e2 e3
      have hε := h.ne n
      have hle : Le ((A n).mul (F.fin (α n)) (F.fin (-(c / ε n)))) (F.fin (-(q / ε n))) := by
        have hx : α n * -(c / ε n) ≤ -(a * c / 2 / ε n) := by
          have : a / 2 * (c / ε n) ≤ α n * (c / ε n) := mul_le_mul_of_nonneg_right e2.le (by positivity)
          have e : a * c / 2 / ε n = a / 2 * (c / ε n) := by ring
          rw [e]; linarith
        have := h.below n e3 hx
        have e : a * c / 2 / ε n / 2 = q / ε n := by rw [hq]; ring
        rw [e] at this
        exact this
      obtain ⟨y, y1, y2⟩ := e1 (-(q / ε n))
      obtain ⟨r, r1, r2, -⟩ := (h.contract n).logistic_range _ hle.left
      have hm := (h.contract n).logistic_mono _ _ hle
      rw [r1, y1, Le.fin] at hm
      refine ⟨r, r1, ?_⟩
      rw [sub_zero, abs_of_nonneg r2]
      rw [neg_neg] at y2
      have h1 := logistic_low (y := q / ε n) (by positivity)
      have h2 : 1 / (q / ε n) = 1 / q * ε n := by field_simp
      have h3 := (abs_le.mp y2).2
      linarith
  · have hnear : ∀ (f : ι → F) (x : ℝ), OffBy l ε f x → OffBy l ε (fun n => activation ⟨F.fin (α n), (A n).hardSigmoid⟩ (f n)) (min (max (a * x + 3) 0) 6 / 6) := by
      intro f x hf
      have c0 : OffBy l ε (fun _ => F.fin 0) 0 := OffBy.const h' 0
      have c3 : OffBy l ε (fun _ => (3 : F)) 3 := by simpa using OffBy.const h' 3
      have c6 : OffBy l ε (fun _ => F.fin 6) 6 := OffBy.const h' 6
      have hg := (hal.mul h' hf).add h' c3
      have : OffBy l ε (fun n => nnRelu6 ((A n).add ((A n).mul (F.fin (α n)) (f n)) 3)) (min (max (a * x + 3) 0) 6) := by
        obtain ⟨g, g1, -⟩ := (offBy_iff h.pos).mp hg
        refine ((hg.max' h' c0).min' h' c6).congr' ?_
        filter_upwards [g1] with n e1
        rw [e1]; simp [nnRelu6]
      exact this.div h' (by simpa using c6) (by norm_num)
    refine ⟨fun n => (C87_steps (h.contract n) _ (hα n)).2, hnear, ?_⟩
    intro c hc
    obtain ⟨C, hC⟩ := hnear _ _ (OffBy.const h' (-3 / a))
    have e0 : min (max (a * (-3 / a) + 3) 0) 6 / 6 = 0 := by
      rw [mul_div_cancel₀ _ ha.ne', max_eq_right (by norm_num), min_eq_left (by norm_num)]; norm_num
    rw [e0] at hC
    refine ⟨C, ?_⟩
    filter_upwards [hC, large_eventually h hc (3 / a)] with n ⟨y, y1, y2⟩ e3
    have hst := (C87_steps (h.contract n) _ (hα n)).2
    obtain ⟨r, r1, r2, -⟩ := hst.range (F.fin (-(c / ε n))) (by simp)
    have hm := hst.mono (F.fin (-(c / ε n))) (F.fin (-3 / a)) (Le.fin.mpr (by rw [neg_div]; linarith))
    rw [r1, y1, Le.fin] at hm
    refine ⟨r, r1, ?_⟩
    rw [sub_zero, abs_of_nonneg r2]
    rw [sub_zero] at y2
    exact hm.trans ((le_abs_self y).trans y2)

/-- **C120.** The degree of validity of a path is off from that of exact arithmetic by at most a constant times `ε`, if the exact path is
regular: no genericity is needed, since approximate comparisons do not jump. -/
theorem C120_valid (h : ErrsEverywhereBy A l ε) (t r : Pt) (walls : List (Pt × Pt)) (hw : ∀ w ∈ walls, w.1 ≠ w.2) (c : List ℤ) (hc : IsCandidate walls.length c)
    (pts : List Pt) (loss : ℝ) (htr : traceImage t (wallsAt walls c) r = .ok (finitePath pts loss))
    (tol patch : ℝ) (hp : -(1 / 2) < patch) (hreg : RegularPath walls c pts) (hs : ∀ n, Soft (E n) ap) (hk : StepsOff l ε kw s)
    (E0 : Env) (hs0 : Soft E0 ap) (kw0 : ActKw) (hk0 : ContinuousStep kw0) (he : ∀ x, activation kw0 (F.fin x) = F.fin (s x)) :
    ∃ (v : ℝ) (f : ι → F), (finitePath pts loss).isValid E0 ((wallsOf walls).map Obj.interact) c ((wallsOf (wallsAt walls c)).map Obj.interact)
        (F.fin tol) (F.fin patch) ap kw0 = .ok (.f (F.fin v)) ∧
      (∀ n, (A n).validity (E n) (store (A n) t) (store (A n) r) (walls.map (storeWall (A n))) c ((A n).rnd tol) ((A n).rnd patch) ap (kw n) = .ok (.f (f n))) ∧
      OffBy l ε f v := by
  rw [traceImage_eq] at htr
  obtain ⟨rfl, rfl⟩ := finitePath_inj (Except.ok.inj htr)
  obtain ⟨P, L, h1, h2, h3⟩ := path_off h.toErrsBy t r hw c hreg.moves
  have hlen : (rpath t r (wallsAt walls c)).length = c.length + 2 := by rw [rpath_length, wallsAt_length hc]
  obtain ⟨-, -, k2, k3, -, -, -⟩ := kw_real hk0
  have e2 : ∀ v : List (Pt × Pt), (v.map (storedPair A)).map (·.2) = v := fun v => by rw [List.map_map]; exact List.map_id v
  have e1 : ∀ (v : List (Pt × Pt)) (n : ι), (v.map (storedPair A)).map (·.1 n) = v.map (storeWall (A n)) := fun v n => by rw [List.map_map]; rfl
  obtain ⟨f, f1, f2⟩ := soft_off h hs hk (ws := (wallsAt walls c).map (storedPair A)) (scene := walls.map (storedPair A))
    (by intro w hw'; obtain ⟨w, h', rfl⟩ := List.mem_map.mp hw'; exact storedPair_off h.toErrsBy (hw w (wallsAt_mem h')))
    (by intro w hw'; obtain ⟨w, h', rfl⟩ := List.mem_map.mp hw'; exact storedPair_off h.toErrsBy (hw w h')) h1 hlen (by rw [List.length_map, wallsAt_length hc]) h2
    (OffBy.rnd h.toErrsBy tol) (OffBy.rnd h.toErrsBy patch) hp (by rw [e2]; exact hreg)
  rw [e2, e2] at f2
  refine ⟨_, f, fmValid_soft hs0 he k2 k3 _ _ c _ _ tol patch hlen, fun n => ?_, f2⟩
  have hn := f1 n
  rw [e1, e1] at hn
  rw [FloatOps.validity, interacting_store, h3, hn]

/-- **C120.** In approximate mode, the power that `accumulate_over_paths` computes is off from that of exact arithmetic (without guard) by at
most a constant times `ε`, for every transmitter and every receiver, if no receiver is at a transmitter and the exact paths are regular. -/
theorem C120_field {Key : Type} (h : ErrsEverywhereBy A l ε) (G : GraphLib) (hG : GraphContract G) (tx rx : PyDict Pt) (ht : Distinct tx) (hr : Distinct rx)
    (htr : ∀ t ∈ tx, ∀ r ∈ rx, t.2 ≠ r.2)
    (walls : List (Pt × Pt)) (hw : ∀ w ∈ walls, w.1 ≠ w.2) (lo hi : ℤ) (hlo : 0 ≤ lo) (hex : ∃ c, InRange walls.length lo hi c)
    (split : Key → ℕ → List Key) (key : Option Key) (tol patch : ℝ) (hp : -(1 / 2) < patch) (coef height : ℝ) (hH : 0 < height)
    (hreg : ∀ t ∈ tx, ∀ r ∈ rx, ∀ c, InRange walls.length lo hi c → ∀ pts loss, traceImage t.2 (wallsAt walls c) r.2 = .ok (finitePath pts loss) →
      RegularPath walls c pts)
    (hs : ∀ n, Soft (E n) ap) (hk : StepsOff l ε kw s) (K : ℝ) (he : ∀ n, |(E n).eps| ≤ K * ε n) (E0 : Env) (hs0 : Soft E0 ap) (he0 : E0.eps = 0)
    (kw0 : ActKw) (hk0 : ContinuousStep kw0) (hk1 : ∀ x, activation kw0 (F.fin x) = F.fin (s x)) :
    ∃ (cs : List (List ℤ)) (value : String × Pt → String × Pt → ℝ),
      (wallScene tx rx walls).allPathCandidates G { minOrder := lo, maxOrder := hi } = .ok cs ∧
      (wallScene tx rx walls).accumulateOverPaths G split (imageMethod Key) { minOrder := lo, maxOrder := hi }
        ⟨E0, F.fin tol, F.fin patch, ap, kw0⟩ key (powerFun E0 coef height) = .ok ((tx ×ˢ rx).map fun p => (p.1.1, p.2.1, F.fin (value p.1 p.2))) ∧
      ∀ p ∈ tx ×ˢ rx, ∃ f : ι → F, (∀ᶠ n in l, (A n).accumulate (E n) (store (A n) p.1.2) (store (A n) p.2.2) (walls.map (storeWall (A n)))
          ((A n).rnd tol) ((A n).rnd patch) ap (kw n) ((A n).rnd coef) ((A n).rnd height) 0 cs = .ok (f n)) ∧ OffBy l ε f (value p.1 p.2) := by
  obtain ⟨cs, hcs, hcd, hcm, hne⟩ := cands_walls G hG tx rx walls lo hi hlo hex
  have hE : (fun n => (E n).eps) =O[l] ε := IsBigO.of_bound K (.of_forall fun n => by
    rw [Real.norm_eq_abs, Real.norm_eq_abs, abs_of_nonneg (h.pos n)]; exact he n)
  let deg : Pt → Pt → List ℤ → ℝ := fun t r c => (fmValid (wallsAt walls c) walls c (rpath t r (wallsAt walls c)) (scores (wallsAt walls c) (rpath t r (wallsAt walls c))).sum tol patch).eval s
  obtain ⟨-, -, k2, k3, -, -, -⟩ := kw_real hk0
  refine ⟨cs, fun t r => (cs.map fun c => deg t.2 r.2 c * powerAlong E0.eps coef height (rpath t.2 r.2 (wallsAt walls c))).sum, hcs, ?_, ?_⟩
  · refine accumulate_walls G hG tx rx ht hr walls lo hi hlo cs hcs hcd hcm hne split key _ _ _ (realFun_powerAlong E0 coef height hH) deg ?_
    intro t ht' r hr' c hc
    have hc' := (hcm c).mp hc
    exact ⟨_, fmValid_soft hs0 hk1 k2 k3 (wallsAt walls c) walls c _ _ tol patch (by rw [rpath_length, wallsAt_length hc'.1]), rfl⟩
  · intro p hp'
    obtain ⟨hp1, hp2⟩ := List.mem_product.mp hp'
    have hz : OffBy l ε (fun _ => (0 : F)) 0 := by simpa using OffBy.const h.toErrsBy 0
    have := accumulate_off (E := E) (ap := ap) (kw := kw) h.toErrsBy p.1.2 p.2.2 hw hE (coef := coef) hH (fun n => (A n).rnd tol) (fun n => (A n).rnd patch)
      (deg p.1.2 p.2.2) cs ?_ hz
    · rw [he0]
      simp only [exactPower_eq]
      simpa only [zero_add] using this
    intro c hc
    have hc' := (hcm c).mp hc
    have hR := hreg p.1 hp1 p.2 hp2 c hc' _ _ (traceImage_eq _ _ _)
    obtain ⟨v, f, f1, f2, f3⟩ := C120_valid h p.1.2 p.2.2 walls hw c hc'.1 _ _ (traceImage_eq _ _ _) tol patch hp hR hs hk E0 hs0 kw0 hk0 hk1
    rw [fmValid_soft hs0 hk1 k2 k3 _ _ c _ _ tol patch (by rw [rpath_length, wallsAt_length hc'.1])] at f1
    have : deg p.1.2 p.2.2 c = v := by simpa using f1
    rw [this]
    refine ⟨?_, fun n => .f (f n), f3, .of_forall f2⟩
    by_cases hc0 : c = []
    · subst hc0
      intro i a b ha hb
      have e : rpath p.1.2 p.2.2 (wallsAt walls []) = [p.1.2, p.2.2] := rfl
      rw [e] at ha hb
      match i with
      | 0 =>
        simp only [List.getElem?_cons_zero, Option.some.injEq, zero_add, List.getElem?_cons_succ] at ha hb
        rw [← ha, ← hb]; exact htr p.1 hp1 p.2 hp2
      | i + 1 => simp at hb
    · exact hR.moves hc0

/-- The hypotheses hold: a direct path and a wall that reflects, seen by formats of growing precision with the default activation. -/
example : ErrsEverywhereBy (fun n : ℕ => ieee (n + 4) 0 (n + 3)) atTop (fun n => 2 ^ (-((n + 4 : ℕ) : ℤ))) ∧
    StepsOff atTop (fun n : ℕ => (2 : ℝ) ^ (-((n + 4 : ℕ) : ℤ))) (fun n : ℕ => ⟨F.fin 100, (ieee (n + 4) 0 (n + 3)).hardSigmoid⟩) (fun x => min (max (100 * x + 3) 0) 6 / 6) ∧
    (∀ w ∈ [((⟨0, 0⟩, ⟨3, 0⟩) : Pt × Pt)], w.1 ≠ w.2) ∧ (⟨0, 1⟩ : Pt) ≠ ⟨2, 1⟩ ∧
    ∀ c, InRange 1 0 1 c → ∀ pts loss, traceImage ⟨0, 1⟩ (wallsAt [(⟨0, 0⟩, ⟨3, 0⟩)] c) ⟨2, 1⟩ = .ok (finitePath pts loss) →
      RegularPath [(⟨0, 0⟩, ⟨3, 0⟩)] c pts := by
  have hp : Tendsto (fun n : ℕ => n + 4) atTop atTop := tendsto_add_atTop_nat 4
  have hx : Tendsto (fun n : ℕ => ((n : ℤ) + 3)) atTop atTop := (tendsto_natCast_atTop_atTop (R := ℤ)).atTop_add tendsto_const_nhds
  have hb : ErrsEverywhereBy (fun n : ℕ => ieee (n + 4) 0 (n + 3)) atTop (fun n => 2 ^ (-((n + 4 : ℕ) : ℤ))) :=
    C120_formats hp hx (by simp) (by simp) (by simp)
  refine ⟨hb, (C120_steps hb (fun _ => 100) 100 (by norm_num) (fun _ => by norm_num) 0 (by simp)).2, exWall_ne, by simp, fun c hc pts loss htr => ?_⟩
  exact (oneWall_regular ⟨false, 1⟩ one_pos c hc pts loss htr).1

end DiffeRT2d.Props
