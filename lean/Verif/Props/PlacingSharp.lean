import Verif.Props.Centre

/-! # C150: the largest learning rate -/

namespace DiffeRT2d.Props
open Classical Spec Filter Topology

/-- Distances that shrink by `|1 - f|`, where `f` is the fraction of the step. -/
theorem overshoot_limit {height lr : ℝ} (hht : 0 < height) (hlr : 0 < lr) (d : ℕ → ℝ) (h0 : ∀ k, 0 ≤ d k)
    (hd : ∀ k, d (k + 1) = |1 - lr / 50 * (1 / (height ^ 2 + d k ^ 2)) ^ 2| * d k) :
    (lr ≤ 100 * height ^ 4 → Tendsto d atTop (𝓝 0)) ∧ (100 * height ^ 4 < lr → (∀ k, d k ≠ 0) → ¬ Tendsto d atTop (𝓝 0)) := by
  let φ : ℝ → ℝ := fun x => lr / 50 * (1 / (height ^ 2 + x ^ 2)) ^ 2
  have hcont : Continuous φ := by
    refine continuous_const.mul ((continuous_const.div (by fun_prop) fun x => ?_).pow 2)
    positivity
  have hd' : ∀ k, d (k + 1) = |1 - φ (d k)| * d k := hd
  have hφ0 : φ 0 = lr / (50 * height ^ 4) := by simp only [φ]; field_simp; ring
  refine ⟨fun hle => ?_, fun hlt hne hT => ?_⟩
  · have hφpos : ∀ x, 0 < φ x := fun x => by simp only [φ]; positivity
    have hφ2 : ∀ x, 0 < x → φ x < 2 := by
      intro x hx
      have h1 : 1 / (height ^ 2 + x ^ 2) < 1 / height ^ 2 := one_div_lt_one_div_of_lt (by positivity) (by nlinarith)
      have h2 : (1 / (height ^ 2 + x ^ 2)) ^ 2 < (1 / height ^ 2) ^ 2 := pow_lt_pow_left₀ h1 (by positivity) two_ne_zero
      have h3 : φ x < lr / 50 * (1 / height ^ 2) ^ 2 := mul_lt_mul_of_pos_left h2 (by positivity)
      have h4 : lr / 50 * (1 / height ^ 2) ^ 2 ≤ 2 := by
        rw [show lr / 50 * (1 / height ^ 2) ^ 2 = lr / (50 * height ^ 4) by field_simp, div_le_iff₀ (by positivity)]
        linarith
      linarith
    have hfac : ∀ x, 0 < x → |1 - φ x| < 1 := fun x hx => by rw [abs_lt]; constructor <;> linarith [hφpos x, hφ2 x hx]
    have hanti : Antitone d := antitone_nat_of_succ_le fun k => by
      rw [hd']
      rcases (h0 k).eq_or_lt with e | h
      · rw [← e]; simp
      · exact mul_le_of_le_one_left h.le (hfac _ h).le
    obtain ⟨L, hL⟩ : ∃ L, Tendsto d atTop (𝓝 L) := ⟨_, tendsto_atTop_ciInf hanti ⟨0, by rintro _ ⟨k, rfl⟩; exact h0 k⟩⟩
    have hL0 : 0 ≤ L := ge_of_tendsto' hL h0
    have h1 : Tendsto (fun k => d (k + 1)) atTop (𝓝 L) := hL.comp (tendsto_add_atTop_nat 1)
    have h2 : Tendsto (fun k => |1 - φ (d k)| * d k) atTop (𝓝 (|1 - φ L| * L)) :=
      ((tendsto_const_nhds.sub ((hcont.tendsto L).comp hL)).abs).mul hL
    have h3 : L = |1 - φ L| * L := tendsto_nhds_unique (h1.congr hd') h2
    rcases hL0.eq_or_lt with e | h
    · rwa [← e] at hL
    · have := mul_lt_mul_of_pos_right (hfac L h) h
      linarith
  · have h2 : 2 < φ 0 := by rw [hφ0, lt_div_iff₀ (by positivity)]; linarith
    have h3 : Tendsto (fun k => φ (d k)) atTop (𝓝 (φ 0)) := (hcont.tendsto 0).comp hT
    obtain ⟨K, hK⟩ := eventually_atTop.mp (h3.eventually (lt_mem_nhds h2))
    have hup : ∀ k, K ≤ k → d K ≤ d k := by
      intro k hk
      induction k, hk using Nat.le_induction with
      | base => exact le_rfl
      | succ k hk ih =>
        refine ih.trans ?_
        rw [hd']
        have h4 := hK k hk
        exact le_mul_of_one_le_left (h0 k) (by rw [abs_of_neg (by linarith)]; linarith)
    exact absurd (le_antisymm (ge_of_tendsto hT (eventually_atTop.mpr ⟨K, hup⟩)) (h0 K)) (hne K)

/-- **C150.** The learning rate that is just right: with one receiver, no walls, and `zero_nans` as in the example, every run ends at the receiver in the limit, whatever the
start, if the rate is at most `100 height ^ 4`; above, only the runs do that meet the receiver exactly. -/
theorem C150_sharp (G : GraphLib) (hG : GraphContract G) (tx : PyDict Pt) (ht : Distinct tx) (name : String) (r : Pt) (E : Env) (ap : Option Bool) (hh : Hard E ap)
    (tol patch : ℝ) (htol : 0 < tol) (htol1 : tol ≤ 1) (hpatch : -(1 / 2) < patch) (coef height : ℝ) (hht : 0 < height) (act : Rev Rev.Coord → F → Rev Rev.Coord)
    (act' : F → F → F) (hk : ∀ a, SameKw ⟨a, act⟩ ⟨a, act'⟩) (lr : ℝ) (hlr : 0 < lr) (t0 : Pt) :
    ∃ pos : ℕ → Pt,
      (∀ alphas : List F, Rev.animate ((sgd (F.fin lr)).chain zeroNans) (fun alpha => Rev.powerLoss (wallScene tx [(name, r)] []) G { minOrder := 0, maxOrder := 0 }
        ⟨E, F.fin tol, F.fin patch, ap, ⟨alpha, act⟩⟩ (Rev.receivedPower E (F.fin coef) (F.fin height))) alphas (Rev.start _ (V2.fin t0)) =
          .ok (Rev.start _ (V2.fin (pos alphas.length)))) ∧
      (lr ≤ 100 * height ^ 4 → Tendsto (fun k => eucl (pos k) (guarded E.eps r)) atTop (𝓝 0)) ∧
      (100 * height ^ 4 < lr → (Tendsto (fun k => eucl (pos k) (guarded E.eps r)) atTop (𝓝 0) ↔ ∃ k, pos k = guarded E.eps r)) := by
  set a := guarded E.eps r with ha
  have hnd : ∀ w ∈ ([] : List (Pt × Pt)), w.1 ≠ w.2 := by simp
  have hoff : ∀ r' ∈ [(name, r)], ∀ w ∈ ([] : List (Pt × Pt)), ¬ OnLine w.1 w.2 r'.2 := by simp
  let f : Pt → ℝ := fun p => lr / 50 * (1 / (height ^ 2 + eucl p a ^ 2)) ^ 2
  let pos : ℕ → Pt := fun k => Nat.rec t0 (fun _ p => pointAt p a (f p)) k
  have hpos : ∀ k, pos (k + 1) = pointAt (pos k) a (f (pos k)) := fun k => rfl
  have hd : ∀ k, eucl (pos (k + 1)) a = |1 - f (pos k)| * eucl (pos k) a := fun k => by rw [hpos, eucl_towards]
  have hstep : ∀ (alpha : F) p, Rev.optimizeStep ((sgd (F.fin lr)).chain zeroNans) (Rev.powerLoss (wallScene tx [(name, r)] []) G { minOrder := 0, maxOrder := 0 }
      ⟨E, F.fin tol, F.fin patch, ap, ⟨alpha, act⟩⟩ (Rev.receivedPower E (F.fin coef) (F.fin height))) (Rev.start _ (V2.fin p)) = .ok (Rev.start _ (V2.fin (pointAt p a (f p)))) := by
    intro alpha p
    by_cases hp : p = a
    · obtain ⟨out, -, h2, h3⟩ := C150_loss (Key := Unit) G hG tx [(name, r)] ht (by simp [Distinct]) [] hnd hoff (fun _ _ => []) none E ap hh tol patch htol htol1 hpatch
        coef height hht (by simp) _ _ (hk alpha) p
      have h4 := h3.nan ⟨(name, r), by simp, by unfold seenGradient; rw [if_pos hp]⟩
      unfold Rev.optimizeStep
      simp only [Rev.start]
      rw [h2]
      simp only [Bind.bind, Except.bind, Pure.pure, Except.pure, sgd, Optimizer.chain, zeroNans, h4, V2.fin, List.map_cons, List.map_nil, List.getD_cons_zero, List.getD_cons_succ, F.fin_neg,
        F.mul_nan, F.isNan_nan, F.where_true]
      refine congrArg Except.ok (Prod.ext ?_ rfl)
      show V2.mk (F.fin p.x + 0) (F.fin p.y + 0) = _
      rw [show (0 : F) = F.fin 0 from F.zero_eq, F.fin_add, F.fin_add, add_zero, add_zero]
      rw [← hp]; simp [pointAt]
    · have h1 := chain_step (C150_step G hG tx [(name, r)] ht (by simp [Distinct]) [] hnd hoff E ap hh tol patch htol htol1 hpatch coef height hht lr _ _ (hk alpha)
        p (by simpa using hp) (name, r) (by simp) (by simp))
      rw [h1]
      unfold seenPower
      rw [if_pos (by intro w hw; simp at hw)]
  obtain ⟨h1, h2⟩ := overshoot_limit hht hlr (fun k => eucl (pos k) a) (fun k => eucl_nonneg' _ _) hd
  refine ⟨pos, fun alphas => ?_, h1, fun hlt => ⟨fun hT => ?_, fun ⟨k, hk0⟩ => ?_⟩⟩
  · have H : ∀ (alphas : List F) (k : ℕ), Rev.animate ((sgd (F.fin lr)).chain zeroNans) (fun alpha => Rev.powerLoss (wallScene tx [(name, r)] []) G { minOrder := 0, maxOrder := 0 }
        ⟨E, F.fin tol, F.fin patch, ap, ⟨alpha, act⟩⟩ (Rev.receivedPower E (F.fin coef) (F.fin height))) alphas (Rev.start _ (V2.fin (pos k))) =
          .ok (Rev.start _ (V2.fin (pos (k + alphas.length)))) := by
      intro alphas
      induction alphas with
      | nil => intro k; rfl
      | cons alpha alphas ih =>
        intro k
        simp only [Rev.animate, Bind.bind, hstep alpha (pos k), Except.bind]
        rw [← hpos, ih (k + 1), List.length_cons, show k + 1 + alphas.length = k + (alphas.length + 1) by omega]
    have := H alphas 0
    rwa [Nat.zero_add] at this
  · by_contra hcon
    push Not at hcon
    exact h2 hlt (fun k => (eucl_pos_of_ne (hcon k)).ne') hT
  · have h3 : ∀ m, k ≤ m → eucl (pos m) a = 0 := by
      intro m hm
      induction m, hm using Nat.le_induction with
      | base => rw [hk0]; simp [eucl]
      | succ m hm ih => rw [hd, ih, mul_zero]
    exact tendsto_const_nhds.congr' (eventually_atTop.mpr ⟨k, fun m hm => (h3 m hm).symm⟩)

/-- C150_sharp applies to the default height, `1/10`, and the learning rate of the example, `1/100`: it is just small enough. -/
example (E : Env) (t0 r : Pt) : ∃ pos : ℕ → Pt,
    (∀ alphas : List F, Rev.animate ((sgd (F.fin (1 / 100))).chain zeroNans) (fun alpha => Rev.powerLoss (wallScene [] [("rx", r)] []) refLib { minOrder := 0, maxOrder := 0 }
      ⟨E, F.fin (1 / 100), F.fin 0, some false, ⟨alpha, Rev.hardSigmoid⟩⟩ (Rev.receivedPower E (F.fin (1 / 2)) (F.fin (1 / 10)))) alphas (Rev.start _ (V2.fin t0)) =
        .ok (Rev.start _ (V2.fin (pos alphas.length)))) ∧ Tendsto (fun k => eucl (pos k) (guarded E.eps r)) atTop (𝓝 0) := by
  have hk : ∀ a : F, SameKw (⟨a, Rev.hardSigmoid⟩ : Rev.ActKw Rev.Coord) ⟨a, hardSigmoid⟩ := fun a => (C98_parts (ι := Rev.Coord) a E (F.fin 1) (F.fin 1)).2.1
  obtain ⟨pos, h1, h2, -⟩ := C150_sharp refLib refLib_contract [] (by simp [Distinct]) "rx" r E (some false) (.inl rfl) (1 / 100) 0 (by norm_num) (by norm_num) (by norm_num)
    (1 / 2) (1 / 10) (by norm_num) Rev.hardSigmoid hardSigmoid hk (1 / 100) (by norm_num) t0
  exact ⟨pos, h1, h2 (by norm_num)⟩

end DiffeRT2d.Props
