import Verif.Spec.Placing
import Verif.Model.Sgd
import Verif.Props.PowerOptimize
import Verif.Props.ZeroGradient

/-! # C150: placing a transmitter by plain gradient descent -/

namespace DiffeRT2d.Props
open Classical Spec

theorem worst_congr {rx : PyDict Pt} {power power' : String × Pt → ℝ} {gradient gradient' : String × Pt → V2 F} {out : F × V2 F}
    (h : WorstServed rx power gradient out) (h1 : ∀ r ∈ rx, power r = power' r) (h2 : ∀ r ∈ rx, gradient r = gradient' r) : WorstServed rx power' gradient' out := by
  refine ⟨?_, fun r hr => h2 r hr ▸ h.either r hr, fun ⟨r, hr, e⟩ => h.nan ⟨r, hr, (h2 r hr).trans e⟩, fun g hg => ?_⟩
  · obtain ⟨r, hr, h3, h4⟩ := h.value
    exact ⟨r, hr, fun r' hr' => by rw [← h1 r hr, ← h1 r' hr']; exact h3 r' hr', by rw [← h1 r hr]; exact h4⟩
  · obtain ⟨w, w1, w2, w3, w4⟩ := h.mean g fun r hr => (h2 r hr).trans (hg r hr)
    exact ⟨w, w1, w2, fun r hr hne r' hr' => by rw [← h1 r hr, ← h1 r' hr']; exact w3 r hr hne r' hr', w4⟩

section
variable {Key : Type} (G : GraphLib) (hG : GraphContract G) (tx rx : PyDict Pt) (ht : Distinct tx) (hr : Distinct rx) (walls : List (Pt × Pt)) (hnd : ∀ w ∈ walls, w.1 ≠ w.2)
  (hoff : ∀ r ∈ rx, ∀ w ∈ walls, ¬ OnLine w.1 w.2 r.2) (split : Key → ℕ → List Key) (key : Option Key)
  (E : Env) (ap : Option Bool) (hh : Hard E ap) (tol patch : ℝ) (htol : 0 < tol) (htol1 : tol ≤ 1) (hpatch : -(1 / 2) < patch)
  (coef height : ℝ) (hht : 0 < height)
include hG ht hr hnd hoff hh htol htol1 hpatch hht

/-- **C150.** At every position of the transmitter, without approximation and in line of sight, what each receiver gets, the loss of the example and its gradient. -/
theorem C150_loss (hrx : rx ≠ []) (kw : Rev.ActKw Rev.Coord) (kw' : ActKw) (hk : SameKw kw kw') (t : Pt) : ∃ out : F × V2 F,
    (wallScene [("tx", t)] rx walls).accumulateOverPaths G split (imageMethod Key) { minOrder := 0, maxOrder := 0 }
      ⟨E, F.fin tol, F.fin patch, ap, kw'⟩ key (powerFun E coef height) = .ok (rx.map fun r => ("tx", r.1, F.fin (seenPower E.eps height walls patch t r.2))) ∧
    Rev.valueAndGrad (Rev.powerLoss (wallScene tx rx walls) G { minOrder := 0, maxOrder := 0 } ⟨E, F.fin tol, F.fin patch, ap, kw⟩
      (Rev.receivedPower E (F.fin coef) (F.fin height))) (V2.fin t) = .ok out ∧
    WorstServed rx (fun r => seenPower E.eps height walls patch t r.2) (fun r => seenGradient E.eps height walls patch t r.2) out := by
  have hex : ∃ c, InRange walls.length 0 0 c := ⟨[], sight_only.mpr rfl⟩
  obtain ⟨power, gradient, out, p1, p2, p3, p4⟩ := C127_hard (Key := Key) G hG tx rx hr hrx walls 0 0 le_rfl hex split key E ap hh tol patch kw kw' hk coef height hht (t.x, t.y)
  obtain ⟨value, gradient', points, accepted, q1, q2, -⟩ := C100_transmitters (Key := Key) G hG tx rx hr walls 0 0 le_rfl hex split key E ap hh tol patch kw kw' hk coef height hht
  obtain ⟨v, g, s1, s2⟩ := (C144_sight G hG tx rx ht hr walls E ap hh tol patch kw kw' hk coef height hht).2
  have e1 : ∀ r ∈ rx, power r = value r (t.x, t.y) ∧ gradient r = gradient' r (t.x, t.y) := by
    have := Except.ok.inj (p2.symm.trans (q2 false [[(t.x, t.y)]]).1)
    intro r hr'
    have := List.map_inj_left.mp this r hr'
    simpa using this
  have e2 : ∀ r ∈ rx, v r (t.x, t.y) = value r (t.x, t.y) ∧ g r (t.x, t.y) = gradient' r (t.x, t.y) := by
    have := Except.ok.inj ((s1 [[(t.x, t.y)]]).symm.trans (q2 true [[(t.x, t.y)]]).1)
    intro r hr'
    have := List.map_inj_left.mp this r hr'
    simpa using this
  have e3 : ∀ r ∈ rx, power r = seenPower E.eps height walls patch t r.2 := by
    obtain ⟨rays, hm, hacc⟩ := C81_sum (Key := Key) G hG [("tx", t)] rx (by simp [Distinct]) hr walls hnd 0 0 le_rfl hex split key (powerFun E coef height) _
      (realFun_powerAlong E coef height hht) E ap hh kw' tol patch htol htol1 hpatch (by
        intro t' ht' r hr' w hw ho
        simp only [List.mem_singleton] at ht'
        subst ht'
        rintro rfl
        exact hoff r hr' w hw ho)
    have := Except.ok.inj (p1.symm.trans hacc)
    rw [show [("tx", t)] ×ˢ rx = rx.map (fun r => (("tx", t), r)) from by simp [SProd.sprod, List.product], List.map_map] at this
    intro r hr'
    have hv := List.map_inj_left.mp this r hr'
    simp only [Function.comp, Prod.mk.injEq, F.fin.injEq, true_and] at hv
    rw [hv]
    have hm' := hm _ (List.mem_singleton_self _) _ hr'
    unfold seenPower
    split_ifs with hb
    · have : rays t r.2 = {([], [t, r.2])} := by
        ext ⟨c, pts⟩
        rw [hm', Finset.mem_singleton, Prod.mk.injEq, sight_only]
        exact ⟨fun ⟨h1, h2⟩ => ⟨h1, ((sight_ray_iff _ _ _ _ _ _ h1).mp h2).1⟩, fun ⟨h1, h2⟩ => ⟨h1, (sight_ray_iff _ _ _ _ _ _ h1).mpr ⟨h2, hb⟩⟩⟩
      rw [this, Finset.sum_singleton, sight_power]
      rfl
    · refine Finset.sum_eq_zero fun ray hr => absurd ?_ hb
      obtain ⟨h1, h2⟩ := (hm' ray.1 ray.2).mp hr
      exact ((sight_ray_iff _ _ _ _ _ _ (sight_only.mp h1)).mp h2).2
  refine ⟨out, ?_, p3, worst_congr p4 e3 fun r hr' => ?_⟩
  · rw [p1]
    congr 1
    exact List.map_congr_left fun r hr' => by rw [e3 r hr']
  · rw [(e1 r hr').2, ← (e2 r hr').2]
    unfold seenGradient
    have hv : v r (t.x, t.y) = seenPower E.eps height walls patch t r.2 := by rw [← e3 r hr', (e1 r hr').1, (e2 r hr').1]
    split_ifs with hg
    · refine (s2 r hr' _).2 ?_
      rw [hg]; simp [guarded]
    · rw [(s2 r hr' _).1 (fun h => hg (by rw [h]; simp [guarded])), hv]
      rfl

/-- **C150.** If one receiver gets less than all the others, one frame of plain gradient descent moves the transmitter on the straight line to that receiver, by the
fraction `lr / 50 * power ^ 2` of the distance; in particular not at all if that receiver is hidden. -/
theorem C150_step (lr : ℝ) (kw : Rev.ActKw Rev.Coord) (kw' : ActKw) (hk : SameKw kw kw') (t : Pt) (hne : ∀ r ∈ rx, t ≠ guarded E.eps r.2) (r : String × Pt) (hrm : r ∈ rx)
    (hmin : ∀ r' ∈ rx, r' ≠ r → seenPower E.eps height walls patch t r.2 < seenPower E.eps height walls patch t r'.2) :
    Rev.optimizeStep (sgd (F.fin lr)) (Rev.powerLoss (wallScene tx rx walls) G { minOrder := 0, maxOrder := 0 } ⟨E, F.fin tol, F.fin patch, ap, kw⟩
      (Rev.receivedPower E (F.fin coef) (F.fin height))) (Rev.start _ (V2.fin t)) =
      .ok (Rev.start _ (V2.fin (pointAt t (guarded E.eps r.2) (lr / 50 * seenPower E.eps height walls patch t r.2 ^ 2)))) := by
  obtain ⟨out, -, h2, h3⟩ := C150_loss (Key := Unit) G hG tx rx ht hr walls hnd hoff (fun _ _ => []) none E ap hh tol patch htol htol1 hpatch coef height hht
    (List.ne_nil_of_mem hrm) kw kw' hk t
  have h4 := C127_single hr h3 (fun r => ⟨2 * seenPower E.eps height walls patch t r.2 ^ 2 * ((guarded E.eps r.2).x - t.x),
    2 * seenPower E.eps height walls patch t r.2 ^ 2 * ((guarded E.eps r.2).y - t.y)⟩) (fun r hr' => by unfold seenGradient; rw [if_neg (hne r hr')]) r hrm hmin
  rw [h4] at h2
  unfold Rev.optimizeStep
  simp only [Rev.start]
  rw [h2]
  simp only [Bind.bind, Except.bind, Pure.pure, Except.pure, sgd, V2.fin, pointAt, List.map_cons, List.map_nil, List.getD_cons_zero, List.getD_cons_succ, F.fin_neg, F.fin_mul]
  congr 2
  show V2.mk (F.fin _ + F.fin _) (F.fin _ + F.fin _) = _
  rw [F.fin_add, F.fin_add]
  congr 2 <;> ring

end

theorem seenPower_le (eps : ℝ) {height : ℝ} (hht : 0 < height) (walls : List (Pt × Pt)) (patch : ℝ) (t r : Pt) :
    0 ≤ seenPower eps height walls patch t r ∧ seenPower eps height walls patch t r ≤ 1 / height ^ 2 := by
  unfold seenPower
  split_ifs
  · refine ⟨by positivity, one_div_le_one_div_of_le (by positivity) ?_⟩
    have := sq_nonneg (eucl t (guarded eps r)); linarith
  · exact ⟨le_rfl, by positivity⟩

theorem eucl_towards (p q : Pt) (f : ℝ) : eucl (pointAt p q f) q = |1 - f| * eucl p q := by
  unfold eucl pointAt
  rw [← Real.sqrt_sq_eq_abs, ← Real.sqrt_mul (sq_nonneg _)]
  congr 1; ring

theorem eucl_pos_of_ne {p q : Pt} (h : p ≠ q) : 0 < eucl p q := by
  unfold eucl
  apply Real.sqrt_pos.mpr
  by_contra hc
  have h1 : (q.x - p.x) ^ 2 = 0 := by nlinarith [sq_nonneg (q.x - p.x), sq_nonneg (q.y - p.y)]
  have h2 : (q.y - p.y) ^ 2 = 0 := by nlinarith [sq_nonneg (q.x - p.x), sq_nonneg (q.y - p.y)]
  rw [sq_eq_zero_iff] at h1 h2
  exact h (by ext <;> linarith)

theorem eucl_ne_of_pos {p q : Pt} (h : 0 < eucl p q) : p ≠ q := by
  rintro rfl
  simp [eucl] at h

section
variable (G : GraphLib) (hG : GraphContract G) (tx : PyDict Pt) (ht : Distinct tx) (name : String) (r : Pt) (walls : List (Pt × Pt)) (hnd : ∀ w ∈ walls, w.1 ≠ w.2)
  (hoff : ∀ w ∈ walls, ¬ OnLine w.1 w.2 r) (E : Env) (ap : Option Bool) (hh : Hard E ap) (tol patch : ℝ) (htol : 0 < tol) (htol1 : tol ≤ 1) (hpatch : -(1 / 2) < patch)
  (coef height : ℝ) (hht : 0 < height) (act : Rev Rev.Coord → F → Rev Rev.Coord) (act' : F → F → F) (hk : ∀ a, SameKw ⟨a, act⟩ ⟨a, act'⟩)
include hG ht hnd hoff hh htol htol1 hpatch hht hk

/-- **C150.** With one receiver and a learning rate below `50 height ^ 4`, whatever the walls and the start: the transmitter always moves on the straight line to the receiver, and
never beyond; it stops for ever at the first position where a wall hides the receiver; and as long as it is in sight, the distance is at most a constant times the
`k`-th power of a number less than 1. -/
theorem C150_run (lr : ℝ) (hlr : 0 < lr) (hlr1 : lr < 50 * height ^ 4) (t0 : Pt) (hne : t0 ≠ guarded E.eps r) :
    ∃ (pos : ℕ → Pt) (q : ℝ), 0 ≤ q ∧ q < 1 ∧ pos 0 = t0 ∧
      (∀ alphas : List F, Rev.animate (sgd (F.fin lr)) (fun alpha => Rev.powerLoss (wallScene tx [(name, r)] walls) G { minOrder := 0, maxOrder := 0 }
        ⟨E, F.fin tol, F.fin patch, ap, ⟨alpha, act⟩⟩ (Rev.receivedPower E (F.fin coef) (F.fin height))) alphas (Rev.start _ (V2.fin t0)) =
          .ok (Rev.start _ (V2.fin (pos alphas.length)))) ∧
      (∀ k, ∃ s, 0 < s ∧ s ≤ 1 ∧ pos k = pointAt (guarded E.eps r) t0 s) ∧
      (∀ k, eucl (pos (k + 1)) (guarded E.eps r) ≤ eucl (pos k) (guarded E.eps r)) ∧
      (∀ k, ¬ Sees walls patch (pos k) r → ∀ m, k ≤ m → pos m = pos k) ∧
      ∀ k, (∀ i < k, Sees walls patch (pos i) r) → eucl (pos k) (guarded E.eps r) ≤ q ^ k * eucl t0 (guarded E.eps r) := by
  set a := guarded E.eps r with ha
  let v : Pt → ℝ := fun p => seenPower E.eps height walls patch p r
  let f : Pt → ℝ := fun p => lr / 50 * v p ^ 2
  have hv : ∀ p, 0 ≤ v p ∧ v p ≤ 1 / height ^ 2 := fun p => seenPower_le E.eps hht walls patch p r
  have hf : ∀ p, 0 ≤ f p ∧ f p < 1 := by
    intro p
    obtain ⟨h1, h2⟩ := hv p
    refine ⟨by positivity, ?_⟩
    have h3 : v p ^ 2 ≤ (1 / height ^ 2) ^ 2 := pow_le_pow_left₀ h1 h2 2
    have h4 : lr / 50 * v p ^ 2 ≤ lr / 50 * (1 / height ^ 2) ^ 2 := mul_le_mul_of_nonneg_left h3 (by positivity)
    have h5 : lr / 50 * (1 / height ^ 2) ^ 2 < 1 := by
      rw [show lr / 50 * (1 / height ^ 2) ^ 2 = lr / (50 * height ^ 4) by field_simp, div_lt_one (by positivity)]
      exact hlr1
    exact lt_of_le_of_lt h4 h5
  let pos : ℕ → Pt := fun k => Nat.rec t0 (fun _ p => pointAt p a (f p)) k
  have hpos : ∀ k, pos (k + 1) = pointAt (pos k) a (f (pos k)) := fun k => rfl
  have hE : ∀ k, eucl (pos (k + 1)) a = (1 - f (pos k)) * eucl (pos k) a := by
    intro k
    rw [hpos, eucl_towards, abs_of_pos (by linarith [(hf (pos k)).2])]
  have hp : ∀ k, 0 < eucl (pos k) a := by
    intro k
    induction k with
    | zero => exact eucl_pos_of_ne hne
    | succ k ih => rw [hE]; exact mul_pos (by linarith [(hf (pos k)).2]) ih
  have hmono : ∀ k, eucl (pos (k + 1)) a ≤ eucl (pos k) a := by
    intro k
    rw [hE]
    have h1 := (hf (pos k)).1
    have h2 := hp k
    nlinarith
  have hle : ∀ k, eucl (pos k) a ≤ eucl t0 a := by
    intro k
    induction k with
    | zero => exact le_rfl
    | succ k ih => exact (hmono k).trans ih
  let q : ℝ := 1 - lr / 50 * (1 / (height ^ 2 + eucl t0 a ^ 2)) ^ 2
  have hseen : ∀ k, Sees walls patch (pos k) r → 1 - f (pos k) ≤ q := by
    intro k hs
    have h1 : v (pos k) = 1 / (height ^ 2 + eucl (pos k) a ^ 2) := by simp only [v, seenPower]; rw [if_pos hs]
    have h2 : 1 / (height ^ 2 + eucl t0 a ^ 2) ≤ v (pos k) := by
      rw [h1]
      refine one_div_le_one_div_of_le (by positivity) ?_
      have := pow_le_pow_left₀ (hp k).le (hle k) 2
      linarith
    have h3 : (1 / (height ^ 2 + eucl t0 a ^ 2)) ^ 2 ≤ v (pos k) ^ 2 := pow_le_pow_left₀ (by positivity) h2 2
    have h4 := mul_le_mul_of_nonneg_left h3 (show 0 ≤ lr / 50 by positivity)
    simp only [q, f]; linarith
  have hq0 : 0 ≤ q := by
    have h1 : (1 / (height ^ 2 + eucl t0 a ^ 2)) ^ 2 ≤ (1 / height ^ 2) ^ 2 := by
      refine pow_le_pow_left₀ (by positivity) (one_div_le_one_div_of_le (by positivity) ?_) 2
      have := sq_nonneg (eucl t0 a); linarith
    have h5 : lr / 50 * (1 / height ^ 2) ^ 2 < 1 := by
      rw [show lr / 50 * (1 / height ^ 2) ^ 2 = lr / (50 * height ^ 4) by field_simp, div_lt_one (by positivity)]
      exact hlr1
    have h4 := mul_le_mul_of_nonneg_left h1 (show 0 ≤ lr / 50 by positivity)
    simp only [q]; linarith
  have hq1 : q < 1 := by
    have : 0 < lr / 50 * (1 / (height ^ 2 + eucl t0 a ^ 2)) ^ 2 := by positivity
    simp only [q]; linarith
  have hstep : ∀ (alpha : F) k, Rev.optimizeStep (sgd (F.fin lr)) (Rev.powerLoss (wallScene tx [(name, r)] walls) G { minOrder := 0, maxOrder := 0 }
      ⟨E, F.fin tol, F.fin patch, ap, ⟨alpha, act⟩⟩ (Rev.receivedPower E (F.fin coef) (F.fin height))) (Rev.start _ (V2.fin (pos k))) = .ok (Rev.start _ (V2.fin (pos (k + 1)))) := by
    intro alpha k
    refine C150_step G hG tx [(name, r)] ht (by simp [Distinct]) walls hnd (by simpa using fun w hw => hoff w hw) E ap hh tol patch htol htol1 hpatch coef height hht lr _ _ (hk alpha)
      (pos k) (by simpa using eucl_ne_of_pos (hp k)) (name, r) (by simp) (by simp)
  refine ⟨pos, q, hq0, hq1, rfl, fun alphas => ?_, fun k => ?_, hmono, fun k hk m hm => ?_, fun k hk => ?_⟩
  · have H : ∀ (alphas : List F) (k : ℕ), Rev.animate (sgd (F.fin lr)) (fun alpha => Rev.powerLoss (wallScene tx [(name, r)] walls) G { minOrder := 0, maxOrder := 0 }
        ⟨E, F.fin tol, F.fin patch, ap, ⟨alpha, act⟩⟩ (Rev.receivedPower E (F.fin coef) (F.fin height))) alphas (Rev.start _ (V2.fin (pos k))) =
          .ok (Rev.start _ (V2.fin (pos (k + alphas.length)))) := by
      intro alphas
      induction alphas with
      | nil => intro k; rfl
      | cons alpha alphas ih =>
        intro k
        simp only [Rev.animate, Bind.bind, hstep alpha k, Except.bind]
        rw [ih (k + 1), List.length_cons, show k + 1 + alphas.length = k + (alphas.length + 1) by omega]
    have := H alphas 0
    rwa [Nat.zero_add] at this
  · induction k with
    | zero => exact ⟨1, one_pos, le_rfl, by ext <;> simp [pointAt, pos]⟩
    | succ k ih =>
      obtain ⟨s, s0, s1, e⟩ := ih
      obtain ⟨f0, f1⟩ := hf (pos k)
      refine ⟨s * (1 - f (pos k)), mul_pos s0 (by linarith), by nlinarith, ?_⟩
      rw [hpos]
      generalize f (pos k) = φ
      rw [e]
      ext <;> simp only [pointAt] <;> ring
  · have h0 : f (pos k) = 0 := by simp only [f, v, seenPower]; rw [if_neg hk]; ring
    induction m, hm using Nat.le_induction with
    | base => rfl
    | succ m hm ih =>
      rw [hpos, ih, h0]
      ext <;> simp [pointAt]
  · induction k with
    | zero => simp [pos]
    | succ k ih =>
      have h1 := ih fun i hi => hk i (by omega)
      rw [hE, pow_succ, mul_comm (q ^ k), mul_assoc]
      exact mul_le_mul (hseen k (hk k (by omega))) h1 (hp k).le hq0

/-- **C150.** If no wall hides the receiver from any point between the start and the receiver, the transmitter reaches the receiver in the limit, and the power tends to its
largest value. -/
theorem C150_reaches (lr : ℝ) (hlr : 0 < lr) (hlr1 : lr < 50 * height ^ 4) (t0 : Pt) (hne : t0 ≠ guarded E.eps r)
    (hclear : ∀ s, 0 < s → s ≤ 1 → Sees walls patch (pointAt (guarded E.eps r) t0 s) r) :
    ∃ pos : ℕ → Pt,
      (∀ alphas : List F, Rev.animate (sgd (F.fin lr)) (fun alpha => Rev.powerLoss (wallScene tx [(name, r)] walls) G { minOrder := 0, maxOrder := 0 }
        ⟨E, F.fin tol, F.fin patch, ap, ⟨alpha, act⟩⟩ (Rev.receivedPower E (F.fin coef) (F.fin height))) alphas (Rev.start _ (V2.fin t0)) =
          .ok (Rev.start _ (V2.fin (pos alphas.length)))) ∧
      Filter.Tendsto (fun k => eucl (pos k) (guarded E.eps r)) Filter.atTop (nhds 0) ∧
      Filter.Tendsto (fun k => seenPower E.eps height walls patch (pos k) r) Filter.atTop (nhds (1 / height ^ 2)) ∧
      ∀ p, seenPower E.eps height walls patch p r ≤ 1 / height ^ 2 := by
  obtain ⟨pos, q, q0, q1, h0, h1, h2, -, -, h5⟩ := C150_run G hG tx ht name r walls hnd hoff E ap hh tol patch htol htol1 hpatch coef height hht act act' hk lr hlr hlr1 t0 hne
  have hs : ∀ k, Sees walls patch (pos k) r := by
    intro k
    obtain ⟨s, s0, s1, e⟩ := h2 k
    rw [e]; exact hclear s s0 s1
  have hT : Filter.Tendsto (fun k => eucl (pos k) (guarded E.eps r)) Filter.atTop (nhds 0) := by
    refine squeeze_zero (fun k => Real.sqrt_nonneg _) (fun k => h5 k fun i _ => hs i) ?_
    simpa using (tendsto_pow_atTop_nhds_zero_of_lt_one q0 q1).mul_const (eucl t0 (guarded E.eps r))
  refine ⟨pos, h1, hT, ?_, fun p => (seenPower_le E.eps hht walls patch p r).2⟩
  have he : (fun k => seenPower E.eps height walls patch (pos k) r) = fun k => 1 / (height ^ 2 + eucl (pos k) (guarded E.eps r) ^ 2) := by
    funext k
    unfold seenPower
    rw [if_pos (hs k)]
  rw [he]
  have : Filter.Tendsto (fun k => 1 / (height ^ 2 + eucl (pos k) (guarded E.eps r) ^ 2)) Filter.atTop (nhds (1 / (height ^ 2 + 0 ^ 2))) :=
    tendsto_const_nhds.div (tendsto_const_nhds.add (hT.pow 2)) (by positivity)
  simpa using this

omit hnd hoff hG ht hh htol htol1 hpatch hht hk in
/-- What stops the line of sight from a point on the way stops it from the start. -/
theorem blocks_nearer {w : Pt × Pt} {t0 r : Pt} {s : ℝ} (s0 : 0 < s) (s1 : s ≤ 1) (h : Blocks w patch (pointAt r t0 s) r) : Blocks w patch t0 r := by
  obtain ⟨h1, u, t, e, hu, h2, h3⟩ := h
  refine ⟨fun hp => h1 ?_, u, 1 - s * (1 - t), ?_, hu, by nlinarith, by nlinarith⟩
  · simp only [Parallel, pointAt] at hp ⊢
    linear_combination s * hp
  · rw [e]
    ext <;> simp only [pointAt] <;> ring

/-- **C150.** Were the guard zero, where the transmitter starts would decide: if the receiver is in sight, the transmitter reaches it in the limit; otherwise it never moves. -/
theorem C150_dichotomy (he : E.eps = 0) (lr : ℝ) (hlr : 0 < lr) (hlr1 : lr < 50 * height ^ 4) (t0 : Pt) (hne : t0 ≠ r) :
    ∃ pos : ℕ → Pt,
      (∀ alphas : List F, Rev.animate (sgd (F.fin lr)) (fun alpha => Rev.powerLoss (wallScene tx [(name, r)] walls) G { minOrder := 0, maxOrder := 0 }
        ⟨E, F.fin tol, F.fin patch, ap, ⟨alpha, act⟩⟩ (Rev.receivedPower E (F.fin coef) (F.fin height))) alphas (Rev.start _ (V2.fin t0)) =
          .ok (Rev.start _ (V2.fin (pos alphas.length)))) ∧
      (Sees walls patch t0 r → Filter.Tendsto (fun k => eucl (pos k) r) Filter.atTop (nhds 0)) ∧ (¬ Sees walls patch t0 r → ∀ k, pos k = t0) := by
  have hg : guarded E.eps r = r := by simp [guarded, he]
  by_cases hs : Sees walls patch t0 r
  · obtain ⟨pos, h1, h2, -⟩ := C150_reaches G hG tx ht name r walls hnd hoff E ap hh tol patch htol htol1 hpatch coef height hht act act' hk lr hlr hlr1 t0 (by rwa [hg])
      fun s s0 s1 w hw hb => by rw [hg] at hb; exact hs w hw (blocks_nearer patch s0 s1 hb)
    rw [hg] at h2
    exact ⟨pos, h1, fun _ => h2, fun h => absurd hs h⟩
  · obtain ⟨pos, q, -, -, h0, h1, -, -, h4, -⟩ := C150_run G hG tx ht name r walls hnd hoff E ap hh tol patch htol htol1 hpatch coef height hht act act' hk lr hlr hlr1 t0 (by rwa [hg])
    exact ⟨pos, h1, fun h => absurd h hs, fun _ k => (h4 0 (by rwa [h0]) k (by omega)).trans h0⟩

end

/-- **C150.** The bound on the learning rate is right up to a factor 2: with a rate above `100 height ^ 4`, even without any wall, no run that stays real has the receiver
as its limit. -/
theorem C150_overshoots (G : GraphLib) (hG : GraphContract G) (tx : PyDict Pt) (ht : Distinct tx) (name : String) (r : Pt) (E : Env) (ap : Option Bool) (hh : Hard E ap)
    (tol patch : ℝ) (htol : 0 < tol) (htol1 : tol ≤ 1) (hpatch : -(1 / 2) < patch) (coef height : ℝ) (hht : 0 < height) (act : Rev Rev.Coord → F → Rev Rev.Coord)
    (act' : F → F → F) (hk : ∀ a, SameKw ⟨a, act⟩ ⟨a, act'⟩) (lr : ℝ) (hlr : 100 * height ^ 4 < lr) (alphas : ℕ → F) (pos : ℕ → Pt)
    (hrun : ∀ k, Rev.animate (sgd (F.fin lr)) (fun alpha => Rev.powerLoss (wallScene tx [(name, r)] []) G { minOrder := 0, maxOrder := 0 }
      ⟨E, F.fin tol, F.fin patch, ap, ⟨alpha, act⟩⟩ (Rev.receivedPower E (F.fin coef) (F.fin height))) ((List.range k).map alphas) (Rev.start _ (V2.fin (pos 0))) =
        .ok (Rev.start _ (V2.fin (pos k)))) :
    ¬ Filter.Tendsto (fun k => eucl (pos k) (guarded E.eps r)) Filter.atTop (nhds 0) := by
  intro hT
  set a := guarded E.eps r with ha
  have hone : ∀ k, Rev.optimizeStep (sgd (F.fin lr)) (Rev.powerLoss (wallScene tx [(name, r)] []) G { minOrder := 0, maxOrder := 0 }
      ⟨E, F.fin tol, F.fin patch, ap, ⟨alphas k, act⟩⟩ (Rev.receivedPower E (F.fin coef) (F.fin height))) (Rev.start _ (V2.fin (pos k))) = .ok (Rev.start _ (V2.fin (pos (k + 1)))) := by
    intro k
    have h := hrun (k + 1)
    rw [List.range_succ, List.map_append, animate_append, hrun k] at h
    simp only [Except.bind, List.map_cons, List.map_nil, Rev.animate, Bind.bind] at h
    revert h
    cases Rev.optimizeStep (sgd (F.fin lr)) (Rev.powerLoss (wallScene tx [(name, r)] []) G { minOrder := 0, maxOrder := 0 }
      ⟨E, F.fin tol, F.fin patch, ap, ⟨alphas k, act⟩⟩ (Rev.receivedPower E (F.fin coef) (F.fin height))) (Rev.start _ (V2.fin (pos k))) with
    | error e => intro h; cases h
    | ok c => exact id
  have hne : ∀ k, pos k ≠ a := by
    intro k hk0
    obtain ⟨out, -, h2, h3⟩ := C150_loss (Key := Unit) G hG tx [(name, r)] ht (by simp [Distinct]) [] (by simp) (by simp) (fun _ _ => []) none E ap hh tol patch htol htol1 hpatch
      coef height hht (by simp) _ _ (hk (alphas k)) (pos k)
    have h4 := h3.nan ⟨(name, r), by simp, by unfold seenGradient; rw [if_pos hk0]⟩
    have h5 := hone k
    unfold Rev.optimizeStep at h5
    simp only [Rev.start] at h5
    rw [h2] at h5
    simp only [Bind.bind, Except.bind, Pure.pure, Except.pure, sgd, h4, List.map_cons, List.map_nil, List.getD_cons_zero, List.getD_cons_succ] at h5
    have h6 := congrArg (fun c => c.1.x) (Except.ok.inj h5)
    have h7 : F.fin (pos k).x + -F.fin lr * F.nan = F.fin (pos (k + 1)).x := h6
    simp at h7
  have hd : ∀ k, eucl (pos (k + 1)) a = |1 - lr / 50 * (1 / (height ^ 2 + eucl (pos k) a ^ 2)) ^ 2| * eucl (pos k) a := by
    intro k
    have h1 := hone k
    rw [C150_step G hG tx [(name, r)] ht (by simp [Distinct]) [] (by simp) (by simp) E ap hh tol patch htol htol1 hpatch coef height hht lr _ _ (hk (alphas k))
      (pos k) (by simpa using hne k) (name, r) (by simp) (by simp)] at h1
    have h2 := congrArg (fun c => c.1) (Except.ok.inj h1)
    have h3 : pointAt (pos k) a (lr / 50 * seenPower E.eps height [] patch (pos k) r ^ 2) = pos (k + 1) := by
      simp only [Rev.start, V2.fin, V2.mk.injEq, F.fin.injEq] at h2
      ext
      · exact h2.1
      · exact h2.2
    rw [← h3, eucl_towards]
    unfold seenPower
    rw [if_pos (by intro w hw; simp at hw)]
  have hφ : Filter.Tendsto (fun k => lr / 50 * (1 / (height ^ 2 + eucl (pos k) a ^ 2)) ^ 2) Filter.atTop (nhds (lr / 50 * (1 / (height ^ 2 + 0 ^ 2)) ^ 2)) :=
    ((tendsto_const_nhds.div (tendsto_const_nhds.add (hT.pow 2)) (by positivity)).pow 2).const_mul _
  have h2 : 2 < lr / 50 * (1 / (height ^ 2 + 0 ^ 2)) ^ 2 := by
    rw [show lr / 50 * (1 / (height ^ 2 + 0 ^ 2)) ^ 2 = lr / (50 * height ^ 4) by field_simp; ring, lt_div_iff₀ (by positivity)]
    linarith
  obtain ⟨K, hK⟩ := Filter.eventually_atTop.mp (hφ.eventually (lt_mem_nhds h2))
  have hup : ∀ k, K ≤ k → eucl (pos K) a ≤ eucl (pos k) a := by
    intro k hk'
    induction k, hk' using Nat.le_induction with
    | base => exact le_rfl
    | succ k hk' ih =>
      refine ih.trans ?_
      rw [hd]
      have h3 := hK k hk'
      have h4 : 1 ≤ |1 - lr / 50 * (1 / (height ^ 2 + eucl (pos k) a ^ 2)) ^ 2| := by
        rw [abs_of_neg (by linarith)]; linarith
      exact le_mul_of_one_le_left (Real.sqrt_nonneg _) h4
  have h5 := ge_of_tendsto hT (Filter.eventually_atTop.mpr ⟨K, hup⟩)
  exact absurd h5 (not_le.mpr (eucl_pos_of_ne (hne K)))

/-- C150 applies to the default height of the example, a learning rate of a thousandth and a wall from `(0, 1)` to `(0, 2)`: a transmitter that starts at `(-1, 0)` reaches a
receiver at `(1, 0)`, one that starts at `(-1, 3)` never moves. -/
example (E : Env) (he : E.eps = 0) : ∃ pos pos' : ℕ → Pt,
    (∀ alphas : List F, Rev.animate (sgd (F.fin (1 / 1000))) (fun alpha => Rev.powerLoss (wallScene [] [("rx", ⟨1, 0⟩)] [(⟨0, 1⟩, ⟨0, 2⟩)]) refLib { minOrder := 0, maxOrder := 0 }
      ⟨E, F.fin (1 / 100), F.fin 0, some false, ⟨alpha, Rev.hardSigmoid⟩⟩ (Rev.receivedPower E (F.fin (1 / 2)) (F.fin (1 / 10)))) alphas (Rev.start _ (V2.fin ⟨-1, 0⟩)) =
        .ok (Rev.start _ (V2.fin (pos alphas.length)))) ∧ Filter.Tendsto (fun k => eucl (pos k) ⟨1, 0⟩) Filter.atTop (nhds 0) ∧
    (∀ alphas : List F, Rev.animate (sgd (F.fin (1 / 1000))) (fun alpha => Rev.powerLoss (wallScene [] [("rx", ⟨1, 0⟩)] [(⟨0, 1⟩, ⟨0, 2⟩)]) refLib { minOrder := 0, maxOrder := 0 }
      ⟨E, F.fin (1 / 100), F.fin 0, some false, ⟨alpha, Rev.hardSigmoid⟩⟩ (Rev.receivedPower E (F.fin (1 / 2)) (F.fin (1 / 10)))) alphas (Rev.start _ (V2.fin ⟨-1, 3⟩)) =
        .ok (Rev.start _ (V2.fin (pos' alphas.length)))) ∧ ∀ k, pos' k = ⟨-1, 3⟩ := by
  have hnd : ∀ w ∈ ([(⟨0, 1⟩, ⟨0, 2⟩)] : List (Pt × Pt)), w.1 ≠ w.2 := by simp
  have hoff : ∀ w ∈ ([(⟨0, 1⟩, ⟨0, 2⟩)] : List (Pt × Pt)), ¬ OnLine w.1 w.2 ⟨1, 0⟩ := by
    intro w hw
    simp only [List.mem_singleton] at hw
    subst hw
    rintro ⟨s, e⟩
    have := congrArg V2.x e
    simp [pointAt] at this
  have hk : ∀ a : F, SameKw (⟨a, Rev.hardSigmoid⟩ : Rev.ActKw Rev.Coord) ⟨a, hardSigmoid⟩ := fun a => (C98_parts (ι := Rev.Coord) a E (F.fin 1) (F.fin 1)).2.1
  obtain ⟨pos, h1, h2, -⟩ := C150_dichotomy refLib refLib_contract [] (by simp [Distinct]) "rx" ⟨1, 0⟩ _ hnd hoff E (some false) (.inl rfl) (1 / 100) 0 (by norm_num) (by norm_num)
    (by norm_num) (1 / 2) (1 / 10) (by norm_num) Rev.hardSigmoid hardSigmoid hk he (1 / 1000) (by norm_num) (by norm_num) ⟨-1, 0⟩ (by intro e; have := congrArg V2.x e; norm_num at this)
  obtain ⟨pos', h1', -, h2'⟩ := C150_dichotomy refLib refLib_contract [] (by simp [Distinct]) "rx" ⟨1, 0⟩ _ hnd hoff E (some false) (.inl rfl) (1 / 100) 0 (by norm_num) (by norm_num)
    (by norm_num) (1 / 2) (1 / 10) (by norm_num) Rev.hardSigmoid hardSigmoid hk he (1 / 1000) (by norm_num) (by norm_num) ⟨-1, 3⟩ (by intro e; have := congrArg V2.x e; norm_num at this)
  refine ⟨pos, pos', h1, h2 ?_, h1', h2' ?_⟩
  · intro w hw
    simp only [List.mem_singleton] at hw
    subst hw
    rintro ⟨-, u, t, e, ⟨hu, -⟩, -⟩
    have := congrArg V2.y e
    simp only [pointAt] at this
    norm_num at this hu
    linarith
  · intro h
    refine h _ (List.mem_singleton_self _) ⟨by simp only [Parallel]; norm_num, 1 / 2, 1 / 2, by ext <;> norm_num [pointAt], by norm_num, by norm_num⟩

end DiffeRT2d.Props
