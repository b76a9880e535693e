import Verif.Spec.Centre
import Verif.Props.Placing
import Verif.Lemmas.Length

/-! # C151: placing a transmitter for several receivers -/

namespace DiffeRT2d.Props
open Classical Spec

theorem eucl_sq (p q : Pt) : eucl p q ^ 2 = (q.x - p.x) ^ 2 + (q.y - p.y) ^ 2 := by
  unfold eucl; exact Real.sq_sqrt (by positivity)

theorem eucl_nonneg' (p q : Pt) : 0 ≤ eucl p q := Real.sqrt_nonneg _

theorem radius_nonneg {pts : List Pt} (hne : pts ≠ []) {c : Pt} {R : ℝ} (h : Encloses pts c R) : 0 ≤ R := by
  obtain ⟨a, ha⟩ := List.exists_mem_of_ne_nil _ hne
  exact (eucl_nonneg' a c).trans (h a ha)

/-- A place at a distance from the centre is further from one of the points. -/
theorem circle_far {pts : List Pt} (hne : pts ≠ []) {c : Pt} {R : ℝ} (h : SmallestCircle pts c R) (p : Pt) : ∃ a ∈ pts, R ^ 2 + eucl p c ^ 2 ≤ eucl a p ^ 2 := by
  by_contra hcon
  push Not at hcon
  have hR := radius_nonneg hne h.1
  set δ := eucl p c ^ 2 with hδ
  have hδ0 : 0 ≤ δ := by positivity
  -- a uniform gap
  obtain ⟨g, hg, hgap⟩ : ∃ g > 0, ∀ a ∈ pts, eucl a p ^ 2 ≤ R ^ 2 + δ - g := by
    clear h hR
    induction pts with
    | nil => exact absurd rfl hne
    | cons b pts ih =>
      have hb := hcon b (by simp)
      by_cases hp : pts = []
      · subst hp
        exact ⟨R ^ 2 + δ - eucl b p ^ 2, by linarith, by simp⟩
      · obtain ⟨g, hg, hgg⟩ := ih hp fun a ha => hcon a (by simp [ha])
        refine ⟨min g (R ^ 2 + δ - eucl b p ^ 2), lt_min hg (by linarith), fun a ha => ?_⟩
        rcases List.mem_cons.mp ha with rfl | ha
        · have := min_le_right g (R ^ 2 + δ - eucl a p ^ 2); linarith
        · have := min_le_left g (R ^ 2 + δ - eucl b p ^ 2); linarith [hgg a ha]
  -- a small move towards `p` makes the circle smaller
  obtain ⟨ε, ε0, ε1, hε⟩ : ∃ ε : ℝ, 0 < ε ∧ ε ≤ 1 ∧ ε * δ < g := by
    refine ⟨min 1 (g / (2 * (δ + 1))), lt_min one_pos (by positivity), min_le_left _ _, ?_⟩
    calc min 1 (g / (2 * (δ + 1))) * δ ≤ g / (2 * (δ + 1)) * δ := mul_le_mul_of_nonneg_right (min_le_right _ _) hδ0
      _ < g := by
        rw [div_mul_eq_mul_div, div_lt_iff₀ (by positivity)]; nlinarith
  have hsq : ∀ a ∈ pts, eucl a (pointAt c p ε) ^ 2 ≤ R ^ 2 - ε * (g - ε * δ) := by
    intro a ha
    have h1 := hgap a ha
    have h2 : eucl a c ^ 2 ≤ R ^ 2 := pow_le_pow_left₀ (eucl_nonneg' a c) (h.1 a ha) 2
    have e : eucl a (pointAt c p ε) ^ 2 = (1 - ε) * eucl a c ^ 2 + ε * eucl a p ^ 2 - ε * (1 - ε) * δ := by
      rw [hδ, eucl_sq, eucl_sq, eucl_sq, eucl_sq]; simp only [pointAt]; ring
    rw [e]
    have h3 := mul_le_mul_of_nonneg_left h1 ε0.le
    have h4 := mul_le_mul_of_nonneg_left h2 (show 0 ≤ 1 - ε by linarith)
    nlinarith
  have hpos : 0 < ε * (g - ε * δ) := mul_pos ε0 (by linarith)
  have hle := h.2 (pointAt c p ε) (Real.sqrt (R ^ 2 - ε * (g - ε * δ))) fun a ha => by
    rw [← Real.sqrt_sq (eucl_nonneg' a _)]
    exact Real.sqrt_le_sqrt (hsq a ha)
  have h5 : 0 ≤ R ^ 2 - ε * (g - ε * δ) := by
    obtain ⟨a, ha⟩ := List.exists_mem_of_ne_nil _ hne
    exact (sq_nonneg _).trans (hsq a ha)
  have h6 := pow_le_pow_left₀ hR hle 2
  rw [Real.sq_sqrt h5] at h6
  linarith

/-- **C151.** There is exactly one smallest circle around the receivers. -/
theorem C151_circle (pts : List Pt) (hne : pts ≠ []) : ∃ c R, SmallestCircle pts c R ∧ ∀ c' R', SmallestCircle pts c' R' → c' = c ∧ R' = R := by
  have huniq : ∀ c R c' R', SmallestCircle pts c R → SmallestCircle pts c' R' → c' = c ∧ R' = R := by
    intro c R c' R' h h'
    have hR : R' = R := le_antisymm (h'.2 c R h.1) (h.2 c' R' h'.1)
    obtain ⟨a, ha, hf⟩ := circle_far hne h c'
    have h1 := pow_le_pow_left₀ (eucl_nonneg' a c') (h'.1 a ha) 2
    rw [hR] at h1
    have h2 : eucl c' c ^ 2 ≤ 0 := by linarith
    refine ⟨?_, hR⟩
    by_contra hcc
    have := eucl_pos_of_ne hcc
    nlinarith
  -- existence: a continuous function that tends to infinity
  let φ : List Pt → ℝ × ℝ → ℝ := fun l p => (l.map fun a => eucl a ⟨p.1, p.2⟩).foldr max 0
  have hcont : ∀ l, Continuous (φ l) := by
    intro l
    induction l with
    | nil => exact continuous_const
    | cons a l ih =>
      refine Continuous.max ?_ ih
      unfold eucl
      fun_prop
  have hφ : ∀ l p (R : ℝ), 0 ≤ R → (φ l p ≤ R ↔ ∀ a ∈ l, eucl a ⟨p.1, p.2⟩ ≤ R) := by
    intro l p R hR
    induction l with
    | nil => simpa [φ] using hR
    | cons a l ih =>
      have : φ (a :: l) p = max (eucl a ⟨p.1, p.2⟩) (φ l p) := rfl
      rw [this, max_le_iff, ih]; simp
  have hφ0 : ∀ l p, 0 ≤ φ l p := by
    intro l p
    induction l with
    | nil => exact le_rfl
    | cons a l ih => exact ih.trans (le_max_right _ _)
  obtain ⟨a, ha⟩ := List.exists_mem_of_ne_nil _ hne
  have hinf : Filter.Tendsto (φ pts) (Filter.cocompact _) Filter.atTop := by
    have h1 : Filter.Tendsto (fun p : ℝ × ℝ => ‖p‖ - ‖((a.x, a.y) : ℝ × ℝ)‖) (Filter.cocompact _) Filter.atTop :=
      Filter.tendsto_atTop_add_const_right _ _ (tendsto_norm_cocompact_atTop)
    refine Filter.tendsto_atTop_mono (fun p => ?_) h1
    have h2 : eucl a ⟨p.1, p.2⟩ ≤ φ pts p := ((hφ pts p _ (hφ0 pts p)).mp le_rfl) a ha
    refine le_trans ?_ h2
    have h3 : ‖p‖ - ‖((a.x, a.y) : ℝ × ℝ)‖ ≤ ‖p - (a.x, a.y)‖ := norm_sub_norm_le _ _
    refine h3.trans ?_
    rw [Prod.norm_def]
    refine max_le ?_ ?_ <;> simp only [Prod.fst_sub, Prod.snd_sub, Real.norm_eq_abs] <;> unfold eucl <;> rw [← Real.sqrt_sq_eq_abs] <;>
      refine Real.sqrt_le_sqrt ?_
    · have := sq_nonneg (p.2 - a.y); simp only; linarith
    · have := sq_nonneg (p.1 - a.x); simp only; linarith
  obtain ⟨p, hp⟩ := (hcont pts).exists_forall_le hinf
  have hs : SmallestCircle pts ⟨p.1, p.2⟩ (φ pts p) := by
    refine ⟨(hφ pts p _ (hφ0 pts p)).mp le_rfl, fun c' R' h => ?_⟩
    exact (hp (c'.x, c'.y)).trans ((hφ pts (c'.x, c'.y) R' (radius_nonneg hne h)).mpr h)
  exact ⟨_, _, hs, fun c' R' h => huniq _ _ _ _ hs h⟩

theorem weighted_le (rx : PyDict Pt) (w φ : String × Pt → ℝ) (M : ℝ) (w0 : ∀ r ∈ rx, 0 ≤ w r) (h : ∀ r ∈ rx, w r ≠ 0 → φ r ≤ M) :
    (rx.map fun r => w r * φ r).sum ≤ (rx.map w).sum * M := by
  induction rx with
  | nil => simp
  | cons a rx ih =>
    simp only [List.map_cons, List.sum_cons, add_mul]
    refine add_le_add ?_ (ih (fun r hr => w0 r (by simp [hr])) fun r hr => h r (by simp [hr]))
    by_cases h0 : w a = 0
    · simp [h0]
    · exact mul_le_mul_of_nonneg_left (h a (by simp) h0) (w0 a (by simp))

theorem weighted_lin (rx : PyDict Pt) (w u v : String × Pt → ℝ) (α β : ℝ) :
    (rx.map fun r => w r * (α * u r + β * v r)).sum = α * (rx.map fun r => w r * u r).sum + β * (rx.map fun r => w r * v r).sum := by
  induction rx with
  | nil => simp
  | cons a rx ih => simp only [List.map_cons, List.sum_cons, ih]; ring

/-- One step towards a mean of points that are all at the distance `D`, the largest from `t`. -/
theorem mean_step (rx : PyDict Pt) (a : String × Pt → Pt) (w : String × Pt → ℝ) (w0 : ∀ r ∈ rx, 0 ≤ w r) (w1 : (rx.map w).sum = 1) (t c : Pt) (R D f : ℝ) (f0 : 0 ≤ f)
    (hD : ∀ r ∈ rx, w r ≠ 0 → eucl (a r) t ^ 2 = D) (hR : ∀ r ∈ rx, eucl (a r) c ^ 2 ≤ R ^ 2) (hfar : R ^ 2 + eucl t c ^ 2 ≤ D) :
    eucl ⟨t.x + f * (rx.map fun r => w r * ((a r).x - t.x)).sum, t.y + f * (rx.map fun r => w r * ((a r).y - t.y)).sum⟩ c ^ 2 ≤ (1 - 2 * f) * eucl t c ^ 2 + f ^ 2 * D := by
  set sx := (rx.map fun r => w r * ((a r).x - t.x)).sum with hsx
  set sy := (rx.map fun r => w r * ((a r).y - t.y)).sum with hsy
  have h1 := weighted_lin rx w (fun r => (a r).x - t.x) (fun r => (a r).y - t.y) (2 * (t.x - c.x)) (2 * (t.y - c.y))
  have h2 := weighted_lin rx w (fun r => (a r).x - t.x) (fun r => (a r).y - t.y) sx sy
  rw [← hsx, ← hsy] at h1 h2
  have h3 := weighted_le rx w (fun r => 2 * (t.x - c.x) * ((a r).x - t.x) + 2 * (t.y - c.y) * ((a r).y - t.y)) (-(2 * eucl t c ^ 2)) w0 fun r hr hw => by
    have e1 := hD r hr hw
    have e2 := hR r hr
    rw [eucl_sq] at e1 e2 hfar ⊢
    nlinarith
  have h4 := weighted_le rx w (fun r => sx * ((a r).x - t.x) + sy * ((a r).y - t.y)) ((sx ^ 2 + sy ^ 2 + D) / 2) w0 fun r hr hw => by
    have e1 := hD r hr hw
    rw [eucl_sq] at e1
    nlinarith [sq_nonneg (sx - ((a r).x - t.x)), sq_nonneg (sy - ((a r).y - t.y))]
  rw [w1, one_mul] at h3 h4
  rw [h1] at h3
  rw [h2] at h4
  have h5 : sx ^ 2 + sy ^ 2 ≤ D := by nlinarith
  have h6 := mul_le_mul_of_nonneg_left h5 (sq_nonneg f)
  have h7 := mul_le_mul_of_nonneg_left h3 f0
  have e : eucl ⟨t.x + f * sx, t.y + f * sy⟩ c ^ 2 = eucl t c ^ 2 + f * (2 * (t.x - c.x) * sx + 2 * (t.y - c.y) * sy) + f ^ 2 * (sx ^ 2 + sy ^ 2) := by
    rw [eucl_sq, eucl_sq]; ring
  rw [e]; nlinarith

/-- The squared distance over the frames. -/
theorem centre_bound {height R lr e0 : ℝ} (hht : 0 < height) (hR : 0 ≤ R) (hlr : 0 < lr) (hlr1 : lr ≤ 25 * (height ^ 2 + R ^ 2) ^ 2) (e00 : 0 ≤ e0) :
    ∃ q : ℝ, 0 ≤ q ∧ q < 1 ∧ ∀ k E E' D, 0 ≤ E → E ^ 2 ≤ lr / (100 * (height ^ 2 + R ^ 2)) + q ^ k * e0 → R ^ 2 + E ^ 2 ≤ D → D ≤ (R + E) ^ 2 →
      E' ^ 2 ≤ (1 - 2 * (lr / 50 * (1 / (height ^ 2 + D)) ^ 2)) * E ^ 2 + (lr / 50 * (1 / (height ^ 2 + D)) ^ 2) ^ 2 * D →
      E' ^ 2 ≤ lr / (100 * (height ^ 2 + R ^ 2)) + q ^ (k + 1) * e0 := by
  set H := height ^ 2 + R ^ 2 with hH
  have H0 : 0 < H := by positivity
  set B := lr / (100 * H) with hB
  have B0 : 0 < B := by positivity
  set M := (R + Real.sqrt (B + e0)) ^ 2 with hM
  have hRM : R ^ 2 ≤ M := pow_le_pow_left₀ hR (by linarith [Real.sqrt_nonneg (B + e0)]) 2
  let φ : ℝ → ℝ := fun D => lr / 50 * (1 / (height ^ 2 + D)) ^ 2
  have hφanti : ∀ D D', R ^ 2 ≤ D → D ≤ D' → φ D' ≤ φ D := by
    intro D D' h1 h2
    have : 0 < height ^ 2 + D := by linarith
    refine mul_le_mul_of_nonneg_left (pow_le_pow_left₀ ?_ (one_div_le_one_div_of_le this (by linarith)) 2) (by positivity)
    exact one_div_nonneg.mpr (by linarith)
  have hφhalf : φ (R ^ 2) ≤ 1 / 2 := by
    show lr / 50 * (1 / H) ^ 2 ≤ 1 / 2
    rw [show lr / 50 * (1 / H) ^ 2 = lr / (50 * H ^ 2) by field_simp, div_le_div_iff₀ (by positivity) (by norm_num)]
    linarith
  have hφpos : 0 < φ M := by
    have : 0 < height ^ 2 + M := by linarith
    simp only [φ]; positivity
  set q := 1 - 2 * φ M with hq
  have q0 : 0 ≤ q := by have := hφanti (R ^ 2) M le_rfl hRM; linarith
  have q1 : q < 1 := by linarith
  refine ⟨q, q0, q1, fun k E E' D hE0 h3 h5 h6 h7 => ?_⟩
  have hqk : q ^ k ≤ 1 := pow_le_one₀ q0 q1.le
  have hqk0 : 0 ≤ q ^ k := pow_nonneg q0 k
  have hE : E ≤ Real.sqrt (B + e0) := by
    rw [← Real.sqrt_sq hE0]
    exact Real.sqrt_le_sqrt (by nlinarith)
  have hDM : D ≤ M := h6.trans (pow_le_pow_left₀ (by linarith [hE0]) (by linarith) 2)
  have hRD : R ^ 2 ≤ D := by linarith [sq_nonneg (E)]
  have hf1 : φ M ≤ φ D := hφanti D M hRD hDM
  have hf2 : φ D ≤ 1 / 2 := (hφanti (R ^ 2) D le_rfl hRD).trans hφhalf
  change E' ^ 2 ≤ (1 - 2 * φ D) * E ^ 2 + φ D ^ 2 * D at h7
  have hfD : φ D * D ≤ 2 * B := by
    have hD1 : 0 < height ^ 2 + D := by linarith
    have e1 : φ D * D = lr / 50 * (1 / (height ^ 2 + D)) * (D / (height ^ 2 + D)) := by simp only [φ]; field_simp
    have e2 : D / (height ^ 2 + D) ≤ 1 := by rw [div_le_one hD1]; nlinarith
    have e3 : 1 / (height ^ 2 + D) ≤ 1 / H := one_div_le_one_div_of_le H0 (by linarith)
    have e4 : 2 * B = lr / 50 * (1 / H) := by rw [hB]; field_simp; norm_num
    rw [e1, e4]
    have e5 : lr / 50 * (1 / (height ^ 2 + D)) ≤ lr / 50 * (1 / H) := mul_le_mul_of_nonneg_left e3 (by positivity)
    exact (mul_le_of_le_one_right (by positivity) e2).trans e5
  have hφD : 0 < φ D := lt_of_lt_of_le hφpos hf1
  have h8 : φ D ^ 2 * D ≤ φ D * (2 * B) := by
    have := mul_le_mul_of_nonneg_left hfD hφD.le
    linarith [show φ D ^ 2 * D = φ D * (φ D * D) by ring]
  have h9 : (1 - 2 * φ D) * E ^ 2 ≤ (1 - 2 * φ D) * (B + q ^ k * e0) := mul_le_mul_of_nonneg_left h3 (by linarith)
  have h10 : (1 - 2 * φ D) * (q ^ k * e0) ≤ q * (q ^ k * e0) := mul_le_mul_of_nonneg_right (by linarith) (by positivity)
  have h11 : (1 - 2 * φ D) * (B + q ^ k * e0) + φ D * (2 * B) = B + (1 - 2 * φ D) * (q ^ k * e0) := by ring
  rw [show q ^ (k + 1) * e0 = q * (q ^ k * e0) by ring]
  linarith

/-- A step of plain gradient descent that stays real is not changed by `zero_nans`. -/
theorem chain_step {lr : F} {loss : V2 (Rev Rev.Coord) → Except PyErr (Rev Rev.Coord)} {t t' : Pt}
    (h : Rev.optimizeStep (sgd lr) loss (Rev.start _ (V2.fin t)) = .ok (Rev.start _ (V2.fin t'))) :
    Rev.optimizeStep ((sgd lr).chain zeroNans) loss (Rev.start _ (V2.fin t)) = .ok (Rev.start _ (V2.fin t')) := by
  have key : ∀ (x y : ℝ) (u : F), F.fin x + u = F.fin y → F.where_ u.isNan 0 u = u := by
    intro x y u hu
    cases u with
    | nan => simp at hu
    | _ => rfl
  unfold Rev.optimizeStep at h ⊢
  simp only [Rev.start] at h ⊢
  cases hv : Rev.valueAndGrad loss (V2.fin t) with
  | error e => rw [hv] at h; cases h
  | ok out =>
    rw [hv] at h
    simp only [Bind.bind, Except.bind, Pure.pure, Except.pure, sgd, List.map_cons, List.map_nil, List.getD_cons_zero, List.getD_cons_succ] at h
    have h1 := congrArg (fun c => c.1) (Except.ok.inj h)
    have hx : F.fin t.x + -lr * out.2.x = F.fin t'.x := congrArg V2.x h1
    have hy : F.fin t.y + -lr * out.2.y = F.fin t'.y := congrArg V2.y h1
    simp only [Bind.bind, Except.bind, Pure.pure, Except.pure, sgd, Optimizer.chain, zeroNans, List.map_cons, List.map_nil, List.getD_cons_zero, List.getD_cons_succ]
    rw [key _ _ _ hx, key _ _ _ hy]
    refine congrArg Except.ok (Prod.ext ?_ rfl)
    exact h1

section
variable (G : GraphLib) (hG : GraphContract G) (tx rx : PyDict Pt) (ht : Distinct tx) (hr : Distinct rx) (hrx : rx ≠ []) (walls : List (Pt × Pt)) (hnd : ∀ w ∈ walls, w.1 ≠ w.2)
  (hoff : ∀ r ∈ rx, ∀ w ∈ walls, ¬ OnLine w.1 w.2 r.2) (E : Env) (ap : Option Bool) (hh : Hard E ap) (tol patch : ℝ) (htol : 0 < tol) (htol1 : tol ≤ 1)
  (hpatch : -(1 / 2) < patch) (coef height : ℝ) (hht : 0 < height) (c : Pt) (R : ℝ) (hc : SmallestCircle (places E.eps rx) c R)
include hG ht hr hrx hnd hoff hh htol htol1 hpatch hht hc

/-- **C151.** The smallest of the received powers is never above that of a receiver on the smallest circle around the receivers, from its centre; and it is reached at the
centre only, if the centre sees all the receivers. -/
theorem C151_best (kw : Rev.ActKw Rev.Coord) (kw' : ActKw) (hk : SameKw kw kw') (t : Pt) : ∃ (out : F × V2 F) (p : ℝ),
    Rev.valueAndGrad (Rev.powerLoss (wallScene tx rx walls) G { minOrder := 0, maxOrder := 0 } ⟨E, F.fin tol, F.fin patch, ap, kw⟩
      (Rev.receivedPower E (F.fin coef) (F.fin height))) (V2.fin t) = .ok out ∧
    out.1 = F.fin (-(p / 100)) ∧ p ≤ 1 / (height ^ 2 + R ^ 2) ∧ (p = 1 / (height ^ 2 + R ^ 2) ↔ t = c ∧ ∀ r ∈ rx, Sees walls patch t r.2) := by
  obtain ⟨out, -, h2, h3⟩ := C150_loss (Key := Unit) G hG tx rx ht hr walls hnd hoff (fun _ _ => []) none E ap hh tol patch htol htol1 hpatch coef height hht hrx kw kw' hk t
  obtain ⟨r, hrm, hmin, hv⟩ := h3.value
  have hne : places E.eps rx ≠ [] := by simpa [places] using hrx
  have hR := radius_nonneg hne hc.1
  obtain ⟨a, ha, hfar⟩ := circle_far hne hc t
  obtain ⟨s, hs, rfl⟩ := List.mem_map.mp ha
  have hsym : ∀ p q : Pt, eucl p q ^ 2 = eucl q p ^ 2 := fun p q => by rw [eucl_sq, eucl_sq]; ring
  have hp : seenPower E.eps height walls patch t s.2 ≤ 1 / (height ^ 2 + (R ^ 2 + eucl t c ^ 2)) := by
    unfold seenPower
    split_ifs
    · refine one_div_le_one_div_of_le (by positivity) ?_
      rw [eucl_comm t (guarded E.eps s.2)]; linarith
    · positivity
  have hp' := (hmin s hs).trans hp
  have hle : 1 / (height ^ 2 + (R ^ 2 + eucl t c ^ 2)) ≤ 1 / (height ^ 2 + R ^ 2) := one_div_le_one_div_of_le (by positivity) (by nlinarith [sq_nonneg (eucl t c)])
  refine ⟨out, _, h2, hv, hp'.trans hle, fun he => ?_, fun ⟨e, hsee⟩ => ?_⟩
  · refine ⟨?_, fun q hq => ?_⟩
    · by_contra hcc
      have h1 := eucl_pos_of_ne hcc
      have : 1 / (height ^ 2 + (R ^ 2 + eucl t c ^ 2)) < 1 / (height ^ 2 + R ^ 2) := one_div_lt_one_div_of_lt (by positivity) (by nlinarith [sq_pos_of_pos h1])
      linarith
    · by_contra hq0
      have h1 := hmin q hq
      have h4 : seenPower E.eps height walls patch t q.2 = 0 := by unfold seenPower; rw [if_neg hq0]
      have : 0 < 1 / (height ^ 2 + R ^ 2) := by positivity
      linarith
  · refine le_antisymm (hp'.trans hle) ?_
    unfold seenPower
    rw [if_pos (hsee r hrm)]
    refine one_div_le_one_div_of_le (by positivity) ?_
    have := pow_le_pow_left₀ (eucl_nonneg' _ c) (hc.1 _ (List.mem_map.mpr ⟨r, hrm, rfl⟩)) 2
    rw [eucl_comm t (guarded E.eps r.2), e]; linarith

/-- **C151.** One frame of plain gradient descent with several receivers: with `f` the fraction `lr / 50 * power ^ 2` of the smallest power, the transmitter stays if a
receiver is hidden; otherwise its squared distance `e` to the centre becomes at most `(1 - 2 f) e + f lr / (50 (height ^ 2 + R ^ 2))`. -/
theorem C151_step (lr : ℝ) (hlr : 0 ≤ lr) (kw : Rev.ActKw Rev.Coord) (kw' : ActKw) (hk : SameKw kw kw') (t : Pt) (hne : ∀ r ∈ rx, t ≠ guarded E.eps r.2) : ∃ t' : Pt,
    Rev.optimizeStep (sgd (F.fin lr)) (Rev.powerLoss (wallScene tx rx walls) G { minOrder := 0, maxOrder := 0 } ⟨E, F.fin tol, F.fin patch, ap, kw⟩
      (Rev.receivedPower E (F.fin coef) (F.fin height))) (Rev.start _ (V2.fin t)) = .ok (Rev.start _ (V2.fin t')) ∧
    ((∃ r ∈ rx, ¬ Sees walls patch t r.2) → t' = t) ∧
    ((∀ r ∈ rx, Sees walls patch t r.2) → ∃ D, R ^ 2 + eucl t c ^ 2 ≤ D ∧ D ≤ (R + eucl t c) ^ 2 ∧
      eucl t' c ^ 2 ≤ (1 - 2 * (lr / 50 * (1 / (height ^ 2 + D)) ^ 2)) * eucl t c ^ 2 + (lr / 50 * (1 / (height ^ 2 + D)) ^ 2) ^ 2 * D) := by
  obtain ⟨out, -, h2, h3⟩ := C150_loss (Key := Unit) G hG tx rx ht hr walls hnd hoff (fun _ _ => []) none E ap hh tol patch htol htol1 hpatch coef height hht hrx kw kw' hk t
  obtain ⟨r, hrm, hmin, hv⟩ := h3.value
  have hpl : places E.eps rx ≠ [] := by simpa [places] using hrx
  have hR := radius_nonneg hpl hc.1
  have hsym : ∀ p q : Pt, eucl p q ^ 2 = eucl q p ^ 2 := fun p q => by rw [eucl_sq, eucl_sq]; ring
  set v := fun s : String × Pt => seenPower E.eps height walls patch t s.2 with hvdef
  obtain ⟨w, w0, w1, w2, w3⟩ := h3.mean (fun s => ⟨2 * v s ^ 2 * ((guarded E.eps s.2).x - t.x), 2 * v s ^ 2 * ((guarded E.eps s.2).y - t.y)⟩)
    (fun s hs => by unfold seenGradient; rw [if_neg (hne s hs)])
  have hws : ∀ s ∈ rx, w s ≠ 0 → v s = v r := fun s hs h0 => le_antisymm (w2 s hs h0 r hrm) (hmin s hs)
  have hsum : ∀ u : String × Pt → ℝ, (rx.map fun s => w s * (2 * v s ^ 2 * u s)).sum = 2 * v r ^ 2 * (rx.map fun s => w s * u s).sum := by
    intro u
    rw [← List.sum_map_mul_left]
    congr 1
    refine List.map_congr_left fun s hs => ?_
    by_cases h0 : w s = 0
    · simp [h0]
    · rw [hws s hs h0]; ring
  refine ⟨⟨t.x + lr / 50 * v r ^ 2 * (rx.map fun s => w s * ((guarded E.eps s.2).x - t.x)).sum, t.y + lr / 50 * v r ^ 2 * (rx.map fun s => w s * ((guarded E.eps s.2).y - t.y)).sum⟩,
    ?_, ?_, ?_⟩
  · unfold Rev.optimizeStep
    simp only [Rev.start]
    rw [h2]
    simp only [Bind.bind, Except.bind, Pure.pure, Except.pure, sgd, w3, hsum, V2.fin, List.map_cons, List.map_nil, List.getD_cons_zero, List.getD_cons_succ, F.fin_neg, F.fin_mul]
    congr 2
    show V2.mk (F.fin _ + F.fin _) (F.fin _ + F.fin _) = _
    rw [F.fin_add, F.fin_add]
    congr 2 <;> ring
  · rintro ⟨s, hs, hhid⟩
    have h4 : v r ≤ v s := hmin s hs
    have h5 : v s = 0 := by simp only [hvdef]; unfold seenPower; rw [if_neg hhid]
    have h6 : v r = 0 := le_antisymm (h5 ▸ h4) (seenPower_le E.eps hht walls patch t r.2).1
    rw [h6]
    ext <;> simp
  · intro hsee
    have hvs : ∀ s ∈ rx, v s = 1 / (height ^ 2 + eucl (guarded E.eps s.2) t ^ 2) := by
      intro s hs
      simp only [hvdef]; unfold seenPower; rw [if_pos (hsee s hs), eucl_comm t]
    have hinj : ∀ s ∈ rx, v r ≤ v s → eucl (guarded E.eps s.2) t ^ 2 ≤ eucl (guarded E.eps r.2) t ^ 2 := by
      intro s hs h
      rw [hvs r hrm, hvs s hs, one_div_le_one_div (by positivity) (by positivity)] at h
      linarith
    obtain ⟨a, ha, hfar⟩ := circle_far hpl hc t
    obtain ⟨s, hs, rfl⟩ := List.mem_map.mp ha
    have hfar' := hfar.trans (hinj s hs (hmin s hs))
    refine ⟨_, hfar', ?_, ?_⟩
    · have h1 := hc.1 _ (List.mem_map.mpr ⟨r, hrm, rfl⟩)
      have htri : eucl (guarded E.eps r.2) t ≤ eucl (guarded E.eps r.2) c + eucl t c := by
        have := eucl_triangle (guarded E.eps r.2) c t
        rwa [eucl_comm c t] at this
      exact pow_le_pow_left₀ (eucl_nonneg' _ _) (htri.trans (by linarith)) 2
    · rw [← hvs r hrm]
      refine mean_step rx (fun s => guarded E.eps s.2) w w0 w1 t c R _ _ (by positivity) (fun s hs h0 => ?_) (fun s hs => ?_) hfar'
      · have h7 := hws s hs h0
        exact le_antisymm (hinj s hs h7.ge) (by
          rw [hvs r hrm, hvs s hs] at h7
          have h8 := one_div_le_one_div (a := height ^ 2 + eucl (guarded E.eps s.2) t ^ 2) (b := height ^ 2 + eucl (guarded E.eps r.2) t ^ 2) (by positivity) (by positivity)
          have := h8.mp h7.le
          linarith [(one_div_le_one_div (a := height ^ 2 + eucl (guarded E.eps r.2) t ^ 2) (b := height ^ 2 + eucl (guarded E.eps s.2) t ^ 2) (by positivity) (by positivity)).mp h7.ge])
      · exact pow_le_pow_left₀ (eucl_nonneg' _ c) (hc.1 _ (List.mem_map.mpr ⟨s, hs, rfl⟩)) 2

/-- **C151.** The whole run of plain gradient descent with several receivers, whatever the walls and the start, with a learning rate of at most
`25 (height ^ 2 + R ^ 2) ^ 2`, as long as the transmitter is not at a receiver: it stays where a receiver is hidden; and as long as all are in sight, its squared distance to
the centre of the smallest circle around the receivers is at most `lr / (100 (height ^ 2 + R ^ 2))` more than a constant times the `n`-th power of a number less than 1. -/
theorem C151_run (lr : ℝ) (hlr : 0 < lr) (hlr1 : lr ≤ 25 * (height ^ 2 + R ^ 2) ^ 2) (act : Rev Rev.Coord → F → Rev Rev.Coord) (act' : F → F → F)
    (hk : ∀ a, SameKw ⟨a, act⟩ ⟨a, act'⟩) (alphas : ℕ → F) (t0 : Pt) :
    ∃ (pos : ℕ → Pt) (q : ℝ), 0 ≤ q ∧ q < 1 ∧ pos 0 = t0 ∧ ∀ n, (∀ k < n, ∀ r ∈ rx, pos k ≠ guarded E.eps r.2) →
      Rev.animate (sgd (F.fin lr)) (fun alpha => Rev.powerLoss (wallScene tx rx walls) G { minOrder := 0, maxOrder := 0 }
        ⟨E, F.fin tol, F.fin patch, ap, ⟨alpha, act⟩⟩ (Rev.receivedPower E (F.fin coef) (F.fin height))) ((List.range n).map alphas) (Rev.start _ (V2.fin t0)) =
          .ok (Rev.start _ (V2.fin (pos n))) ∧
      (∀ k < n, (∃ r ∈ rx, ¬ Sees walls patch (pos k) r.2) → pos (k + 1) = pos k) ∧
      ((∀ k < n, ∀ r ∈ rx, Sees walls patch (pos k) r.2) → eucl (pos n) c ^ 2 ≤ lr / (100 * (height ^ 2 + R ^ 2)) + q ^ n * eucl t0 c ^ 2) := by
  have hpl : places E.eps rx ≠ [] := by simpa [places] using hrx
  have hR := radius_nonneg hpl hc.1
  let step : ℕ → Pt → Pt → Prop := fun k t t' =>
    Rev.optimizeStep (sgd (F.fin lr)) (Rev.powerLoss (wallScene tx rx walls) G { minOrder := 0, maxOrder := 0 } ⟨E, F.fin tol, F.fin patch, ap, ⟨alphas k, act⟩⟩
      (Rev.receivedPower E (F.fin coef) (F.fin height))) (Rev.start _ (V2.fin t)) = .ok (Rev.start _ (V2.fin t')) ∧
    ((∃ r ∈ rx, ¬ Sees walls patch t r.2) → t' = t) ∧
    ((∀ r ∈ rx, Sees walls patch t r.2) → ∃ D, R ^ 2 + eucl t c ^ 2 ≤ D ∧ D ≤ (R + eucl t c) ^ 2 ∧
      eucl t' c ^ 2 ≤ (1 - 2 * (lr / 50 * (1 / (height ^ 2 + D)) ^ 2)) * eucl t c ^ 2 + (lr / 50 * (1 / (height ^ 2 + D)) ^ 2) ^ 2 * D)
  let next : ℕ → Pt → Pt := fun k t => if h : ∃ t', step k t t' then h.choose else t
  have hnext : ∀ k t, (∀ r ∈ rx, t ≠ guarded E.eps r.2) → step k t (next k t) := by
    intro k t hne
    have h : ∃ t', step k t t' := C151_step G hG tx rx ht hr hrx walls hnd hoff E ap hh tol patch htol htol1 hpatch coef height hht c R hc lr hlr.le _ _ (hk (alphas k)) t hne
    simp only [next, dif_pos h]
    exact h.choose_spec
  let pos : ℕ → Pt := fun n => Nat.rec t0 (fun k p => next k p) n
  have hpos : ∀ k, pos (k + 1) = next k (pos k) := fun k => rfl
  obtain ⟨q, q0, q1, hq⟩ := centre_bound hht hR hlr hlr1 (sq_nonneg (eucl t0 c))
  have hdec : ∀ k, (∀ r ∈ rx, pos k ≠ guarded E.eps r.2) → (∀ r ∈ rx, Sees walls patch (pos k) r.2) →
      eucl (pos k) c ^ 2 ≤ lr / (100 * (height ^ 2 + R ^ 2)) + q ^ k * eucl t0 c ^ 2 →
      eucl (pos (k + 1)) c ^ 2 ≤ lr / (100 * (height ^ 2 + R ^ 2)) + q ^ (k + 1) * eucl t0 c ^ 2 := by
    intro k h1 h2 h3
    obtain ⟨-, -, h4⟩ := hnext k (pos k) h1
    obtain ⟨D, h5, h6, h7⟩ := h4 h2
    rw [← hpos] at h7
    exact hq k _ _ D (eucl_nonneg' _ _) h3 h5 h6 h7
  refine ⟨pos, q, q0, q1, rfl, fun n hn => ⟨?_, fun k hk' hid => ?_, fun hsee => ?_⟩⟩
  · induction n with
    | zero => rfl
    | succ n ih =>
      have h1 := ih fun k hk' => hn k (by omega)
      rw [List.range_succ, List.map_append, animate_append, h1]
      simp only [Except.bind, List.map_cons, List.map_nil, Rev.animate, Bind.bind]
      rw [(hnext n (pos n) (hn n (by omega))).1]
  · rw [hpos]
    exact (hnext k (pos k) (hn k hk')).2.1 hid
  · induction n with
    | zero =>
      show eucl t0 c ^ 2 ≤ _ + q ^ 0 * eucl t0 c ^ 2
      rw [pow_zero, one_mul]
      have : 0 < lr / (100 * (height ^ 2 + R ^ 2)) := by positivity
      linarith
    | succ n ih => exact hdec n (hn n (by omega)) (hsee n (by omega)) (ih (fun k hk' => hn k (by omega)) fun k hk' => hsee k (by omega))

/-- **C151.** With `zero_nans` after the plain gradient descent, as in the example, the run never stops being real; it stays for ever at a receiver, and where a receiver is
hidden; as long as it meets neither, the bound of `C151_run` holds. -/
theorem C151_zero_nans (lr : ℝ) (hlr : 0 < lr) (hlr1 : lr ≤ 25 * (height ^ 2 + R ^ 2) ^ 2) (act : Rev Rev.Coord → F → Rev Rev.Coord) (act' : F → F → F)
    (hk : ∀ a, SameKw ⟨a, act⟩ ⟨a, act'⟩) (alphas : ℕ → F) (t0 : Pt) :
    ∃ (pos : ℕ → Pt) (q : ℝ), 0 ≤ q ∧ q < 1 ∧ pos 0 = t0 ∧
      (∀ n, Rev.animate ((sgd (F.fin lr)).chain zeroNans) (fun alpha => Rev.powerLoss (wallScene tx rx walls) G { minOrder := 0, maxOrder := 0 }
        ⟨E, F.fin tol, F.fin patch, ap, ⟨alpha, act⟩⟩ (Rev.receivedPower E (F.fin coef) (F.fin height))) ((List.range n).map alphas) (Rev.start _ (V2.fin t0)) =
          .ok (Rev.start _ (V2.fin (pos n)))) ∧
      (∀ k, (∃ r ∈ rx, pos k = guarded E.eps r.2 ∨ ¬ Sees walls patch (pos k) r.2) → ∀ m, k ≤ m → pos m = pos k) ∧
      ∀ n, (∀ k < n, ∀ r ∈ rx, pos k ≠ guarded E.eps r.2 ∧ Sees walls patch (pos k) r.2) →
        eucl (pos n) c ^ 2 ≤ lr / (100 * (height ^ 2 + R ^ 2)) + q ^ n * eucl t0 c ^ 2 := by
  have hpl : places E.eps rx ≠ [] := by simpa [places] using hrx
  have hR := radius_nonneg hpl hc.1
  let step : ℕ → Pt → Pt → Prop := fun k t t' =>
    Rev.optimizeStep ((sgd (F.fin lr)).chain zeroNans) (Rev.powerLoss (wallScene tx rx walls) G { minOrder := 0, maxOrder := 0 } ⟨E, F.fin tol, F.fin patch, ap, ⟨alphas k, act⟩⟩
      (Rev.receivedPower E (F.fin coef) (F.fin height))) (Rev.start _ (V2.fin t)) = .ok (Rev.start _ (V2.fin t')) ∧
    ((∃ r ∈ rx, t = guarded E.eps r.2 ∨ ¬ Sees walls patch t r.2) → t' = t) ∧
    ((∀ r ∈ rx, t ≠ guarded E.eps r.2 ∧ Sees walls patch t r.2) → ∃ D, R ^ 2 + eucl t c ^ 2 ≤ D ∧ D ≤ (R + eucl t c) ^ 2 ∧
      eucl t' c ^ 2 ≤ (1 - 2 * (lr / 50 * (1 / (height ^ 2 + D)) ^ 2)) * eucl t c ^ 2 + (lr / 50 * (1 / (height ^ 2 + D)) ^ 2) ^ 2 * D)
  have hstep : ∀ k t, ∃ t', step k t t' := by
    intro k t
    by_cases hne : ∀ r ∈ rx, t ≠ guarded E.eps r.2
    · obtain ⟨t', h1, h2, h3⟩ := C151_step G hG tx rx ht hr hrx walls hnd hoff E ap hh tol patch htol htol1 hpatch coef height hht c R hc lr hlr.le _ _ (hk (alphas k)) t hne
      refine ⟨t', chain_step h1, ?_, fun h => h3 fun r hrm => (h r hrm).2⟩
      rintro ⟨r, hrm, h | h⟩
      · exact absurd h (hne r hrm)
      · exact h2 ⟨r, hrm, h⟩
    · push Not at hne
      obtain ⟨r, hrm, e⟩ := hne
      obtain ⟨out, -, h2, h3⟩ := C150_loss (Key := Unit) G hG tx rx ht hr walls hnd hoff (fun _ _ => []) none E ap hh tol patch htol htol1 hpatch coef height hht hrx _ _
        (hk (alphas k)) t
      have h4 := h3.nan ⟨r, hrm, by unfold seenGradient; rw [if_pos e]⟩
      refine ⟨t, ?_, fun _ => rfl, fun h => absurd e (h r hrm).1⟩
      unfold Rev.optimizeStep
      simp only [Rev.start]
      rw [h2]
      simp only [Bind.bind, Except.bind, Pure.pure, Except.pure, sgd, Optimizer.chain, zeroNans, h4, V2.fin, List.map_cons, List.map_nil, List.getD_cons_zero, List.getD_cons_succ, F.fin_neg,
        F.mul_nan, F.isNan_nan, F.where_true]
      refine congrArg Except.ok (Prod.ext ?_ rfl)
      show V2.mk (F.fin t.x + 0) (F.fin t.y + 0) = _
      rw [show (0 : F) = F.fin 0 from F.zero_eq, F.fin_add, F.fin_add, add_zero, add_zero]
  choose next hnext using hstep
  let pos : ℕ → Pt := fun n => Nat.rec t0 (fun k p => next k p) n
  have hpos : ∀ k, pos (k + 1) = next k (pos k) := fun k => rfl
  obtain ⟨q, q0, q1, hq⟩ := centre_bound hht hR hlr hlr1 (sq_nonneg (eucl t0 c))
  refine ⟨pos, q, q0, q1, rfl, fun n => ?_, fun k hk' m hm => ?_, fun n hn => ?_⟩
  · induction n with
    | zero => rfl
    | succ n ih =>
      rw [List.range_succ, List.map_append, animate_append, ih]
      simp only [Except.bind, List.map_cons, List.map_nil, Rev.animate, Bind.bind]
      rw [(hnext n (pos n)).1]
  · induction m, hm using Nat.le_induction with
    | base => rfl
    | succ m hm ih =>
      rw [hpos, ← ih]
      exact (hnext m (pos m)).2.1 (by rw [ih]; exact hk')
  · induction n with
    | zero =>
      show eucl t0 c ^ 2 ≤ _ + q ^ 0 * eucl t0 c ^ 2
      rw [pow_zero, one_mul]
      have : 0 < lr / (100 * (height ^ 2 + R ^ 2)) := by positivity
      linarith
    | succ n ih =>
      obtain ⟨D, h5, h6, h7⟩ := (hnext n (pos n)).2.2 (hn n (by omega))
      rw [← hpos] at h7
      exact hq n _ _ D (eucl_nonneg' _ _) (ih fun k hk' => hn k (by omega)) h5 h6 h7

end

/-- C151 applies to receivers at `(0, 0)` and `(2, 0)`, the default height of the example, a learning rate of a hundredth and a wall from `(0, -5)` to `(2, -5)`: from
`(1, 1/2)`, in the limit the transmitter is less than `0.01` away from the middle `(1, 0)`. -/
example (E : Env) (he : E.eps = 0) (alphas : ℕ → F) : ∃ (pos : ℕ → Pt) (q : ℝ), 0 ≤ q ∧ q < 1 ∧ ∀ n,
    Rev.animate (sgd (F.fin (1 / 100))) (fun alpha => Rev.powerLoss (wallScene [] [("a", ⟨0, 0⟩), ("b", ⟨2, 0⟩)] [(⟨0, -5⟩, ⟨2, -5⟩)]) refLib { minOrder := 0, maxOrder := 0 }
      ⟨E, F.fin (1 / 100), F.fin 0, some false, ⟨alpha, Rev.hardSigmoid⟩⟩ (Rev.receivedPower E (F.fin (1 / 2)) (F.fin (1 / 10)))) ((List.range n).map alphas)
        (Rev.start _ (V2.fin ⟨1, 1 / 2⟩)) = .ok (Rev.start _ (V2.fin (pos n))) ∧
    eucl (pos n) ⟨1, 0⟩ ^ 2 ≤ 1 / 10000 + q ^ n * (1 / 4) := by
  have hg : ∀ p : Pt, guarded E.eps p = p := fun p => by simp [guarded, he]
  have hc : SmallestCircle (places E.eps [("a", ⟨0, 0⟩), ("b", ⟨2, 0⟩)]) ⟨1, 0⟩ 1 := by
    simp only [places, List.map_cons, List.map_nil, hg]
    refine ⟨by intro a ha; simp only [List.mem_cons, List.not_mem_nil, or_false] at ha; rcases ha with rfl | rfl <;> simp [eucl] <;> norm_num, fun c' R' h => ?_⟩
    have h1 := h ⟨0, 0⟩ (by simp)
    have h2 := h ⟨2, 0⟩ (by simp)
    have h3 := eucl_triangle ⟨0, 0⟩ c' ⟨2, 0⟩
    rw [eucl_comm c'] at h3
    have h4 : eucl ⟨0, 0⟩ ⟨2, 0⟩ = 2 := by
      unfold eucl
      rw [show ((2 : ℝ) - 0) ^ 2 + (0 - 0) ^ 2 = 2 ^ 2 by norm_num, Real.sqrt_sq (by norm_num)]
    linarith
  have hk : ∀ a : F, SameKw (⟨a, Rev.hardSigmoid⟩ : Rev.ActKw Rev.Coord) ⟨a, hardSigmoid⟩ := fun a => (C98_parts (ι := Rev.Coord) a E (F.fin 1) (F.fin 1)).2.1
  have hoff : ∀ r ∈ ([("a", ⟨0, 0⟩), ("b", ⟨2, 0⟩)] : PyDict Pt), ∀ w ∈ ([(⟨0, -5⟩, ⟨2, -5⟩)] : List (Pt × Pt)), ¬ OnLine w.1 w.2 r.2 := by
    intro r hr w hw
    simp only [List.mem_singleton] at hw
    subst hw
    rintro ⟨s, e⟩
    have := congrArg V2.y e
    simp only [List.mem_cons, List.not_mem_nil, or_false] at hr
    rcases hr with rfl | rfl <;> norm_num [pointAt] at this
  obtain ⟨pos, q, q0, q1, h0, h⟩ := C151_run refLib refLib_contract [] [("a", ⟨0, 0⟩), ("b", ⟨2, 0⟩)] (by simp [Distinct]) (by simp [Distinct]) (by simp)
    [(⟨0, -5⟩, ⟨2, -5⟩)] (by simp) hoff E (some false) (.inl rfl) (1 / 100) 0 (by norm_num) (by norm_num) (by norm_num) (1 / 2) (1 / 10) (by norm_num) ⟨1, 0⟩ 1 hc (1 / 100) (by norm_num)
    (by norm_num) Rev.hardSigmoid hardSigmoid hk alphas ⟨1, 1 / 2⟩
  have he0 : eucl ⟨1, 1 / 2⟩ ⟨1, 0⟩ ^ 2 = 1 / 4 := by rw [eucl_sq]; norm_num
  have hclose : ∀ p : Pt, eucl p ⟨1, 0⟩ ^ 2 ≤ 1 / 10000 + 1 / 4 → (∀ r ∈ ([("a", ⟨0, 0⟩), ("b", ⟨2, 0⟩)] : PyDict Pt), p ≠ guarded E.eps r.2) ∧
      ∀ r ∈ ([("a", ⟨0, 0⟩), ("b", ⟨2, 0⟩)] : PyDict Pt), Sees [(⟨0, -5⟩, ⟨2, -5⟩)] 0 p r.2 := by
    intro p hp
    rw [eucl_sq] at hp
    simp only [List.mem_cons, List.not_mem_nil, or_false, forall_eq_or_imp, forall_eq, hg]
    have hS : ∀ r : Pt, r.y = 0 → Sees [(⟨0, -5⟩, ⟨2, -5⟩)] 0 p r := by
      intro r hr w hw
      simp only [List.mem_singleton] at hw
      subst hw
      rintro ⟨-, u, t, e, -, h2, h3⟩
      have := congrArg V2.y e
      simp only [pointAt, hr] at this
      simp only at hp
      have hy : p.y ^ 2 ≤ 1 := by nlinarith [sq_nonneg (1 - p.x)]
      have e5 : (p.y * (1 - t)) ^ 2 = 25 := by
        have : p.y * (1 - t) = -5 := by linarith
        rw [this]; norm_num
      have ht : (1 - t) ^ 2 ≤ 4 := by nlinarith
      rw [mul_pow] at e5
      nlinarith [mul_le_mul hy ht (sq_nonneg _) (by norm_num)]
    refine ⟨⟨?_, ?_⟩, hS _ rfl, hS _ rfl⟩
    · rintro rfl; norm_num at hp
    · rintro rfl; norm_num at hp
  have hb : ∀ n, (∀ k < n, ∀ r ∈ ([("a", ⟨0, 0⟩), ("b", ⟨2, 0⟩)] : PyDict Pt), pos k ≠ guarded E.eps r.2) →
      (∀ k < n, ∀ r ∈ ([("a", ⟨0, 0⟩), ("b", ⟨2, 0⟩)] : PyDict Pt), Sees [(⟨0, -5⟩, ⟨2, -5⟩)] 0 (pos k) r.2) → eucl (pos n) ⟨1, 0⟩ ^ 2 ≤ 1 / 10000 + q ^ n * (1 / 4) := by
    intro n h1 h2
    have h3 := (h n h1).2.2 h2
    rw [he0] at h3
    linarith [show (1 : ℝ) / 100 / (100 * ((1 / 10) ^ 2 + 1 ^ 2)) ≤ 1 / 10000 by norm_num]
  have hall : ∀ n, ∀ k < n, eucl (pos k) ⟨1, 0⟩ ^ 2 ≤ 1 / 10000 + 1 / 4 := by
    intro n
    induction n with
    | zero => intro k hk'; omega
    | succ n ih =>
      intro k hk'
      have h1 := hb k (fun j hj => (hclose _ (ih j (by omega))).1) (fun j hj => (hclose _ (ih j (by omega))).2)
      have : q ^ k ≤ 1 := pow_le_one₀ q0 q1.le
      linarith
  exact ⟨pos, q, q0, q1, fun n => ⟨(h n fun k hk' => (hclose _ (hall n k hk')).1).1, hb n (fun k hk' => (hclose _ (hall n k hk')).1) fun k hk' => (hclose _ (hall n k hk')).2⟩⟩

end DiffeRT2d.Props
