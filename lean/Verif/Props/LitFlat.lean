import Verif.Props.NonFlat
import Verif.Props.GradHardAlmost
import Verif.Props.Reciprocal
import Verif.Lemmas.LitFlat

/-! # C142: without approximation, gradients vanish only in the dark -/

namespace DiffeRT2d.Props
open Classical Spec MeasureTheory Filter Topology

/-- Off finitely many lines, every path of the range is determined and off the guard, in both directions. -/
theorem lit_positions (eps : ℝ) (he : 0 < eps) (walls : List (Pt × Pt)) (hw : ∀ w ∈ walls, w.1 ≠ w.2) (lo hi : ℤ) (hlo : 0 ≤ lo) :
    ∃ L, Lines L ∧
      (∀ t, OffLines L t → ∃ M, Lines M ∧ ∀ r, OffLines M r → ∀ c, InRange walls.length lo hi c → Unguarded t r (wallsAt walls c) ∧ OffGuard eps (rpath t r (wallsAt walls c))) ∧
      (∀ r, OffLines L r → ∃ M, Lines M ∧ ∀ t, OffLines M t → ∀ c, InRange walls.length lo hi c → Unguarded t r (wallsAt walls c) ∧ OffGuard eps (rpath t r (wallsAt walls c))) := by
  obtain ⟨L, hL, h1, h2⟩ := C102_positions eps he walls hw lo hi hlo
  refine ⟨L, hL, fun t ht => ?_, fun r hr => ?_⟩
  · obtain ⟨M, hM, h⟩ := h1 t ht
    refine ⟨M, hM, fun r hr c hc => ?_⟩
    have := h r hr c hc _ _ (traceImage_eq t r (wallsAt walls c))
    exact ⟨(determined_iff _ _ _).mp this.1, this.2.1⟩
  · obtain ⟨M, hM, h⟩ := h2 r hr
    refine ⟨M, hM, fun t ht c hc => ?_⟩
    have := h t ht c hc _ _ (traceImage_eq t r (wallsAt walls c))
    exact ⟨(determined_iff _ _ _).mp this.1, this.2.1⟩

/-- Near almost every receiver, a sum of powers that does not change is zero. -/
theorem lit_receivers (eps coef height : ℝ) (walls : List (Pt × Pt)) {lo hi : ℤ} (t : Pt) {M : List (Pt × Pt)} (hM : Lines M)
    (h : ∀ r, OffLines M r → ∀ c, InRange walls.length lo hi c → Unguarded t r (wallsAt walls c) ∧ OffGuard eps (rpath t r (wallsAt walls c)))
    (cs : Finset (List ℤ)) (hcs : ∀ c ∈ cs, InRange walls.length lo hi c) :
    ∀ᵐ y : ℝ × ℝ, ∀ B ⊆ cs, ∀ v : ℝ, (∀ᶠ q : ℝ × ℝ in 𝓝 y, ∑ c ∈ B, powerAlong eps coef height (rpath t ⟨q.1, q.2⟩ (wallsAt walls c)) = v) → v = 0 := by
  filter_upwards [C102_negligible M hM] with y hy B hB v hv
  exact sum_const_zero B (fun c => wallsAt walls c) eps coef height (fun _ => t) ⟨y.1, y.2⟩ (fun c hc => h _ hy c (hcs c (hB hc))) hv

/-- The same for transmitters, along the reversed paths. -/
theorem lit_transmitters (eps coef height : ℝ) (walls : List (Pt × Pt)) {lo hi : ℤ} (r : Pt) {M M' : List (Pt × Pt)} (hM : Lines M) (hM' : Lines M')
    (h : ∀ t, OffLines M t → ∀ c, InRange walls.length lo hi c → Unguarded t r (wallsAt walls c) ∧ OffGuard eps (rpath t r (wallsAt walls c)))
    (h' : ∀ t, OffLines M' t → ∀ c, InRange walls.length lo hi c → Unguarded r t (wallsAt walls c) ∧ OffGuard eps (rpath r t (wallsAt walls c)))
    (cs : Finset (List ℤ)) (hcs : ∀ c ∈ cs, InRange walls.length lo hi c) :
    ∀ᵐ y : ℝ × ℝ, ∀ B ⊆ cs, ∀ v : ℝ, (∀ᶠ q : ℝ × ℝ in 𝓝 y, ∑ c ∈ B, powerAlong eps coef height (rpath ⟨q.1, q.2⟩ r (wallsAt walls c)) = v) → v = 0 := by
  have hrev : ∀ t, OffLines M t → OffLines M' t → ∀ c, InRange walls.length lo hi c → rpath r t (wallsAt walls c.reverse) = (rpath t r (wallsAt walls c)).reverse := by
    intro t ht ht' c hc
    have h1 := (h t ht c hc).1
    have h2 := (h' t ht' c.reverse (inRange_reverse hc)).1
    rw [← wallsAt_reverse] at h2 ⊢
    unfold rpath
    rw [rpts_reverse _ t r h1 h2]
    simp
  filter_upwards [C102_negligible M hM, C102_negligible M' hM'] with y hy hy' B hB v hv
  refine sum_const_zero B (fun c => wallsAt walls c.reverse) (-eps) coef height (fun _ => r) ⟨y.1, y.2⟩ (fun c hc => ?_) (c := v) ?_
  · have hc' := hcs c (hB hc)
    refine ⟨(h' _ hy' c.reverse (inRange_reverse hc')).1, ?_⟩
    rw [hrev _ hy hy' c hc']
    exact offGuard_reverse (by rw [neg_neg]; exact (h _ hy c hc').2)
  · filter_upwards [hv, offLines_eventually M hy, offLines_eventually M' hy'] with q e hq hq'
    rw [← e]
    refine Finset.sum_congr rfl fun c hc => ?_
    rw [hrev _ hq hq' c (hcs c (hB hc)), powerAlong_reverse, neg_neg]

/-- What the two directions have in common. -/
private theorem lit_core {v : ℝ × ℝ → ℝ} {gradient : ℝ × ℝ → V2 F} (hflat : FlatAtZero v) (hv : ∀ q, 0 ≤ v q) (hg : ∀ᵐ r : ℝ × ℝ, ∀ᶠ q in 𝓝 r, GradientAt v q (gradient q)) :
    ∀ᵐ r : ℝ × ℝ, (∃ g : Pt, gradient r = V2.fin g ∧ (g = ⟨0, 0⟩ ↔ v r = 0)) ∧ ∀ᶠ q in 𝓝 r, GradientAt v q (gradient q) := by
  filter_upwards [hflat, hg] with r h1 h2
  exact ⟨gradient_iff h2.self_of_nhds hv h1.2, h2⟩

section Hard
variable {Key : Type} (G : GraphLib) (hG : GraphContract G) (walls : List (Pt × Pt)) (hw : ∀ w ∈ walls, w.1 ≠ w.2) (lo hi : ℤ) (hlo : 0 ≤ lo)
  (hex : ∃ c, InRange walls.length lo hi c) (split : Key → ℕ → List Key) (key : Option Key)
  (E : Env) (he : 0 < E.eps) (ap : Option Bool) (hh : Hard E ap) (tol patch : ℝ) (kw : Rev.ActKw Rev.Coord) (kw' : ActKw) (hk : SameKw kw kw') (coef height : ℝ) (hc : 0 ≤ coef) (hht : 0 < height)
include hG hw hlo hex he hh hk hc hht

/-- **C142.** Without approximation, for paths of any range of orders, transmitters outside of finitely many lines and almost every receiver: the gradient of the accumulated received
power with respect to the receiver is defined, and it is zero only if the power itself is zero. -/
theorem C142_receivers :
    ∃ L, Lines L ∧ ∀ tx rx : PyDict Pt, Distinct tx → (∀ t ∈ tx, OffLines L t.2) →
      ∃ (value : String × Pt → ℝ × ℝ → ℝ) (gradient : String × Pt → ℝ × ℝ → V2 F),
        (∀ r : ℝ × ℝ, (wallScene tx [("rx", ⟨r.1, r.2⟩)] walls).accumulateOverPaths G split (imageMethod Key) { minOrder := lo, maxOrder := hi }
          ⟨E, F.fin tol, F.fin patch, ap, kw'⟩ key (powerFun E coef height) = .ok (tx.map fun t => (t.1, "rx", F.fin (value t r)))) ∧
        (∀ (grad : Bool) (P : Scene.Grid (ℝ × ℝ)),
          Rev.accumulateOnReceiversGrid (wallScene tx rx walls) G { minOrder := lo, maxOrder := hi } ⟨E, F.fin tol, F.fin patch, ap, kw⟩ grad true
            (Rev.receivedPower E (F.fin coef) (F.fin height))
            (gridX P) (gridY P) = .ok (tx.map fun t => (t.1, .both (P.map fun row => row.map fun p => F.fin (value t p)) (P.map fun row => row.map (gradient t)))) ∧
          Rev.accumulateOnReceiversGrid (wallScene tx rx walls) G { minOrder := lo, maxOrder := hi } ⟨E, F.fin tol, F.fin patch, ap, kw⟩ true false
            (Rev.receivedPower E (F.fin coef) (F.fin height))
            (gridX P) (gridY P) = .ok (tx.map fun t => (t.1, .gradient (P.map fun row => row.map (gradient t))))) ∧
        ∀ t ∈ tx, ∀ᵐ r : ℝ × ℝ, (∃ g : Pt, gradient t r = V2.fin g ∧ (g = ⟨0, 0⟩ ↔ value t r = 0)) ∧ ∀ᶠ q in 𝓝 r, GradientAt (value t) q (gradient t q) := by
  haveI : (volume : Measure (ℝ × ℝ)).IsAddHaarMeasure := by rw [Measure.volume_eq_prod]; infer_instance
  obtain ⟨L, hL, hpos, -⟩ := lit_positions E.eps he walls hw lo hi hlo
  refine ⟨L, hL, fun tx rx ht hoff => ?_⟩
  obtain ⟨cs, -, -, hcm, -⟩ := cands_walls G hG tx rx walls lo hi hlo hex
  obtain ⟨value, gradient, points, accepted, q1, q2, q3, q4, q5⟩ := C100_receivers G hG tx rx ht walls lo hi hlo hex split key E ap hh tol patch kw kw' hk coef height hht
  refine ⟨value, gradient, q1, q2, fun t htm => ?_⟩
  obtain ⟨M, hM, h⟩ := hpos t.2 (hoff t htm)
  have hpts : ∀ r c, points t.2 r c = rpath t.2 ⟨r.1, r.2⟩ (wallsAt walls c) := by
    intro r c
    obtain ⟨loss, hl⟩ := q3 t.2 r c
    exact (traceImage_iff hl).1
  have hsum : ∀ r, value t r = ∑ c ∈ accepted t.2 r, powerAlong E.eps coef height (rpath t.2 ⟨r.1, r.2⟩ (wallsAt walls c)) := fun r => by
    rw [(q5 t htm r).1]
    exact Finset.sum_congr rfl fun c _ => by rw [hpts]
  have hacc : AlmostConstant volume (accepted t.2) :=
    accepted_const cs hcm _ _ (q4 t.2) fun c => accept_const (.const (V2.fin t.2)) moving_analytic walls _ c E ap hh tol patch kw'
  have hcs : ∀ c ∈ cs.toFinset, InRange walls.length lo hi c := fun c hc => (hcm c).mp (List.mem_toFinset.mp hc)
  have hflat : FlatAtZero (value t) := flatAtZero_of_accepted (accepted t.2) cs.toFinset (fun q c hcq => List.mem_toFinset.mpr ((hcm c).mpr ((q4 t.2 q c).mp hcq).1)) hacc
    (fun c r => powerAlong E.eps coef height (rpath t.2 ⟨r.1, r.2⟩ (wallsAt walls c)))
    (fun c _ => power_analytic (.const (V2.fin t.2)) moving_analytic (wallsAt walls c) E coef height hht)
    (lit_receivers E.eps coef height walls t.2 hM h cs.toFinset hcs) hsum
  refine lit_core hflat (fun q => by rw [hsum]; exact Finset.sum_nonneg fun c _ => powerAlong_nonneg _ hc _) ?_
  filter_upwards [hacc, C102_negligible M hM] with r hr hrM
  filter_upwards [hr.eventually_nhds, offLines_eventually M hrM] with q hq hqM
  have hgood := (q5 t htm q).2.1 fun c hc => by
    rw [hpts]
    exact ⟨(determined_iff _ _ _).mpr (h _ hqM c hc).1, (h _ hqM c hc).2⟩
  obtain ⟨v', h1, h2⟩ := hgood
  refine ⟨v', h1.congr_of_eventuallyEq ?_, h2⟩
  filter_upwards [hq] with z hz
  rw [(q5 t htm z).1, hz, hq.self_of_nhds]

/-- The transmitter, with what is needed for the loss. -/
private theorem lit_tx :
    ∃ L, Lines L ∧ ∀ tx rx : PyDict Pt, Distinct rx → (∀ r ∈ rx, OffLines L r.2) →
      ∃ (value : String × Pt → ℝ × ℝ → ℝ) (gradient : String × Pt → ℝ × ℝ → V2 F),
        (∀ t : ℝ × ℝ, (wallScene [("tx", ⟨t.1, t.2⟩)] rx walls).accumulateOverPaths G split (imageMethod Key) { minOrder := lo, maxOrder := hi }
          ⟨E, F.fin tol, F.fin patch, ap, kw'⟩ key (powerFun E coef height) = .ok (rx.map fun r => ("tx", r.1, F.fin (value r t)))) ∧
        (∀ (grad : Bool) (P : Scene.Grid (ℝ × ℝ)),
          Rev.accumulateOnTransmittersGrid (wallScene tx rx walls) G { minOrder := lo, maxOrder := hi } ⟨E, F.fin tol, F.fin patch, ap, kw⟩ grad true
            (Rev.receivedPower E (F.fin coef) (F.fin height))
            (gridX P) (gridY P) = .ok (rx.map fun r => (r.1, .both (P.map fun row => row.map fun p => F.fin (value r p)) (P.map fun row => row.map (gradient r)))) ∧
          Rev.accumulateOnTransmittersGrid (wallScene tx rx walls) G { minOrder := lo, maxOrder := hi } ⟨E, F.fin tol, F.fin patch, ap, kw⟩ true false
            (Rev.receivedPower E (F.fin coef) (F.fin height))
            (gridX P) (gridY P) = .ok (rx.map fun r => (r.1, .gradient (P.map fun row => row.map (gradient r))))) ∧
        ∀ r ∈ rx, FlatAtZero (value r) ∧ ∀ᵐ t : ℝ × ℝ, (∃ g : Pt, gradient r t = V2.fin g ∧ (g = ⟨0, 0⟩ ↔ value r t = 0)) ∧ ∀ᶠ q in 𝓝 t, GradientAt (value r) q (gradient r q) := by
  haveI : (volume : Measure (ℝ × ℝ)).IsAddHaarMeasure := by rw [Measure.volume_eq_prod]; infer_instance
  obtain ⟨L, hL, hpos', hpos⟩ := lit_positions E.eps he walls hw lo hi hlo
  refine ⟨L, hL, fun tx rx hr hoff => ?_⟩
  obtain ⟨cs, -, -, hcm, -⟩ := cands_walls G hG tx rx walls lo hi hlo hex
  obtain ⟨value, gradient, points, accepted, q1, q2, q3, q4, q5⟩ := C100_transmitters G hG tx rx hr walls lo hi hlo hex split key E ap hh tol patch kw kw' hk coef height hht
  refine ⟨value, gradient, q1, q2, fun r hrm => ?_⟩
  obtain ⟨M, hM, h⟩ := hpos r.2 (hoff r hrm)
  obtain ⟨M', hM', h'⟩ := hpos' r.2 (hoff r hrm)
  have hpts : ∀ t c, points r.2 t c = rpath ⟨t.1, t.2⟩ r.2 (wallsAt walls c) := by
    intro t c
    obtain ⟨loss, hl⟩ := q3 r.2 t c
    exact (traceImage_iff hl).1
  have hsum : ∀ t, value r t = ∑ c ∈ accepted r.2 t, powerAlong E.eps coef height (rpath ⟨t.1, t.2⟩ r.2 (wallsAt walls c)) := fun t => by
    rw [(q5 r hrm t).1]
    exact Finset.sum_congr rfl fun c _ => by rw [hpts]
  have hacc : AlmostConstant volume (accepted r.2) :=
    accepted_const cs hcm _ _ (q4 r.2) fun c => accept_const moving_analytic (.const (V2.fin r.2)) walls _ c E ap hh tol patch kw'
  have hcs : ∀ c ∈ cs.toFinset, InRange walls.length lo hi c := fun c hc => (hcm c).mp (List.mem_toFinset.mp hc)
  have hflat : FlatAtZero (value r) := flatAtZero_of_accepted (accepted r.2) cs.toFinset (fun q c hcq => List.mem_toFinset.mpr ((hcm c).mpr ((q4 r.2 q c).mp hcq).1)) hacc
    (fun c t => powerAlong E.eps coef height (rpath ⟨t.1, t.2⟩ r.2 (wallsAt walls c)))
    (fun c _ => power_analytic moving_analytic (.const (V2.fin r.2)) (wallsAt walls c) E coef height hht)
    (lit_transmitters E.eps coef height walls r.2 hM hM' h h' cs.toFinset hcs) hsum
  refine ⟨hflat, lit_core hflat (fun q => by rw [hsum]; exact Finset.sum_nonneg fun c _ => powerAlong_nonneg _ hc _) ?_⟩
  filter_upwards [hacc, C102_negligible M hM] with t ht htM
  filter_upwards [ht.eventually_nhds, offLines_eventually M htM] with q hq hqM
  have hgood := (q5 r hrm q).2.1 fun c hc => by
    rw [hpts]
    exact ⟨(determined_iff _ _ _).mpr (h _ hqM c hc).1, (h _ hqM c hc).2⟩
  obtain ⟨v', h1, h2⟩ := hgood
  refine ⟨v', h1.congr_of_eventuallyEq ?_, h2⟩
  filter_upwards [hq] with z hz
  rw [(q5 r hrm z).1, hz, hq.self_of_nhds]

/-- **C142.** The same with respect to the transmitter. -/
theorem C142_transmitters :
    ∃ L, Lines L ∧ ∀ tx rx : PyDict Pt, Distinct rx → (∀ r ∈ rx, OffLines L r.2) →
      ∃ (value : String × Pt → ℝ × ℝ → ℝ) (gradient : String × Pt → ℝ × ℝ → V2 F),
        (∀ t : ℝ × ℝ, (wallScene [("tx", ⟨t.1, t.2⟩)] rx walls).accumulateOverPaths G split (imageMethod Key) { minOrder := lo, maxOrder := hi }
          ⟨E, F.fin tol, F.fin patch, ap, kw'⟩ key (powerFun E coef height) = .ok (rx.map fun r => ("tx", r.1, F.fin (value r t)))) ∧
        (∀ (grad : Bool) (P : Scene.Grid (ℝ × ℝ)),
          Rev.accumulateOnTransmittersGrid (wallScene tx rx walls) G { minOrder := lo, maxOrder := hi } ⟨E, F.fin tol, F.fin patch, ap, kw⟩ grad true
            (Rev.receivedPower E (F.fin coef) (F.fin height))
            (gridX P) (gridY P) = .ok (rx.map fun r => (r.1, .both (P.map fun row => row.map fun p => F.fin (value r p)) (P.map fun row => row.map (gradient r)))) ∧
          Rev.accumulateOnTransmittersGrid (wallScene tx rx walls) G { minOrder := lo, maxOrder := hi } ⟨E, F.fin tol, F.fin patch, ap, kw⟩ true false
            (Rev.receivedPower E (F.fin coef) (F.fin height))
            (gridX P) (gridY P) = .ok (rx.map fun r => (r.1, .gradient (P.map fun row => row.map (gradient r))))) ∧
        ∀ r ∈ rx, ∀ᵐ t : ℝ × ℝ, (∃ g : Pt, gradient r t = V2.fin g ∧ (g = ⟨0, 0⟩ ↔ value r t = 0)) ∧ ∀ᶠ q in 𝓝 t, GradientAt (value r) q (gradient r q) := by
  obtain ⟨L, hL, h⟩ := lit_tx G hG walls hw lo hi hlo hex split key E he ap hh tol patch kw kw' hk coef height hc hht
  refine ⟨L, hL, fun tx rx hr hoff => ?_⟩
  obtain ⟨value, gradient, h1, h2, h3⟩ := h tx rx hr hoff
  exact ⟨value, gradient, h1, h2, fun r hrm => (h3 r hrm).2⟩

end Hard

/-- The loss of the worst served receiver is flat only where it is zero, if the powers are. -/
theorem worst_flat {rx : PyDict Pt} {power : String × Pt → ℝ} {gradient : String × Pt → V2 F} {out : F × V2 F} (p4 : WorstServed rx power gradient out) (v : String × Pt → ℝ × ℝ → ℝ) (t : ℝ × ℝ)
    (hpow : ∀ r ∈ rx, power r = v r t) (hall : ∀ r ∈ rx, AnalyticAt ℝ (v r) t ∧ (∃ g : Pt, gradient r = V2.fin g ∧ (g = ⟨0, 0⟩ ↔ v r t = 0)) ∧ GradientAt (v r) t (gradient r))
    (htie : ∀ r ∈ rx, ∀ r' ∈ rx, AnalyticAt ℝ (fun p => v r p - v r' p) t → v r t - v r' t = 0 → ∀ᶠ p in 𝓝 t, v r p - v r' p = 0) :
    ∃ (l : ℝ) (g : Pt), out = (F.fin l, V2.fin g) ∧ (g = ⟨0, 0⟩ ↔ l = 0) := by
  have hg : ∀ r, ∃ g : Pt, r ∈ rx → gradient r = V2.fin g ∧ (g = ⟨0, 0⟩ ↔ power r = 0) := by
    intro r
    by_cases hrm : r ∈ rx
    · obtain ⟨g, hg⟩ := (hall r hrm).2.1
      exact ⟨g, fun _ => by rw [hpow r hrm]; exact hg⟩
    · exact ⟨⟨0, 0⟩, fun h => absurd h hrm⟩
  choose g hg using hg
  obtain ⟨r0, hr0, hmin, hv⟩ := p4.value
  obtain ⟨w, w1, w2, w3, w4⟩ := p4.mean g fun r hrm => (hg r hrm).1
  have hsame : ∀ r ∈ rx, w r ≠ 0 → g r = g r0 := by
    intro r hrm hwr
    have e : power r = power r0 := le_antisymm (w3 r hrm hwr r0 hr0) (hmin r hrm)
    rw [hpow r hrm, hpow r0 hr0] at e
    have hz := htie r hrm r0 hr0 ((hall r hrm).1.sub (hall r0 hr0).1) (by linarith)
    have hd : fderiv ℝ (v r) t = fderiv ℝ (v r0) t := by
      refine Filter.EventuallyEq.fderiv_eq ?_
      filter_upwards [hz] with p hp
      linarith
    have e1 := (hg r hrm).1
    have e2 := (hg r0 hr0).1
    obtain ⟨v1, k1, l1⟩ := (hall r hrm).2.2
    obtain ⟨v2, k2, l2⟩ := (hall r0 hr0).2.2
    rw [k1.fderiv, k2.fderiv] at hd
    rw [l1, hd, ← l2, e2] at e1
    have x := congrArg V2.x e1
    have y := congrArg V2.y e1
    simp only [V2.fin, F.fin.injEq] at x y
    ext
    · exact x.symm
    · exact y.symm
  have hsum : ∀ f : Pt → ℝ, (rx.map fun r => w r * f (g r)).sum = f (g r0) := by
    intro f
    have : (rx.map fun r => w r * f (g r)) = (rx.map fun r => w r * f (g r0)) := List.map_congr_left fun r hrm => by
      by_cases hwr : w r = 0
      · rw [hwr]; simp
      · rw [hsame r hrm hwr]
    rw [this, List.sum_map_mul_right, w2, one_mul]
  rw [hsum V2.x, hsum V2.y] at w4
  refine ⟨-(power r0 / 100), ⟨-((g r0).x / 100), -((g r0).y / 100)⟩, ?_, ?_⟩
  · rw [← hv, ← w4]
  · rw [neg_eq_zero, div_eq_zero_iff, or_iff_left (by norm_num), ← (hg r0 hr0).2]
    constructor
    · intro e
      have x := congrArg V2.x e
      have y := congrArg V2.y e
      simp only at x y
      ext
      · simp only; linarith
      · simp only; linarith
    · intro e
      rw [e]
      simp

section HardLoss
variable (G : GraphLib) (hG : GraphContract G) (walls : List (Pt × Pt)) (hw : ∀ w ∈ walls, w.1 ≠ w.2) (lo hi : ℤ) (hlo : 0 ≤ lo)
  (hex : ∃ c, InRange walls.length lo hi c)
  (E : Env) (he : 0 < E.eps) (ap : Option Bool) (hh : Hard E ap) (tol patch : ℝ) (kw : Rev.ActKw Rev.Coord) (kw' : ActKw) (hk : SameKw kw kw') (coef height : ℝ) (hc : 0 ≤ coef) (hht : 0 < height)
include hG hw hlo hex he hh hk hc hht

/-- **C142.** The same of the loss of the example that places a transmitter, without approximation and for any range of orders. -/
theorem C142_loss :
    ∃ L, Lines L ∧ ∀ tx rx : PyDict Pt, Distinct rx → rx ≠ [] → (∀ r ∈ rx, OffLines L r.2) → ∀ᵐ t : ℝ × ℝ, ∃ (v : ℝ) (g : Pt),
      Rev.valueAndGrad (Rev.powerLoss (wallScene tx rx walls) G { minOrder := lo, maxOrder := hi } ⟨E, F.fin tol, F.fin patch, ap, kw⟩
        (Rev.receivedPower E (F.fin coef) (F.fin height))) ⟨F.fin t.1, F.fin t.2⟩ = .ok (F.fin v, V2.fin g) ∧ (g = ⟨0, 0⟩ ↔ v = 0) := by
  haveI : (volume : Measure (ℝ × ℝ)).IsAddHaarMeasure := by rw [Measure.volume_eq_prod]; infer_instance
  obtain ⟨L, hL, h⟩ := lit_tx (Key := Unit) G hG walls hw lo hi hlo hex (fun k _ => [k]) none E he ap hh tol patch kw kw' hk coef height hc hht
  refine ⟨L, hL, fun tx rx hr hrx hoff => ?_⟩
  obtain ⟨value, gradient, -, h2, h3⟩ := h tx rx hr hoff
  have hall : ∀ᵐ t : ℝ × ℝ, ∀ r ∈ {r | r ∈ rx}, AnalyticAt ℝ (value r) t ∧ (∃ g : Pt, gradient r t = V2.fin g ∧ (g = ⟨0, 0⟩ ↔ value r t = 0)) ∧
      GradientAt (value r) t (gradient r t) := by
    refine (ae_ball_iff (List.finite_toSet rx).countable).mpr fun r hrm => ?_
    filter_upwards [(h3 r hrm).1, (h3 r hrm).2] with t h5 h6
    exact ⟨h5.1, h6.1, h6.2.self_of_nhds⟩
  have htie : ∀ᵐ t : ℝ × ℝ, ∀ r ∈ {r | r ∈ rx}, ∀ r' ∈ {r | r ∈ rx}, AnalyticAt ℝ (fun p : ℝ × ℝ => value r p - value r' p) t → value r t - value r' t = 0 →
      ∀ᶠ p in 𝓝 t, value r p - value r' p = 0 :=
    (ae_ball_iff (List.finite_toSet rx).countable).mpr fun r _ => (ae_ball_iff (List.finite_toSet rx).countable).mpr fun r' _ => zeros_analytic volume _
  filter_upwards [hall, htie] with t hall htie
  obtain ⟨power, gradient', out, -, p2, p3, p4⟩ := C127_hard (Key := Unit) G hG tx rx hr hrx walls lo hi hlo hex (fun k _ => [k]) none E ap hh tol patch
    kw kw' hk coef height hht t
  have hgg : ∀ r ∈ rx, power r = value r t ∧ gradient' r = gradient r t := by
    have := Except.ok.inj (p2.symm.trans (h2 false [[t]]).1)
    intro r hr'
    have := List.map_inj_left.mp this r hr'
    simpa using this
  obtain ⟨l, g, e1, e2⟩ := worst_flat p4 value t (fun r hrm => (hgg r hrm).1) (fun r hrm => by rw [(hgg r hrm).2]; exact hall r hrm) htie
  exact ⟨l, g, by rw [p3, e1], e2⟩

/-- **C142.** From almost every start, the first frame of the example moves the transmitter, unless some receiver gets nothing. -/
theorem C142_moves (lr : ℝ) (hlr : 0 < lr) :
    ∃ L, Lines L ∧ ∀ tx rx : PyDict Pt, Distinct rx → rx ≠ [] → (∀ r ∈ rx, OffLines L r.2) →
      ∀ᵐ t : ℝ × ℝ, ∃ (v : ℝ) (g : Pt) (st : (exampleOptimizer (F.fin lr)).State),
    Rev.valueAndGrad (Rev.powerLoss (wallScene tx rx walls) G { minOrder := lo, maxOrder := hi } ⟨E, F.fin tol, F.fin patch, ap, kw⟩
      (Rev.receivedPower E (F.fin coef) (F.fin height))) ⟨F.fin t.1, F.fin t.2⟩ = .ok (F.fin v, V2.fin g) ∧
    Rev.animate (exampleOptimizer (F.fin lr)) (fun alpha => Rev.powerLoss (wallScene tx rx walls) G { minOrder := lo, maxOrder := hi }
      ⟨E, F.fin tol, F.fin patch, ap, ⟨alpha, kw.function⟩⟩ (Rev.receivedPower E (F.fin coef) (F.fin height))) [kw.alpha] (Rev.start _ ⟨F.fin t.1, F.fin t.2⟩) =
      .ok (V2.fin ⟨t.1 - lr * g.x / (|g.x| + 1e-8), t.2 - lr * g.y / (|g.y| + 1e-8)⟩, st) ∧
    ((⟨t.1 - lr * g.x / (|g.x| + 1e-8), t.2 - lr * g.y / (|g.y| + 1e-8)⟩ : Pt) = ⟨t.1, t.2⟩ ↔ v = 0) := by
  obtain ⟨L, hL, h⟩ := C142_loss G hG walls hw lo hi hlo hex E he ap hh tol patch kw kw' hk coef height hc hht
  refine ⟨L, hL, fun tx rx hr hrx hoff => ?_⟩
  filter_upwards [h tx rx hr hrx hoff] with t ⟨v, g, h1, h2⟩
  refine ⟨v, g, exState (F.fin lr) (cm (F.fin g.x) 0) (cm (F.fin g.y) 0) (cv (F.fin g.x) 0) (cv (F.fin g.y) 0) 1, h1, ?_, ?_⟩
  · have := example_step (F.fin lr) _ ⟨t.1, t.2⟩ 0 0 0 0 0 h1 (first_update lr g.x) (first_update lr g.y)
    rw [example_init]
    simp only [Rev.animate, Bind.bind]
    rw [show (⟨F.fin t.1, F.fin t.2⟩ : V2 F) = V2.fin ⟨t.1, t.2⟩ from rfl, this]
    simp only [Except.bind, sub_eq_add_neg]
    rfl
  · rw [← h2]
    constructor
    · intro e
      have x := congrArg V2.x e
      have y := congrArg V2.y e
      simp only at x y
      have hz : ∀ z : ℝ, lr * z / (|z| + 1e-8) = 0 → z = 0 := by
        intro z hz
        rcases div_eq_zero_iff.mp hz with h | h
        · exact (mul_eq_zero.mp h).resolve_left hlr.ne'
        · have := abs_nonneg z
          norm_num at h
          linarith
      ext
      · exact hz _ (by linarith)
      · exact hz _ (by linarith)
    · rintro rfl
      simp

end HardLoss

/-- **C142.** The power is zero exactly if there is no valid path: without approximation, and for any range of orders and any positive reflection coefficient. -/
theorem C142_dark {Key : Type} (G : GraphLib) (hG : GraphContract G) (walls : List (Pt × Pt)) (lo hi : ℤ) (hlo : 0 ≤ lo)
    (hex : ∃ c, InRange walls.length lo hi c) (split : Key → ℕ → List Key) (key : Option Key) (E : Env) (ap : Option Bool) (hh : Hard E ap) (tol patch : ℝ) (kw : ActKw)
    (coef height : ℝ) (hc : 0 < coef) (hht : 0 < height) (n m : String) (t r : Pt) : ∃ v : ℝ,
    (wallScene [(n, t)] [(m, r)] walls).accumulateOverPaths G split (imageMethod Key) { minOrder := lo, maxOrder := hi }
      ⟨E, F.fin tol, F.fin patch, ap, kw⟩ key (powerFun E coef height) = .ok [(n, m, F.fin v)] ∧ 0 ≤ v ∧
    (v = 0 ↔ (wallScene [(n, t)] [(m, r)] walls).allValidPaths G split (imageMethod Key) { minOrder := lo, maxOrder := hi } ⟨E, F.fin tol, F.fin patch, ap, kw⟩ key = .ok []) := by
  obtain ⟨cs, hcs, hcd, hcm, hne⟩ := cands_walls G hG [(n, t)] [(m, r)] walls lo hi hlo hex
  let ok : Pt → Pt → List ℤ → Prop := fun t r c => HardOk (wallsAt walls c) walls c (rpath t r (wallsAt walls c)) (scores (wallsAt walls c) (rpath t r (wallsAt walls c))).sum tol patch
  have hV : ∀ t r c, InRange walls.length lo hi c → ∃ valid, (finitePath (rpath t r (wallsAt walls c)) (scores (wallsAt walls c) (rpath t r (wallsAt walls c))).sum).isValid E
      ((wallsOf walls).map Obj.interact) c ((wallsOf (wallsAt walls c)).map Obj.interact) (F.fin tol) (F.fin patch) ap kw = .ok valid ∧
      valid.toF = F.fin (if ok t r c then 1 else 0) := by
    intro t r c hc
    refine ⟨_, isValid_hardOk hh kw _ _ c _ _ tol patch (by rw [rpath_length, wallsAt_length hc.1]), ?_⟩
    by_cases hok : ok t r c
    · rw [if_pos hok]; simp [show HardOk _ _ _ _ _ _ _ from hok, Truthy.toF]
    · rw [if_neg hok]; simp [show ¬ HardOk _ _ _ _ _ _ _ from hok, Truthy.toF]
  have hacc := accumulate_walls G hG [(n, t)] [(m, r)] (by simp [Distinct]) (by simp [Distinct]) walls lo hi hlo cs hcs hcd hcm hne split key
    ⟨E, F.fin tol, F.fin patch, ap, kw⟩ _ _ (realFun_powerAlong E coef height hht) (fun t r c => if ok t r c then 1 else 0) (fun t _ r _ c hc => hV t.2 r.2 c ((hcm c).mp hc))
  have hpos : ∀ l, 0 < powerAlong E.eps coef height l := fun l => by unfold powerAlong; positivity
  refine ⟨_, hacc, List.sum_nonneg fun x hx => ?_, ?_⟩
  · obtain ⟨c, -, rfl⟩ := List.mem_map.mp hx
    have := (hpos (rpath t r (wallsAt walls c))).le
    split_ifs
    · simpa using this
    · simp
  have hd : Distinct (finPoints [(n, t)]) := by simp [Distinct, finPoints]
  have hd' : Distinct (finPoints [(m, r)]) := by simp [Distinct, finPoints]
  have hS : IsScene (wallScene [(n, t)] [(m, r)] walls) := ⟨⟨_, hd, rfl⟩, ⟨_, hd', rfl⟩⟩
  rw [C57_valid G _ hS]
  cases hts : (wallScene [(n, t)] [(m, r)] walls).allPaths G split (imageMethod Key) { minOrder := lo, maxOrder := hi } ⟨E, F.fin tol, F.fin patch, ap, kw⟩ key with
  | error x =>
    unfold Scene.accumulateOverPaths at hacc
    rw [hts] at hacc
    cases hacc
  | ok ts =>
    obtain ⟨m1, m2, -⟩ := traversal_mem G hG _ _ _ hd hd' rfl rfl { minOrder := lo, maxOrder := hi } hlo split key cs hcs hcd _ ⟨E, F.fin tol, F.fin patch, ap, kw⟩ ts hts
    have hval : ∀ (x : Scene.Traced) k, x.candidate ∈ cs → TracedAs (wallScene [(n, t)] [(m, r)] walls) (imageMethod Key) ⟨E, F.fin tol, F.fin patch, ap, kw⟩ k (V2.fin t) (V2.fin r)
        x.candidate x.path x.valid → x.valid = .b (decide (ok t r x.candidate)) := by
      intro x k hxc ⟨h1, h2⟩
      rw [objectsAt_walls] at h1 h2
      have h1 : traceImage t (wallsAt walls x.candidate) r = .ok x.path := h1
      rw [traceImage_eq] at h1
      obtain h1 := Except.ok.inj h1
      rw [← h1, wallScene_objects] at h2
      have := isValid_hardOk hh kw (wallsAt walls x.candidate) walls x.candidate (rpath t r (wallsAt walls x.candidate)) (scores (wallsAt walls x.candidate) (rpath t r (wallsAt walls x.candidate))).sum
        tol patch (by rw [rpath_length, wallsAt_length ((hcm _).mp hxc).1])
      exact Except.ok.inj (h2.symm.trans this)
    simp only [Except.map, Except.ok.injEq, List.map_eq_nil_iff, List.filter_eq_nil_iff, decide_eq_true_eq]
    have hsum : (cs.map fun c => (if ok t r c then 1 else 0) * powerAlong E.eps coef height (rpath t r (wallsAt walls c))).sum = 0 ↔ ∀ c ∈ cs, ¬ ok t r c := by
      constructor
      · intro h c hcc hok
        have h0 : ∀ x ∈ cs.map fun c => (if ok t r c then (1 : ℝ) else 0) * powerAlong E.eps coef height (rpath t r (wallsAt walls c)), 0 ≤ x := by
          intro x hx
          obtain ⟨c, -, rfl⟩ := List.mem_map.mp hx
          exact mul_nonneg (by split_ifs <;> norm_num) (hpos _).le
        have := List.single_le_sum h0 _ (List.mem_map.mpr ⟨c, hcc, rfl⟩)
        rw [h, if_pos hok, one_mul] at this
        exact absurd this (not_le.mpr (hpos _))
      · intro h
        refine List.sum_eq_zero fun x hx => ?_
        obtain ⟨c, hcc, rfl⟩ := List.mem_map.mp hx
        rw [if_neg (h c hcc), zero_mul]
    have hacc' : ∀ b : Bool, Accepted E ap (.b b) ↔ b = true := by
      intro b
      constructor
      · rintro (⟨-, h⟩ | ⟨h, -⟩)
        · exact h
        · rcases hh with h' | ⟨h', h''⟩ <;> rcases h with g | ⟨g, g'⟩ <;> simp_all
      · rintro rfl
        exact .inl ⟨hh, rfl⟩
    refine Iff.trans ?_ (hsum.trans ?_)
    · rfl
    constructor
    · intro h x hx ha
      obtain ⟨k, t', r', ht', hr', hxc, htr⟩ := m1 x hx
      simp only [finPoints, List.map_cons, List.map_nil, List.mem_singleton, Prod.mk.injEq] at ht' hr'
      rw [ht'.2, hr'.2] at htr
      rw [hval x k hxc htr, hacc', decide_eq_true_eq] at ha
      exact h _ hxc ha
    · intro h c hcc hok
      obtain ⟨x, hx, k, -, -, e, htr⟩ := m2 (n, V2.fin t) (by simp [finPoints]) (m, V2.fin r) (by simp [finPoints]) c hcc
      subst e
      refine h x hx ?_
      rw [hval x k hcc htr, hacc', decide_eq_true_eq]
      exact hok

/-- A path that is valid brings power: what is needed for the example below. -/
theorem lit_power {Key : Type} (G : GraphLib) (hG : GraphContract G) (walls : List (Pt × Pt)) (lo hi : ℤ) (hlo : 0 ≤ lo)
    (split : Key → ℕ → List Key) (key : Option Key) (E : Env) (ap : Option Bool) (hh : Hard E ap) (tol patch : ℝ) (kw : ActKw)
    (coef height : ℝ) (hc : 0 < coef) (hht : 0 < height) (n m : String) (t r : Pt) (c : List ℤ) (hci : InRange walls.length lo hi c)
    (hok : HardOk (wallsAt walls c) walls c (rpath t r (wallsAt walls c)) (scores (wallsAt walls c) (rpath t r (wallsAt walls c))).sum tol patch) : ∃ v : ℝ,
    (wallScene [(n, t)] [(m, r)] walls).accumulateOverPaths G split (imageMethod Key) { minOrder := lo, maxOrder := hi }
      ⟨E, F.fin tol, F.fin patch, ap, kw⟩ key (powerFun E coef height) = .ok [(n, m, F.fin v)] ∧ 0 < v := by
  obtain ⟨cs, hcs, hcd, hcm, hne⟩ := cands_walls G hG [(n, t)] [(m, r)] walls lo hi hlo ⟨c, hci⟩
  have hV : ∀ t r c, InRange walls.length lo hi c → ∃ valid, (finitePath (rpath t r (wallsAt walls c)) (scores (wallsAt walls c) (rpath t r (wallsAt walls c))).sum).isValid E
      ((wallsOf walls).map Obj.interact) c ((wallsOf (wallsAt walls c)).map Obj.interact) (F.fin tol) (F.fin patch) ap kw = .ok valid ∧
      valid.toF = F.fin (if HardOk (wallsAt walls c) walls c (rpath t r (wallsAt walls c)) (scores (wallsAt walls c) (rpath t r (wallsAt walls c))).sum tol patch then 1 else 0) := by
    intro t r c hc
    refine ⟨_, isValid_hardOk hh kw _ _ c _ _ tol patch (by rw [rpath_length, wallsAt_length hc.1]), ?_⟩
    split_ifs with h <;> simp [h, Truthy.toF]
  have hacc := accumulate_walls G hG [(n, t)] [(m, r)] (by simp [Distinct]) (by simp [Distinct]) walls lo hi hlo cs hcs hcd hcm hne split key
    ⟨E, F.fin tol, F.fin patch, ap, kw⟩ _ _ (realFun_powerAlong E coef height hht) (fun t r c => if HardOk (wallsAt walls c) walls c (rpath t r (wallsAt walls c)) (scores (wallsAt walls c) (rpath t r (wallsAt walls c))).sum tol patch then 1 else 0) (fun t _ r _ c hc => hV t.2 r.2 c ((hcm c).mp hc))
  have hpos : ∀ l, 0 < powerAlong E.eps coef height l := fun l => by unfold powerAlong; positivity
  refine ⟨_, hacc, ?_⟩
  have h0 : ∀ x ∈ cs.map fun c => (if HardOk (wallsAt walls c) walls c (rpath t r (wallsAt walls c)) (scores (wallsAt walls c) (rpath t r (wallsAt walls c))).sum tol patch then (1 : ℝ) else 0) * powerAlong E.eps coef height (rpath t r (wallsAt walls c)), 0 ≤ x := by
    intro x hx
    obtain ⟨c, -, rfl⟩ := List.mem_map.mp hx
    exact mul_nonneg (by split_ifs <;> norm_num) (hpos _).le
  have := List.single_le_sum h0 _ (List.mem_map.mpr ⟨c, (hcm c).mpr hci, rfl⟩)
  rw [if_pos hok, one_mul] at this
  exact lt_of_lt_of_le (hpos _) this

/-- The reflection of the example below: it is on the wall, and it is a reflection. -/
theorem mirror_ok {t r : Pt} (h1 : -1 < t.x) (h2 : t.x < 1) (h3 : 0 < t.y) (h4 : -1 < r.x) (h5 : r.x < 1) (h6 : 0 < r.y) :
    HardOk (wallsAt [(⟨-5, 0⟩, ⟨5, 0⟩)] [0]) [(⟨-5, 0⟩, ⟨5, 0⟩)] [0] (rpath t r (wallsAt [(⟨-5, 0⟩, ⟨5, 0⟩)] [0]))
      (scores (wallsAt [(⟨-5, 0⟩, ⟨5, 0⟩)] [0]) (rpath t r (wallsAt [(⟨-5, 0⟩, ⟨5, 0⟩)] [0]))).sum (1 / 100) 0 := by
  have hn : rn ⟨-5, 0⟩ ⟨5, 0⟩ = ⟨0, -1⟩ := by
    have : nrm (⟨0, -(5 - -5)⟩ : Pt) = 10 := by
      unfold nrm
      rw [Real.sqrt_eq_iff_mul_self_eq (by norm_num [dp]) (by norm_num)]
      norm_num [dp]
    simp only [rn, unit, len1, sub_self]
    rw [this]
    norm_num
  have hw : wallsAt [((⟨-5, 0⟩ : Pt), (⟨5, 0⟩ : Pt))] [0] = [(⟨-5, 0⟩, ⟨5, 0⟩)] := rfl
  have hi : rimg ⟨-5, 0⟩ ⟨5, 0⟩ t = ⟨t.x, -t.y⟩ := by
    ext <;> simp [rimg, hn, dp]; ring
  have hy : r.y + t.y ≠ 0 := by linarith
  have hb : rback ⟨-5, 0⟩ ⟨5, 0⟩ ⟨t.x, -t.y⟩ r = ⟨(r.x * t.y + t.x * r.y) / (r.y + t.y), 0⟩ := by
    have hu : un ⟨-5, 0⟩ ⟨5, 0⟩ ⟨t.x, -t.y⟩ r = -(r.y + t.y) := by simp [un, hn, dp]
    rw [rback, hu, if_neg (neg_ne_zero.mpr hy), hn]
    ext <;> simp only [dp, V2.sub_x, V2.sub_y, div_neg] <;> field_simp <;> ring
  rw [hw]
  have hp : rpath t r [(⟨-5, 0⟩, ⟨5, 0⟩)] = [t, ⟨(r.x * t.y + t.x * r.y) / (r.y + t.y), 0⟩, r] := by
    simp [rpath, rpts, hi, hb]
  have hx1 : -5 ≤ (r.x * t.y + t.x * r.y) / (r.y + t.y) := by rw [le_div_iff₀ (by linarith)]; nlinarith
  have hx2 : (r.x * t.y + t.x * r.y) / (r.y + t.y) ≤ 5 := by rw [div_le_iff₀ (by linarith)]; nlinarith
  rw [hp]
  refine ⟨fun y hy => ?_, fun y hy => ?_, ?_⟩
  · simp only [List.zipIdx_cons, List.zipIdx_nil, List.mem_singleton] at hy
    subst hy
    have : rpar ⟨-5, 0⟩ ⟨5, 0⟩ (⟨(r.x * t.y + t.x * r.y) / (r.y + t.y), 0⟩ : Pt) = ((r.x * t.y + t.x * r.y) / (r.y + t.y) + 5) / 10 := by
      norm_num [rpar, dp]; ring
    show 0 ≤ rpar ⟨-5, 0⟩ ⟨5, 0⟩ (⟨(r.x * t.y + t.x * r.y) / (r.y + t.y), 0⟩ : Pt) ∧ rpar ⟨-5, 0⟩ ⟨5, 0⟩ (⟨(r.x * t.y + t.x * r.y) / (r.y + t.y), 0⟩ : Pt) ≤ 1
    rw [this]
    constructor <;> linarith
  · simp [hitPairs, List.range_succ] at hy
  · have : scores [((⟨-5, 0⟩ : Pt), (⟨5, 0⟩ : Pt))] [t, ⟨(r.x * t.y + t.x * r.y) / (r.y + t.y), 0⟩, r] = [0] := by
      simp only [scores]
      rw [reval_aligned ⟨-5, 0⟩ ⟨5, 0⟩ t _ r (⟨(r.x * t.y + t.x * r.y) / (r.y + t.y), 0⟩ - t) 1 (r.y / t.y) (by ext <;> simp)
        (by ext <;> simp [refl, hn, dp] <;> field_simp <;> ring)]
      have : sgn (r.y / t.y) = sgn 1 := by simp [sgn, div_pos h6 h3]
      rw [this, sub_self]
      simp
    rw [this]
    norm_num

/-- C142 applies to a mirror, with the reflection only: there is a transmitter, and a receiver that gets power by reflection, and the gradient there is not zero. -/
example (E : Env) (he : 0 < E.eps) : ∃ (t : Pt) (r : ℝ × ℝ) (v : ℝ) (g : Pt), v ≠ 0 ∧ g ≠ ⟨0, 0⟩ ∧
    (wallScene [("tx", t)] [("rx", ⟨r.1, r.2⟩)] [(⟨-5, 0⟩, ⟨5, 0⟩)]).accumulateOverPaths refLib (fun (_ : Unit) _ => []) (imageMethod Unit)
      { minOrder := 1, maxOrder := 1 } ⟨E, F.fin (1 / 100), F.fin 0, some false, ⟨F.fin 100, hardSigmoid⟩⟩ none (powerFun E (1 / 2) 1) = .ok [("tx", "rx", F.fin v)] ∧
    Rev.accumulateOnReceiversGrid (wallScene [("tx", t)] [] [(⟨-5, 0⟩, ⟨5, 0⟩)]) refLib { minOrder := 1, maxOrder := 1 }
      ⟨E, F.fin (1 / 100), F.fin 0, some false, ⟨F.fin 100, Rev.hardSigmoid⟩⟩ true false (Rev.receivedPower E (F.fin (1 / 2)) (F.fin 1)) [[F.fin r.1]] [[F.fin r.2]] =
      .ok [("tx", .gradient [[V2.fin g]])] := by
  have hir : InRange 1 1 1 [0] := by simp [InRange, IsCandidate]
  obtain ⟨L, hL, h⟩ := C142_receivers refLib refLib_contract [(⟨-5, 0⟩, ⟨5, 0⟩)] (by simp; norm_num) 1 1 (by norm_num) ⟨[0], hir⟩ (fun (_ : Unit) _ => []) none E he
    (some false) (.inl rfl) (1 / 100) 0 ⟨F.fin 100, Rev.hardSigmoid⟩ ⟨F.fin 100, hardSigmoid⟩ (library_same (.inr ⟨rfl, rfl⟩)) (1 / 2) 1 (by norm_num) one_pos
  have hopen : IsOpen (Set.Ioo (-1 : ℝ) 1 ×ˢ Set.Ioo (1 : ℝ) 2) := isOpen_Ioo.prod isOpen_Ioo
  have hne : (Set.Ioo (-1 : ℝ) 1 ×ˢ Set.Ioo (1 : ℝ) 2).Nonempty := ⟨(0, 3 / 2), by norm_num⟩
  obtain ⟨t, htin, ht⟩ := (MeasureTheory.Measure.dense_of_ae (C102_negligible L hL)).inter_open_nonempty _ hopen hne
  obtain ⟨value, gradient, h1, h2, h3⟩ := h [("tx", ⟨t.1, t.2⟩)] [] (by simp [Distinct]) (by simpa using ht)
  obtain ⟨r, hrin, ⟨g, hg, hgv⟩, -⟩ := (MeasureTheory.Measure.dense_of_ae (h3 ("tx", ⟨t.1, t.2⟩) (by simp))).inter_open_nonempty _ hopen hne
  obtain ⟨v, hv, hv0⟩ := lit_power (Key := Unit) refLib refLib_contract [(⟨-5, 0⟩, ⟨5, 0⟩)] 1 1 (by norm_num) (fun _ _ => []) none E (some false) (.inl rfl) (1 / 100) 0 ⟨F.fin 100, hardSigmoid⟩ (1 / 2) 1
    (by norm_num) one_pos "tx" "rx" ⟨t.1, t.2⟩ ⟨r.1, r.2⟩ [0] hir
    (mirror_ok htin.1.1 htin.1.2 (lt_trans one_pos htin.2.1) hrin.1.1 hrin.1.2 (lt_trans one_pos hrin.2.1))
  have hvv : value ("tx", ⟨t.1, t.2⟩) r = v := by
    have := (h1 r).symm.trans hv
    simpa using this
  refine ⟨⟨t.1, t.2⟩, r, v, g, hv0.ne', fun e => hv0.ne' (hvv ▸ hgv.mp e), hv, ?_⟩
  have := (h2 true [[r]]).2
  simpa [gridX, gridY, hg] using this

/-- Likewise for the example that places a transmitter, in a corner and with up to two bounces: there are two receivers for which the loss moves the transmitter from almost
every start, unless one of them gets nothing. -/
example (E : Env) (he : 0 < E.eps) : ∃ r r' : Pt, ∀ᵐ t : ℝ × ℝ, ∃ (v : ℝ) (g : Pt),
    Rev.valueAndGrad (Rev.powerLoss (wallScene [] [("rx_0", r), ("rx_1", r')] [(⟨0, 0⟩, ⟨1, 0⟩), (⟨0, 0⟩, ⟨0, 1⟩)]) refLib { minOrder := 0, maxOrder := 2 }
      ⟨E, F.fin (1 / 100), F.fin 0, some false, ⟨F.fin 100, Rev.hardSigmoid⟩⟩ (Rev.receivedPower E (F.fin (1 / 2)) (F.fin 1))) ⟨F.fin t.1, F.fin t.2⟩ = .ok (F.fin v, V2.fin g) ∧
    ((⟨t.1 - (1 / 100) * g.x / (|g.x| + 1e-8), t.2 - (1 / 100) * g.y / (|g.y| + 1e-8)⟩ : Pt) = ⟨t.1, t.2⟩ ↔ v = 0) := by
  obtain ⟨L, hL, h⟩ := C142_moves refLib refLib_contract [(⟨0, 0⟩, ⟨1, 0⟩), (⟨0, 0⟩, ⟨0, 1⟩)] (by simp) 0 2 le_rfl ⟨[], by simp [InRange, IsCandidate]⟩ E he
    (some false) (.inl rfl) (1 / 100) 0 ⟨F.fin 100, Rev.hardSigmoid⟩ ⟨F.fin 100, hardSigmoid⟩ (library_same (.inr ⟨rfl, rfl⟩)) (1 / 2) 1 (by norm_num) one_pos (1 / 100) (by norm_num)
  obtain ⟨r, hr⟩ := (C102_negligible L hL).exists
  refine ⟨⟨r.1, r.2⟩, ⟨r.1, r.2⟩, ?_⟩
  filter_upwards [h [] [("rx_0", ⟨r.1, r.2⟩), ("rx_1", ⟨r.1, r.2⟩)] (by simp [Distinct]) (by simp) (by simpa using hr)] with t ⟨v, g, st, h1, _, h3⟩
  exact ⟨v, g, h1, h3⟩

/-- And the power of the mirror above is not zero: there is a valid path, at a transmitter and a receiver above it. -/
example (E : Env) : (wallScene [("tx", ⟨0, 1⟩)] [("rx", ⟨1 / 2, 1⟩)] [(⟨-5, 0⟩, ⟨5, 0⟩)]).allValidPaths refLib (fun (_ : Unit) _ => []) (imageMethod Unit)
      { minOrder := 1, maxOrder := 1 } ⟨E, F.fin (1 / 100), F.fin 0, some false, ⟨F.fin 100, hardSigmoid⟩⟩ none ≠ .ok [] := by
  have hir : InRange 1 1 1 [0] := by simp [InRange, IsCandidate]
  obtain ⟨v, h1, -, h3⟩ := C142_dark refLib refLib_contract [(⟨-5, 0⟩, ⟨5, 0⟩)] 1 1 (by norm_num) ⟨[0], hir⟩ (fun (_ : Unit) _ => []) none E (some false) (.inl rfl) (1 / 100) 0
    ⟨F.fin 100, hardSigmoid⟩ (1 / 2) 1 (by norm_num) one_pos "tx" "rx" ⟨0, 1⟩ ⟨1 / 2, 1⟩
  obtain ⟨v', h1', h0⟩ := lit_power (Key := Unit) refLib refLib_contract [(⟨-5, 0⟩, ⟨5, 0⟩)] 1 1 (by norm_num) (fun _ _ => []) none E (some false) (.inl rfl) (1 / 100) 0 ⟨F.fin 100, hardSigmoid⟩ (1 / 2) 1
    (by norm_num) one_pos "tx" "rx" ⟨0, 1⟩ ⟨1 / 2, 1⟩ [0] hir (mirror_ok (by norm_num) (by norm_num) (by norm_num) (by norm_num) (by norm_num) (by norm_num))
  have : v = v' := by simpa using h1.symm.trans h1'
  rw [Ne, ← h3, this]
  exact h0.ne'

end DiffeRT2d.Props
