import Verif.Lemmas.NonFlatHard
import Verif.Spec.NonFlat
import Verif.Props.PowerOptimize
import Verif.Props.GradAlmost

/-! # Property C141: with approximation, gradients vanish almost nowhere -/

namespace DiffeRT2d.Props
open Classical Spec MeasureTheory Filter Topology

/-- The lines through a fixed point that lines of sight must avoid. -/
private def sightLines (eps : ℝ) (walls : List (Pt × Pt)) (r : Pt) : List (Pt × Pt) :=
  (r, ⟨r.x + 1, r.y⟩) :: (⟨r.x + eps, r.y + eps⟩, ⟨r.x + eps + 1, r.y + eps⟩) :: walls.map fun w => (r, ⟨r.x + (w.2.x - w.1.x), r.y + (w.2.y - w.1.y)⟩)

private theorem sightLines_lines (eps : ℝ) {walls : List (Pt × Pt)} (hw : ∀ w ∈ walls, w.1 ≠ w.2) (r : Pt) : Lines (sightLines eps walls r) := by
  intro l hl
  simp only [sightLines, List.mem_cons, List.mem_map] at hl
  rcases hl with rfl | rfl | ⟨w, hwm, rfl⟩
  · intro h; have := congrArg V2.x h; simp at this
  · intro h; have := congrArg V2.x h; simp at this
  · intro h
    apply hw w hwm
    have h1 := congrArg V2.x h
    have h2 := congrArg V2.y h
    simp only at h1 h2
    ext <;> linarith

/-- A line of sight to a point off these lines is a good path. -/
private theorem sight_good {eps : ℝ} {walls : List (Pt × Pt)} {t r : Pt} (h : OffLines (sightLines eps walls r) t) :
    GoodPath eps walls [] t r ∧ NoPause (rpath t r []) := by
  have h1 := h _ (by simp [sightLines] : (r, (⟨r.x + 1, r.y⟩ : Pt)) ∈ _)
  have h2 := h _ (by simp [sightLines] : ((⟨r.x + eps, r.y + eps⟩ : Pt), (⟨r.x + eps + 1, r.y + eps⟩ : Pt)) ∈ _)
  have e : rpath t r [] = [t, r] := rfl
  refine ⟨⟨trivial, ?_, fun _ w hw i a b ha hb hpar => ?_⟩, ?_⟩
  · intro i a b ha hb
    rw [e] at ha hb
    match i with
    | 0 =>
      simp only [List.getElem?_cons_zero, Option.some.injEq, List.getElem?_cons_succ] at ha hb
      subst ha hb
      intro hr
      apply h2
      rw [hr]
      simp [side]
    | i + 1 => simp at hb
  · rw [e] at ha hb
    match i with
    | 0 =>
      simp only [List.getElem?_cons_zero, Option.some.injEq, List.getElem?_cons_succ] at ha hb
      subst ha hb
      refine h _ (by simp only [sightLines, List.mem_cons, List.mem_map]; exact .inr (.inr ⟨w, hw, rfl⟩)) ?_
      simp only [Parallel] at hpar
      simp only [side]
      linarith
    | i + 1 => simp at hb
  · intro i a b ha hb
    rw [e] at ha hb
    match i with
    | 0 =>
      simp only [List.getElem?_cons_zero, Option.some.injEq, List.getElem?_cons_succ] at ha hb
      subst ha hb
      rintro rfl
      apply h1
      simp [side]
    | i + 1 => simp at hb

/-- The same from the other end. -/
private theorem sight_good' {eps : ℝ} {walls : List (Pt × Pt)} {t r : Pt} (h : OffLines (sightLines (-eps) walls t) r) :
    GoodPath eps walls [] t r ∧ NoPause (rpath t r []) := by
  obtain ⟨h1, h2⟩ := sight_good h
  refine ⟨goodPath_reverse trivial h1, ?_⟩
  have := noPause_reverse h2
  exact this

/-- The received power along a line of sight. -/
private theorem sight_power (eps coef h : ℝ) (t r : Pt) : powerAlong eps coef h [t, r] = 1 / (h ^ 2 + ((r.x - t.x + eps) ^ 2 + (r.y - t.y + eps) ^ 2)) := by
  have : guardedLength eps [t, r] ^ 2 = (r.x - t.x + eps) ^ 2 + (r.y - t.y + eps) ^ 2 := by
    simp only [guardedLength, eucl, add_zero]
    rw [Real.sq_sqrt (by positivity)]
    ring
  unfold powerAlong
  rw [this]
  simp

/-- The approximate power of the line of sight between `t` and `r`. -/
private noncomputable def sightPower (s : ℝ → ℝ) (walls : List (Pt × Pt)) (eps tol patch h : ℝ) (t r : Pt) : ℝ :=
  (fmValid [] walls [] [t, r] 0 tol patch).eval s * (1 / (h ^ 2 + ((r.x - t.x + eps) ^ 2 + (r.y - t.y + eps) ^ 2)))

section Core
variable {Key : Type} (G : GraphLib) (hG : GraphContract G) (walls : List (Pt × Pt)) (hw : ∀ w ∈ walls, w.1 ≠ w.2)
  (split : Key → ℕ → List Key) (key : Option Key) (E : Env) (ap : Option Bool) (hs : Soft E ap) (tol patch a : ℝ) (hp : -(1 / 2) < patch) (ha : 0 < a)
  (kw : Rev.ActKw Rev.Coord) (kw' : ActKw) (hk : LibraryActivation a kw kw') (s : ℝ → ℝ) (hsr : ∀ x : ℝ, activation kw' (F.fin x) = F.fin (s x))
  (coef height : ℝ) (hht : 0 < height)
include hs ha hk hsr

private theorem sight_valid (t r : Pt) : ∃ valid, (finitePath (rpath t r (wallsAt walls [])) (scores (wallsAt walls []) (rpath t r (wallsAt walls []))).sum).isValid E
      ((wallsOf walls).map Obj.interact) [] ((wallsOf (wallsAt walls [])).map Obj.interact) (F.fin tol) (F.fin patch) ap kw' = .ok valid ∧
      valid.toF = F.fin ((fmValid [] walls [] [t, r] 0 tol patch).eval s) := by
  obtain ⟨⟨⟨f0, h1, h2, h3⟩, a', ha', e⟩, -⟩ := library_lipschitz ha hk
  refine ⟨_, fmValid_soft hs hsr ?_ ?_ _ _ [] [t, r] 0 tol patch rfl, rfl⟩
  · show activation kw' F.pinf = _
    rw [activation, e]; exact (h3 a' ha').1
  · show activation kw' F.ninf = _
    rw [activation, e]; exact (h3 a' ha').2.1

include hG hw hp hht

private theorem sight_transmitters (tx rx : PyDict Pt) (hr : Distinct rx) :
    ∃ gradient : String × Pt → ℝ × ℝ → V2 F,
      (∀ t : ℝ × ℝ, (wallScene [("tx", ⟨t.1, t.2⟩)] rx walls).accumulateOverPaths G split (imageMethod Key) { minOrder := 0, maxOrder := 0 }
        ⟨E, F.fin tol, F.fin patch, ap, kw'⟩ key (powerFun E coef height) = .ok (rx.map fun r => ("tx", r.1, F.fin (sightPower s walls E.eps tol patch height ⟨t.1, t.2⟩ r.2)))) ∧
      (∀ (grad : Bool) (P : Scene.Grid (ℝ × ℝ)),
        Rev.accumulateOnTransmittersGrid (wallScene tx rx walls) G { minOrder := 0, maxOrder := 0 } ⟨E, F.fin tol, F.fin patch, ap, kw⟩ grad true
          (Rev.receivedPower E (F.fin coef) (F.fin height))
          (gridX P) (gridY P) = .ok (rx.map fun r => (r.1, .both (P.map fun row => row.map fun p => F.fin (sightPower s walls E.eps tol patch height ⟨p.1, p.2⟩ r.2)) (P.map fun row => row.map (gradient r)))) ∧
        Rev.accumulateOnTransmittersGrid (wallScene tx rx walls) G { minOrder := 0, maxOrder := 0 } ⟨E, F.fin tol, F.fin patch, ap, kw⟩ true false
          (Rev.receivedPower E (F.fin coef) (F.fin height))
          (gridX P) (gridY P) = .ok (rx.map fun r => (r.1, .gradient (P.map fun row => row.map (gradient r))))) ∧
      ∀ r ∈ rx, ∀ᵐ t : ℝ × ℝ, ∀ᶠ q in 𝓝 t, GradientAt (fun p => sightPower s walls E.eps tol patch height ⟨p.1, p.2⟩ r.2) q (gradient r q) := by
  have hex : ∃ c, InRange walls.length 0 0 c := ⟨[], by simp [InRange, IsCandidate]⟩
  obtain ⟨cs, hcs, hcd, hcm, hne⟩ := cands_walls G hG tx rx walls 0 0 le_rfl hex
  have hcs0 : cs = [[]] := by
    have h0 : ∀ c ∈ cs, c = [] := fun c hc => inRange_zero ((hcm c).mp hc)
    match cs, hne, hcd, h0 with
    | [c], _, _, h0 => rw [h0 c (by simp)]
    | c :: d :: l, _, hcd, h0 =>
      rw [h0 c (by simp), h0 d (by simp)] at hcd
      simp at hcd
  have hcs' : ∀ tx rx, (wallScene tx rx walls).allPathCandidates G { minOrder := 0, maxOrder := 0 } = .ok cs := by
    intro tx' rx'
    have : (wallScene tx' rx' walls).objects = (wallScene tx rx walls).objects := by rw [wallScene_objects, wallScene_objects]
    rw [← hcs]
    unfold Scene.allPathCandidates
    rw [this]
  have hV : ∀ t r c, c ∈ cs → ∃ valid, (finitePath (rpath t r (wallsAt walls c)) (scores (wallsAt walls c) (rpath t r (wallsAt walls c))).sum).isValid E
      ((wallsOf walls).map Obj.interact) c ((wallsOf (wallsAt walls c)).map Obj.interact) (F.fin tol) (F.fin patch) ap kw' = .ok valid ∧
      valid.toF = F.fin ((fmValid [] walls [] [t, r] 0 tol patch).eval s) := by
    intro t r c hc
    obtain rfl := inRange_zero ((hcm c).mp hc)
    exact sight_valid walls E ap hs tol patch a ha kw kw' hk s hsr t r
  obtain ⟨-, -, hsf⟩ := C98_parts (ι := Rev.Coord) (F.fin 1) E (F.fin coef) (F.fin height)
  have hR : ∀ (r : String × Pt) (p : ℝ × ℝ), _ := fun r p => facc_value (tx := Rev.inputs ⟨F.fin p.1, F.fin p.2⟩) (rx := Rev.constV (V2.fin r.2)) (t := ⟨p.1, p.2⟩) (r := r.2)
    rfl rfl walls (library_same hk) hsf (realFun_powerAlong E coef height hht) (fun _ => (fmValid [] walls [] [⟨p.1, p.2⟩, r.2] 0 tol patch).eval s) cs (fun c hc => ((hcm c).mp hc).1)
    fun c hc => hV _ _ c hc
  choose D hD1 hD2 using hR
  have hgrid := transmitters_grid G tx rx hr walls 0 0 cs hcs ⟨E, F.fin tol, F.fin patch, ap, kw⟩ _ D hD1
  have hsum : ∀ t r : Pt, (cs.map fun c => (fmValid [] walls [] [t, r] 0 tol patch).eval s * powerAlong E.eps coef height (rpath t r (wallsAt walls c))).sum =
      sightPower s walls E.eps tol patch height t r := by
    intro t r
    rw [hcs0, List.map_singleton, List.sum_singleton, show rpath t r (wallsAt walls []) = [t, r] from rfl, sight_power]
    rfl
  simp only [hsum] at hD2
  refine ⟨fun r p => ⟨(D r p).grad .x, (D r p).grad .y⟩, ?_, ?_, ?_⟩
  · intro t
    have := accumulate_walls (Key := Key) G hG [("tx", ⟨t.1, t.2⟩)] rx (by simp [Distinct]) hr walls 0 0 le_rfl cs (hcs' _ _) hcd hcm hne split key
      ⟨E, F.fin tol, F.fin patch, ap, kw'⟩ (powerFun E coef height) _ (realFun_powerAlong E coef height hht) (fun t r _ => (fmValid [] walls [] [t, r] 0 tol patch).eval s)
      fun t _ r _ c hc => hV t.2 r.2 c hc
    rw [this, single_product, List.map_map]
    simp only [hsum]
    rfl
  · intro grad P
    refine ⟨?_, ?_⟩
    · rw [hgrid]
      simp only [gridSel, if_true, hD2]
    · rw [hgrid]
      simp only [gridSel, if_true, Bool.false_eq_true, if_false]
  · intro r hrm
    haveI : (volume : Measure (ℝ × ℝ)).IsAddHaarMeasure := by rw [Measure.volume_eq_prod]; infer_instance
    have hae : AE volume axisOf ⟨{p : ℝ × ℝ | OffLines (sightLines E.eps walls r.2) ⟨p.1, p.2⟩}, offLines_open _⟩ (D r) :=
      facc_soft_ae (rx := fun _ => Rev.constV (V2.fin r.2)) (r := fun _ => r.2) (t := fun q => ⟨q.1, q.2⟩) moving_analytic (.const (V2.fin r.2)) (fun x _ => inputs_diff x) (fun x _ => .const r.2) walls hw hs (library_ae hk)
        tol patch hp coef height hht cs (fun c hc => ((hcm c).mp hc).1) (fun x hx c hc => by
          obtain rfl := inRange_zero ((hcm c).mp hc)
          exact sight_good hx) (hD1 r)
    filter_upwards [ae_derivative (C102_negligible _ (sightLines_lines E.eps hw r.2)) hae (hD2 r)] with t ht
    exact ht.mono fun q hq => gradientAt_of hq

private theorem sight_receivers (tx rx : PyDict Pt) (ht : Distinct tx) :
    ∃ gradient : String × Pt → ℝ × ℝ → V2 F,
      (∀ r : ℝ × ℝ, (wallScene tx [("rx", ⟨r.1, r.2⟩)] walls).accumulateOverPaths G split (imageMethod Key) { minOrder := 0, maxOrder := 0 }
        ⟨E, F.fin tol, F.fin patch, ap, kw'⟩ key (powerFun E coef height) = .ok (tx.map fun t => (t.1, "rx", F.fin (sightPower s walls E.eps tol patch height t.2 ⟨r.1, r.2⟩)))) ∧
      (∀ (grad : Bool) (P : Scene.Grid (ℝ × ℝ)),
        Rev.accumulateOnReceiversGrid (wallScene tx rx walls) G { minOrder := 0, maxOrder := 0 } ⟨E, F.fin tol, F.fin patch, ap, kw⟩ grad true
          (Rev.receivedPower E (F.fin coef) (F.fin height))
          (gridX P) (gridY P) = .ok (tx.map fun t => (t.1, .both (P.map fun row => row.map fun p => F.fin (sightPower s walls E.eps tol patch height t.2 ⟨p.1, p.2⟩)) (P.map fun row => row.map (gradient t)))) ∧
        Rev.accumulateOnReceiversGrid (wallScene tx rx walls) G { minOrder := 0, maxOrder := 0 } ⟨E, F.fin tol, F.fin patch, ap, kw⟩ true false
          (Rev.receivedPower E (F.fin coef) (F.fin height))
          (gridX P) (gridY P) = .ok (tx.map fun t => (t.1, .gradient (P.map fun row => row.map (gradient t))))) ∧
      ∀ t ∈ tx, ∀ᵐ r : ℝ × ℝ, ∀ᶠ q in 𝓝 r, GradientAt (fun p => sightPower s walls E.eps tol patch height t.2 ⟨p.1, p.2⟩) q (gradient t q) := by
  have hex : ∃ c, InRange walls.length 0 0 c := ⟨[], by simp [InRange, IsCandidate]⟩
  obtain ⟨cs, hcs, hcd, hcm, hne⟩ := cands_walls G hG tx rx walls 0 0 le_rfl hex
  have hcs0 : cs = [[]] := by
    have h0 : ∀ c ∈ cs, c = [] := fun c hc => inRange_zero ((hcm c).mp hc)
    match cs, hne, hcd, h0 with
    | [c], _, _, h0 => rw [h0 c (by simp)]
    | c :: d :: l, _, hcd, h0 =>
      rw [h0 c (by simp), h0 d (by simp)] at hcd
      simp at hcd
  have hcs' : ∀ tx rx, (wallScene tx rx walls).allPathCandidates G { minOrder := 0, maxOrder := 0 } = .ok cs := by
    intro tx' rx'
    have : (wallScene tx' rx' walls).objects = (wallScene tx rx walls).objects := by rw [wallScene_objects, wallScene_objects]
    rw [← hcs]
    unfold Scene.allPathCandidates
    rw [this]
  have hV : ∀ t r c, c ∈ cs → ∃ valid, (finitePath (rpath t r (wallsAt walls c)) (scores (wallsAt walls c) (rpath t r (wallsAt walls c))).sum).isValid E
      ((wallsOf walls).map Obj.interact) c ((wallsOf (wallsAt walls c)).map Obj.interact) (F.fin tol) (F.fin patch) ap kw' = .ok valid ∧
      valid.toF = F.fin ((fmValid [] walls [] [t, r] 0 tol patch).eval s) := by
    intro t r c hc
    obtain rfl := inRange_zero ((hcm c).mp hc)
    exact sight_valid walls E ap hs tol patch a ha kw kw' hk s hsr t r
  obtain ⟨-, -, hsf⟩ := C98_parts (ι := Rev.Coord) (F.fin 1) E (F.fin coef) (F.fin height)
  have hR : ∀ (t : String × Pt) (p : ℝ × ℝ), _ := fun t p => facc_value (tx := Rev.constV (V2.fin t.2)) (rx := Rev.inputs ⟨F.fin p.1, F.fin p.2⟩) (t := t.2) (r := ⟨p.1, p.2⟩)
    rfl rfl walls (library_same hk) hsf (realFun_powerAlong E coef height hht) (fun _ => (fmValid [] walls [] [t.2, ⟨p.1, p.2⟩] 0 tol patch).eval s) cs (fun c hc => ((hcm c).mp hc).1)
    fun c hc => hV _ _ c hc
  choose D hD1 hD2 using hR
  have hgrid := receivers_grid G tx rx ht walls 0 0 cs hcs ⟨E, F.fin tol, F.fin patch, ap, kw⟩ _ D hD1
  have hsum : ∀ t r : Pt, (cs.map fun c => (fmValid [] walls [] [t, r] 0 tol patch).eval s * powerAlong E.eps coef height (rpath t r (wallsAt walls c))).sum =
      sightPower s walls E.eps tol patch height t r := by
    intro t r
    rw [hcs0, List.map_singleton, List.sum_singleton, show rpath t r (wallsAt walls []) = [t, r] from rfl, sight_power]
    rfl
  simp only [hsum] at hD2
  refine ⟨fun t p => ⟨(D t p).grad .x, (D t p).grad .y⟩, ?_, ?_, ?_⟩
  · intro r
    have := accumulate_walls (Key := Key) G hG tx [("rx", ⟨r.1, r.2⟩)] ht (by simp [Distinct]) walls 0 0 le_rfl cs (hcs' _ _) hcd hcm hne split key
      ⟨E, F.fin tol, F.fin patch, ap, kw'⟩ (powerFun E coef height) _ (realFun_powerAlong E coef height hht) (fun t r _ => (fmValid [] walls [] [t, r] 0 tol patch).eval s)
      fun t _ r _ c hc => hV t.2 r.2 c hc
    rw [this, product_single, List.map_map]
    simp only [hsum]
    rfl
  · intro grad P
    refine ⟨?_, ?_⟩
    · rw [hgrid]
      simp only [gridSel, if_true, hD2]
    · rw [hgrid]
      simp only [gridSel, if_true, Bool.false_eq_true, if_false]
  · intro t htm
    haveI : (volume : Measure (ℝ × ℝ)).IsAddHaarMeasure := by rw [Measure.volume_eq_prod]; infer_instance
    have hae : AE volume axisOf ⟨{p : ℝ × ℝ | OffLines (sightLines (-E.eps) walls t.2) ⟨p.1, p.2⟩}, offLines_open _⟩ (D t) :=
      facc_soft_ae (tx := fun _ => Rev.constV (V2.fin t.2)) (t := fun _ => t.2) (r := fun q => ⟨q.1, q.2⟩) (.const (V2.fin t.2)) moving_analytic (fun x _ => .const t.2) (fun x _ => inputs_diff x) walls hw hs (library_ae hk)
        tol patch hp coef height hht cs (fun c hc => ((hcm c).mp hc).1) (fun x hx c hc => by
          obtain rfl := inRange_zero ((hcm c).mp hc)
          exact sight_good' hx) (hD1 t)
    filter_upwards [ae_derivative (C102_negligible _ (sightLines_lines (-E.eps) hw t.2)) hae (hD2 t)] with r hr
    exact hr.mono fun q hq => gradientAt_of hq

end Core

/-- The logistic function is what `sigmoid` computes. -/
private theorem sigmoid_lgs (a x : ℝ) : activation ⟨F.fin a, sigmoid⟩ (F.fin x) = F.fin (lgs (a * x)) := by
  obtain ⟨s, h1, rfl, -⟩ := (C04_values a x).2.2.2
  exact h1

private theorem gradient_nonzero {v : ℝ × ℝ → ℝ} {p : ℝ × ℝ} {g : V2 F} (h : GradientAt v p g) (hn : fderiv ℝ v p ≠ 0) : ∃ g' : Pt, g = V2.fin g' ∧ g' ≠ ⟨0, 0⟩ := by
  obtain ⟨v', h1, rfl⟩ := h
  refine ⟨_, rfl, fun e => hn ?_⟩
  rw [h1.fderiv]
  have ex := congrArg V2.x e
  have ey := congrArg V2.y e
  simp only at ex ey
  ext
  · simpa using ex
  · simpa using ey

private theorem pointAt_diff (w : Pt × Pt) (patch : ℝ) :
    (pointAt w.1 w.2 (1 + patch)).x - (pointAt w.1 w.2 (-patch)).x = (1 + 2 * patch) * (w.2.x - w.1.x) ∧
    (pointAt w.1 w.2 (1 + patch)).y - (pointAt w.1 w.2 (-patch)).y = (1 + 2 * patch) * (w.2.y - w.1.y) := by
  simp only [pointAt]
  constructor <;> ring

private theorem wall_direction {w : Pt × Pt} (hw : w.1 ≠ w.2) {patch : ℝ} (hp : -(1 / 2) < patch) :
    ¬((1 + 2 * patch) * (w.2.y - w.1.y) = 0 ∧ (1 + 2 * patch) * (w.2.x - w.1.x) = 0) := by
  rintro ⟨h1, h2⟩
  have hq : 1 + 2 * patch ≠ 0 := by linarith
  apply hw
  have := (mul_eq_zero.mp h1).resolve_left hq
  have := (mul_eq_zero.mp h2).resolve_left hq
  ext <;> linarith

private theorem sight_moving_tx {a : ℝ} {walls : List (Pt × Pt)} (hw : ∀ w ∈ walls, w.1 ≠ w.2) (eps tol : ℝ) {patch : ℝ} (hp : -(1 / 2) < patch) {h : ℝ} (hh : 0 < h) (r : Pt)
    (hc : ∀ᵐ x : ℝ × ℝ, ContinuousAt (fun x => sightPower (fun y => lgs (a * y)) walls eps tol patch h ⟨x.1, x.2⟩ r) x) :
    NonFlat fun x => sightPower (fun y => lgs (a * y)) walls eps tol patch h ⟨x.1, x.2⟩ r := by
  have e : ∀ x : ℝ × ℝ, sightPower (fun y => lgs (a * y)) walls eps tol patch h ⟨x.1, x.2⟩ r =
      (fmValid [] walls [] [⟨x.1, x.2⟩, r] 0 tol patch).eval (fun y => lgs (a * y)) * los h (r.x + eps) (r.y + eps) x := by
    intro x
    simp only [sightPower, los]
    congr 3
    ring
  simp only [e] at hc ⊢
  have f1 : ∀ x : ℝ × ℝ, AnalyticAt ℝ (fun x : ℝ × ℝ => x.1) x := fun x => analyticAt_fst
  have f2 : ∀ x : ℝ × ℝ, AnalyticAt ℝ (fun x : ℝ × ℝ => x.2) x := fun x => analyticAt_snd
  refine sight_nonFlat walls tol patch hh (fun x => ⟨x.1, x.2⟩) (fun _ => r) _ _ (fun w hwm => ?_) (fun w hwm x => ?_) (fun w hwm x => ?_) hc
  · refine ⟨(1 + 2 * patch) * (w.2.y - w.1.y), -((1 + 2 * patch) * (w.2.x - w.1.x)), -((1 + 2 * patch) * (w.2.y - w.1.y)) * r.x + (1 + 2 * patch) * (w.2.x - w.1.x) * r.y, ?_, fun x => ?_⟩
    · rw [neg_eq_zero]
      exact wall_direction (hw w hwm) hp
    · simp only [segD, (pointAt_diff w patch).1, (pointAt_diff w patch).2]
      ring
  · simp only [segA]
    have := f1 x
    have := f2 x
    exact (((f2 x).sub analyticAt_const).mul (analyticAt_const.sub (f1 x))).sub (((f1 x).sub analyticAt_const).mul (analyticAt_const.sub (f2 x)))
  · simp only [segB]
    exact (analyticAt_const.mul (analyticAt_const.sub (f2 x))).sub (analyticAt_const.mul (analyticAt_const.sub (f1 x)))

private theorem sight_moving_rx {a : ℝ} {walls : List (Pt × Pt)} (hw : ∀ w ∈ walls, w.1 ≠ w.2) (eps tol : ℝ) {patch : ℝ} (hp : -(1 / 2) < patch) {h : ℝ} (hh : 0 < h) (t : Pt)
    (hc : ∀ᵐ x : ℝ × ℝ, ContinuousAt (fun x => sightPower (fun y => lgs (a * y)) walls eps tol patch h t ⟨x.1, x.2⟩) x) :
    NonFlat fun x => sightPower (fun y => lgs (a * y)) walls eps tol patch h t ⟨x.1, x.2⟩ := by
  have e : ∀ x : ℝ × ℝ, sightPower (fun y => lgs (a * y)) walls eps tol patch h t ⟨x.1, x.2⟩ =
      (fmValid [] walls [] [t, ⟨x.1, x.2⟩] 0 tol patch).eval (fun y => lgs (a * y)) * los h (t.x - eps) (t.y - eps) x := by
    intro x
    simp only [sightPower, los]
    congr 3
    ring
  simp only [e] at hc ⊢
  have f1 : ∀ x : ℝ × ℝ, AnalyticAt ℝ (fun x : ℝ × ℝ => x.1) x := fun x => analyticAt_fst
  have f2 : ∀ x : ℝ × ℝ, AnalyticAt ℝ (fun x : ℝ × ℝ => x.2) x := fun x => analyticAt_snd
  refine sight_nonFlat walls tol patch hh (fun _ => t) (fun x => ⟨x.1, x.2⟩) _ _ (fun w hwm => ?_) (fun w hwm x => ?_) (fun w hwm x => ?_) hc
  · refine ⟨-((1 + 2 * patch) * (w.2.y - w.1.y)), (1 + 2 * patch) * (w.2.x - w.1.x), ((1 + 2 * patch) * (w.2.y - w.1.y)) * t.x - (1 + 2 * patch) * (w.2.x - w.1.x) * t.y, ?_, fun x => ?_⟩
    · rw [neg_eq_zero]
      exact wall_direction (hw w hwm) hp
    · simp only [segD, (pointAt_diff w patch).1, (pointAt_diff w patch).2]
      ring
  · simp only [segA]
    exact ((analyticAt_const.sub (f2 x)).mul analyticAt_const).sub ((analyticAt_const.sub (f1 x)).mul analyticAt_const)
  · simp only [segB]
    exact analyticAt_const

private theorem hardSigmoid_hst (a x : ℝ) : activation ⟨F.fin a, hardSigmoid⟩ (F.fin x) = F.fin (hst (a * x)) := hardSigmoid_fin a x

private theorem sight_moving_tx' {a : ℝ} {walls : List (Pt × Pt)} (hw : ∀ w ∈ walls, w.1 ≠ w.2) (eps tol : ℝ) {patch : ℝ} (hp : -(1 / 2) < patch) {h : ℝ} (hh : 0 < h) (r : Pt)
    (hc : ∀ᵐ x : ℝ × ℝ, ContinuousAt (fun x => sightPower (fun y => hst (a * y)) walls eps tol patch h ⟨x.1, x.2⟩ r) x) :
    FlatAtZero fun x => sightPower (fun y => hst (a * y)) walls eps tol patch h ⟨x.1, x.2⟩ r := by
  have e : ∀ x : ℝ × ℝ, sightPower (fun y => hst (a * y)) walls eps tol patch h ⟨x.1, x.2⟩ r =
      (fmValid [] walls [] [⟨x.1, x.2⟩, r] 0 tol patch).eval (fun y => hst (a * y)) * los h (r.x + eps) (r.y + eps) x := by
    intro x
    simp only [sightPower, los]
    congr 3
    ring
  simp only [e] at hc ⊢
  refine sight_flatAtZero walls tol patch hh (fun x => ⟨x.1, x.2⟩) (fun _ => r) _ _ (fun w hwm => ?_) (fun w hwm => ?_) (fun w hwm => ?_) hc
  · refine ⟨(1 + 2 * patch) * (w.2.y - w.1.y), -((1 + 2 * patch) * (w.2.x - w.1.x)), -((1 + 2 * patch) * (w.2.y - w.1.y)) * r.x + (1 + 2 * patch) * (w.2.x - w.1.x) * r.y, ?_, fun x => ?_⟩
    · rw [neg_eq_zero]
      exact wall_direction (hw w hwm) hp
    · simp only [segD, (pointAt_diff w patch).1, (pointAt_diff w patch).2]
      ring
  · generalize pointAt w.1 w.2 (-patch) = P
    exact ⟨r.y - P.y, P.x - r.x, r.x * P.y - r.y * P.x, fun x => by simp only [segA]; ring⟩
  · generalize pointAt w.1 w.2 (-patch) = P
    generalize pointAt w.1 w.2 (1 + patch) = Q
    exact ⟨Q.y - P.y, -(Q.x - P.x), (Q.x - P.x) * P.y - (Q.y - P.y) * P.x, fun x => by simp only [segB]; ring⟩

private theorem sight_moving_rx' {a : ℝ} {walls : List (Pt × Pt)} (hw : ∀ w ∈ walls, w.1 ≠ w.2) (eps tol : ℝ) {patch : ℝ} (hp : -(1 / 2) < patch) {h : ℝ} (hh : 0 < h) (t : Pt)
    (hc : ∀ᵐ x : ℝ × ℝ, ContinuousAt (fun x => sightPower (fun y => hst (a * y)) walls eps tol patch h t ⟨x.1, x.2⟩) x) :
    FlatAtZero fun x => sightPower (fun y => hst (a * y)) walls eps tol patch h t ⟨x.1, x.2⟩ := by
  have e : ∀ x : ℝ × ℝ, sightPower (fun y => hst (a * y)) walls eps tol patch h t ⟨x.1, x.2⟩ =
      (fmValid [] walls [] [t, ⟨x.1, x.2⟩] 0 tol patch).eval (fun y => hst (a * y)) * los h (t.x - eps) (t.y - eps) x := by
    intro x
    simp only [sightPower, los]
    congr 3
    ring
  simp only [e] at hc ⊢
  refine sight_flatAtZero walls tol patch hh (fun _ => t) (fun x => ⟨x.1, x.2⟩) _ _ (fun w hwm => ?_) (fun w hwm => ?_) (fun w hwm => ?_) hc
  · refine ⟨-((1 + 2 * patch) * (w.2.y - w.1.y)), (1 + 2 * patch) * (w.2.x - w.1.x), ((1 + 2 * patch) * (w.2.y - w.1.y)) * t.x - (1 + 2 * patch) * (w.2.x - w.1.x) * t.y, ?_, fun x => ?_⟩
    · rw [neg_eq_zero]
      exact wall_direction (hw w hwm) hp
    · simp only [segD, (pointAt_diff w patch).1, (pointAt_diff w patch).2]
      ring
  · generalize pointAt w.1 w.2 (-patch) = P
    exact ⟨P.y - t.y, -(P.x - t.x), t.y * (P.x - t.x) - t.x * (P.y - t.y), fun x => by simp only [segA]; ring⟩
  · generalize pointAt w.1 w.2 (-patch) = P
    generalize pointAt w.1 w.2 (1 + patch) = Q
    exact ⟨0, 0, (Q.x - P.x) * (P.y - t.y) - (Q.y - P.y) * (P.x - t.x), fun x => by simp only [segB]; ring⟩

/-- What is common to the two activation functions of the library. -/
private theorem library_sight {a : ℝ} {kw : Rev.ActKw Rev.Coord} {kw' : ActKw} (hk : LibraryActivation a kw kw') {walls : List (Pt × Pt)} (hw : ∀ w ∈ walls, w.1 ≠ w.2) (eps tol : ℝ) {patch : ℝ}
    (hp : -(1 / 2) < patch) {h : ℝ} (hh : 0 < h) :
    ∃ s : ℝ → ℝ, (∀ x : ℝ, activation kw' (F.fin x) = F.fin (s x)) ∧ (∀ x, 0 ≤ s x ∧ s x ≤ 1) ∧
      (∀ r, (∀ᵐ x : ℝ × ℝ, ContinuousAt (fun x => sightPower s walls eps tol patch h ⟨x.1, x.2⟩ r) x) → FlatAtZero fun x => sightPower s walls eps tol patch h ⟨x.1, x.2⟩ r) ∧
      (∀ t, (∀ᵐ x : ℝ × ℝ, ContinuousAt (fun x => sightPower s walls eps tol patch h t ⟨x.1, x.2⟩) x) → FlatAtZero fun x => sightPower s walls eps tol patch h t ⟨x.1, x.2⟩) := by
  rcases hk with ⟨rfl, rfl⟩ | ⟨rfl, rfl⟩
  · exact ⟨fun y => lgs (a * y), sigmoid_lgs a, fun x => ⟨(lgs_pos _).le, (lgs_lt_one _).le⟩, fun r hc => (sight_moving_tx hw eps tol hp hh r hc).flatAtZero,
      fun t hc => (sight_moving_rx hw eps tol hp hh t hc).flatAtZero⟩
  · exact ⟨fun y => hst (a * y), hardSigmoid_hst a, fun x => hst_range _, sight_moving_tx' hw eps tol hp hh, sight_moving_rx' hw eps tol hp hh⟩

private theorem sightPower_nonneg {s : ℝ → ℝ} (hs : ∀ x, 0 ≤ s x ∧ s x ≤ 1) (walls : List (Pt × Pt)) (eps tol patch h : ℝ) (t r : Pt) : 0 ≤ sightPower s walls eps tol patch h t r :=
  mul_nonneg (Fm.eval_range hs _).1 (by positivity)

/-- A function without negative values is flat where it is zero. -/
theorem gradient_iff {v : ℝ × ℝ → ℝ} {p : ℝ × ℝ} {g : V2 F} (h : GradientAt v p g) (hv : ∀ p, 0 ≤ v p) (hn : v p ≠ 0 → fderiv ℝ v p ≠ 0) :
    ∃ g' : Pt, g = V2.fin g' ∧ (g' = ⟨0, 0⟩ ↔ v p = 0) := by
  by_cases h0 : v p = 0
  · obtain ⟨v', h1, rfl⟩ := h
    have hm : IsLocalMin v p := .of_forall fun q => by rw [h0]; exact hv q
    have := hm.hasFDerivAt_eq_zero h1
    subst this
    exact ⟨_, rfl, by simp [h0]⟩
  · obtain ⟨g', e, h1⟩ := gradient_nonzero h (hn h0)
    exact ⟨g', e, by simp [h0, h1]⟩

/-- **C141.** With approximation and lines of sight only, the gradient of the received power with respect to the transmitter is defined at almost every position of the transmitter,
and it is zero only if the power itself is zero. -/
theorem C141_transmitters {Key : Type} (G : GraphLib) (hG : GraphContract G) (tx rx : PyDict Pt) (hr : Distinct rx) (walls : List (Pt × Pt)) (hw : ∀ w ∈ walls, w.1 ≠ w.2)
    (split : Key → ℕ → List Key) (key : Option Key) (E : Env) (ap : Option Bool) (hs : Soft E ap) (tol patch a : ℝ) (hp : -(1 / 2) < patch) (ha : 0 < a)
    (kw : Rev.ActKw Rev.Coord) (kw' : ActKw) (hk : LibraryActivation a kw kw') (coef height : ℝ) (hht : 0 < height) :
    ∃ (value : String × Pt → ℝ × ℝ → ℝ) (gradient : String × Pt → ℝ × ℝ → V2 F),
      (∀ t : ℝ × ℝ, (wallScene [("tx", ⟨t.1, t.2⟩)] rx walls).accumulateOverPaths G split (imageMethod Key) { minOrder := 0, maxOrder := 0 }
        ⟨E, F.fin tol, F.fin patch, ap, kw'⟩ key (powerFun E coef height) = .ok (rx.map fun r => ("tx", r.1, F.fin (value r t)))) ∧
      (∀ (grad : Bool) (P : Scene.Grid (ℝ × ℝ)),
        Rev.accumulateOnTransmittersGrid (wallScene tx rx walls) G { minOrder := 0, maxOrder := 0 } ⟨E, F.fin tol, F.fin patch, ap, kw⟩ grad true
          (Rev.receivedPower E (F.fin coef) (F.fin height))
          (gridX P) (gridY P) = .ok (rx.map fun r => (r.1, .both (P.map fun row => row.map fun p => F.fin (value r p)) (P.map fun row => row.map (gradient r)))) ∧
        Rev.accumulateOnTransmittersGrid (wallScene tx rx walls) G { minOrder := 0, maxOrder := 0 } ⟨E, F.fin tol, F.fin patch, ap, kw⟩ true false
          (Rev.receivedPower E (F.fin coef) (F.fin height))
          (gridX P) (gridY P) = .ok (rx.map fun r => (r.1, .gradient (P.map fun row => row.map (gradient r))))) ∧
      ∀ r ∈ rx, ∀ᵐ t : ℝ × ℝ, (∃ g : Pt, gradient r t = V2.fin g ∧ (g = ⟨0, 0⟩ ↔ value r t = 0)) ∧ ∀ᶠ q in 𝓝 t, GradientAt (value r) q (gradient r q) := by
  obtain ⟨s, hsr, hs01, hflat, -⟩ := library_sight hk hw E.eps tol hp hht
  obtain ⟨gradient, h1, h2, h3⟩ := sight_transmitters (Key := Key) G hG walls hw split key E ap hs tol patch a hp ha kw kw' hk s hsr coef height hht tx rx hr
  refine ⟨_, gradient, h1, h2, fun r hrm => ?_⟩
  have h4 := h3 r hrm
  have h5 := hflat r.2 (by
    filter_upwards [h4] with t ht
    obtain ⟨v', h, -⟩ := ht.self_of_nhds
    exact h.continuousAt)
  filter_upwards [h4, h5] with t ht h5
  exact ⟨gradient_iff ht.self_of_nhds (fun p => sightPower_nonneg hs01 _ _ _ _ _ _ _) h5.2, ht⟩

/-- **C141.** The same with respect to the receiver. -/
theorem C141_receivers {Key : Type} (G : GraphLib) (hG : GraphContract G) (tx rx : PyDict Pt) (ht : Distinct tx) (walls : List (Pt × Pt)) (hw : ∀ w ∈ walls, w.1 ≠ w.2)
    (split : Key → ℕ → List Key) (key : Option Key) (E : Env) (ap : Option Bool) (hs : Soft E ap) (tol patch a : ℝ) (hp : -(1 / 2) < patch) (ha : 0 < a)
    (kw : Rev.ActKw Rev.Coord) (kw' : ActKw) (hk : LibraryActivation a kw kw') (coef height : ℝ) (hht : 0 < height) :
    ∃ (value : String × Pt → ℝ × ℝ → ℝ) (gradient : String × Pt → ℝ × ℝ → V2 F),
      (∀ r : ℝ × ℝ, (wallScene tx [("rx", ⟨r.1, r.2⟩)] walls).accumulateOverPaths G split (imageMethod Key) { minOrder := 0, maxOrder := 0 }
        ⟨E, F.fin tol, F.fin patch, ap, kw'⟩ key (powerFun E coef height) = .ok (tx.map fun t => (t.1, "rx", F.fin (value t r)))) ∧
      (∀ (grad : Bool) (P : Scene.Grid (ℝ × ℝ)),
        Rev.accumulateOnReceiversGrid (wallScene tx rx walls) G { minOrder := 0, maxOrder := 0 } ⟨E, F.fin tol, F.fin patch, ap, kw⟩ grad true
          (Rev.receivedPower E (F.fin coef) (F.fin height))
          (gridX P) (gridY P) = .ok (tx.map fun t => (t.1, .both (P.map fun row => row.map fun p => F.fin (value t p)) (P.map fun row => row.map (gradient t)))) ∧
        Rev.accumulateOnReceiversGrid (wallScene tx rx walls) G { minOrder := 0, maxOrder := 0 } ⟨E, F.fin tol, F.fin patch, ap, kw⟩ true false
          (Rev.receivedPower E (F.fin coef) (F.fin height))
          (gridX P) (gridY P) = .ok (tx.map fun t => (t.1, .gradient (P.map fun row => row.map (gradient t))))) ∧
      ∀ t ∈ tx, ∀ᵐ r : ℝ × ℝ, (∃ g : Pt, gradient t r = V2.fin g ∧ (g = ⟨0, 0⟩ ↔ value t r = 0)) ∧ ∀ᶠ q in 𝓝 r, GradientAt (value t) q (gradient t q) := by
  obtain ⟨s, hsr, hs01, -, hflat⟩ := library_sight hk hw E.eps tol hp hht
  obtain ⟨gradient, h1, h2, h3⟩ := sight_receivers (Key := Key) G hG walls hw split key E ap hs tol patch a hp ha kw kw' hk s hsr coef height hht tx rx ht
  refine ⟨_, gradient, h1, h2, fun t htm => ?_⟩
  have h4 := h3 t htm
  have h5 := hflat t.2 (by
    filter_upwards [h4] with r hr
    obtain ⟨v', h, -⟩ := hr.self_of_nhds
    exact h.continuousAt)
  filter_upwards [h4, h5] with r hr h5
  exact ⟨gradient_iff hr.self_of_nhds (fun p => sightPower_nonneg hs01 _ _ _ _ _ _ _) h5.2, hr⟩

section Loss
variable (G : GraphLib) (hG : GraphContract G) (tx rx : PyDict Pt) (hr : Distinct rx) (hrx : rx ≠ []) (walls : List (Pt × Pt)) (hw : ∀ w ∈ walls, w.1 ≠ w.2)
  (E : Env) (ap : Option Bool) (hs : Soft E ap) (tol patch a : ℝ) (hp : -(1 / 2) < patch) (ha : 0 < a) (kw : Rev.ActKw Rev.Coord) (kw' : ActKw) (hk : LibraryActivation a kw kw') (coef height : ℝ) (hht : 0 < height)
include hG hr hrx hw hs hp ha hk hht

/-- **C141.** The same of the loss of the example that places a transmitter, which is the opposite of the power of the worst served receiver: almost everywhere,
its gradient is defined, and it is zero only if the loss is zero. -/
theorem C141_loss : ∀ᵐ t : ℝ × ℝ, ∃ (v : ℝ) (g : Pt),
    Rev.valueAndGrad (Rev.powerLoss (wallScene tx rx walls) G { minOrder := 0, maxOrder := 0 } ⟨E, F.fin tol, F.fin patch, ap, kw⟩
      (Rev.receivedPower E (F.fin coef) (F.fin height))) ⟨F.fin t.1, F.fin t.2⟩ = .ok (F.fin v, V2.fin g) ∧ (g = ⟨0, 0⟩ ↔ v = 0) := by
  haveI : (volume : Measure (ℝ × ℝ)).IsAddHaarMeasure := by rw [Measure.volume_eq_prod]; infer_instance
  have hex : ∃ c, InRange walls.length 0 0 c := ⟨[], by simp [InRange, IsCandidate]⟩
  obtain ⟨s, hsr, hs01, hflat, -⟩ := library_sight hk hw E.eps tol hp hht
  obtain ⟨gradient, -, h2, h3⟩ := sight_transmitters (Key := Unit) G hG walls hw (fun k _ => [k]) none E ap hs tol patch a hp ha kw kw' hk s hsr coef height hht tx rx hr
  have hall : ∀ᵐ t : ℝ × ℝ, ∀ r ∈ {r | r ∈ rx}, AnalyticAt ℝ (fun p : ℝ × ℝ => sightPower s walls E.eps tol patch height ⟨p.1, p.2⟩ r.2) t ∧
      (∃ g : Pt, gradient r t = V2.fin g ∧ (g = ⟨0, 0⟩ ↔ sightPower s walls E.eps tol patch height ⟨t.1, t.2⟩ r.2 = 0)) ∧
      GradientAt (fun p : ℝ × ℝ => sightPower s walls E.eps tol patch height ⟨p.1, p.2⟩ r.2) t (gradient r t) := by
    refine (ae_ball_iff (List.finite_toSet rx).countable).mpr fun r hrm => ?_
    have h4 := h3 r hrm
    have h5 := hflat r.2 (by
      filter_upwards [h4] with t ht
      obtain ⟨v', h, -⟩ := ht.self_of_nhds
      exact h.continuousAt)
    filter_upwards [h4, h5] with t ht h5
    exact ⟨h5.1, gradient_iff ht.self_of_nhds (fun p => sightPower_nonneg hs01 _ _ _ _ _ _ _) h5.2, ht.self_of_nhds⟩
  have htie : ∀ᵐ t : ℝ × ℝ, ∀ r ∈ {r | r ∈ rx}, ∀ r' ∈ {r | r ∈ rx}, AnalyticAt ℝ (fun p : ℝ × ℝ => sightPower s walls E.eps tol patch height ⟨p.1, p.2⟩ r.2 -
      sightPower s walls E.eps tol patch height ⟨p.1, p.2⟩ r'.2) t → sightPower s walls E.eps tol patch height ⟨t.1, t.2⟩ r.2 -
      sightPower s walls E.eps tol patch height ⟨t.1, t.2⟩ r'.2 = 0 → ∀ᶠ p in 𝓝 t, sightPower s walls E.eps tol patch height ⟨p.1, p.2⟩ r.2 -
      sightPower s walls E.eps tol patch height ⟨p.1, p.2⟩ r'.2 = 0 :=
    (ae_ball_iff (List.finite_toSet rx).countable).mpr fun r _ => (ae_ball_iff (List.finite_toSet rx).countable).mpr fun r' _ => zeros_analytic volume _
  filter_upwards [hall, htie] with t hall htie
  obtain ⟨power, gradient', out, -, p2, p3, p4⟩ := C127_soft (Key := Unit) G hG tx rx hr hrx walls 0 0 le_rfl hex (fun k _ => [k]) none E ap hs tol patch a ha
    kw kw' hk coef height hht t
  have hgg : ∀ r ∈ rx, power r = sightPower s walls E.eps tol patch height ⟨t.1, t.2⟩ r.2 ∧ gradient' r = gradient r t := by
    have := Except.ok.inj (p2.symm.trans (h2 false [[t]]).1)
    intro r hr'
    have := List.map_inj_left.mp this r hr'
    simpa using this
  have hg : ∀ r, ∃ g : Pt, r ∈ rx → gradient' r = V2.fin g ∧ (g = ⟨0, 0⟩ ↔ power r = 0) := by
    intro r
    by_cases hrm : r ∈ rx
    · obtain ⟨g, hg⟩ := (hall r hrm).2.1
      exact ⟨g, fun _ => by rw [(hgg r hrm).2, (hgg r hrm).1]; exact hg⟩
    · exact ⟨⟨0, 0⟩, fun h => absurd h hrm⟩
  choose g hg using hg
  obtain ⟨r0, hr0, hmin, hv⟩ := p4.value
  obtain ⟨w, w1, w2, w3, w4⟩ := p4.mean g fun r hrm => (hg r hrm).1
  have hsame : ∀ r ∈ rx, w r ≠ 0 → g r = g r0 := by
    intro r hrm hwr
    have e : power r = power r0 := le_antisymm (w3 r hrm hwr r0 hr0) (hmin r hrm)
    rw [(hgg r hrm).1, (hgg r0 hr0).1] at e
    have hz := htie r hrm r0 hr0 ((hall r hrm).1.sub (hall r0 hr0).1) (by linarith)
    have hd : fderiv ℝ (fun p : ℝ × ℝ => sightPower s walls E.eps tol patch height ⟨p.1, p.2⟩ r.2) t =
        fderiv ℝ (fun p : ℝ × ℝ => sightPower s walls E.eps tol patch height ⟨p.1, p.2⟩ r0.2) t := by
      refine Filter.EventuallyEq.fderiv_eq ?_
      filter_upwards [hz] with p hp
      linarith
    have e1 := (hg r hrm).1
    have e2 := (hg r0 hr0).1
    rw [(hgg r hrm).2] at e1
    rw [(hgg r0 hr0).2] at e2
    obtain ⟨v1, k1, l1⟩ := (hall r hrm).2.2
    obtain ⟨v2, k2, l2⟩ := (hall r0 hr0).2.2
    rw [k1.fderiv, k2.fderiv] at hd
    rw [l1, hd, ← l2, e2] at e1
    have x := congrArg V2.x e1
    have y := congrArg V2.y e1
    simp only [V2.fin, F.fin.injEq] at x y
    ext
    · exact x.symm
    · exact y.symm
  have hsum : ∀ f : Pt → ℝ, (rx.map fun r => w r * f (g r)).sum = f (g r0) := by
    intro f
    have : (rx.map fun r => w r * f (g r)) = (rx.map fun r => w r * f (g r0)) := List.map_congr_left fun r hrm => by
      by_cases hwr : w r = 0
      · rw [hwr]; simp
      · rw [hsame r hrm hwr]
    rw [this, List.sum_map_mul_right, w2, one_mul]
  rw [hsum V2.x, hsum V2.y] at w4
  refine ⟨-(power r0 / 100), ⟨-((g r0).x / 100), -((g r0).y / 100)⟩, ?_, ?_⟩
  · rw [p3, ← hv, ← w4]
  · rw [neg_eq_zero, div_eq_zero_iff, or_iff_left (by norm_num), ← (hg r0 hr0).2]
    constructor
    · intro e
      have x := congrArg V2.x e
      have y := congrArg V2.y e
      simp only at x y
      ext
      · simp only; linarith
      · simp only; linarith
    · intro e
      rw [e]
      simp

omit hG hr hrx hw hs hp ha hk hht in
theorem first_update (lr g : ℝ) : cu (F.fin lr) 0 (cm (F.fin g) 0) (cv (F.fin g) 0) = F.fin (-(lr * g / (|g| + 1e-8))) := by
  have e1 : cm (F.fin g) 0 = F.fin (am (fun _ => g) 1) := by simp [cm, am, F.zero_eq]
  have e2 : cv (F.fin g) 0 = F.fin (av (fun _ => g) 1) := by simp [cv, av, F.zero_eq]
  have e3 : au lr (fun _ => g) 0 = -(lr * g / (|g| + 1e-8)) := by
    have h1 : ((1 - 0.9) * g + 0.9 * 0) / (1 - 0.9 ^ (0 + 1) : ℝ) = g := by norm_num
    have h2 : ((1 - 0.999) * (g * g) + 0.999 * 0) / (1 - 0.999 ^ (0 + 1) : ℝ) = g * g := by norm_num
    simp only [au, am, av, h1, h2, Real.sqrt_mul_self_eq_abs]
    ring
  rw [e1, e2, cu, ca_real, e3]
  rfl

/-- **C141.** From almost every start, the first frame of the example moves the transmitter unless some receiver gets nothing: along each axis, by the learning rate,
reduced in proportion of the gradient when the latter is tiny, in the direction that increases the power of the worst served receiver. -/
theorem C141_moves (lr : ℝ) (hlr : 0 < lr) : ∀ᵐ t : ℝ × ℝ, ∃ (v : ℝ) (g : Pt) (st : (exampleOptimizer (F.fin lr)).State),
    Rev.valueAndGrad (Rev.powerLoss (wallScene tx rx walls) G { minOrder := 0, maxOrder := 0 } ⟨E, F.fin tol, F.fin patch, ap, kw⟩
      (Rev.receivedPower E (F.fin coef) (F.fin height))) ⟨F.fin t.1, F.fin t.2⟩ = .ok (F.fin v, V2.fin g) ∧
    Rev.animate (exampleOptimizer (F.fin lr)) (fun alpha => Rev.powerLoss (wallScene tx rx walls) G { minOrder := 0, maxOrder := 0 }
      ⟨E, F.fin tol, F.fin patch, ap, ⟨alpha, kw.function⟩⟩ (Rev.receivedPower E (F.fin coef) (F.fin height))) [kw.alpha] (Rev.start _ ⟨F.fin t.1, F.fin t.2⟩) =
      .ok (V2.fin ⟨t.1 - lr * g.x / (|g.x| + 1e-8), t.2 - lr * g.y / (|g.y| + 1e-8)⟩, st) ∧
    ((⟨t.1 - lr * g.x / (|g.x| + 1e-8), t.2 - lr * g.y / (|g.y| + 1e-8)⟩ : Pt) = ⟨t.1, t.2⟩ ↔ v = 0) := by
  filter_upwards [C141_loss G hG tx rx hr hrx walls hw E ap hs tol patch a hp ha kw kw' hk coef height hht] with t ⟨v, g, h1, h2⟩
  refine ⟨v, g, exState (F.fin lr) (cm (F.fin g.x) 0) (cm (F.fin g.y) 0) (cv (F.fin g.x) 0) (cv (F.fin g.y) 0) 1, h1, ?_, ?_⟩
  · have := example_step (F.fin lr) _ ⟨t.1, t.2⟩ 0 0 0 0 0 h1 (first_update lr g.x) (first_update lr g.y)
    rw [example_init]
    simp only [Rev.animate, Bind.bind]
    rw [show (⟨F.fin t.1, F.fin t.2⟩ : V2 F) = V2.fin ⟨t.1, t.2⟩ from rfl, this]
    simp only [Except.bind, sub_eq_add_neg]
    rfl
  · rw [← h2]
    constructor
    · intro e
      have x := congrArg V2.x e
      have y := congrArg V2.y e
      simp only at x y
      have hz : ∀ z : ℝ, lr * z / (|z| + 1e-8) = 0 → z = 0 := by
        intro z hz
        rcases div_eq_zero_iff.mp hz with h | h
        · exact (mul_eq_zero.mp h).resolve_left hlr.ne'
        · have := abs_nonneg z
          norm_num at h
          linarith
      ext
      · exact hz _ (by linarith)
      · exact hz _ (by linarith)
    · rintro rfl
      simp

end Loss

section Lit
variable {Key : Type} (G : GraphLib) (hG : GraphContract G) (walls : List (Pt × Pt)) (hw : ∀ w ∈ walls, w.1 ≠ w.2)
  (split : Key → ℕ → List Key) (key : Option Key) (E : Env) (ap : Option Bool) (hs : Soft E ap) (tol patch a : ℝ) (hp : -(1 / 2) < patch) (ha : 0 < a) (coef height : ℝ) (hht : 0 < height)
include hp ha

omit ha in
/-- The wall puts the line of sight in the dark. -/
private theorem crossing_one (w : Pt × Pt) (t r : Pt) (ha : 0 < a) : crossing (fun y => hst (a * y)) patch t r w = 1 ↔ DeepShadow a patch w t r := by
  have hq : 1 + 2 * patch ≠ 0 := by linarith
  have hpar : segD (pointAt w.1 w.2 (-patch)) (pointAt w.1 w.2 (1 + patch)) t r = 0 ↔ Parallel w.1 w.2 t r := by
    simp only [segD, (pointAt_diff w patch).1, (pointAt_diff w patch).2, Parallel]
    constructor
    · intro h
      have : (1 + 2 * patch) * ((w.2.y - w.1.y) * (t.x - r.x) - (w.2.x - w.1.x) * (t.y - r.y)) = 0 := by linarith
      have := (mul_eq_zero.mp this).resolve_left hq
      linarith
    · intro h
      have : (w.2.y - w.1.y) * (t.x - r.x) - (w.2.x - w.1.x) * (t.y - r.y) = 0 := by linarith
      linear_combination (1 + 2 * patch) * this
  have h1 : ∀ z : ℝ, 3 ≤ a * (z + 1 / 200) ↔ 3 / a - 1 / 200 ≤ z := by
    intro z
    rw [sub_le_iff_le_add, div_le_iff₀ ha, mul_comm]
  have h2 : ∀ z : ℝ, 3 ≤ a * (1 + 1 / 200 - z) ↔ z ≤ 1 - (3 / a - 1 / 200) := by
    intro z
    rw [show (3 ≤ a * (1 + 1 / 200 - z)) ↔ 3 / a ≤ 1 + 1 / 200 - z by rw [div_le_iff₀ ha, mul_comm]]
    constructor <;> intro h <;> linarith
  have hmin : ∀ x y : ℝ, x ≤ 1 → y ≤ 1 → (min x y = 1 ↔ x = 1 ∧ y = 1) := by
    intro x y hx hy
    constructor
    · intro h
      exact ⟨le_antisymm hx (h ▸ min_le_left x y), le_antisymm hy (h ▸ min_le_right x y)⟩
    · rintro ⟨rfl, rfl⟩; simp
  by_cases hd : segD (pointAt w.1 w.2 (-patch)) (pointAt w.1 w.2 (1 + patch)) t r = 0
  · rw [crossing, fmSeg_eval_zero _ _ hd]
    exact ⟨fun h => absurd h (by norm_num), fun h => absurd (hpar.mp hd) h.1⟩
  · rw [crossing, fmSeg_eval_of_ne _ _ hd, DeepShadow]
    generalize hP : pointAt w.1 w.2 (-patch) = P at *
    generalize hQ : pointAt w.1 w.2 (1 + patch) = Q at *
    rw [hmin _ _ ((min_le_left _ _).trans (hst_range _).2) ((min_le_left _ _).trans (hst_range _).2), hmin _ _ (hst_range _).2 (hst_range _).2, hmin _ _ (hst_range _).2 (hst_range _).2,
      hst_eq_one, hst_eq_one, hst_eq_one, hst_eq_one, h1, h2, h1, h2]
    constructor
    · rintro ⟨⟨x1, x2⟩, y1, y2⟩
      refine ⟨fun h => hd (hpar.mpr h), _, _, ?_, x1, x2, y1, y2⟩
      ext
      · simp only [pointAt]; field_simp; simp only [segA, segB, segD]; ring
      · simp only [pointAt]; field_simp; simp only [segA, segB, segD]; ring
    · rintro ⟨-, x, y, hxy, x1, x2, y1, y2⟩
      have ex := congrArg V2.x hxy
      have ey := congrArg V2.y hxy
      simp only [pointAt] at ex ey
      have hx : segA P Q t r / segD P Q t r = x := by
        rw [div_eq_iff hd]
        simp only [segA, segD]
        linear_combination (t.y - r.y) * ex - (t.x - r.x) * ey
      have hy : segB P Q t r / segD P Q t r = y := by
        rw [div_eq_iff hd]
        simp only [segB, segD]
        linear_combination (P.y - Q.y) * ex - (P.x - Q.x) * ey
      rw [hx, hy]
      exact ⟨⟨x1, x2⟩, y1, y2⟩

include hG hw hs hht

/-- **C141.** When that is: with `sigmoid`, never. With `hard_sigmoid`, exactly if the line of sight and some wall cut each other far from their ends, unless the tolerance
is so negative that nothing is valid; in particular never if `alpha` is less than 5.94, as in the first frames of the example. -/
theorem C141_dark (t r : Pt) : ∃ v v' : ℝ,
    (wallScene [("tx", t)] [("rx", r)] walls).accumulateOverPaths G split (imageMethod Key) { minOrder := 0, maxOrder := 0 }
      ⟨E, F.fin tol, F.fin patch, ap, ⟨F.fin a, sigmoid⟩⟩ key (powerFun E coef height) = .ok [("tx", "rx", F.fin v)] ∧
    (wallScene [("tx", t)] [("rx", r)] walls).accumulateOverPaths G split (imageMethod Key) { minOrder := 0, maxOrder := 0 }
      ⟨E, F.fin tol, F.fin patch, ap, ⟨F.fin a, hardSigmoid⟩⟩ key (powerFun E coef height) = .ok [("tx", "rx", F.fin v')] ∧
    0 < v ∧ 0 ≤ v' ∧ (v' = 0 ↔ tol ≤ -(3 / a) ∨ ∃ w ∈ walls, DeepShadow a patch w t r) ∧ (a < 600 / 101 → -(3 / a) < tol → 0 < v') := by
  obtain ⟨-, h1, -⟩ := sight_transmitters (Key := Key) G hG walls hw split key E ap hs tol patch a hp ha ⟨F.fin a, Rev.sigmoid⟩ ⟨F.fin a, sigmoid⟩ (.inl ⟨rfl, rfl⟩)
    (fun y => lgs (a * y)) (sigmoid_lgs a) coef height hht [] [("rx", r)] (by simp [Distinct])
  obtain ⟨-, h2, -⟩ := sight_transmitters (Key := Key) G hG walls hw split key E ap hs tol patch a hp ha ⟨F.fin a, Rev.hardSigmoid⟩ ⟨F.fin a, hardSigmoid⟩ (.inr ⟨rfl, rfl⟩)
    (fun y => hst (a * y)) (hardSigmoid_hst a) coef height hht [] [("rx", r)] (by simp [Distinct])
  have hpow : 0 < 1 / (height ^ 2 + ((r.x - t.x + E.eps) ^ 2 + (r.y - t.y + E.eps) ^ 2)) := by positivity
  have hiff : sightPower (fun y => hst (a * y)) walls E.eps tol patch height t r = 0 ↔ tol ≤ -(3 / a) ∨ ∃ w ∈ walls, DeepShadow a patch w t r := by
    rw [sightPower, mul_eq_zero, or_iff_left hpow.ne', sight_eval]
    generalize hM : (walls.map (crossing (fun y => hst (a * y)) patch t r)).foldl max 0 = M
    have hc01 : ∀ w, 0 ≤ crossing (fun y => hst (a * y)) patch t r w ∧ crossing (fun y => hst (a * y)) patch t r w ≤ 1 := fun w => Fm.eval_range (fun x => hst_range _) _
    have hM0 : 0 ≤ M := by rw [← hM]; exact (le_foldl_max _ _).1
    have hM1 : M ≤ 1 := by
      rcases foldl_max_cases (walls.map (crossing (fun y => hst (a * y)) patch t r)) 0 with h | h
      · rw [← hM, h]; norm_num
      · rw [hM] at h
        obtain ⟨w, -, e⟩ := List.mem_map.mp h
        rw [← e]; exact (hc01 w).2
    have hMone : M = 1 ↔ ∃ w ∈ walls, DeepShadow a patch w t r := by
      constructor
      · intro h
        rcases foldl_max_cases (walls.map (crossing (fun y => hst (a * y)) patch t r)) 0 with h' | h'
        · rw [hM, h] at h'; norm_num at h'
        · rw [hM] at h'
          obtain ⟨w, hwm, e⟩ := List.mem_map.mp h'
          exact ⟨w, hwm, (crossing_one patch a hp w t r ha).mp (e.trans h)⟩
      · rintro ⟨w, hwm, hd⟩
        refine le_antisymm hM1 ?_
        rw [← (crossing_one patch a hp w t r ha).mpr hd, ← hM]
        exact (le_foldl_max _ _).2 _ (List.mem_map.mpr ⟨w, hwm, rfl⟩)
    have htol : hst (a * tol) = 0 ↔ tol ≤ -(3 / a) := by
      rw [hst_eq_zero, ← neg_div, le_div_iff₀ ha, mul_comm]
    rw [min_eq_right (by linarith : (1 : ℝ) - M ≤ 1), ← hMone, ← htol]
    have hx := (hst_range (a * tol)).1
    constructor
    · intro h
      rcases min_choice (1 - M) (hst (a * tol)) with e | e
      · right; linarith
      · left; linarith
    · rintro (h | h)
      · rw [h]; exact min_eq_right (by linarith)
      · rw [h, sub_self]; exact min_eq_left hx
  have hnn := sightPower_nonneg (s := fun y => hst (a * y)) (fun x => hst_range _) walls E.eps tol patch height t r
  refine ⟨_, _, h1 (t.x, t.y), h2 (t.x, t.y), ?_, hnn, hiff, fun h6 ht => ?_⟩
  · refine mul_pos ?_ hpow
    rw [sight_eval]
    refine lt_min (lt_min one_pos ?_) (lgs_pos _)
    have : (walls.map (crossing (fun y => lgs (a * y)) patch t r)).foldl max 0 < 1 := by
      rcases foldl_max_cases (walls.map (crossing (fun y => lgs (a * y)) patch t r)) 0 with h | h
      · rw [h]; exact one_pos
      · obtain ⟨w, -, e⟩ := List.mem_map.mp h
        rw [← e, crossing]
        by_cases hd : segD (pointAt w.1 w.2 (-patch)) (pointAt w.1 w.2 (1 + patch)) t r = 0
        · rw [fmSeg_eval_zero _ _ hd]; exact one_pos
        · rw [fmSeg_eval_of_ne _ _ hd]
          exact lt_of_le_of_lt ((min_le_left _ _).trans (min_le_left _ _)) (lgs_lt_one _)
    show 0 < 1 - (walls.map (crossing (fun y => lgs (a * y)) patch t r)).foldl max 0
    linarith
  · refine lt_of_le_of_ne hnn fun h0 => ?_
    rcases hiff.mp h0.symm with h | ⟨w, -, -, x, y, -, hx1, hx2, -⟩
    · linarith
    · have : 3 / a ≤ 101 / 200 := by linarith
      rw [div_le_iff₀ ha] at this
      linarith

end Lit

/-- **C141.** A transmitter that starts where, for every `alpha`, some receiver gets nothing, stays there, for almost every start. -/
theorem C141_stays {Key : Type} (G : GraphLib) (hG : GraphContract G) (tx rx : PyDict Pt) (hr : Distinct rx) (walls : List (Pt × Pt)) (hw : ∀ w ∈ walls, w.1 ≠ w.2)
    (split : Key → ℕ → List Key) (key : Option Key) (E : Env) (ap : Option Bool) (hs : Soft E ap) (tol patch : ℝ) (hp : -(1 / 2) < patch)
    (act : Rev Rev.Coord → F → Rev Rev.Coord) (act' : F → F → F) (hk : ∀ a, 0 < a → LibraryActivation a ⟨F.fin a, act⟩ ⟨F.fin a, act'⟩)
    (coef height : ℝ) (hht : 0 < height) (lr : ℝ) (alphas : List ℝ) (ha : ∀ a ∈ alphas, 0 < a) :
    ∀ᵐ t : ℝ × ℝ, (∀ a ∈ alphas, ∃ results name, (wallScene [("tx", ⟨t.1, t.2⟩)] rx walls).accumulateOverPaths G split (imageMethod Key) { minOrder := 0, maxOrder := 0 }
        ⟨E, F.fin tol, F.fin patch, ap, ⟨F.fin a, act'⟩⟩ key (powerFun E coef height) = .ok results ∧ ("tx", name, F.fin 0) ∈ results) →
      ∃ st, Rev.animate (exampleOptimizer (F.fin lr)) (fun alpha : ℝ => Rev.powerLoss (wallScene tx rx walls) G { minOrder := 0, maxOrder := 0 }
        ⟨E, F.fin tol, F.fin patch, ap, ⟨F.fin alpha, act⟩⟩ (Rev.receivedPower E (F.fin coef) (F.fin height))) alphas (Rev.start _ ⟨F.fin t.1, F.fin t.2⟩) =
        .ok (⟨F.fin t.1, F.fin t.2⟩, st) := by
  by_cases hrx : rx = []
  · subst hrx
    refine .of_forall fun t h => ?_
    refine C127_stays lr _ ⟨t.1, t.2⟩ alphas fun a ham => ?_
    obtain ⟨results, name, e, hm⟩ := h a ham
    obtain ⟨_, _, h1, -⟩ := C141_transmitters (Key := Key) G hG tx [] hr walls hw split key E ap hs tol patch a hp (ha a ham) _ _ (hk a (ha a ham)) coef height hht
    rw [h1 t] at e
    obtain rfl := Except.ok.inj e
    simp at hm
  have hall : ∀ᵐ t : ℝ × ℝ, ∀ a ∈ {a | a ∈ alphas}, ∃ (v : ℝ) (g : Pt),
      Rev.valueAndGrad (Rev.powerLoss (wallScene tx rx walls) G { minOrder := 0, maxOrder := 0 } ⟨E, F.fin tol, F.fin patch, ap, ⟨F.fin a, act⟩⟩
      (Rev.receivedPower E (F.fin coef) (F.fin height))) ⟨F.fin t.1, F.fin t.2⟩ = .ok (F.fin v, V2.fin g) ∧ (g = ⟨0, 0⟩ ↔ v = 0) :=
    (ae_ball_iff (List.finite_toSet alphas).countable).mpr fun a ham => C141_loss G hG tx rx hr hrx walls hw E ap hs tol patch a hp (ha a ham) _ _ (hk a (ha a ham)) coef height hht
  filter_upwards [hall] with t hall h
  refine C127_stays lr _ ⟨t.1, t.2⟩ alphas fun a ham => ?_
  obtain ⟨v, g, e1, e2⟩ := hall a ham
  obtain ⟨results, name, e3, hm⟩ := h a ham
  obtain ⟨s, hsr, hs01, -⟩ := library_sight (hk a (ha a ham)) hw E.eps tol hp hht
  obtain ⟨-, h1, -⟩ := sight_transmitters (Key := Key) G hG walls hw split key E ap hs tol patch a hp (ha a ham) _ _ (hk a (ha a ham)) s hsr coef height hht tx rx hr
  obtain ⟨power, gradient', out, p1, -, p3, p4⟩ := C127_soft (Key := Key) G hG tx rx hr hrx walls 0 0 le_rfl ⟨[], by simp [InRange, IsCandidate]⟩ split key E ap hs tol patch a (ha a ham)
    _ _ (hk a (ha a ham)) coef height hht t
  have hnn : ∀ r ∈ rx, 0 ≤ power r := by
    have := Except.ok.inj (p1.symm.trans (h1 t))
    intro r hrm
    have := List.map_inj_left.mp this r hrm
    simp only [Prod.mk.injEq, true_and, F.fin.injEq] at this
    rw [this]
    exact sightPower_nonneg hs01 _ _ _ _ _ _ _
  rw [p1] at e3
  obtain rfl := Except.ok.inj e3
  obtain ⟨r, hrm, er⟩ := List.mem_map.mp hm
  simp only [Prod.mk.injEq, true_and, F.fin.injEq] at er
  obtain ⟨r0, hr0, hmin, hv⟩ := p4.value
  have h0 : power r0 = 0 := le_antisymm (er.2 ▸ hmin r hrm) (hnn r0 hr0)
  have hout : out = (F.fin v, V2.fin g) := Except.ok.inj (p3.symm.trans e1)
  rw [hout, h0] at hv
  have hv0 : v = 0 := by
    have := F.fin.inj hv
    simpa using this
  refine ⟨_, e1, ?_⟩
  rw [e2.mpr hv0]
  exact ⟨.inl rfl, .inl rfl⟩

/-- C141 applies to a wall between a transmitter and a receiver. In approximate mode with the activation function of the examples, there is a transmitter at which the gradient is the derivative, and
not zero, if the steepness is 1; if it is 10, the power of the line of sight through the middle of the wall is zero. -/
example (E : Env) : (∃ (t : ℝ × ℝ) (g : Pt),
    Rev.accumulateOnTransmittersGrid (wallScene [] [("rx", ⟨1, 0⟩)] [(⟨0, -1⟩, ⟨0, 1⟩)]) refLib { minOrder := 0, maxOrder := 0 } ⟨E, F.fin (1 / 100), F.fin 0, some true, ⟨F.fin 1, Rev.hardSigmoid⟩⟩ true false
      (Rev.receivedPower E (F.fin (1 / 2)) (F.fin 1)) [[F.fin t.1]] [[F.fin t.2]] = .ok [("rx", .gradient [[V2.fin g]])] ∧ g ≠ ⟨0, 0⟩) ∧
    (wallScene [("tx", ⟨-1, 0⟩)] [("rx", ⟨1, 0⟩)] [(⟨0, -1⟩, ⟨0, 1⟩)]).accumulateOverPaths refLib (fun (_ : Unit) _ => []) (imageMethod Unit) { minOrder := 0, maxOrder := 0 }
      ⟨E, F.fin (1 / 100), F.fin 0, some true, ⟨F.fin 10, hardSigmoid⟩⟩ none (powerFun E (1 / 2) 1) = .ok [("tx", "rx", F.fin 0)] := by
  have hw : ∀ w ∈ [((⟨0, -1⟩ : Pt), (⟨0, 1⟩ : Pt))], w.1 ≠ w.2 := by
    simp
    norm_num
  constructor
  · obtain ⟨value, gradient, h1, h2, h3⟩ := C141_transmitters refLib refLib_contract [] [("rx", ⟨1, 0⟩)] (by simp [Distinct]) [(⟨0, -1⟩, ⟨0, 1⟩)] hw (fun (_ : Unit) _ => []) none E (some true) (.inl rfl)
      (1 / 100) 0 1 (by norm_num) one_pos ⟨F.fin 1, Rev.hardSigmoid⟩ ⟨F.fin 1, hardSigmoid⟩ (.inr ⟨rfl, rfl⟩) (1 / 2) 1 one_pos
    obtain ⟨t, ⟨g, e, hg⟩, -⟩ := (h3 ("rx", ⟨1, 0⟩) (by simp)).exists
    refine ⟨t, g, ?_, ?_⟩
    · have := (h2 true [[t]]).2
      simp only [List.map_cons, List.map_nil, e] at this
      exact this
    · obtain ⟨v, v', -, d2, -, -, -, d6⟩ := C141_dark refLib refLib_contract [(⟨0, -1⟩, ⟨0, 1⟩)] hw (fun (_ : Unit) _ => []) none E (some true) (.inl rfl) (1 / 100) 0 1 (by norm_num) one_pos (1 / 2) 1 one_pos ⟨t.1, t.2⟩ ⟨1, 0⟩
      rw [h1 t] at d2
      have d := Except.ok.inj d2
      simp only [List.map_cons, List.map_nil, List.cons.injEq, Prod.mk.injEq, true_and, and_true, F.fin.injEq] at d
      have := d6 (by norm_num) (by norm_num)
      rw [← d] at this
      exact fun h => this.ne' (hg.mp h)
  · obtain ⟨v, v', -, d2, -, -, d5, -⟩ := C141_dark refLib refLib_contract [(⟨0, -1⟩, ⟨0, 1⟩)] hw (fun (_ : Unit) _ => []) none E (some true) (.inl rfl) (1 / 100) 0 10 (by norm_num) (by norm_num) (1 / 2) 1 one_pos ⟨-1, 0⟩ ⟨1, 0⟩
    rw [d2, d5.mpr (.inr ⟨_, List.mem_cons_self, by norm_num [Parallel], 1 / 2, 1 / 2, by norm_num [pointAt], by norm_num⟩)]

/-- C141 applies to the loss and to the optimizer of the example, with this wall and two receivers. -/
example (E : Env) := C141_moves refLib refLib_contract [] [("rx_0", ⟨1, 0⟩), ("rx_1", ⟨1, 2⟩)] (by simp [Distinct]) (by simp) [(⟨0, -1⟩, ⟨0, 1⟩)] (by simp; norm_num) E (some true) (.inl rfl) (1 / 100) 0 1 (by norm_num)
  one_pos ⟨F.fin 1, Rev.hardSigmoid⟩ ⟨F.fin 1, hardSigmoid⟩ (.inr ⟨rfl, rfl⟩) (1 / 2) 1 one_pos (1 / 100) (by norm_num)

end DiffeRT2d.Props
