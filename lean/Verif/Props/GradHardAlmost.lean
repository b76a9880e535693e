import Verif.Props.Analytic
import Verif.Props.GradAlmost

/-! # C105: in hard mode, gradients are derivatives off a closed null set -/

namespace DiffeRT2d.Props
open Classical Spec MeasureTheory Filter Topology

section
variable {X : Type} [NormedAddCommGroup X] [NormedSpace ℝ X] [FiniteDimensional ℝ X] [MeasurableSpace X] [BorelSpace X] {μ : Measure X} [μ.IsAddHaarMeasure]

/-- Near almost every parameter, a path is accepted everywhere or nowhere. -/
theorem accept_const {t r : X → Pt} (ht : AnalyticPt μ fun x => V2.fin (t x)) (hr : AnalyticPt μ fun x => V2.fin (r x)) (walls : List (Pt × Pt)) (ws : List (Pt × Pt)) (c : List ℤ)
    (E : Env) (ap : Option Bool) (hh : Hard E ap) (tol patch : ℝ) (kw' : ActKw) :
    AlmostConstant μ fun x => ∀ path, traceImage (t x) ws (r x) = .ok path →
      path.isValid E ((wallsOf walls).map Obj.interact) c ((wallsOf ws).map Obj.interact) (F.fin tol) (F.fin patch) ap kw' = .ok (.b true) := by
  have hap : ¬ resolveApprox E ap = true := by rcases hh with rfl | ⟨rfl, h⟩ <;> simp [resolveApprox, *]
  have hk : Settings μ E ap fun _ : X => kw' := ⟨fun h => absurd h hap⟩
  obtain ⟨L, loss, hL, hl, h'⟩ := path_analytic ht hr ws
  have hi : ∀ ws : List (Pt × Pt), ∀ o ∈ ((wallsOf ws).map fun (o : Obj) (_ : X) => o).map fun o x => (o x).interact, AnalyticI μ E ap (fun _ => kw') o := by
    intro ws o ho
    obtain ⟨b, hb, rfl⟩ := List.mem_map.mp ho
    exact interact_analytic hk (wallsOf_analytic ws b hb)
  have e1 : ∀ (ws : List (Pt × Pt)) (x : X), ((((wallsOf ws).map fun (o : Obj) (_ : X) => o).map fun o x => (o x).interact).map fun o => o x) = (wallsOf ws).map Obj.interact := by
    intro ws x; simp [Function.comp_def]
  have key := isValid_analytic hk hL hl _ _ (hi walls) (hi ws) c (.const (F.fin tol)) (.const (F.fin patch))
  simp only [e1] at key
  have e2 : (fun x => ∀ path, traceImage (t x) ws (r x) = .ok path → path.isValid E ((wallsOf walls).map Obj.interact) c ((wallsOf ws).map Obj.interact) (F.fin tol) (F.fin patch) ap kw' = .ok (.b true)) =
      fun x => (⟨L.map (· x), loss x⟩ : Path).isValid E ((wallsOf walls).map Obj.interact) c ((wallsOf ws).map Obj.interact) (F.fin tol) (F.fin patch) ap kw' = .ok (.b true) := by
    funext x
    rw [h' x]
    exact propext ⟨fun h => h _ rfl, fun h p hp => Except.ok.inj hp ▸ h⟩
  rw [e2]
  rcases key with ⟨e, he⟩ | ⟨T, hT, he⟩
  · simp only [he]; exact .of_eq _
  · simp only [he]
    rcases hT with ⟨b, hb, e⟩ | ⟨f, -, e⟩
    · simp only [e, Except.ok.injEq, Truthy.b.injEq]
      exact hb.map fun b => b = true
    · simp only [e, Except.ok.injEq, reduceCtorEq]; exact .of_eq _

end

theorem offLines_eventually (M : List (Pt × Pt)) {p : ℝ × ℝ} (h : OffLines M ⟨p.1, p.2⟩) : ∀ᶠ q : ℝ × ℝ in 𝓝 p, OffLines M ⟨q.1, q.2⟩ := (offLines_open M).mem_nhds h

/-- Finitely many acceptances are constant at the same time. -/
theorem accepted_const {walls : List (Pt × Pt)} {lo hi : ℤ} (cs : List (List ℤ)) (hcm : ∀ c, c ∈ cs ↔ InRange walls.length lo hi c) (P : ℝ × ℝ → List ℤ → Prop) (A : ℝ × ℝ → Finset (List ℤ))
    (hA : ∀ p c, c ∈ A p ↔ InRange walls.length lo hi c ∧ P p c) (hP : ∀ c, AlmostConstant volume fun p : ℝ × ℝ => P p c) : AlmostConstant volume A := by
  have : ∀ᵐ p : ℝ × ℝ, ∀ c ∈ cs, ∀ᶠ q in 𝓝 p, P q c = P p c := (ae_ball_iff (List.finite_toSet cs).countable).mpr fun c _ => hP c
  filter_upwards [this] with p hp
  have h2 : ∀ᶠ q in 𝓝 p, ∀ c ∈ cs, P q c = P p c := (Filter.eventually_all_finite (List.finite_toSet cs)).mpr hp
  filter_upwards [h2] with q hq
  ext c
  rw [hA, hA]
  refine and_congr_right fun hc => ?_
  rw [hq c ((hcm c).mpr hc)]

/-- **C105.** In hard mode, for transmitters outside of finitely many lines, almost every position of the receiver has a neighbourhood in which the gradients with respect to the receiver
are the derivatives of the accumulated received power (not only of the sum over a set of paths that is held fixed). -/
theorem C105_receivers {Key : Type} (G : GraphLib) (hG : GraphContract G) (walls : List (Pt × Pt)) (hw : ∀ w ∈ walls, w.1 ≠ w.2) (lo hi : ℤ) (hlo : 0 ≤ lo)
    (hex : ∃ c, InRange walls.length lo hi c) (split : Key → ℕ → List Key) (key : Option Key)
    (E : Env) (he : 0 < E.eps) (ap : Option Bool) (hh : Hard E ap) (tol patch : ℝ) (kw : Rev.ActKw Rev.Coord) (kw' : ActKw) (hk : SameKw kw kw') (coef height : ℝ) (hht : 0 < height) :
    ∃ L, Lines L ∧ ∀ tx rx : PyDict Pt, Distinct tx → (∀ t ∈ tx, OffLines L t.2) →
      ∃ (value : String × Pt → ℝ × ℝ → ℝ) (gradient : String × Pt → ℝ × ℝ → V2 F),
        (∀ r : ℝ × ℝ, (wallScene tx [("rx", ⟨r.1, r.2⟩)] walls).accumulateOverPaths G split (imageMethod Key) { minOrder := lo, maxOrder := hi }
          ⟨E, F.fin tol, F.fin patch, ap, kw'⟩ key (powerFun E coef height) = .ok (tx.map fun t => (t.1, "rx", F.fin (value t r)))) ∧
        (∀ (grad : Bool) (P : Scene.Grid (ℝ × ℝ)),
          Rev.accumulateOnReceiversGrid (wallScene tx rx walls) G { minOrder := lo, maxOrder := hi } ⟨E, F.fin tol, F.fin patch, ap, kw⟩ grad true
            (Rev.receivedPower E (F.fin coef) (F.fin height))
            (gridX P) (gridY P) = .ok (tx.map fun t => (t.1, .both (P.map fun row => row.map fun p => F.fin (value t p)) (P.map fun row => row.map (gradient t)))) ∧
          Rev.accumulateOnReceiversGrid (wallScene tx rx walls) G { minOrder := lo, maxOrder := hi } ⟨E, F.fin tol, F.fin patch, ap, kw⟩ true false
            (Rev.receivedPower E (F.fin coef) (F.fin height))
            (gridX P) (gridY P) = .ok (tx.map fun t => (t.1, .gradient (P.map fun row => row.map (gradient t))))) ∧
        ∀ t ∈ tx, ∀ᵐ r : ℝ × ℝ, ∀ᶠ q in 𝓝 r, GradientAt (value t) q (gradient t q) := by
  haveI : (volume : Measure (ℝ × ℝ)).IsAddHaarMeasure := by rw [Measure.volume_eq_prod]; infer_instance
  obtain ⟨L, hL, hpos, -⟩ := C102_positions E.eps he walls hw lo hi hlo
  refine ⟨L, hL, fun tx rx ht hoff => ?_⟩
  obtain ⟨cs, -, -, hcm, -⟩ := cands_walls G hG tx rx walls lo hi hlo hex
  obtain ⟨value, gradient, points, accepted, q1, q2, q3, q4, q5⟩ := C100_receivers G hG tx rx ht walls lo hi hlo hex split key E ap hh tol patch kw kw' hk coef height hht
  refine ⟨value, gradient, q1, q2, fun t htm => ?_⟩
  obtain ⟨M, hM, h⟩ := hpos t.2 (hoff t htm)
  have hacc : AlmostConstant volume (accepted t.2) :=
    accepted_const cs hcm _ _ (q4 t.2) fun c => accept_const (.const (V2.fin t.2)) moving_analytic walls _ c E ap hh tol patch kw'
  filter_upwards [hacc, C102_negligible M hM] with r hr hrM
  filter_upwards [hr.eventually_nhds, offLines_eventually M hrM] with q hq hqM
  have hgood := (q5 t htm q).2.1 fun c hc => by
    obtain ⟨loss, hl⟩ := q3 t.2 q c
    have := h _ hqM c hc _ _ hl
    exact ⟨this.1, this.2.1⟩
  obtain ⟨v', h1, h2⟩ := hgood
  refine ⟨v', h1.congr_of_eventuallyEq ?_, h2⟩
  filter_upwards [hq] with z hz
  rw [(q5 t htm z).1, hz, hq.self_of_nhds]

/-- **C105.** The same with respect to the transmitter. -/
theorem C105_transmitters {Key : Type} (G : GraphLib) (hG : GraphContract G) (walls : List (Pt × Pt)) (hw : ∀ w ∈ walls, w.1 ≠ w.2) (lo hi : ℤ) (hlo : 0 ≤ lo)
    (hex : ∃ c, InRange walls.length lo hi c) (split : Key → ℕ → List Key) (key : Option Key)
    (E : Env) (he : 0 < E.eps) (ap : Option Bool) (hh : Hard E ap) (tol patch : ℝ) (kw : Rev.ActKw Rev.Coord) (kw' : ActKw) (hk : SameKw kw kw') (coef height : ℝ) (hht : 0 < height) :
    ∃ L, Lines L ∧ ∀ tx rx : PyDict Pt, Distinct rx → (∀ r ∈ rx, OffLines L r.2) →
      ∃ (value : String × Pt → ℝ × ℝ → ℝ) (gradient : String × Pt → ℝ × ℝ → V2 F),
        (∀ t : ℝ × ℝ, (wallScene [("tx", ⟨t.1, t.2⟩)] rx walls).accumulateOverPaths G split (imageMethod Key) { minOrder := lo, maxOrder := hi }
          ⟨E, F.fin tol, F.fin patch, ap, kw'⟩ key (powerFun E coef height) = .ok (rx.map fun r => ("tx", r.1, F.fin (value r t)))) ∧
        (∀ (grad : Bool) (P : Scene.Grid (ℝ × ℝ)),
          Rev.accumulateOnTransmittersGrid (wallScene tx rx walls) G { minOrder := lo, maxOrder := hi } ⟨E, F.fin tol, F.fin patch, ap, kw⟩ grad true
            (Rev.receivedPower E (F.fin coef) (F.fin height))
            (gridX P) (gridY P) = .ok (rx.map fun r => (r.1, .both (P.map fun row => row.map fun p => F.fin (value r p)) (P.map fun row => row.map (gradient r)))) ∧
          Rev.accumulateOnTransmittersGrid (wallScene tx rx walls) G { minOrder := lo, maxOrder := hi } ⟨E, F.fin tol, F.fin patch, ap, kw⟩ true false
            (Rev.receivedPower E (F.fin coef) (F.fin height))
            (gridX P) (gridY P) = .ok (rx.map fun r => (r.1, .gradient (P.map fun row => row.map (gradient r))))) ∧
        ∀ r ∈ rx, ∀ᵐ t : ℝ × ℝ, ∀ᶠ q in 𝓝 t, GradientAt (value r) q (gradient r q) := by
  haveI : (volume : Measure (ℝ × ℝ)).IsAddHaarMeasure := by rw [Measure.volume_eq_prod]; infer_instance
  obtain ⟨L, hL, -, hpos⟩ := C102_positions E.eps he walls hw lo hi hlo
  refine ⟨L, hL, fun tx rx hr hoff => ?_⟩
  obtain ⟨cs, -, -, hcm, -⟩ := cands_walls G hG tx rx walls lo hi hlo hex
  obtain ⟨value, gradient, points, accepted, q1, q2, q3, q4, q5⟩ := C100_transmitters G hG tx rx hr walls lo hi hlo hex split key E ap hh tol patch kw kw' hk coef height hht
  refine ⟨value, gradient, q1, q2, fun r hrm => ?_⟩
  obtain ⟨M, hM, h⟩ := hpos r.2 (hoff r hrm)
  have hacc : AlmostConstant volume (accepted r.2) :=
    accepted_const cs hcm _ _ (q4 r.2) fun c => accept_const moving_analytic (.const (V2.fin r.2)) walls _ c E ap hh tol patch kw'
  filter_upwards [hacc, C102_negligible M hM] with t ht htM
  filter_upwards [ht.eventually_nhds, offLines_eventually M htM] with q hq hqM
  have hgood := (q5 r hrm q).2.1 fun c hc => by
    obtain ⟨loss, hl⟩ := q3 r.2 q c
    have := h _ hqM c hc _ _ hl
    exact ⟨this.1, this.2.1⟩
  obtain ⟨v', h1, h2⟩ := hgood
  refine ⟨v', h1.congr_of_eventuallyEq ?_, h2⟩
  filter_upwards [hq] with z hz
  rw [(q5 r hrm z).1, hz, hq.self_of_nhds]

/-- C105 applies to a corner of two walls with up to four bounces: there is a transmitter, and a receiver, at which the gradient that is returned is the derivative. -/
example (E : Env) (he : 0 < E.eps) : ∃ (t : Pt) (r : ℝ × ℝ) (value : ℝ × ℝ → ℝ) (g : V2 F),
    (∀ p : ℝ × ℝ, (wallScene [("tx", t)] [("rx", ⟨p.1, p.2⟩)] [(⟨0, 0⟩, ⟨1, 0⟩), (⟨0, 0⟩, ⟨0, 1⟩)]).accumulateOverPaths refLib (fun (_ : Unit) _ => []) (imageMethod Unit)
      { minOrder := 0, maxOrder := 4 } ⟨E, F.fin (1 / 100), F.fin 0, some false, ⟨F.fin 100, hardSigmoid⟩⟩ none (powerFun E (1 / 2) 1) = .ok [("tx", "rx", F.fin (value p))]) ∧
    Rev.accumulateOnReceiversGrid (wallScene [("tx", t)] [] [(⟨0, 0⟩, ⟨1, 0⟩), (⟨0, 0⟩, ⟨0, 1⟩)]) refLib { minOrder := 0, maxOrder := 4 }
      ⟨E, F.fin (1 / 100), F.fin 0, some false, ⟨F.fin 100, Rev.hardSigmoid⟩⟩ true false (Rev.receivedPower E (F.fin (1 / 2)) (F.fin 1)) [[F.fin r.1]] [[F.fin r.2]] =
      .ok [("tx", .gradient [[g]])] ∧ GradientAt value r g := by
  obtain ⟨L, hL, h⟩ := C105_receivers refLib refLib_contract [(⟨0, 0⟩, ⟨1, 0⟩), (⟨0, 0⟩, ⟨0, 1⟩)] (by simp) 0 4 le_rfl ⟨[], by simp [InRange, IsCandidate]⟩ (fun (_ : Unit) _ => []) none E he
    (some false) (.inl rfl) (1 / 100) 0 ⟨F.fin 100, Rev.hardSigmoid⟩ ⟨F.fin 100, hardSigmoid⟩ (library_same (.inr ⟨rfl, rfl⟩)) (1 / 2) 1 one_pos
  obtain ⟨t, ht⟩ := (C102_negligible L hL).exists
  obtain ⟨value, gradient, h1, h2, h3⟩ := h [("tx", ⟨t.1, t.2⟩)] [] (by simp [Distinct]) (by simpa using ht)
  obtain ⟨r, hr⟩ := (h3 ("tx", ⟨t.1, t.2⟩) (by simp)).exists
  refine ⟨⟨t.1, t.2⟩, r, value ("tx", ⟨t.1, t.2⟩), gradient ("tx", ⟨t.1, t.2⟩) r, fun p => ?_, ?_, hr.self_of_nhds⟩
  · simpa using h1 p
  · simpa [gridX, gridY] using (h2 true [[r]]).2

end DiffeRT2d.Props
