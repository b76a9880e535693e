import Verif.Lemmas.GradAe
import Verif.Props.Lines
import Verif.Props.Analytic

/-! # Property C103: almost everywhere, the gradients of approximate mode are derivatives -/

namespace DiffeRT2d.Props
open Classical Spec MeasureTheory Filter Topology

section Turn
variable {ι X : Type} [NormedAddCommGroup X] [NormedSpace ℝ X] [FiniteDimensional ℝ X] [MeasurableSpace X] [BorelSpace X] {μ : Measure X} [μ.IsAddHaarMeasure] {e : ι → X} {S : TopologicalSpace.Opens X}
  {E : Env} {ap : Option Bool} {kw : Rev.ActKw ι}

theorem wallsOf_analytic (ws : List (Pt × Pt)) : ∀ o ∈ (wallsOf ws).map fun (o : Obj) (_ : X) => o, AnalyticObj μ o := by
  intro o ho
  obtain ⟨b, hb, rfl⟩ := List.mem_map.mp ho
  obtain ⟨w, -, rfl⟩ := List.mem_map.mp hb
  exact .inl ⟨fun _ => Wall.ofPts w.1 w.2, ⟨.const _, .const _⟩, ⟨.const _, .const _⟩, fun _ => rfl⟩

/-- The points of a path of the image method are analytic near almost every parameter. -/
theorem path_analytic {t r : X → Pt} (ht : AnalyticPt μ fun x => V2.fin (t x)) (hr : AnalyticPt μ fun x => V2.fin (r x)) (ws : List (Pt × Pt)) :
    ∃ (L : List (X → V2 F)) (loss : X → F), (∀ p ∈ L, AnalyticPt μ p) ∧ AlmostAnalytic μ loss ∧ ∀ x, traceImage (t x) ws (r x) = .ok ⟨L.map (· x), loss x⟩ := by
  have e0 : ∀ x : X, (((wallsOf ws).map fun (o : Obj) (_ : X) => o).map fun o => o x) = wallsOf ws := by
    intro x; simp [Function.comp_def]
  have hk : Settings μ ⟨false, 0⟩ (some false) (fun _ : X => ⟨0, sigmoid⟩) := ⟨by simp [resolveApprox]⟩
  rcases image_trace_analytic hk ht hr _ (wallsOf_analytic ws) with ⟨e, h⟩ | ⟨L, loss, hL, hl, h⟩
  · exfalso
    have := h 0
    rw [e0] at this
    exact absurd ((traceImage_eq (t 0) (r 0) ws).symm.trans this) (by simp)
  · refine ⟨L, loss, hL, hl, fun x => ?_⟩
    have := h x
    rwa [e0] at this

theorem _root_.DiffeRT2d.Spec.AlmostAnalytic.real {f : X → ℝ} (h : AlmostAnalytic μ fun x => F.fin (f x)) : ∀ᵐ x ∂μ, AnalyticAt ℝ f x := by
  refine h.mono fun x hx => ?_
  rcases hx with ⟨g, hg, e⟩ | ⟨c, e⟩
  · exact hg.congr (e.mono fun y hy => (F.fin.inj hy).symm)
  · exact (analyticAt_const (v := f x)).congr (e.mono fun y hy => F.fin.inj (e.self_of_nhds.trans hy.symm))

theorem rpath_analytic {t r : X → Pt} (ht : AnalyticPt μ fun x => V2.fin (t x)) (hr : AnalyticPt μ fun x => V2.fin (r x)) (ws : List (Pt × Pt)) {k : ℕ} {p : X → Pt}
    (hp : ∀ x, (rpath (t x) (r x) ws)[k]? = some (p x)) : (∀ᵐ x ∂μ, AnalyticAt ℝ (fun x => (p x).x) x) ∧ ∀ᵐ x ∂μ, AnalyticAt ℝ (fun x => (p x).y) x := by
  obtain ⟨L, loss, hL, -, h⟩ := path_analytic ht hr ws
  have e : ∀ x, (L.map (· x))[k]? = some (V2.fin (p x)) := by
    intro x
    have := Except.ok.inj ((traceImage_eq (t x) (r x) ws).symm.trans (h x))
    have := congrArg Path.xys this
    rw [← show _ = L.map (· x) from this]
    simp [finitePath, hp x]
  have e0 := e 0
  rw [List.getElem?_map] at e0
  cases hk : L[k]? with
  | none => rw [hk] at e0; cases e0
  | some q =>
    have hq := hL q (List.mem_of_getElem? hk)
    have e1 : ∀ x, q x = V2.fin (p x) := by
      intro x
      have := e x
      rw [List.getElem?_map, hk] at this
      exact Option.some.inj this
    have h1 := hq.1
    have h2 := hq.2
    simp only [e1, V2.fin] at h1 h2
    exact ⟨h1.real, h2.real⟩

theorem power_analytic {t r : X → Pt} (ht : AnalyticPt μ fun x => V2.fin (t x)) (hr : AnalyticPt μ fun x => V2.fin (r x)) (ws : List (Pt × Pt)) (E : Env) (coef height : ℝ) (hh : 0 < height) :
    ∀ᵐ x ∂μ, AnalyticAt ℝ (fun x => powerAlong E.eps coef height (rpath (t x) (r x) ws)) x := by
  obtain ⟨L, loss, hL, hl, h⟩ := path_analytic ht hr ws
  have key := receivedPower_analytic (μ := μ) E (.const (F.fin coef)) (.const (F.fin height)) _ _ L loss [] ht hr hL hl (by simp)
  refine AlmostAnalytic.real (key.congr fun x => ?_)
  have h1 := realFun_powerAlong E coef height hh (t x) (r x) (rpath (t x) (r x) ws) (scores ws (rpath (t x) (r x) ws)).sum [] (by rw [rpath_length]; omega)
  rw [← h1]
  have := Except.ok.inj ((traceImage_eq (t x) (r x) ws).symm.trans (h x))
  rw [this]
  rfl

theorem library_ae {a : ℝ} {kw' : ActKw} (h : LibraryActivation a kw kw') : AEKw μ e S kw := by
  rcases h with ⟨rfl, rfl⟩ | ⟨rfl, rfl⟩
  · exact aeKw_sigmoid a
  · exact aeKw_hardSigmoid a

theorem cwalls_cwall (walls : List (Pt × Pt)) : cwalls ι walls = walls.map (cwall ι) := rfl

/-- One turn of the loop: validity is differentiated rightly almost everywhere. -/
theorem turn_ae {tx rx : X → V2 (Rev ι)} {t r : X → Pt} (hta : AnalyticPt μ fun x => V2.fin (t x)) (hra : AnalyticPt μ fun x => V2.fin (r x)) (ht : ∀ x ∈ S, DifferentiatesPt e x (tx x) t) (hr : ∀ x ∈ S, DifferentiatesPt e x (rx x) r) (walls : List (Pt × Pt))
    (hw : ∀ w ∈ walls, w.1 ≠ w.2) {c : List ℤ} (hc : IsCandidate walls.length c) (hs : Soft E ap) (hk : AEKw μ e S kw) (tol patch : ℝ) (hpa : -(1 / 2) < patch)
    (hp : ∀ x ∈ S, NoPause (rpath (t x) (r x) (wallsAt walls c)))
    (hpar : ∀ x ∈ S, ∀ w ∈ walls, ∀ (i : ℕ) (a b : Pt), (rpath (t x) (r x) (wallsAt walls c))[i]? = some a → (rpath (t x) (r x) (wallsAt walls c))[i + 1]? = some b → ¬ Parallel w.1 w.2 a b)
    {T : X → RevTruthy ι} (hT : ∀ x, (Rev.imagePath (tx x) (dwallsAt (cwalls ι walls) c) (rx x)).isValid E (cwalls ι walls) c (dwallsAt (cwalls ι walls) c) (F.fin tol) (F.fin patch) ap kw = .ok (T x)) :
    AET μ e S T := by
  have hw' : ∀ w ∈ wallsAt walls c, w.1 ≠ w.2 := fun w h => hw w (wallsAt_mem h)
  have hu : ∀ x ∈ S, Unguarded (t x) (r x) (wallsAt walls c) := fun x hx => unguarded_of_noPause fun i a b ha hb => hp x hx (i + 1) a b ha hb
  have hm : ∀ x ∈ S, List.Forall₂ (DifferentiatesPt e x) (Rev.imagePath (tx x) (dwallsAt (cwalls ι walls) c) (rx x)).xys (mpath t r ((wallsAt walls c).map fun w (_ : X) => w)) :=
    fun x hx => dpath_unguarded (ht x hx) (hr x hx) (const_diff walls c hw') (by simpa [Function.comp_def] using hu x hx)
  have hmp : ∀ x, (mpath t r ((wallsAt walls c).map fun w (_ : X) => w)).map (· x) = rpath (t x) (r x) (wallsAt walls c) := by
    intro x; rw [mpath_at]; simp [Function.comp_def]
  have hml : (mpath t r ((wallsAt walls c).map fun w (_ : X) => w)).length = c.length + 2 := by
    rw [mpath_length, List.length_map, wallsAt_length hc]
  have hn : ∀ x, (Rev.imagePath (tx x) (dwallsAt (cwalls ι walls) c) (rx x)).xys.length = c.length + 2 := by
    intro x
    have h0 : (dwallsAt (cwalls ι walls) c).length = c.length := by rw [dwalls_const]; exact (List.length_map _).trans (wallsAt_length hc)
    rw [imagePath_xys]
    simp [dpts_length, h0]
  generalize hmm : mpath t r ((wallsAt walls c).map fun w (_ : X) => w) = m at hm hmp hml
  have hD : ∀ k, ∀ x ∈ S, DifferentiatesPt e x (Rev.nth (Rev.imagePath (tx x) (dwallsAt (cwalls ι walls) c) (rx x)).xys k) (m.getD (Nat.min k (c.length + 1)) fun _ => ⟨0, 0⟩) := by
    intro k x hx
    have hlt : Nat.min k (c.length + 1) < c.length + 2 := lt_of_le_of_lt (Nat.min_le_right _ _) (by omega)
    unfold Rev.nth
    have h1 := (hm x hx).get (i := Nat.min k (c.length + 1)) (by rw [hn]; exact hlt) (by rw [hml]; exact hlt)
    rw [hn, List.getD_eq_getElem?_getD, List.getD_eq_getElem?_getD, List.getElem?_eq_getElem (by rw [hn]; exact hlt), List.getElem?_eq_getElem (by rw [hml]; exact hlt)]
    exact h1
  have hget : ∀ k, k < c.length + 2 → ∀ x, (rpath (t x) (r x) (wallsAt walls c))[k]? = some ((m.getD (Nat.min k (c.length + 1)) fun _ => ⟨0, 0⟩) x) := by
    intro k hk' x
    have e1 : Nat.min k (c.length + 1) = k := Nat.min_eq_left (by omega)
    rw [← hmp x, e1, List.getElem?_map, List.getElem?_eq_getElem (by omega), List.getD_eq_getElem?_getD, List.getElem?_eq_getElem (by omega)]
    rfl
  have hpt : ∀ k, AEPt μ e S fun x => Rev.nth (Rev.imagePath (tx x) (dwallsAt (cwalls ι walls) c) (rx x)).xys k := by
    intro k
    have hlt : Nat.min k (c.length + 1) < c.length + 2 := lt_of_le_of_lt (Nat.min_le_right _ _) (by omega)
    have hm' : Nat.min (Nat.min k (c.length + 1)) (c.length + 1) = Nat.min k (c.length + 1) := Nat.min_eq_left (Nat.min_le_right _ _)
    have h := rpath_analytic hta hra (wallsAt walls c) (k := Nat.min k (c.length + 1)) (hget _ hlt)
    rw [hm'] at h
    exact ⟨.of_diff (h.1.mono fun x hx _ => hx) fun x hx => (hD k x hx).1, .of_diff (h.2.mono fun x hx _ => hx) fun x hx => (hD k x hx).2⟩
  have hl : AE μ e S fun x => (Rev.imagePath (tx x) (dwallsAt (cwalls ι walls) c) (rx x)).loss := by
    have hL : ∀ x, ((List.range (c.length + 2)).map fun k (x : X) => Rev.nth (Rev.imagePath (tx x) (dwallsAt (cwalls ι walls) c) (rx x)).xys k).map (· x) =
        (Rev.imagePath (tx x) (dwallsAt (cwalls ι walls) c) (rx x)).xys := by
      intro x
      refine List.ext_getElem (by simp [hn]) fun k h1 h2 => ?_
      simp only [List.getElem_map, List.getElem_range]
      unfold Rev.nth
      have h3 : k < c.length + 2 := by rw [hn] at h2; exact h2
      have e1 : Nat.min k (c.length + 2 - 1) = k := Nat.min_eq_left (by omega)
      rw [hn, e1, List.getD_eq_getElem?_getD, List.getElem?_eq_getElem h2]
      rfl
    have := pathLoss_ae (μ := μ) (e := e) (S := S) (ws := wallsAt walls c) hw' (L := (List.range (c.length + 2)).map fun k (x : X) => Rev.nth (Rev.imagePath (tx x) (dwallsAt (cwalls ι walls) c) (rx x)).xys k) (by
      intro q hq
      obtain ⟨k, -, rfl⟩ := List.mem_map.mp hq
      exact hpt k) (by simp [wallsAt_length hc]) (by
      intro i a b ha hb _ x hx
      have hi : i + 1 < c.length + 2 := by
        have := (List.getElem?_eq_some_iff.mp hb).1
        simpa using this
      rw [List.getElem?_map, List.getElem?_range (by omega)] at ha hb
      have ha := (Option.some.inj ha).symm
      have hb := (Option.some.inj hb).symm
      rw [ha, hb]
      exact valV_ne_zero (hD i x hx).val (hD (i + 1) x hx).val (hp x hx i _ _ (hget i (by omega) x) (hget (i + 1) hi x))) (l := fun _ => Rev.const 0) .const_zero
    refine this.congr fun x _ => ?_
    rw [imagePath_loss, hL x, dwalls_const]
    rfl
  have hT' : ∀ x, (Rev.imagePath (tx x) (dwallsAt (cwalls ι walls) c) (rx x)).isValid E (walls.map (cwall ι)) c ((wallsAt walls c).map (cwall ι)) (F.fin tol) (F.fin patch) ap kw = .ok (T x) := by
    intro x
    rw [← hT x, dwalls_const]
    rfl
  exact isValid_ae hs hk tol patch hpa hn hpt (fun k _ x hx => (hD k x hx).val) hl
    (fun w hwm k hk' x hx => hpar x hx w hwm k _ _ (hget k (by omega) x) (hget (k + 1) hk' x)) hw' hT'

/-- The loop: if every turn is right almost everywhere, so is the sum. -/
theorem facc_ae (v : Rev.ValidOpts ι) {tx rx : X → V2 (Rev ι)} {ws : List (Rev.RWall ι)} (f : List (V2 (Rev ι)) → Rev ι) (cs : List (List ℤ))
    (hc : ∀ c ∈ cs, ∀ i ∈ c, 0 ≤ i ∧ i < ws.length) {a d : X → Rev ι} (hd : ∀ x, Rev.facc v ws f (tx x) (rx x) (a x) cs = .ok (d x))
    (h : ∀ c ∈ cs, ∀ T : X → RevTruthy ι, (∀ x, (Rev.imagePath (tx x) (dwallsAt ws c) (rx x)).isValid v.E ws c (dwallsAt ws c) v.tol v.patch v.approx v.kw = .ok (T x)) →
      AET μ e S T ∧ AE μ e S fun x => f (Rev.imagePath (tx x) (dwallsAt ws c) (rx x)).xys) (ha : AE μ e S a) : AE μ e S d := by
  induction cs generalizing a with
  | nil =>
    have : a = d := funext fun x => Except.ok.inj (hd x)
    exact this ▸ ha
  | cons c cs ih =>
    have hT : ∀ x, ∃ T, (Rev.imagePath (tx x) (dwallsAt ws c) (rx x)).isValid v.E ws c (dwallsAt ws c) v.tol v.patch v.approx v.kw = .ok T ∧
        Rev.facc v ws f (tx x) (rx x) (a x + T.toF * f (Rev.imagePath (tx x) (dwallsAt ws c) (rx x)).xys) cs = .ok (d x) := by
      intro x
      have hd := hd x
      simp only [Rev.facc] at hd
      rw [mapM_getObject ws c (hc c (by simp))] at hd
      simp only [Bind.bind, Except.bind] at hd
      cases hvd : (Rev.imagePath (tx x) (dwallsAt ws c) (rx x)).isValid v.E ws c (dwallsAt ws c) v.tol v.patch v.approx v.kw with
      | error err => rw [hvd] at hd; cases hd
      | ok T => rw [hvd] at hd; exact ⟨T, rfl, hd⟩
    choose T h1 h2 using hT
    obtain ⟨g1, g2⟩ := h c (by simp) T h1
    exact ih (fun c hc' => hc c (by simp [hc'])) h2 (fun c hc' => h c (by simp [hc'])) (ha.add (AE.mul g1 g2))

/-- The loop, on an open set of good positions. -/
theorem facc_soft_ae {tx rx : X → V2 (Rev ι)} {t r : X → Pt} (hta : AnalyticPt μ fun x => V2.fin (t x)) (hra : AnalyticPt μ fun x => V2.fin (r x)) (ht : ∀ x ∈ S, DifferentiatesPt e x (tx x) t) (hr : ∀ x ∈ S, DifferentiatesPt e x (rx x) r) (walls : List (Pt × Pt))
    (hw : ∀ w ∈ walls, w.1 ≠ w.2) (hs : Soft E ap) (hk : AEKw μ e S kw) (tol patch : ℝ) (hpa : -(1 / 2) < patch) (coef height : ℝ) (hh : 0 < height)
    (cs : List (List ℤ)) (hc : ∀ c ∈ cs, IsCandidate walls.length c)
    (hgood : ∀ x ∈ S, ∀ c ∈ cs, GoodPath E.eps walls (wallsAt walls c) (t x) (r x) ∧ NoPause (rpath (t x) (r x) (wallsAt walls c))) {d : X → Rev ι}
    (hd : ∀ x, Rev.facc ⟨E, F.fin tol, F.fin patch, ap, kw⟩ (cwalls ι walls) (Rev.receivedPower E (F.fin coef) (F.fin height)) (tx x) (rx x) (.const 0) cs = .ok (d x)) : AE μ e S d := by
  refine facc_ae _ _ cs (fun c hc' i hi => by simpa [cwalls] using (hc c hc').1 i hi) hd (fun c hc' T hT => ⟨?_, ?_⟩) (a := fun _ => .const 0) .const_zero
  · exact turn_ae hta hra ht hr walls hw (hc c hc') hs hk tol patch hpa (fun x hx => (hgood x hx c hc').2)
      (fun x hx => (hgood x hx c hc').1.2.2 (hgood x hx c hc').2) hT
  · exact .of_diff ((power_analytic hta hra _ E coef height hh).mono fun x hx _ => hx) fun x hx => path_frozen (ht x hx) (hr x hx) walls c (hgood x hx c hc').1.1 _ _ _ (C99_power E coef height hh) (hgood x hx c hc').1.2.1

/-- On an open set of full measure, what is sent back is the derivative of the value, around almost every point. -/
theorem ae_derivative (hfull : ∀ᵐ x ∂μ, x ∈ S) {d : X → Rev ι} (h : AE μ e S d) {value : X → ℝ} (hv : ∀ x, (d x).val = F.fin (value x)) :
    ∀ᵐ x ∂μ, ∀ᶠ y in 𝓝 x, Differentiates e y (d y) value := by
  obtain ⟨f, h1, h2⟩ := h
  filter_upwards [hfull, h2] with x hx h2
  filter_upwards [(h2 hx).2, S.isOpen.mem_nhds hx] with y hy hyS
  refine hy.congr ?_
  filter_upwards [S.isOpen.mem_nhds hyS] with z hz
  have := h1 z hz
  rw [hv z] at this
  exact F.fin.inj this

end Turn

theorem moving_analytic : AnalyticPt (volume : Measure (ℝ × ℝ)) fun p => V2.fin ⟨p.1, p.2⟩ := ⟨almostAnalytic_fst, almostAnalytic_snd⟩

theorem offLines_open (L : List (Pt × Pt)) : IsOpen {p : ℝ × ℝ | OffLines L ⟨p.1, p.2⟩} := by
  have : {p : ℝ × ℝ | OffLines L ⟨p.1, p.2⟩} = ⋂ l ∈ {l | l ∈ L}, {p : ℝ × ℝ | side l.1 l.2 ⟨p.1, p.2⟩ ≠ 0} := by
    ext p; simp [OffLines]
  rw [this]
  refine Set.Finite.isOpen_biInter (List.finite_toSet L) fun l _ => isOpen_ne_fun ?_ continuous_const
  unfold side
  fun_prop

theorem gradientAt_of {v : ℝ × ℝ → ℝ} {p : ℝ × ℝ} {d : Rev Rev.Coord} (h : Differentiates axisOf p d v) : GradientAt v p ⟨d.grad .x, d.grad .y⟩ := by
  obtain ⟨-, v', h4, h5⟩ := h
  refine ⟨v', h4, ?_⟩
  simp only [Rev.grad, F.one_eq, h5, axisOf, one_mul]
  rfl

/-- **C103.** In approximate mode, for transmitters outside of finitely many lines, the gradient with respect to the receiver is the derivative
of the accumulated received power around almost every position of the receiver (at all positions outside of a closed null set): the kinks of the minima, maxima and piecewise linear activations do no harm. -/
theorem C103_receivers {Key : Type} (G : GraphLib) (hG : GraphContract G) (walls : List (Pt × Pt)) (hw : ∀ w ∈ walls, w.1 ≠ w.2) (lo hi : ℤ) (hlo : 0 ≤ lo)
    (hex : ∃ c, InRange walls.length lo hi c) (split : Key → ℕ → List Key) (key : Option Key)
    (E : Env) (he : 0 < E.eps) (hun : 2 ≤ hi → Untangled walls) (ap : Option Bool) (hs : Soft E ap) (tol patch a : ℝ) (hp : -(1 / 2) < patch) (ha : 0 < a)
    (kw : Rev.ActKw Rev.Coord) (kw' : ActKw) (hk : LibraryActivation a kw kw') (coef height : ℝ) (hht : 0 < height) :
    ∃ L, Lines L ∧ ∀ tx rx : PyDict Pt, Distinct tx → (∀ t ∈ tx, OffLines L t.2) →
      ∃ (value : String × Pt → ℝ × ℝ → ℝ) (gradient : String × Pt → ℝ × ℝ → V2 F),
        (∀ r : ℝ × ℝ, (wallScene tx [("rx", ⟨r.1, r.2⟩)] walls).accumulateOverPaths G split (imageMethod Key) { minOrder := lo, maxOrder := hi }
          ⟨E, F.fin tol, F.fin patch, ap, kw'⟩ key (powerFun E coef height) = .ok (tx.map fun t => (t.1, "rx", F.fin (value t r)))) ∧
        (∀ (grad : Bool) (P : Scene.Grid (ℝ × ℝ)),
          Rev.accumulateOnReceiversGrid (wallScene tx rx walls) G { minOrder := lo, maxOrder := hi } ⟨E, F.fin tol, F.fin patch, ap, kw⟩ grad true
            (Rev.receivedPower E (F.fin coef) (F.fin height))
            (gridX P) (gridY P) = .ok (tx.map fun t => (t.1, .both (P.map fun row => row.map fun p => F.fin (value t p)) (P.map fun row => row.map (gradient t)))) ∧
          Rev.accumulateOnReceiversGrid (wallScene tx rx walls) G { minOrder := lo, maxOrder := hi } ⟨E, F.fin tol, F.fin patch, ap, kw⟩ true false
            (Rev.receivedPower E (F.fin coef) (F.fin height))
            (gridX P) (gridY P) = .ok (tx.map fun t => (t.1, .gradient (P.map fun row => row.map (gradient t))))) ∧
        ∀ t ∈ tx, ∀ᵐ r : ℝ × ℝ, ∀ᶠ q in 𝓝 r, GradientAt (value t) q (gradient t q) := by
  obtain ⟨L, hL, hpos, -⟩ := goodPositions_exist E.eps he walls hw lo hi hlo
  refine ⟨L, hL, fun tx rx ht hoff => ?_⟩
  obtain ⟨cs, hcs, hcd, hcm, hne⟩ := cands_walls G hG tx rx walls lo hi hlo hex
  have hcs' : ∀ tx rx, (wallScene tx rx walls).allPathCandidates G { minOrder := lo, maxOrder := hi } = .ok cs := by
    intro tx' rx'
    have : (wallScene tx' rx' walls).objects = (wallScene tx rx walls).objects := by rw [wallScene_objects, wallScene_objects]
    rw [← hcs]
    unfold Scene.allPathCandidates
    rw [this]
  obtain ⟨V, hV⟩ := soft_valid hs (library_lipschitz ha hk) walls tol patch
  obtain ⟨-, -, hsf⟩ := C98_parts (ι := Rev.Coord) (F.fin 1) E (F.fin coef) (F.fin height)
  have hR : ∀ (t : String × Pt) (p : ℝ × ℝ), _ := fun t p => facc_value (tx := Rev.constV (V2.fin t.2)) (rx := Rev.inputs ⟨F.fin p.1, F.fin p.2⟩) (t := t.2) (r := ⟨p.1, p.2⟩)
    rfl rfl walls (library_same hk) hsf (realFun_powerAlong E coef height hht) (V t.2 ⟨p.1, p.2⟩) cs (fun c hc => ((hcm c).mp hc).1)
    fun c hc => hV _ _ c ((hcm c).mp hc).1
  choose D hD1 hD2 using hR
  have hgrid := receivers_grid G tx rx ht walls lo hi cs hcs ⟨E, F.fin tol, F.fin patch, ap, kw⟩ _ D hD1
  refine ⟨fun t p => (cs.map fun c => V t.2 ⟨p.1, p.2⟩ c * powerAlong E.eps coef height (rpath t.2 ⟨p.1, p.2⟩ (wallsAt walls c))).sum,
    fun t p => ⟨(D t p).grad .x, (D t p).grad .y⟩, ?_, ?_, ?_⟩
  · intro r
    have := accumulate_walls (Key := Key) G hG tx [("rx", ⟨r.1, r.2⟩)] ht (by simp [Distinct]) walls lo hi hlo cs (hcs' _ _) hcd hcm hne split key
      ⟨E, F.fin tol, F.fin patch, ap, kw'⟩ (powerFun E coef height) _ (realFun_powerAlong E coef height hht) V
      fun t _ r _ c hc => hV t.2 r.2 c ((hcm c).mp hc).1
    rw [this, product_single, List.map_map]
    rfl
  · intro grad P
    refine ⟨?_, ?_⟩
    · rw [hgrid]
      simp only [gridSel, if_true, hD2]
    · rw [hgrid]
      simp only [gridSel, if_true, Bool.false_eq_true, if_false]
  · intro t htm
    haveI : (volume : Measure (ℝ × ℝ)).IsAddHaarMeasure := by rw [Measure.volume_eq_prod]; infer_instance
    obtain ⟨M, hM, h⟩ := hpos t.2 (hoff t htm)
    have hae : AE volume axisOf ⟨{p : ℝ × ℝ | OffLines M ⟨p.1, p.2⟩}, offLines_open M⟩ (D t) :=
      facc_soft_ae (tx := fun _ => Rev.constV (V2.fin t.2)) (t := fun _ => t.2) (r := fun q => ⟨q.1, q.2⟩) (.const (V2.fin t.2)) moving_analytic (fun x _ => .const t.2) (fun x _ => inputs_diff x) walls hw hs (library_ae hk)
        tol patch hp coef height hht cs (fun c hc => ((hcm c).mp hc).1) (fun x hx c hc => ⟨(h _ hx c ((hcm c).mp hc)).1, (h _ hx c ((hcm c).mp hc)).2 hun⟩) (hD1 t)
    filter_upwards [ae_derivative (C102_negligible M hM) hae (hD2 t)] with r hr
    exact hr.mono fun q hq => gradientAt_of hq

/-- **C103.** The same with respect to the transmitter. -/
theorem C103_transmitters {Key : Type} (G : GraphLib) (hG : GraphContract G) (walls : List (Pt × Pt)) (hw : ∀ w ∈ walls, w.1 ≠ w.2) (lo hi : ℤ) (hlo : 0 ≤ lo)
    (hex : ∃ c, InRange walls.length lo hi c) (split : Key → ℕ → List Key) (key : Option Key)
    (E : Env) (he : 0 < E.eps) (hun : 2 ≤ hi → Untangled walls) (ap : Option Bool) (hs : Soft E ap) (tol patch a : ℝ) (hp : -(1 / 2) < patch) (ha : 0 < a)
    (kw : Rev.ActKw Rev.Coord) (kw' : ActKw) (hk : LibraryActivation a kw kw') (coef height : ℝ) (hht : 0 < height) :
    ∃ L, Lines L ∧ ∀ tx rx : PyDict Pt, Distinct rx → (∀ r ∈ rx, OffLines L r.2) →
      ∃ (value : String × Pt → ℝ × ℝ → ℝ) (gradient : String × Pt → ℝ × ℝ → V2 F),
        (∀ t : ℝ × ℝ, (wallScene [("tx", ⟨t.1, t.2⟩)] rx walls).accumulateOverPaths G split (imageMethod Key) { minOrder := lo, maxOrder := hi }
          ⟨E, F.fin tol, F.fin patch, ap, kw'⟩ key (powerFun E coef height) = .ok (rx.map fun r => ("tx", r.1, F.fin (value r t)))) ∧
        (∀ (grad : Bool) (P : Scene.Grid (ℝ × ℝ)),
          Rev.accumulateOnTransmittersGrid (wallScene tx rx walls) G { minOrder := lo, maxOrder := hi } ⟨E, F.fin tol, F.fin patch, ap, kw⟩ grad true
            (Rev.receivedPower E (F.fin coef) (F.fin height))
            (gridX P) (gridY P) = .ok (rx.map fun r => (r.1, .both (P.map fun row => row.map fun p => F.fin (value r p)) (P.map fun row => row.map (gradient r)))) ∧
          Rev.accumulateOnTransmittersGrid (wallScene tx rx walls) G { minOrder := lo, maxOrder := hi } ⟨E, F.fin tol, F.fin patch, ap, kw⟩ true false
            (Rev.receivedPower E (F.fin coef) (F.fin height))
            (gridX P) (gridY P) = .ok (rx.map fun r => (r.1, .gradient (P.map fun row => row.map (gradient r))))) ∧
        ∀ r ∈ rx, ∀ᵐ t : ℝ × ℝ, ∀ᶠ q in 𝓝 t, GradientAt (value r) q (gradient r q) := by
  obtain ⟨L, hL, -, hpos⟩ := goodPositions_exist E.eps he walls hw lo hi hlo
  refine ⟨L, hL, fun tx rx hr hoff => ?_⟩
  obtain ⟨cs, hcs, hcd, hcm, hne⟩ := cands_walls G hG tx rx walls lo hi hlo hex
  have hcs' : ∀ tx rx, (wallScene tx rx walls).allPathCandidates G { minOrder := lo, maxOrder := hi } = .ok cs := by
    intro tx' rx'
    have : (wallScene tx' rx' walls).objects = (wallScene tx rx walls).objects := by rw [wallScene_objects, wallScene_objects]
    rw [← hcs]
    unfold Scene.allPathCandidates
    rw [this]
  obtain ⟨V, hV⟩ := soft_valid hs (library_lipschitz ha hk) walls tol patch
  obtain ⟨-, -, hsf⟩ := C98_parts (ι := Rev.Coord) (F.fin 1) E (F.fin coef) (F.fin height)
  have hR : ∀ (r : String × Pt) (p : ℝ × ℝ), _ := fun r p => facc_value (tx := Rev.inputs ⟨F.fin p.1, F.fin p.2⟩) (rx := Rev.constV (V2.fin r.2)) (t := ⟨p.1, p.2⟩) (r := r.2)
    rfl rfl walls (library_same hk) hsf (realFun_powerAlong E coef height hht) (V ⟨p.1, p.2⟩ r.2) cs (fun c hc => ((hcm c).mp hc).1)
    fun c hc => hV _ _ c ((hcm c).mp hc).1
  choose D hD1 hD2 using hR
  have hgrid := transmitters_grid G tx rx hr walls lo hi cs hcs ⟨E, F.fin tol, F.fin patch, ap, kw⟩ _ D hD1
  refine ⟨fun r p => (cs.map fun c => V ⟨p.1, p.2⟩ r.2 c * powerAlong E.eps coef height (rpath ⟨p.1, p.2⟩ r.2 (wallsAt walls c))).sum,
    fun r p => ⟨(D r p).grad .x, (D r p).grad .y⟩, ?_, ?_, ?_⟩
  · intro t
    have := accumulate_walls (Key := Key) G hG [("tx", ⟨t.1, t.2⟩)] rx (by simp [Distinct]) hr walls lo hi hlo cs (hcs' _ _) hcd hcm hne split key
      ⟨E, F.fin tol, F.fin patch, ap, kw'⟩ (powerFun E coef height) _ (realFun_powerAlong E coef height hht) V
      fun t _ r _ c hc => hV t.2 r.2 c ((hcm c).mp hc).1
    rw [this, single_product, List.map_map]
    rfl
  · intro grad P
    refine ⟨?_, ?_⟩
    · rw [hgrid]
      simp only [gridSel, if_true, hD2]
    · rw [hgrid]
      simp only [gridSel, if_true, Bool.false_eq_true, if_false]
  · intro r hrm
    haveI : (volume : Measure (ℝ × ℝ)).IsAddHaarMeasure := by rw [Measure.volume_eq_prod]; infer_instance
    obtain ⟨M, hM, h⟩ := hpos r.2 (hoff r hrm)
    have hae : AE volume axisOf ⟨{p : ℝ × ℝ | OffLines M ⟨p.1, p.2⟩}, offLines_open M⟩ (D r) :=
      facc_soft_ae (rx := fun _ => Rev.constV (V2.fin r.2)) (r := fun _ => r.2) (t := fun q => ⟨q.1, q.2⟩) moving_analytic (.const (V2.fin r.2)) (fun x _ => inputs_diff x) (fun x _ => .const r.2) walls hw hs (library_ae hk)
        tol patch hp coef height hht cs (fun c hc => ((hcm c).mp hc).1) (fun x hx c hc => ⟨(h _ hx c ((hcm c).mp hc)).1, (h _ hx c ((hcm c).mp hc)).2 hun⟩) (hD1 r)
    filter_upwards [ae_derivative (C102_negligible M hM) hae (hD2 r)] with t ht
    exact ht.mono fun q hq => gradientAt_of hq

/-- C103 applies to a corner of two walls with up to four bounces and the steepest activation of the examples: there is a transmitter, and a receiver,
at which the gradient that is returned is the derivative. -/
example (E : Env) (he : 0 < E.eps) : ∃ (t : Pt) (r : ℝ × ℝ) (value : ℝ × ℝ → ℝ) (g : V2 F),
    (∀ p : ℝ × ℝ, (wallScene [("tx", t)] [("rx", ⟨p.1, p.2⟩)] [(⟨0, 0⟩, ⟨1, 0⟩), (⟨0, 0⟩, ⟨0, 1⟩)]).accumulateOverPaths refLib (fun (_ : Unit) _ => []) (imageMethod Unit)
      { minOrder := 0, maxOrder := 4 } ⟨E, F.fin (1 / 100), F.fin 0, some true, ⟨F.fin 100, hardSigmoid⟩⟩ none (powerFun E (1 / 2) 1) = .ok [("tx", "rx", F.fin (value p))]) ∧
    Rev.accumulateOnReceiversGrid (wallScene [("tx", t)] [] [(⟨0, 0⟩, ⟨1, 0⟩), (⟨0, 0⟩, ⟨0, 1⟩)]) refLib { minOrder := 0, maxOrder := 4 }
      ⟨E, F.fin (1 / 100), F.fin 0, some true, ⟨F.fin 100, Rev.hardSigmoid⟩⟩ true false (Rev.receivedPower E (F.fin (1 / 2)) (F.fin 1)) [[F.fin r.1]] [[F.fin r.2]] =
      .ok [("tx", .gradient [[g]])] ∧ GradientAt value r g := by
  obtain ⟨L, hL, h⟩ := C103_receivers refLib refLib_contract [(⟨0, 0⟩, ⟨1, 0⟩), (⟨0, 0⟩, ⟨0, 1⟩)] (by simp) 0 4 le_rfl ⟨[], by simp [InRange, IsCandidate]⟩ (fun (_ : Unit) _ => []) none E he
    (fun _ i j w w' hij hi hj => by
      match i, j with
      | 0, 0 => exact absurd rfl hij
      | 0, 1 => simp at hi hj; subst hi hj; norm_num [Collinear, side]
      | 1, 0 => simp at hi hj; subst hi hj; norm_num [Collinear, side]
      | 1, 1 => exact absurd rfl hij
      | i + 2, _ => simp at hi
      | 0, j + 2 => simp at hj
      | 1, j + 2 => simp at hj) (some true) (.inl rfl) (1 / 100) 0 100 (by norm_num) (by norm_num) ⟨F.fin 100, Rev.hardSigmoid⟩ ⟨F.fin 100, hardSigmoid⟩ (.inr ⟨rfl, rfl⟩) (1 / 2) 1 one_pos
  obtain ⟨t, ht⟩ := (C102_negligible L hL).exists
  obtain ⟨value, gradient, h1, h2, h3⟩ := h [("tx", ⟨t.1, t.2⟩)] [] (by simp [Distinct]) (by simpa using ht)
  obtain ⟨r, hr⟩ := (h3 ("tx", ⟨t.1, t.2⟩) (by simp)).exists
  refine ⟨⟨t.1, t.2⟩, r, value ("tx", ⟨t.1, t.2⟩), gradient ("tx", ⟨t.1, t.2⟩) r, fun p => ?_, ?_, hr.self_of_nhds⟩
  · simpa using h1 p
  · simpa [gridX, gridY] using (h2 true [[r]]).2

end DiffeRT2d.Props
