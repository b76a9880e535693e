import Verif.Lemmas.GradSoft
import Verif.Props.GradNan

/-! # Property C101: when the gradients of approximate mode are NaN -/

namespace DiffeRT2d.Props
open Classical Spec Filter Topology

theorem library_same {ι : Type} {a : ℝ} {kw : Rev.ActKw ι} {kw' : ActKw} (h : LibraryActivation a kw kw') : SameKw kw kw' := by
  rcases h with ⟨rfl, rfl⟩ | ⟨rfl, rfl⟩ <;> exact fun _ => rfl

theorem library_tame {ι : Type} {a : ℝ} (ha : 0 < a) {kw : Rev.ActKw ι} {kw' : ActKw} (h : LibraryActivation a kw kw') : TameKw kw := by
  rcases h with ⟨rfl, rfl⟩ | ⟨rfl, rfl⟩
  · exact tameKw_sigmoid ha
  · exact tameKw_hardSigmoid ha

theorem library_lipschitz {ι : Type} {a : ℝ} (ha : 0 < a) {kw : Rev.ActKw ι} {kw' : ActKw} (h : LibraryActivation a kw kw') : LipschitzStep kw' := by
  rcases h with ⟨rfl, rfl⟩ | ⟨rfl, rfl⟩
  · exact (C86_steps a ha).1
  · exact (C86_steps a ha).2

theorem tameWall_const {ι : Type} {walls : List (Pt × Pt)} : ∀ w ∈ cwalls ι walls, TameWall w := by
  intro w hw
  obtain ⟨v, -, rfl⟩ := List.mem_map.mp hw
  exact ⟨⟨.const _, .const _⟩, ⟨.const _, .const _⟩⟩

theorem dwalls_const {ι : Type} (walls : List (Pt × Pt)) (c : List ℤ) : dwallsAt (cwalls ι walls) c = cwalls ι (wallsAt walls c) := by
  unfold dwallsAt cwalls wallsAt
  rw [List.map_filterMap]
  congr 1
  funext k
  rw [List.getElem?_map]

theorem normal_const {ι : Type} {walls : List (Pt × Pt)} (h : ∀ v ∈ walls, v.1 ≠ v.2) : ∀ w ∈ cwalls ι walls, TamePt w.normal := by
  intro w hw
  obtain ⟨v, hv, rfl⟩ := List.mem_map.mp hw
  refine normal_tame (tameWall_const _ hw) ?_
  intro e
  exact h v hv (V2.fin_inj.mp e)

theorem dpath_val {ι : Type} {tx rx : V2 (Rev ι)} {t r : Pt} (ht : Rev.valV tx = V2.fin t) (hr : Rev.valV rx = V2.fin r) {ws : List (Rev.RWall ι)} {vs : List (Pt × Pt)}
    (hv : List.Forall₂ ValWall ws vs) : (Rev.imagePath tx ws rx).xys.map Rev.valV = (rpath t r vs).map V2.fin := by
  rw [imagePath_xys]
  simp [rpath, dpts_val ht hr hv, ht, hr]

theorem imagePath_loss {ι : Type} (tx rx : V2 (Rev ι)) (ws : List (Rev.RWall ι)) :
    (Rev.imagePath tx ws rx).loss = Rev.pathLoss (.const 0) ws (Rev.imagePath tx ws rx).xys := by
  cases ws <;> rfl

theorem dpts_length {ι : Type} (img rx : V2 (Rev ι)) (ws : List (Rev.RWall ι)) : (dpts img rx ws).length = ws.length := by
  induction ws generalizing img with
  | nil => rfl
  | cons w ws ih => simp [dpts, ih]

/-- One turn of the loop, where the path does not stand still. -/
theorem turn_tame {ι X : Type} [NormedAddCommGroup X] [NormedSpace ℝ X] {e : ι → X} {x0 : X} {tx rx : V2 (Rev ι)} {t r : X → Pt}
    (ht : DifferentiatesPt e x0 tx t) (hr : DifferentiatesPt e x0 rx r) (walls : List (Pt × Pt)) {c : List ℤ} (hc : IsCandidate walls.length c)
    {E : Env} {ap : Option Bool} {kw : Rev.ActKw ι} (hk : TameKw kw) (tol patch : ℝ) (hp : c ≠ [] → NoPause (rpath (t x0) (r x0) (wallsAt walls c)))
    {valid : RevTruthy ι} (hv : (Rev.imagePath tx (dwallsAt (cwalls ι walls) c) rx).isValid E (cwalls ι walls) c (dwallsAt (cwalls ι walls) c) (F.fin tol) (F.fin patch) ap kw = .ok valid) :
    Tame valid.toF := by
  have hne : wallsAt walls c ≠ [] → c ≠ [] := by rintro h rfl; exact h rfl
  have hu : Unguarded (t x0) (r x0) (wallsAt walls c) := by
    by_cases h0 : c = []
    · subst h0; trivial
    · exact unguarded_of_noPause fun i a b ha hb => hp h0 (i + 1) a b ha hb
  have hm := dpath_unguarded ht hr (const_diff walls c (unguarded_ne hu)) (by simpa [Function.comp_def] using hu)
  have hpts : ∀ q ∈ (Rev.imagePath tx (dwallsAt (cwalls ι walls) c) rx).xys, TamePt q := by
    intro q hq
    obtain ⟨k, hk, rfl⟩ := List.getElem_of_mem hq
    have := hm.get hk (hm.length_eq ▸ hk)
    exact ⟨.of_diff this.1, .of_diff this.2⟩
  have hval := dpath_val ht.val hr.val (valV_at walls c (ι := ι))
  have hl : Tame (Rev.imagePath tx (dwallsAt (cwalls ι walls) c) rx).loss := by
    rw [imagePath_loss]
    refine pathLoss_tame ?_ hpts hval ?_ ?_ .const_zero
    · rw [dwalls_const]; exact normal_const (unguarded_ne hu)
    · rw [rpath_length, (valV_at (ι := ι) walls c).length_eq]
    · intro h
      refine hp ?_
      rintro rfl; exact h rfl
  refine isValid_tame hk tol patch ?_ hpts hl tameWall_const (fun w hw => ?_) hv
  · rw [imagePath_xys]; simp
  · rw [dwalls_const] at hw; exact tameWall_const w hw

/-- One turn of the loop, where the path stands still. -/
theorem turn_nans {ι : Type} {i : ι} {tx rx : V2 (Rev ι)} {t r : Pt} (ht : Rev.valV tx = V2.fin t) (hr : Rev.valV rx = V2.fin r)
    (hi : PassesPt i tx ∨ PassesPt i rx) (walls : List (Pt × Pt)) {c : List ℤ} (hc : IsCandidate walls.length c) (hc0 : c ≠ [])
    {E : Env} {ap : Option Bool} (hs : Soft E ap) {kw : Rev.ActKw ι} (hk : TameKw kw) (tol patch : F) (hp : ¬ NoPause (rpath t r (wallsAt walls c)))
    {valid : RevTruthy ι} (hv : (Rev.imagePath tx (dwallsAt (cwalls ι walls) c) rx).isValid E (cwalls ι walls) c (dwallsAt (cwalls ι walls) c) tol patch ap kw = .ok valid) :
    Nans i valid.toF := by
  refine isValid_nans hs hk ?_ hv
  rw [imagePath_loss]
  unfold NoPause at hp
  push Not at hp
  obtain ⟨k, a, b, ha, hb, hab⟩ := hp
  have hval := dpath_val ht hr (valV_at walls c (ι := ι))
  have get : ∀ (n : ℕ) (q : Pt), (rpath t r (wallsAt walls c))[n]? = some q →
      ∃ q', (Rev.imagePath tx (dwallsAt (cwalls ι walls) c) rx).xys[n]? = some q' ∧ Rev.valV q' = V2.fin q := by
    intro n q hq
    have := congrArg (·[n]?) hval
    simp only [List.getElem?_map, hq, Option.map_some] at this
    obtain ⟨q', h1, h2⟩ := Option.map_eq_some_iff.mp this
    exact ⟨q', h1, h2⟩
  obtain ⟨a', ha', hva⟩ := get k a ha
  obtain ⟨b', hb', hvb⟩ := get (k + 1) b hb
  have hlen : (dwallsAt (cwalls ι walls) c).length = c.length := by
    rw [(valV_at (ι := ι) walls c).length_eq, wallsAt_length hc]
  have hpos : 0 < c.length := List.length_pos_iff.mpr hc0
  refine pathLoss_nans ?_ ?_ ha' hb' ?_ ?_ _
  · intro h; rw [h] at hlen; simp at hlen; omega
  · rw [imagePath_xys]; simp [dpts_length]
  · have e : Rev.valV (b' - a') = Rev.valV b' - Rev.valV a' := rfl
    rw [e, hva, hvb, hab, V2.fin_sub]
    exact congrArg V2.fin (by ext <;> simp)
  · have hd := dpts_passes (dwallsAt (cwalls ι walls) c) hi
    rw [imagePath_xys] at ha' hb'
    have hmid : ∀ (n : ℕ) (q : V2 (Rev ι)), n < c.length → (tx :: dpts tx rx (dwallsAt (cwalls ι walls) c) ++ [rx])[n + 1]? = some q → PassesPt i q := by
      intro n q hn hq
      have hlt : n < (dpts tx rx (dwallsAt (cwalls ι walls) c)).length := by rw [dpts_length, hlen]; exact hn
      simp only [List.cons_append, List.getElem?_cons_succ, List.getElem?_append_left hlt] at hq
      exact hd _ (List.mem_of_getElem? hq)
    by_cases hk' : k < c.length
    · exact (hmid k b' hk' hb').sub_left
    · have hk1 : k = (c.length - 1) + 1 := by
        have := (List.getElem?_eq_some_iff.mp hb').1
        simp [dpts_length, hlen] at this
        omega
      rw [hk1] at ha'
      exact (hmid _ a' (by omega) ha').sub_right

theorem facc_tame {ι : Type} (v : Rev.ValidOpts ι) {tx rx : V2 (Rev ι)} {ws : List (Rev.RWall ι)} (f : List (V2 (Rev ι)) → Rev ι) (cs : List (List ℤ))
    (hc : ∀ c ∈ cs, ∀ i ∈ c, 0 ≤ i ∧ i < ws.length) {a d : Rev ι} (hd : Rev.facc v ws f tx rx a cs = .ok d)
    (h : ∀ c ∈ cs, ∀ valid, (Rev.imagePath tx (dwallsAt ws c) rx).isValid v.E ws c (dwallsAt ws c) v.tol v.patch v.approx v.kw = .ok valid →
      Tame valid.toF ∧ Tame (f (Rev.imagePath tx (dwallsAt ws c) rx).xys)) (ha : Tame a) : Tame d := by
  induction cs generalizing a with
  | nil => cases hd; exact ha
  | cons c cs ih =>
    simp only [Rev.facc] at hd
    rw [mapM_getObject ws c (hc c (by simp))] at hd
    simp only [Bind.bind, Except.bind] at hd
    cases hvd : (Rev.imagePath tx (dwallsAt ws c) rx).isValid v.E ws c (dwallsAt ws c) v.tol v.patch v.approx v.kw with
    | error err => rw [hvd] at hd; cases hd
    | ok valid =>
      rw [hvd] at hd
      obtain ⟨h1, h2⟩ := h c (by simp) valid hvd
      exact ih (fun c hc' => hc c (by simp [hc'])) hd (fun c hc' => h c (by simp [hc'])) (ha.add (h1.mul h2))

theorem facc_nans_valid {ι : Type} {i : ι} (v : Rev.ValidOpts ι) {tx rx : V2 (Rev ι)} {ws : List (Rev.RWall ι)} (f : List (V2 (Rev ι)) → Rev ι) (cs : List (List ℤ))
    (hc : ∀ c ∈ cs, ∀ i ∈ c, 0 ≤ i ∧ i < ws.length) {a d : Rev ι} (hd : Rev.facc v ws f tx rx a cs = .ok d)
    (h : Nans i a ∨ ∃ c ∈ cs, ∀ valid, (Rev.imagePath tx (dwallsAt ws c) rx).isValid v.E ws c (dwallsAt ws c) v.tol v.patch v.approx v.kw = .ok valid → Nans i valid.toF) :
    Nans i d := by
  induction cs generalizing a with
  | nil =>
    cases hd
    simpa using h
  | cons c cs ih =>
    simp only [Rev.facc] at hd
    rw [mapM_getObject ws c (hc c (by simp))] at hd
    simp only [Bind.bind, Except.bind] at hd
    cases hvd : (Rev.imagePath tx (dwallsAt ws c) rx).isValid v.E ws c (dwallsAt ws c) v.tol v.patch v.approx v.kw with
    | error err => rw [hvd] at hd; cases hd
    | ok valid =>
      rw [hvd] at hd
      refine ih (fun c hc' => hc c (by simp [hc'])) hd ?_
      rcases h with h | ⟨c', hc', h⟩
      · exact .inl h.add_left
      · rcases List.mem_cons.mp hc' with rfl | hc'
        · exact .inl (Nans.add_right (h valid hvd).mul_left)
        · exact .inr ⟨c', hc', h⟩

/-- The loop, at a position where every candidate is regular: the cotangents are real. -/
theorem facc_soft_tame {ι X : Type} [NormedAddCommGroup X] [NormedSpace ℝ X] {e : ι → X} {x0 : X} {tx rx : V2 (Rev ι)} {t r : X → Pt}
    (ht : DifferentiatesPt e x0 tx t) (hr : DifferentiatesPt e x0 rx r) (walls : List (Pt × Pt)) {E : Env} {ap : Option Bool} {kw : Rev.ActKw ι} (hk : TameKw kw)
    (tol patch coef height : ℝ) (hh : 0 < height) (cs : List (List ℤ)) (hc : ∀ c ∈ cs, IsCandidate walls.length c)
    (hreg : ∀ c ∈ cs, (c ≠ [] → NoPause (rpath (t x0) (r x0) (wallsAt walls c))) ∧ OffGuard E.eps (rpath (t x0) (r x0) (wallsAt walls c))) {d : Rev ι}
    (hd : Rev.facc ⟨E, F.fin tol, F.fin patch, ap, kw⟩ (cwalls ι walls) (Rev.receivedPower E (F.fin coef) (F.fin height)) tx rx (.const 0) cs = .ok d) : Tame d := by
  refine facc_tame _ _ cs (fun c hc' i hi => by simpa [cwalls] using (hc c hc').1 i hi) hd (fun c hc' valid hv => ⟨?_, ?_⟩) .const_zero
  · exact turn_tame ht hr walls (hc c hc') hk tol patch (hreg c hc').1 hv
  · have hu : Unguarded (t x0) (r x0) (wallsAt walls c) := by
      by_cases h0 : c = []
      · subst h0; trivial
      · exact unguarded_of_noPause fun i a b ha hb => (hreg c hc').1 h0 (i + 1) a b ha hb
    exact .of_diff (path_frozen ht hr walls c hu _ _ _ (C99_power E coef height hh) (hreg c hc').2)

/-- The loop, at a position where some candidate is not regular: NaN. -/
theorem facc_soft_nans {ι : Type} {i : ι} {tx rx : V2 (Rev ι)} {t r : Pt} (ht : Rev.valV tx = V2.fin t) (hr : Rev.valV rx = V2.fin r)
    (hi : PassesPt i tx ∨ PassesPt i rx) (walls : List (Pt × Pt)) {E : Env} {ap : Option Bool} (hs : Soft E ap) {kw : Rev.ActKw ι} (hk : TameKw kw)
    (tol patch : F) (coef height : F) (cs : List (List ℤ)) (hc : ∀ c ∈ cs, IsCandidate walls.length c) {d : Rev ι}
    (hd : Rev.facc ⟨E, tol, patch, ap, kw⟩ (cwalls ι walls) (Rev.receivedPower E coef height) tx rx (.const 0) cs = .ok d) {c : List ℤ} (hcc : c ∈ cs)
    (hbad : ¬ ((c ≠ [] → NoPause (rpath t r (wallsAt walls c))) ∧ OffGuard E.eps (rpath t r (wallsAt walls c)))) : Nans i d := by
  by_cases h : Unguarded t r (wallsAt walls c) ∧ OffGuard E.eps (rpath t r (wallsAt walls c))
  · have h0 : c ≠ [] ∧ ¬ NoPause (rpath t r (wallsAt walls c)) := by
      by_contra h'
      apply hbad
      refine ⟨fun hne => ?_, h.2⟩
      by_contra hn
      exact h' ⟨hne, hn⟩
    refine facc_nans_valid _ _ cs (fun c hc' i hi => by simpa [cwalls] using (hc c hc').1 i hi) hd (.inr ⟨c, hcc, fun valid hv => ?_⟩)
    exact turn_nans ht hr hi walls (hc c hcc) h0.1 hs hk tol patch h0.2 hv
  · exact facc_power_nans ht hr hi walls _ E coef height cs hc hd hcc h

theorem soft_valid {E : Env} {ap : Option Bool} (hs : Soft E ap) {kw' : ActKw} (hkw : LipschitzStep kw') (walls : List (Pt × Pt)) (tol patch : ℝ) :
    ∃ V : Pt → Pt → List ℤ → ℝ, ∀ t r c, IsCandidate walls.length c →
      ∃ valid, (finitePath (rpath t r (wallsAt walls c)) (scores (wallsAt walls c) (rpath t r (wallsAt walls c))).sum).isValid E
      ((wallsOf walls).map Obj.interact) c ((wallsOf (wallsAt walls c)).map Obj.interact) (F.fin tol) (F.fin patch) ap kw' = .ok valid ∧
      valid.toF = F.fin (V t r c) := by
  obtain ⟨⟨⟨f0, h1, h2, h3⟩, a, ha, e⟩, s, hsr, hl⟩ := hkw
  refine ⟨fun t r c => (fmValid (wallsAt walls c) walls c (rpath t r (wallsAt walls c)) (scores (wallsAt walls c) (rpath t r (wallsAt walls c))).sum tol patch).eval s,
    fun t r c hc => ⟨_, fmValid_soft hs hsr ?_ ?_ _ _ c _ _ tol patch (by rw [rpath_length, wallsAt_length hc]), rfl⟩⟩
  · show activation kw' F.pinf = _
    rw [activation, e]; exact (h3 a ha).1
  · show activation kw' F.ninf = _
    rw [activation, e]; exact (h3 a ha).2.1

/-- **C101.** The gradients of the received power in approximate mode, with respect to the receiver, are two real numbers at every position where
no path candidate with reflections has two equal consecutive points and no step is the opposite of the guard of `path_length`; otherwise both components are
NaN, although the value is finite. -/
theorem C101_receivers {Key : Type} (G : GraphLib) (hG : GraphContract G) (tx rx : PyDict Pt) (ht : Distinct tx) (walls : List (Pt × Pt))
    (lo hi : ℤ) (hlo : 0 ≤ lo) (hex : ∃ c, InRange walls.length lo hi c) (split : Key → ℕ → List Key) (key : Option Key)
    (E : Env) (ap : Option Bool) (hs : Soft E ap) (tol patch a : ℝ) (ha : 0 < a) (kw : Rev.ActKw Rev.Coord) (kw' : ActKw) (hk : LibraryActivation a kw kw')
    (coef height : ℝ) (hht : 0 < height) :
    ∃ (value : String × Pt → ℝ × ℝ → ℝ) (gradient : String × Pt → ℝ × ℝ → V2 F) (points : Pt → ℝ × ℝ → List ℤ → List Pt),
      (∀ r : ℝ × ℝ, (wallScene tx [("rx", ⟨r.1, r.2⟩)] walls).accumulateOverPaths G split (imageMethod Key) { minOrder := lo, maxOrder := hi }
        ⟨E, F.fin tol, F.fin patch, ap, kw'⟩ key (powerFun E coef height) = .ok (tx.map fun t => (t.1, "rx", F.fin (value t r)))) ∧
      (∀ (grad : Bool) (P : Scene.Grid (ℝ × ℝ)),
        Rev.accumulateOnReceiversGrid (wallScene tx rx walls) G { minOrder := lo, maxOrder := hi } ⟨E, F.fin tol, F.fin patch, ap, kw⟩ grad true
          (Rev.receivedPower E (F.fin coef) (F.fin height))
          (gridX P) (gridY P) = .ok (tx.map fun t => (t.1, .both (P.map fun row => row.map fun p => F.fin (value t p)) (P.map fun row => row.map (gradient t)))) ∧
        Rev.accumulateOnReceiversGrid (wallScene tx rx walls) G { minOrder := lo, maxOrder := hi } ⟨E, F.fin tol, F.fin patch, ap, kw⟩ true false
          (Rev.receivedPower E (F.fin coef) (F.fin height))
          (gridX P) (gridY P) = .ok (tx.map fun t => (t.1, .gradient (P.map fun row => row.map (gradient t))))) ∧
      (∀ t r c, ∃ loss, traceImage t (wallsAt walls c) ⟨r.1, r.2⟩ = .ok (finitePath (points t r c) loss)) ∧
      ∀ t ∈ tx, ∀ r : ℝ × ℝ,
        ((∀ c, InRange walls.length lo hi c → (c ≠ [] → NoPause (points t.2 r c)) ∧ OffGuard E.eps (points t.2 r c)) → ∃ g : Pt, gradient t r = V2.fin g) ∧
        ((∃ c, InRange walls.length lo hi c ∧ ¬ ((c ≠ [] → NoPause (points t.2 r c)) ∧ OffGuard E.eps (points t.2 r c))) → gradient t r = ⟨F.nan, F.nan⟩) := by
  obtain ⟨cs, hcs, hcd, hcm, hne⟩ := cands_walls G hG tx rx walls lo hi hlo hex
  have hcs' : ∀ tx rx, (wallScene tx rx walls).allPathCandidates G { minOrder := lo, maxOrder := hi } = .ok cs := by
    intro tx' rx'
    have : (wallScene tx' rx' walls).objects = (wallScene tx rx walls).objects := by rw [wallScene_objects, wallScene_objects]
    rw [← hcs]
    unfold Scene.allPathCandidates
    rw [this]
  obtain ⟨V, hV⟩ := soft_valid hs (library_lipschitz ha hk) walls tol patch
  obtain ⟨-, -, hsf⟩ := C98_parts (ι := Rev.Coord) (F.fin 1) E (F.fin coef) (F.fin height)
  have hR : ∀ (t : String × Pt) (p : ℝ × ℝ), _ := fun t p => facc_value (tx := Rev.constV (V2.fin t.2)) (rx := Rev.inputs ⟨F.fin p.1, F.fin p.2⟩) (t := t.2) (r := ⟨p.1, p.2⟩)
    rfl rfl walls (library_same hk) hsf (realFun_powerAlong E coef height hht) (V t.2 ⟨p.1, p.2⟩) cs (fun c hc => ((hcm c).mp hc).1)
    fun c hc => hV _ _ c ((hcm c).mp hc).1
  choose D hD1 hD2 using hR
  have hgrid := receivers_grid G tx rx ht walls lo hi cs hcs ⟨E, F.fin tol, F.fin patch, ap, kw⟩ _ D hD1
  refine ⟨fun t p => (cs.map fun c => V t.2 ⟨p.1, p.2⟩ c * powerAlong E.eps coef height (rpath t.2 ⟨p.1, p.2⟩ (wallsAt walls c))).sum,
    fun t p => ⟨(D t p).grad .x, (D t p).grad .y⟩, fun t p c => rpath t ⟨p.1, p.2⟩ (wallsAt walls c), ?_, ?_, ?_, ?_⟩
  · intro r
    have := accumulate_walls (Key := Key) G hG tx [("rx", ⟨r.1, r.2⟩)] ht (by simp [Distinct]) walls lo hi hlo cs (hcs' _ _) hcd hcm hne split key
      ⟨E, F.fin tol, F.fin patch, ap, kw'⟩ (powerFun E coef height) _ (realFun_powerAlong E coef height hht) V
      fun t _ r _ c hc => hV t.2 r.2 c ((hcm c).mp hc).1
    rw [this, product_single, List.map_map]
    rfl
  · intro grad P
    refine ⟨?_, ?_⟩
    · rw [hgrid]
      simp only [gridSel, if_true, hD2]
    · rw [hgrid]
      simp only [gridSel, if_true, Bool.false_eq_true, if_false]
  · exact fun t r c => ⟨_, traceImage_eq t ⟨r.1, r.2⟩ (wallsAt walls c)⟩
  · intro t htm r
    refine ⟨fun hgood => ?_, fun hbad => ?_⟩
    · obtain ⟨v, φ, -, h⟩ := facc_soft_tame (.const t.2) (inputs_diff r) walls (library_tame ha hk) tol patch coef height hht cs (fun c hc => ((hcm c).mp hc).1)
        (fun c hc => hgood c ((hcm c).mp hc)) (hD1 t r)
      refine ⟨⟨φ .x, φ .y⟩, ?_⟩
      simp only [Rev.grad, F.one_eq, h, one_mul]
      rfl
    · obtain ⟨c, hc, hb⟩ := hbad
      have hn : ∀ i, Nans i (D t r) := fun i => facc_soft_nans (t := t.2) (r := ⟨r.1, r.2⟩) rfl rfl (.inr (passes_inputs _ i)) walls hs (library_tame ha hk) _ _ _ _ cs
        (fun c hc => ((hcm c).mp hc).1) (hD1 t r) ((hcm c).mpr hc) hb
      simp only [Rev.grad, hn .x 1, hn .y 1]

/-- **C101.** The same with respect to the transmitter. -/
theorem C101_transmitters {Key : Type} (G : GraphLib) (hG : GraphContract G) (tx rx : PyDict Pt) (hr : Distinct rx) (walls : List (Pt × Pt))
    (lo hi : ℤ) (hlo : 0 ≤ lo) (hex : ∃ c, InRange walls.length lo hi c) (split : Key → ℕ → List Key) (key : Option Key)
    (E : Env) (ap : Option Bool) (hs : Soft E ap) (tol patch a : ℝ) (ha : 0 < a) (kw : Rev.ActKw Rev.Coord) (kw' : ActKw) (hk : LibraryActivation a kw kw')
    (coef height : ℝ) (hht : 0 < height) :
    ∃ (value : String × Pt → ℝ × ℝ → ℝ) (gradient : String × Pt → ℝ × ℝ → V2 F) (points : Pt → ℝ × ℝ → List ℤ → List Pt),
      (∀ t : ℝ × ℝ, (wallScene [("tx", ⟨t.1, t.2⟩)] rx walls).accumulateOverPaths G split (imageMethod Key) { minOrder := lo, maxOrder := hi }
        ⟨E, F.fin tol, F.fin patch, ap, kw'⟩ key (powerFun E coef height) = .ok (rx.map fun r => ("tx", r.1, F.fin (value r t)))) ∧
      (∀ (grad : Bool) (P : Scene.Grid (ℝ × ℝ)),
        Rev.accumulateOnTransmittersGrid (wallScene tx rx walls) G { minOrder := lo, maxOrder := hi } ⟨E, F.fin tol, F.fin patch, ap, kw⟩ grad true
          (Rev.receivedPower E (F.fin coef) (F.fin height))
          (gridX P) (gridY P) = .ok (rx.map fun r => (r.1, .both (P.map fun row => row.map fun p => F.fin (value r p)) (P.map fun row => row.map (gradient r)))) ∧
        Rev.accumulateOnTransmittersGrid (wallScene tx rx walls) G { minOrder := lo, maxOrder := hi } ⟨E, F.fin tol, F.fin patch, ap, kw⟩ true false
          (Rev.receivedPower E (F.fin coef) (F.fin height))
          (gridX P) (gridY P) = .ok (rx.map fun r => (r.1, .gradient (P.map fun row => row.map (gradient r))))) ∧
      (∀ r t c, ∃ loss, traceImage ⟨t.1, t.2⟩ (wallsAt walls c) r = .ok (finitePath (points r t c) loss)) ∧
      ∀ r ∈ rx, ∀ t : ℝ × ℝ,
        ((∀ c, InRange walls.length lo hi c → (c ≠ [] → NoPause (points r.2 t c)) ∧ OffGuard E.eps (points r.2 t c)) → ∃ g : Pt, gradient r t = V2.fin g) ∧
        ((∃ c, InRange walls.length lo hi c ∧ ¬ ((c ≠ [] → NoPause (points r.2 t c)) ∧ OffGuard E.eps (points r.2 t c))) → gradient r t = ⟨F.nan, F.nan⟩) := by
  obtain ⟨cs, hcs, hcd, hcm, hne⟩ := cands_walls G hG tx rx walls lo hi hlo hex
  have hcs' : ∀ tx rx, (wallScene tx rx walls).allPathCandidates G { minOrder := lo, maxOrder := hi } = .ok cs := by
    intro tx' rx'
    have : (wallScene tx' rx' walls).objects = (wallScene tx rx walls).objects := by rw [wallScene_objects, wallScene_objects]
    rw [← hcs]
    unfold Scene.allPathCandidates
    rw [this]
  obtain ⟨V, hV⟩ := soft_valid hs (library_lipschitz ha hk) walls tol patch
  obtain ⟨-, -, hsf⟩ := C98_parts (ι := Rev.Coord) (F.fin 1) E (F.fin coef) (F.fin height)
  have hR : ∀ (r : String × Pt) (p : ℝ × ℝ), _ := fun r p => facc_value (tx := Rev.inputs ⟨F.fin p.1, F.fin p.2⟩) (rx := Rev.constV (V2.fin r.2)) (t := ⟨p.1, p.2⟩) (r := r.2)
    rfl rfl walls (library_same hk) hsf (realFun_powerAlong E coef height hht) (V ⟨p.1, p.2⟩ r.2) cs (fun c hc => ((hcm c).mp hc).1)
    fun c hc => hV _ _ c ((hcm c).mp hc).1
  choose D hD1 hD2 using hR
  have hgrid := transmitters_grid G tx rx hr walls lo hi cs hcs ⟨E, F.fin tol, F.fin patch, ap, kw⟩ _ D hD1
  refine ⟨fun r p => (cs.map fun c => V ⟨p.1, p.2⟩ r.2 c * powerAlong E.eps coef height (rpath ⟨p.1, p.2⟩ r.2 (wallsAt walls c))).sum,
    fun r p => ⟨(D r p).grad .x, (D r p).grad .y⟩, fun r p c => rpath ⟨p.1, p.2⟩ r (wallsAt walls c), ?_, ?_, ?_, ?_⟩
  · intro t
    have := accumulate_walls (Key := Key) G hG [("tx", ⟨t.1, t.2⟩)] rx (by simp [Distinct]) hr walls lo hi hlo cs (hcs' _ _) hcd hcm hne split key
      ⟨E, F.fin tol, F.fin patch, ap, kw'⟩ (powerFun E coef height) _ (realFun_powerAlong E coef height hht) V
      fun t _ r _ c hc => hV t.2 r.2 c ((hcm c).mp hc).1
    rw [this, single_product, List.map_map]
    rfl
  · intro grad P
    refine ⟨?_, ?_⟩
    · rw [hgrid]
      simp only [gridSel, if_true, hD2]
    · rw [hgrid]
      simp only [gridSel, if_true, Bool.false_eq_true, if_false]
  · exact fun r t c => ⟨_, traceImage_eq ⟨t.1, t.2⟩ r (wallsAt walls c)⟩
  · intro r hrm t
    refine ⟨fun hgood => ?_, fun hbad => ?_⟩
    · obtain ⟨v, φ, -, h⟩ := facc_soft_tame (inputs_diff t) (.const r.2) walls (library_tame ha hk) tol patch coef height hht cs (fun c hc => ((hcm c).mp hc).1)
        (fun c hc => hgood c ((hcm c).mp hc)) (hD1 r t)
      refine ⟨⟨φ .x, φ .y⟩, ?_⟩
      simp only [Rev.grad, F.one_eq, h, one_mul]
      rfl
    · obtain ⟨c, hc, hb⟩ := hbad
      have hn : ∀ i, Nans i (D r t) := fun i => facc_soft_nans (t := ⟨t.1, t.2⟩) (r := r.2) rfl rfl (.inl (passes_inputs _ i)) walls hs (library_tame ha hk) _ _ _ _ cs
        (fun c hc => ((hcm c).mp hc).1) (hD1 r t) ((hcm c).mpr hc) hb
      simp only [Rev.grad, hn .x 1, hn .y 1]

/-! ### Where it happens -/

theorem rback_side {o d im pt : Pt} (h : o ≠ d) (hu : un o d im pt ≠ 0) : side o d (rback o d im pt) = 0 := by
  have h1 : un o d o (rback o d im pt) = 0 := rback_on hu
  rw [un_side h] at h1
  rw [← h1]
  simp [side]

theorem rback_fix {o d im pt : Pt} (h : o ≠ d) (hs : side o d pt = 0) : rback o d im pt = pt := by
  by_cases hu : un o d im pt = 0
  · exact rback_guard hu
  · have h1 : un o d pt o = 0 := by rw [un_side h, hs]; simp [side]
    have h2 : dp (o - pt) (rn o d) = 0 := h1
    rw [rback, if_neg hu, h2]
    ext <;> simp

/-- Two walls on one line have the same two sides. -/
theorem side_collinear {o d o' d' : Pt} (h' : o' ≠ d') (h1 : side o d o' = 0) (h2 : side o d d' = 0) {p : Pt} (hp : side o' d' p = 0) : side o d p = 0 := by
  unfold side at *
  have hne : (d'.x - o'.x) ^ 2 + (d'.y - o'.y) ^ 2 ≠ 0 := by
    intro e
    apply h'
    have e1 : d'.x - o'.x = 0 := by nlinarith [sq_nonneg (d'.x - o'.x), sq_nonneg (d'.y - o'.y)]
    have e2 : d'.y - o'.y = 0 := by nlinarith [sq_nonneg (d'.x - o'.x), sq_nonneg (d'.y - o'.y)]
    ext <;> linarith
  have : ((d'.x - o'.x) ^ 2 + (d'.y - o'.y) ^ 2) * ((d.x - o.x) * (p.y - o.y) - (d.y - o.y) * (p.x - o.x)) = 0 := by
    linear_combination ((d'.x - o'.x) ^ 2 + (d'.y - o'.y) ^ 2 - ((p.x - o'.x) * (d'.x - o'.x) + (p.y - o'.y) * (d'.y - o'.y))) * h1 +
      ((p.x - o'.x) * (d'.x - o'.x) + (p.y - o'.y) * (d'.y - o'.y)) * h2 + ((d.x - o.x) * (d'.x - o'.x) + (d.y - o.y) * (d'.y - o'.y)) * hp
  exact (mul_eq_zero.mp this).resolve_left hne

/-- A path over two walls on one line always stands still. -/
theorem pause_collinear (t r : Pt) {w w' : Pt × Pt} (hw : w.1 ≠ w.2) (hw' : w'.1 ≠ w'.2) (h1 : side w.1 w.2 w'.1 = 0) (h2 : side w.1 w.2 w'.2 = 0) :
    ¬ NoPause (rpath t r [w, w']) := by
  intro h
  by_cases hu : un w'.1 w'.2 (rimg w'.1 w'.2 (rimg w.1 w.2 t)) r = 0
  · refine h 2 _ _ rfl rfl ?_
    simp only [rpts, List.headD_nil]
    exact rback_guard hu
  · refine h 1 _ _ rfl rfl ?_
    simp only [rpts, List.headD_nil, List.headD_cons]
    exact rback_fix hw (side_collinear hw' h1 h2 (rback_side hw' hu))

/-- **C101.** In a scene with two walls on one line, and paths of order 2, every gradient of approximate mode is NaN, whatever the positions of the
transmitters and of the receiver. -/
theorem C101_collinear (G : GraphLib) (hG : GraphContract G) (tx rx : PyDict Pt) (ht : Distinct tx) (walls : List (Pt × Pt))
    (i j : ℕ) (hij : i ≠ j) (w w' : Pt × Pt) (hi' : walls[i]? = some w) (hj' : walls[j]? = some w') (hw : w.1 ≠ w.2) (hw' : w'.1 ≠ w'.2)
    (hline : side w.1 w.2 w'.1 = 0 ∧ side w.1 w.2 w'.2 = 0)
    (lo hi : ℤ) (hlo : 0 ≤ lo) (h2 : lo ≤ 2) (h2' : 2 ≤ hi)
    (E : Env) (ap : Option Bool) (hs : Soft E ap) (tol patch a : ℝ) (ha : 0 < a) (kw : Rev.ActKw Rev.Coord) (kw' : ActKw) (hk : LibraryActivation a kw kw')
    (coef height : ℝ) (hht : 0 < height) (P : Scene.Grid (ℝ × ℝ)) :
    Rev.accumulateOnReceiversGrid (wallScene tx rx walls) G { minOrder := lo, maxOrder := hi } ⟨E, F.fin tol, F.fin patch, ap, kw⟩ true false
      (Rev.receivedPower E (F.fin coef) (F.fin height)) (gridX P) (gridY P) =
      .ok (tx.map fun t => (t.1, .gradient (P.map fun row => row.map fun _ => ⟨F.nan, F.nan⟩))) := by
  have hli := (List.getElem?_eq_some_iff.mp hi').1
  have hlj := (List.getElem?_eq_some_iff.mp hj').1
  have hc : InRange walls.length lo hi [(i : ℤ), j] := by
    refine ⟨⟨?_, ?_⟩, by simpa using h2, by simpa using h2'⟩
    · intro k hk
      simp only [List.mem_cons, List.not_mem_nil, or_false] at hk
      rcases hk with rfl | rfl <;> constructor <;> omega
    · intro k a b ha hb
      match k with
      | 0 => simp at ha hb; omega
      | k + 1 => simp at hb
  have hat : wallsAt walls [(i : ℤ), j] = [w, w'] := by simp [wallsAt, hi', hj']
  obtain ⟨value, gradient, points, -, q2, q3, q4⟩ := C101_receivers (Key := Unit) G hG tx rx ht walls lo hi hlo ⟨_, hc⟩ (fun k _ => [k]) none E ap hs tol patch a ha kw kw' hk
    coef height hht
  have hg : ∀ t ∈ tx, ∀ r, gradient t r = ⟨F.nan, F.nan⟩ := by
    intro t htm r
    refine (q4 t htm r).2 ⟨_, hc, fun h => ?_⟩
    obtain ⟨loss, hl⟩ := q3 t.2 r [(i : ℤ), j]
    obtain ⟨e1, -⟩ := traceImage_iff hl
    have := h.1 (by simp)
    rw [e1, hat] at this
    exact pause_collinear _ _ hw hw' hline.1 hline.2 this
  rw [(q2 true P).2]
  congr 1
  refine List.map_congr_left fun t htm => ?_
  rw [show gradient t = fun _ => ⟨F.nan, F.nan⟩ from funext fun r => hg t htm r]

/-- **C101.** Two of the inner walls of `basic_scene` are on one line: with paths up to order 2, or more, its gradients in approximate mode are NaN everywhere. -/
theorem C101_basic_scene (G : GraphLib) (hG : GraphContract G) (tx rx : Pt)
    (hi : ℤ) (h2 : 2 ≤ hi) (E : Env) (ap : Option Bool) (hs : Soft E ap) (tol patch a : ℝ) (ha : 0 < a) (kw : Rev.ActKw Rev.Coord) (kw' : ActKw)
    (hk : LibraryActivation a kw kw') (coef height : ℝ) (hht : 0 < height) (P : Scene.Grid (ℝ × ℝ)) :
    Rev.accumulateOnReceiversGrid (Scene.basicScene (V2.fin tx) (V2.fin rx)) G { minOrder := 0, maxOrder := hi } ⟨E, F.fin tol, F.fin patch, ap, kw⟩ true false
      (Rev.receivedPower E (F.fin coef) (F.fin height)) (gridX P) (gridY P) =
      .ok [("tx", .gradient (P.map fun row => row.map fun _ => ⟨F.nan, F.nan⟩))] := by
  have hb : Scene.basicScene (V2.fin tx) (V2.fin rx) = wallScene [("tx", tx)] [("rx", rx)]
      [(⟨0, 0⟩, ⟨1, 0⟩), (⟨1, 0⟩, ⟨1, 1⟩), (⟨1, 1⟩, ⟨0, 1⟩), (⟨0, 1⟩, ⟨0, 0⟩), (⟨2 / 5, 0⟩, ⟨2 / 5, 2 / 5⟩), (⟨2 / 5, 2 / 5⟩, ⟨3 / 10, 2 / 5⟩), (⟨1 / 10, 2 / 5⟩, ⟨0, 2 / 5⟩)] := by
    unfold Scene.basicScene
    rw [lit_00, lit_10, lit_01, lit_03, lit_04]
    rfl
  rw [hb]
  exact C101_collinear G hG [("tx", tx)] [("rx", rx)] (by simp [Distinct]) _ 5 6 (by norm_num) (⟨2 / 5, 2 / 5⟩, ⟨3 / 10, 2 / 5⟩) (⟨1 / 10, 2 / 5⟩, ⟨0, 2 / 5⟩) rfl rfl
    (by simp; norm_num) (by simp) (by norm_num [side]) 0 hi le_rfl (by norm_num) h2 E ap hs tol patch a ha kw kw' hk coef height hht P

/-- Non-vacuity of C101: with one wall and the transmitter at `(0, 1)`, the gradient at `(2, 1)` is real, and the gradient at `(2, 0)`, on the wall, is NaN. -/
example (E : Env) (he : 0 < E.eps) (rx : PyDict Pt) : ∃ (gradient : ℝ × ℝ → V2 F),
    (∀ P : Scene.Grid (ℝ × ℝ), Rev.accumulateOnReceiversGrid (wallScene [("tx", ⟨0, 1⟩)] rx [(⟨0, 0⟩, ⟨3, 0⟩)]) refLib { minOrder := 0, maxOrder := 1 }
        ⟨E, F.fin (1 / 100), F.fin 0, some true, ⟨F.fin 100, Rev.hardSigmoid⟩⟩ true false (Rev.receivedPower E (F.fin (1 / 2)) (F.fin 1)) (gridX P) (gridY P) =
        .ok [("tx", .gradient (P.map fun row => row.map gradient))]) ∧
      (∃ g : Pt, gradient (2, 1) = V2.fin g) ∧ gradient (2, 0) = ⟨F.nan, F.nan⟩ := by
  obtain ⟨value, gradient, points, -, q2, q3, q5⟩ := C101_receivers (Key := ℕ) refLib refLib_contract [("tx", ⟨0, 1⟩)] rx (by simp [Distinct]) [(⟨0, 0⟩, ⟨3, 0⟩)]
    0 1 le_rfl ⟨[], by simp [InRange, IsCandidate]⟩ (fun k _ => [k]) none E (some true) (.inl rfl) (1 / 100) 0 100 (by norm_num) ⟨F.fin 100, Rev.hardSigmoid⟩ ⟨F.fin 100, hardSigmoid⟩
    (.inr ⟨rfl, rfl⟩) (1 / 2) 1 one_pos
  refine ⟨gradient ("tx", ⟨0, 1⟩), fun P => (q2 true P).2, ((q5 _ (by simp) (2, 1)).1 fun c hc => ?_), (q5 _ (by simp) (2, 0)).2 ⟨[0], by simp [InRange, IsCandidate], fun h => ?_⟩⟩
  · obtain ⟨loss, hl⟩ := q3 ⟨0, 1⟩ (2, 1) c
    obtain ⟨h1, -, h3⟩ := oneWall_regular E he c hc _ _ hl
    exact ⟨fun h => h1.moves h, h3⟩
  · obtain ⟨loss, hl⟩ := q3 ⟨0, 1⟩ (2, 0) [0]
    obtain ⟨e1, -⟩ := traceImage_iff hl
    have := h.1 (by simp)
    rw [e1] at this
    refine this 1 _ _ rfl rfl ?_
    show rback _ _ _ _ = _
    exact rback_fix (by simp) (by norm_num [side, rpts])

end DiffeRT2d.Props
