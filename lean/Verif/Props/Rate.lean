import Verif.Lemmas.Rate
import Verif.Props.Precision

/-! # Property C119: errors are proportional to the machine precision -/

namespace DiffeRT2d.Props
open Classical Spec Filter Topology Asymptotics

variable {ι : Type} {A : ι → FloatOps} {l : Filter ι} {ε : ι → ℝ} {E : ι → Env} {ap : Option Bool} {kw : ι → ActKw}

/-- **C119.** IEEE binary formats of growing precision round with errors of size `2 ^ -precision`. -/
theorem C119_formats {p : ι → ℕ} {emin emax : ι → ℤ} (hp : Tendsto p l atTop) (hx : Tendsto emax l atTop)
    (h4 : ∀ n, 4 ≤ p n) (h0 : ∀ n, emin n ≤ 0) (h3 : ∀ n, 3 ≤ emax n) :
    ErrsBy (fun n => ieee (p n) (emin n) (emax n)) l (fun n => 2 ^ (-(p n : ℤ))) := by
  have hq : Tendsto (fun n => (2 : ℝ) ^ (-(p n : ℤ))) l (𝓝 0) := by
    have := (tendsto_pow_atTop_nhds_zero_of_lt_one (r := (1 / 2 : ℝ)) (by norm_num) (by norm_num)).comp hp
    refine this.congr fun n => ?_
    simp [zpow_neg]
  refine ⟨fun n => ieee_contract (h4 n) (h0 n) (h3 n), fun n => (two_zpow_pos _).le, hq, fun M => ⟨max M 1, ?_⟩⟩
  filter_upwards [(ieee_becomes_exact hp hx h4 h0 h3).rnd M 1 one_pos] with n hn x hM
  obtain ⟨r, e, -⟩ := hn x hM
  refine ⟨r, e, ?_⟩
  have er : r = nearest (p n) (emin n) x := by
    simp only [ieee] at e
    split_ifs at e
    exact (F.fin.inj e).symm
  rw [er]
  exact (nearest_error _ _ _).trans (mul_le_mul_of_nonneg_right (max_le_max hM (zpow_le_one_of_nonpos₀ (by norm_num) (h0 n))) (two_zpow_pos _).le)

theorem errs_exact (h : ErrsBy A l ε) (hl : ∀ e : ℝ, 0 < e → ∀ᶠ n in l, ∀ x : ℝ, ∃ r, (A n).logistic (F.fin x) = F.fin r ∧ |r - 1 / (1 + Real.exp (-x))| < e) : BecomeExact A l := by
  refine ⟨h.contract, fun M e he => ?_, hl⟩
  obtain ⟨C, hC⟩ := h.rnd M
  have : Tendsto (fun n => C * ε n) l (𝓝 0) := by simpa using h.small.const_mul C
  filter_upwards [hC, this.eventually_lt_const he] with n h1 h2 x hx
  obtain ⟨r, e1, e2⟩ := h1 x hx
  exact ⟨r, e1, e2.trans_lt h2⟩

theorem storedPair_off (h : ErrsBy A l ε) {w : Pt × Pt} (hw : w.1 ≠ w.2) : WallOff l ε (storedPair A w).1 (storedPair A w).2 :=
  ⟨OffBy.store h w.1, OffBy.store h w.2, hw⟩

/-- The data of a path that is computed more and more precisely. -/
theorem path_off (h : ErrsBy A l ε) (t r : Pt) {walls : List (Pt × Pt)} (hw : ∀ w ∈ walls, w.1 ≠ w.2) (c : List ℤ)
    (hm : c ≠ [] → NoPause (rpath t r (wallsAt walls c))) :
    ∃ (P : List (ι → V2 F)) (L : ι → F), List.Forall₂ (OffByPt l ε) P (rpath t r (wallsAt walls c)) ∧
      OffBy l ε L (scores (wallsAt walls c) (rpath t r (wallsAt walls c))).sum ∧
      ∀ n, (A n).imagePath (store (A n) t) ((wallsAt walls c).map (storeWall (A n))) (store (A n) r) = ⟨P.map (· n), L n⟩ := by
  set ws := wallsAt walls c with hws
  have hne : ws ≠ [] → c ≠ [] := by rintro h' rfl; exact h' rfl
  have hW : List.Forall₂ (WallOff l ε) (ws.map fun w => (storedPair A w).1) ws := by
    have : ∀ v : List (Pt × Pt), (∀ w ∈ v, w.1 ≠ w.2) → List.Forall₂ (WallOff l ε) (v.map fun w => (storedPair A w).1) v := by
      intro v
      induction v with
      | nil => intro _; exact .nil
      | cons w v ih => intro hv; exact .cons (storedPair_off h (hv w (by simp))) (ih fun w hw => hv w (by simp [hw]))
    exact this _ fun w hw' => hw w (wallsAt_mem hw')
  have hP := cpath_off h (OffBy.store h t) (OffBy.store h r) hW fun h' => hm (hne h')
  have hz : OffBy l ε (fun _ => (0 : F)) 0 := by simpa using OffBy.const h 0
  have hL := loss_off h hW hP (by rw [rpath_length]) (fun h' => hm (hne h')) hz
  rw [zero_add] at hL
  refine ⟨_, fun n => ((A n).imagePath (store (A n) t) (ws.map (storeWall (A n))) (store (A n) r)).loss, hP, ?_, fun n => ?_⟩
  · refine hL.congr' (.of_forall fun n => ?_)
    have e : (ws.map fun w => (storedPair A w).1).map (· n) = ws.map (storeWall (A n)) := by rw [List.map_map]; rfl
    rw [cpath_at, e]
    generalize ws.map (storeWall (A n)) = v
    cases v <;> rfl
  · have e : (ws.map fun w => (storedPair A w).1).map (· n) = ws.map (storeWall (A n)) := by rw [List.map_map]; rfl
    rw [cpath_at, e]

/-- The length. -/
theorem length_off (h : ErrsBy A l ε) (hE : (fun n => (E n).eps) =O[l] ε) {P : List (ι → V2 F)} {pts : List Pt} (hP : List.Forall₂ (OffByPt l ε) P pts) (hm : NoPause pts) :
    OffBy l ε (fun n => (A n).pathLength (E n) (P.map (· n))) (polyLength pts) := by
  have key : ∀ {P : List (ι → V2 F)} {pts : List Pt}, List.Forall₂ (OffByPt l ε) P pts → NoPause pts → ∀ {f : ι → F} {x : ℝ}, OffBy l ε f x →
      OffBy l ε (fun n => (List.zipWith (fun q p => (A n).vnorm ((A n).vadd ((A n).vsub q p) ⟨F.fin (E n).eps, F.fin (E n).eps⟩)) (P.map (· n)).tail (P.map (· n))).foldl (A n).add (f n))
        (x + polyLength pts) := by
    intro P pts hP
    induction hP with
    | nil => intro _ f x hf; simpa [polyLength] using hf
    | @cons a p Ps ps h1 hr ih =>
      cases hr with
      | nil => intro _ f x hf; simpa [polyLength] using hf
      | @cons b q Ps ps h2 hr =>
        intro hm f x hf
        have he : OffByPt l ε (fun n => (⟨F.fin (E n).eps, F.fin (E n).eps⟩ : V2 F)) ⟨0, 0⟩ :=
          ⟨(offBy_iff h.pos).mpr ⟨_, .of_forall fun _ => rfl, by simpa using hE⟩, (offBy_iff h.pos).mpr ⟨_, .of_forall fun _ => rfl, by simpa using hE⟩⟩
        have hpq : p ≠ q := hm 0 p q rfl rfl
        have hne : q - p + ⟨0, 0⟩ ≠ (⟨0, 0⟩ : Pt) := by
          intro e
          apply hpq
          have e1 : q.x - p.x + 0 = 0 := congrArg V2.x e
          have e2 : q.y - p.y + 0 = 0 := congrArg V2.y e
          ext <;> linarith
        have := ih (fun i a b ha hb => hm (i + 1) a b ha hb) (hf.add h (((h2.sub h h1).add h he).norm h hne))
        have e : nrm (q - p + ⟨0, 0⟩) = eucl p q := by
          have e1 : (q - p + (⟨0, 0⟩ : Pt)).x = q.x - p.x + 0 := rfl
          have e2 : (q - p + (⟨0, 0⟩ : Pt)).y = q.y - p.y + 0 := rfl
          rw [nrm, eucl, e1, e2]; congr 1; ring
        rw [e] at this
        simp only [polyLength, ← add_assoc]
        simpa only [List.map_cons, List.tail_cons, List.zipWith_cons_cons, List.foldl_cons] using this
  have := key hP hm (f := fun _ => 0) (x := 0) (by simpa using OffBy.const h 0)
  rw [zero_add] at this
  exact this

/-- **C119.** The points, the loss and the length of a path computed by the image method are off from the exact ones by at most a
constant times the size `ε` of the rounding errors, if the walls have a non-zero length and the exact path does not pause; the guard of
`path_length` is of the same size. -/
theorem C119_path (h : ErrsBy A l ε) (t r : Pt) (walls : List (Pt × Pt)) (hw : ∀ w ∈ walls, w.1 ≠ w.2) (c : List ℤ)
    (pts : List Pt) (loss : ℝ) (htr : traceImage t (wallsAt walls c) r = .ok (finitePath pts loss)) (hm : NoPause pts)
    (E : ι → Env) (K : ℝ) (he : ∀ n, |(E n).eps| ≤ K * ε n) :
    let path n := (A n).imagePath (store (A n) t) (FloatOps.interacting (walls.map (storeWall (A n))) c) (store (A n) r)
    OffByPts l ε (fun n => (path n).xys) pts ∧ OffBy l ε (fun n => (path n).loss) loss ∧
      OffBy l ε (fun n => (A n).pathLength (E n) (path n).xys) (polyLength pts) := by
  rw [traceImage_eq] at htr
  obtain ⟨rfl, rfl⟩ := finitePath_inj (Except.ok.inj htr)
  obtain ⟨P, L, h1, h2, h3⟩ := path_off h t r hw c fun _ => hm
  intro path
  have e3 : ∀ n, path n = ⟨P.map (· n), L n⟩ := fun n => by simp only [path, interacting_store, h3]
  have hE : (fun n => (E n).eps) =O[l] ε := IsBigO.of_bound K (.of_forall fun n => by
    rw [Real.norm_eq_abs, Real.norm_eq_abs, abs_of_nonneg (h.pos n)]; exact he n)
  refine ⟨⟨P, fun n => congrArg Path.xys (e3 n), h1⟩, h2.congr' (.of_forall fun n => by rw [e3]), ?_⟩
  exact (length_off h hE h1 hm).congr' (.of_forall fun n => by rw [e3])

/-- `received_power`. -/
theorem power_off (h : ErrsBy A l ε) {P : List (ι → V2 F)} {pts : List Pt} (hP : List.Forall₂ (OffByPt l ε) P pts) (hm : NoPause pts) (L : ι → F)
    (hE : (fun n => (E n).eps) =O[l] ε) {coef height : ℝ} (hh : 0 < height) :
    OffBy l ε (fun n => (A n).receivedPower (E n) ⟨P.map (· n), L n⟩ ((A n).rnd coef) ((A n).rnd height)) (exactPower coef height pts) := by
  have hc := OffBy.rnd h coef
  have hH := OffBy.rnd h height
  have hr := length_off h hE hP hm
  have hpow : ∀ k : ℕ, OffBy l ε (fun n => (A n).power ((A n).rnd coef) k) (coef ^ k) := by
    intro k
    induction k with
    | zero => simpa [FloatOps.power] using OffBy.const h 1
    | succ k ih => rw [pow_succ]; exact ih.mul h hc
  have hd := (hH.mul h hH).add h (hr.mul h hr)
  have := (hpow (pts.length - 2)).div h hd (by have := mul_self_nonneg (polyLength pts); positivity)
  rw [exactPower, pow_two, pow_two]
  refine this.congr' (.of_forall fun n => ?_)
  simp only [FloatOps.receivedPower, List.length_map, hP.length_eq]

/-- The sum over the candidates. -/
theorem accumulate_off (h : ErrsBy A l ε) (t r : Pt) {walls : List (Pt × Pt)} (hw : ∀ w ∈ walls, w.1 ≠ w.2)
    (hE : (fun n => (E n).eps) =O[l] ε) {coef height : ℝ} (hh : 0 < height) (T Q : ι → F) (rv : List ℤ → ℝ) (cs : List (List ℤ))
    (hv : ∀ c ∈ cs, NoPause (rpath t r (wallsAt walls c)) ∧ ∃ V : ι → Truthy, OffBy l ε (fun n => (V n).toF) (rv c) ∧
      ∀ᶠ n in l, (A n).validity (E n) (store (A n) t) (store (A n) r) (walls.map (storeWall (A n))) c (T n) (Q n) ap (kw n) = .ok (V n))
    {acc : ι → F} {a : ℝ} (ha : OffBy l ε acc a) :
    ∃ f : ι → F, (∀ᶠ n in l, (A n).accumulate (E n) (store (A n) t) (store (A n) r) (walls.map (storeWall (A n))) (T n) (Q n) ap (kw n)
        ((A n).rnd coef) ((A n).rnd height) (acc n) cs = .ok (f n)) ∧
      OffBy l ε f (a + (cs.map fun c => rv c * exactPower coef height (rpath t r (wallsAt walls c))).sum) := by
  induction cs generalizing acc a with
  | nil => exact ⟨acc, .of_forall fun n => rfl, by simpa using ha⟩
  | cons c cs ih =>
    obtain ⟨hm, V, hV, hV'⟩ := hv c (by simp)
    obtain ⟨P, L, h1, h2, h3⟩ := path_off h t r hw c fun _ => hm
    obtain ⟨f, f1, f2⟩ := ih (fun c hc => hv c (by simp [hc])) (ha.add h (hV.mul h (power_off h h1 hm L hE (coef := coef) hh)))
    refine ⟨f, ?_, by simpa [add_assoc] using f2⟩
    filter_upwards [f1, hV'] with n e1 e2
    rw [FloatOps.accumulate, e2]
    show FloatOps.accumulate _ _ _ _ _ _ _ _ _ _ _ _ _ = _
    rw [interacting_store, h3]
    exact e1

theorem guardedLength_zero (pts : List Pt) : guardedLength 0 pts = polyLength pts := by
  induction pts with
  | nil => rfl
  | cons a ps ih =>
    cases ps with
    | nil => rfl
    | cons b ps => rw [guardedLength, polyLength, ih]; simp

theorem exactPower_eq (coef height : ℝ) (pts : List Pt) : powerAlong 0 coef height pts = exactPower coef height pts := by
  rw [powerAlong, exactPower, guardedLength_zero]

/-- **C119.** In hard mode, the power that `accumulate_over_paths` computes is off from that of exact arithmetic (without guard) by at
most a constant times `ε`, for every transmitter and every receiver, if no receiver is at a transmitter and the exact paths are regular
and generic. -/
theorem C119_field {Key : Type} (h : ErrsBy A l ε) (hl : BecomeExact A l) (G : GraphLib) (hG : GraphContract G) (tx rx : PyDict Pt) (ht : Distinct tx) (hr : Distinct rx)
    (htr : ∀ t ∈ tx, ∀ r ∈ rx, t.2 ≠ r.2)
    (walls : List (Pt × Pt)) (hw : ∀ w ∈ walls, w.1 ≠ w.2) (lo hi : ℤ) (hlo : 0 ≤ lo) (hex : ∃ c, InRange walls.length lo hi c)
    (split : Key → ℕ → List Key) (key : Option Key) (tol patch : ℝ) (hp : -(1 / 2) < patch) (coef height : ℝ) (hH : 0 < height)
    (hreg : ∀ t ∈ tx, ∀ r ∈ rx, ∀ c, InRange walls.length lo hi c → ∀ pts loss, traceImage t.2 (wallsAt walls c) r.2 = .ok (finitePath pts loss) →
      RegularPath walls c pts ∧ Generic (wallsAt walls c) walls c pts loss tol patch)
    (hh : ∀ n, Hard (E n) ap) (K : ℝ) (he : ∀ n, |(E n).eps| ≤ K * ε n) (E0 : Env) (hh0 : Hard E0 ap) (he0 : E0.eps = 0) (kw0 : ActKw) :
    ∃ (cs : List (List ℤ)) (value : String × Pt → String × Pt → ℝ),
      (wallScene tx rx walls).allPathCandidates G { minOrder := lo, maxOrder := hi } = .ok cs ∧
      (wallScene tx rx walls).accumulateOverPaths G split (imageMethod Key) { minOrder := lo, maxOrder := hi }
        ⟨E0, F.fin tol, F.fin patch, ap, kw0⟩ key (powerFun E0 coef height) = .ok ((tx ×ˢ rx).map fun p => (p.1.1, p.2.1, F.fin (value p.1 p.2))) ∧
      ∀ p ∈ tx ×ˢ rx, ∃ f : ι → F, (∀ᶠ n in l, (A n).accumulate (E n) (store (A n) p.1.2) (store (A n) p.2.2) (walls.map (storeWall (A n)))
          ((A n).rnd tol) ((A n).rnd patch) ap (kw n) ((A n).rnd coef) ((A n).rnd height) 0 cs = .ok (f n)) ∧ OffBy l ε f (value p.1 p.2) := by
  obtain ⟨cs, hcs, hcd, hcm, hne⟩ := cands_walls G hG tx rx walls lo hi hlo hex
  have hE : (fun n => (E n).eps) =O[l] ε := IsBigO.of_bound K (.of_forall fun n => by
    rw [Real.norm_eq_abs, Real.norm_eq_abs, abs_of_nonneg (h.pos n)]; exact he n)
  let ok : Pt → Pt → List ℤ → Bool := fun t r c => decide (HardOk (wallsAt walls c) walls c (rpath t r (wallsAt walls c)) (scores (wallsAt walls c) (rpath t r (wallsAt walls c))).sum tol patch)
  refine ⟨cs, fun t r => (cs.map fun c => (if ok t.2 r.2 c = true then 1 else 0) * powerAlong E0.eps coef height (rpath t.2 r.2 (wallsAt walls c))).sum, hcs, ?_, ?_⟩
  · refine accumulate_walls G hG tx rx ht hr walls lo hi hlo cs hcs hcd hcm hne split key _ _ _ (realFun_powerAlong E0 coef height hH) (fun t r c => if ok t r c = true then 1 else 0) ?_
    intro t ht' r hr' c hc
    have hc' := (hcm c).mp hc
    refine ⟨_, isValid_hardOk hh0 kw0 (wallsAt walls c) walls c _ _ tol patch (by rw [rpath_length, wallsAt_length hc'.1]), ?_⟩
    show Truthy.toF (.b (ok t.2 r.2 c)) = _
    cases ok t.2 r.2 c <;> simp [Truthy.toF]
  · intro p hp'
    obtain ⟨hp1, hp2⟩ := List.mem_product.mp hp'
    have hz : OffBy l ε (fun _ => (0 : F)) 0 := by simpa using OffBy.const h 0
    have := accumulate_off (E := E) (ap := ap) (kw := kw) h p.1.2 p.2.2 hw hE (coef := coef) hH (fun n => (A n).rnd tol) (fun n => (A n).rnd patch)
      (fun c => if ok p.1.2 p.2.2 c = true then 1 else 0) cs ?_ hz
    · rw [he0]
      simp only [exactPower_eq]
      simpa only [zero_add] using this
    intro c hc
    have hc' := (hcm c).mp hc
    obtain ⟨hR, hg⟩ := hreg p.1 hp1 p.2 hp2 c hc' _ _ (traceImage_eq _ _ _)
    refine ⟨?_, fun _ => .b (ok p.1.2 p.2.2 c), ?_, ?_⟩
    · by_cases hc0 : c = []
      · subst hc0
        intro i a b ha hb
        have e : rpath p.1.2 p.2.2 (wallsAt walls []) = [p.1.2, p.2.2] := rfl
        rw [e] at ha hb
        match i with
        | 0 =>
          simp only [List.getElem?_cons_zero, Option.some.injEq, zero_add, List.getElem?_cons_succ] at ha hb
          rw [← ha, ← hb]; exact htr p.1 hp1 p.2 hp2
        | i + 1 => simp at hb
      · exact hR.moves hc0
    · refine (OffBy.const h _).congr' (.of_forall fun n => ?_)
      cases ok p.1.2 p.2.2 c <;> simp [Truthy.toF]
    · obtain ⟨b, b1, b2⟩ := C114_valid (kw := kw) hl p.1.2 p.2.2 walls hw c hc'.1 _ _ (traceImage_eq _ _ _) tol patch hp hR hg hh E0 hh0 kw0
      rw [isValid_hardOk hh0 kw0 _ _ c _ _ tol patch (by rw [rpath_length, wallsAt_length hc'.1])] at b1
      have : ok p.1.2 p.2.2 c = b := by simpa using b1
      rw [this]; exact b2

/-- The hypotheses hold: a direct path and a wall that reflects, seen by formats of growing precision. -/
example : ErrsBy (fun n : ℕ => ieee (n + 4) 0 (n + 3)) atTop (fun n => 2 ^ (-((n + 4 : ℕ) : ℤ))) ∧
    BecomeExact (fun n : ℕ => ieee (n + 4) 0 (n + 3)) atTop ∧
    (∀ w ∈ [((⟨0, 0⟩, ⟨3, 0⟩) : Pt × Pt)], w.1 ≠ w.2) ∧ (⟨0, 1⟩ : Pt) ≠ ⟨2, 1⟩ ∧
    (∀ n : ℕ, |(2 : ℝ) ^ (-((n + 4 : ℕ) : ℤ))| ≤ 1 * 2 ^ (-((n + 4 : ℕ) : ℤ))) ∧
    ∀ c, InRange 1 0 1 c → ∀ pts loss, traceImage ⟨0, 1⟩ (wallsAt [(⟨0, 0⟩, ⟨3, 0⟩)] c) ⟨2, 1⟩ = .ok (finitePath pts loss) →
      RegularPath [(⟨0, 0⟩, ⟨3, 0⟩)] c pts ∧ Generic (wallsAt [(⟨0, 0⟩, ⟨3, 0⟩)] c) [(⟨0, 0⟩, ⟨3, 0⟩)] c pts loss (1 / 100) 0 := by
  have hp : Tendsto (fun n : ℕ => n + 4) atTop atTop := tendsto_add_atTop_nat 4
  have hx : Tendsto (fun n : ℕ => ((n : ℤ) + 3)) atTop atTop := (tendsto_natCast_atTop_atTop (R := ℤ)).atTop_add tendsto_const_nhds
  refine ⟨C119_formats hp hx (by simp) (by simp) (by simp), C114_formats hp hx (by simp) (by simp) (by simp), exWall_ne, by simp, fun n => ?_, fun c hc pts loss htr => ?_⟩
  · rw [one_mul, abs_of_pos (two_zpow_pos _)]
  · obtain ⟨h1, h2, -⟩ := oneWall_regular ⟨false, 1⟩ one_pos c hc pts loss htr
    exact ⟨h1, h2⟩

end DiffeRT2d.Props
