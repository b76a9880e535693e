import Verif.Spec.Fields
import Verif.Props.Specular
import Verif.Props.Generic
import Verif.Props.Laws
import Verif.Props.Accumulate
import Verif.Props.Presets

/-! # Properties C80–C83: values accumulated over the paths of a scene of walls -/

namespace DiffeRT2d.Props
open Classical Spec Filter

/-- `received_power` is a real function. -/
theorem realFun_power (E : Env) (c height : ℝ) (hh : 0 < height) :
    RealFun (powerFun E c height) fun _ _ pts => c ^ (pts.length - 2) / (height ^ 2 + plen E.eps pts ^ 2) := by
  intro t r pts loss os h2
  obtain ⟨L, hL, -, h⟩ := C68_value E (V2.fin t) (V2.fin r) (os.map Obj.interact) pts (F.fin loss) h2 c height hh
  have e : (Path.mk (pts.map V2.fin) (F.fin loss)).length E = F.fin (plen E.eps pts) := pathLength_fin E pts
  rw [hL] at e
  obtain rfl := F.fin.inj e
  exact h

/-- The real form of `accumulate_over_paths` in a scene of walls with the image method. -/
theorem accumulate_walls {Key : Type} (G : GraphLib) (hG : GraphContract G) (tx rx : PyDict Pt)
    (ht : Distinct tx) (hr : Distinct rx) (walls : List (Pt × Pt)) (lo hi : ℤ) (hlo : 0 ≤ lo)
    (cs : List (List ℤ)) (hcs : (wallScene tx rx walls).allPathCandidates G { minOrder := lo, maxOrder := hi } = .ok cs)
    (hcd : cs.Nodup) (hcm : ∀ c, c ∈ cs ↔ InRange walls.length lo hi c) (hne : cs ≠ [])
    (split : Key → ℕ → List Key) (key : Option Key) (v : Scene.ValidOpts) (f : Scene.PathFun) (g : Pt → Pt → List Pt → ℝ)
    (hf : RealFun f g) (rv : Pt → Pt → List ℤ → ℝ)
    (hv : ∀ t ∈ tx, ∀ r ∈ rx, ∀ c ∈ cs, ∃ valid,
      (finitePath (rpath t.2 r.2 (wallsAt walls c)) (scores (wallsAt walls c) (rpath t.2 r.2 (wallsAt walls c))).sum).isValid v.E ((wallsOf walls).map Obj.interact) c ((wallsOf (wallsAt walls c)).map Obj.interact) v.tol v.patch v.approx v.kw = .ok valid ∧
      valid.toF = F.fin (rv t.2 r.2 c)) :
    (wallScene tx rx walls).accumulateOverPaths G split (imageMethod Key) { minOrder := lo, maxOrder := hi } v key f =
      .ok ((tx ×ˢ rx).map fun p => (p.1.1, p.2.1,
        F.fin ((cs.map fun c => rv p.1.2 p.2.2 c * g p.1.2 p.2.2 (rpath p.1.2 p.2.2 (wallsAt walls c))).sum))) := by
  set s := wallScene tx rx walls with hs
  have hfin : ∀ d : PyDict Pt, Distinct d → Distinct (finPoints d) := by
    intro d hd; simpa [Distinct, finPoints, Function.comp_def] using hd
  have e1 : s.transmitters = .fromMapping (finPoints tx) := rfl
  have e2 : s.receivers = .fromMapping (finPoints rx) := rfl
  have hS : IsScene s := ⟨⟨_, hfin tx ht, e1⟩, ⟨_, hfin rx hr, e2⟩⟩
  have hobj : s.objects = wallsOf walls := wallScene_objects tx rx walls
  obtain ⟨ts, hts⟩ := C56_image_total G hG Key s hS (by
    intro o ho; rw [hobj] at ho
    obtain ⟨w, -, rfl⟩ := List.mem_map.mp ho; exact ⟨_, rfl⟩) { minOrder := lo, maxOrder := hi } hlo split key v
  obtain ⟨m1, -, -⟩ := traversal_mem G hG s _ _ (hfin tx ht) (hfin rx hr) e1 e2 { minOrder := lo, maxOrder := hi } hlo split key cs hcs hcd
    (imageMethod Key) v ts hts
  rw [C58_entries G hG s _ _ (hfin tx ht) (hfin rx hr) e1 e2 { minOrder := lo, maxOrder := hi } hlo cs hcs hne split key (imageMethod Key) v f, hts]
  show Except.ok _ = Except.ok _
  congr 1
  have hprod : finPoints tx ×ˢ finPoints rx = (tx ×ˢ rx).map fun e => ((e.1.1, V2.fin e.1.2), (e.2.1, V2.fin e.2.2)) :=
    product_map (fun kv : String × Pt => (kv.1, V2.fin kv.2)) (fun kv : String × Pt => (kv.1, V2.fin kv.2)) tx rx
  have key1 : ∀ (d : PyDict Pt), Distinct d → ∀ (n : String) (p : Pt) (q : V2 F), (n, p) ∈ d → (n, q) ∈ finPoints d → q = V2.fin p := by
    intro d hd n p q hp hq
    obtain ⟨⟨n', p'⟩, hm, he⟩ := List.mem_map.mp hq
    simp only [Prod.mk.injEq] at he
    obtain ⟨rfl, rfl⟩ := he
    have := List.inj_on_of_nodup_map hd hp hm rfl
    simp only [Prod.mk.injEq, true_and] at this
    rw [this]
  rw [hprod]
  show List.map _ (List.map _ _) = _
  rw [List.map_map]
  apply List.map_congr_left
  rintro ⟨⟨tn, t⟩, ⟨rn, r⟩⟩ hp
  obtain ⟨hp1, hp2⟩ := List.mem_product.mp hp
  simp only [Function.comp]
  congr 2
  have hterms := C58_terms G s _ _ (hfin tx ht) (hfin rx hr) e1 e2 { minOrder := lo, maxOrder := hi } cs hcs split key (imageMethod Key) v ts hts
    ((tn, V2.fin t), (rn, V2.fin r)) (by rw [hprod]; exact List.mem_map.mpr ⟨_, hp, rfl⟩)
  have hw : (ts.filter fun x => (x.tx, x.rx) = (tn, rn)).map (weighted s f (V2.fin t) (V2.fin r)) =
      ((ts.filter fun x => (x.tx, x.rx) = (tn, rn)).map (·.candidate)).map fun c => F.fin (rv t r c * g t r (rpath t r (wallsAt walls c))) := by
    rw [List.map_map]
    apply List.map_congr_left
    intro x hx
    obtain ⟨hx, hnm⟩ := List.mem_filter.mp hx
    simp only [Prod.mk.injEq, decide_eq_true_eq] at hnm
    obtain ⟨k, t', r', ht', hr', hc', htr⟩ := m1 x hx
    rw [hnm.1] at ht'
    rw [hnm.2] at hr'
    obtain rfl := key1 tx ht tn t t' hp1 ht'
    obtain rfl := key1 rx hr rn r r' hp2 hr'
    obtain ⟨g1, g2⟩ := htr
    rw [hobj, objectsAt_walls] at g2
    have g1' : traceImage t (wallsAt walls x.candidate) r = .ok x.path := by
      rw [objectsAt_walls] at g1; exact g1
    rw [traceImage_eq] at g1'
    have hpath := Except.ok.inj g1'
    obtain ⟨valid, hv1, hv2⟩ := hv _ hp1 _ hp2 x.candidate hc'
    rw [← hpath, hv1] at g2
    obtain rfl := Except.ok.inj g2.symm
    simp only [Function.comp, weighted, hv2, ← hpath]
    rw [hf t r _ _ _ (by rw [rpath_length]; omega), F.fin_mul]
  simp only at hterms
  rw [hw, hterms, ← F.sum_fin, List.map_map]
  rfl

/-- Some candidate is in range, so the list of candidates is not empty. -/
theorem cands_walls (G : GraphLib) (hG : GraphContract G) (tx rx : PyDict Pt) (walls : List (Pt × Pt)) (lo hi : ℤ) (hlo : 0 ≤ lo)
    (hex : ∃ c, InRange walls.length lo hi c) :
    ∃ cs, (wallScene tx rx walls).allPathCandidates G { minOrder := lo, maxOrder := hi } = .ok cs ∧ cs.Nodup ∧
      (∀ c, c ∈ cs ↔ InRange walls.length lo hi c) ∧ cs ≠ [] := by
  have hol : (wallScene tx rx walls).objects.length = walls.length := by rw [wallScene_objects]; simp [wallsOf]
  obtain ⟨cs, hcs, hcd, hcm, -⟩ := C53_sound_complete G hG (wallScene tx rx walls) lo hi hlo
  rw [hol] at hcm
  refine ⟨cs, hcs, hcd, hcm, ?_⟩
  obtain ⟨c, hc⟩ := hex
  exact List.ne_nil_of_mem ((hcm c).mpr hc)

theorem wallsAt_length {walls : List (Pt × Pt)} {c : List ℤ} (hc : IsCandidate walls.length c) : (wallsAt walls c).length = c.length := by
  have e := objectsAt_length (wallScene [] [] walls) c (by rw [wallScene_objects]; simpa [wallsOf] using hc)
  rw [objectsAt_walls] at e; simpa [wallsOf] using e

/-- **C80.** The approximation is consistent: when every traced path is in generic position, the values
that `accumulate_over_paths` gives in approximate mode converge, as the slope grows, to the values it gives in
hard mode, whatever the soft step and the (real) function of the path. -/
theorem C80_limit {Key : Type} (G : GraphLib) (hG : GraphContract G) (tx rx : PyDict Pt)
    (ht : Distinct tx) (hr : Distinct rx) (walls : List (Pt × Pt)) (lo hi : ℤ) (hlo : 0 ≤ lo)
    (hex : ∃ c, InRange walls.length lo hi c) (split : Key → ℕ → List Key) (key : Option Key)
    (f : Scene.PathFun) (g : Pt → Pt → List Pt → ℝ) (hf : RealFun f g)
    (E E' : Env) (ap ap' : Option Bool) (hh : Hard E ap) (hs : Soft E' ap') (kw : ActKw) (step : F → F → F) (hstep : SoftStep step)
    (tol patch : ℝ)
    (hg : ∀ t ∈ tx, ∀ r ∈ rx, ∀ c, InRange walls.length lo hi c → ∀ pts loss,
      traceImage t.2 (wallsAt walls c) r.2 = .ok (finitePath pts loss) → Generic (wallsAt walls c) walls c pts loss tol patch) :
    ∃ (value : String × Pt → String × Pt → ℝ) (approximate : ℝ → String × Pt → String × Pt → ℝ),
      (wallScene tx rx walls).accumulateOverPaths G split (imageMethod Key) { minOrder := lo, maxOrder := hi }
        ⟨E, F.fin tol, F.fin patch, ap, kw⟩ key f = .ok ((tx ×ˢ rx).map fun p => (p.1.1, p.2.1, F.fin (value p.1 p.2))) ∧
      (∀ a : ℝ, 0 < a → (wallScene tx rx walls).accumulateOverPaths G split (imageMethod Key) { minOrder := lo, maxOrder := hi }
        ⟨E', F.fin tol, F.fin patch, ap', ⟨F.fin a, step⟩⟩ key f =
          .ok ((tx ×ˢ rx).map fun p => (p.1.1, p.2.1, F.fin (approximate a p.1 p.2)))) ∧
      ∀ p ∈ tx ×ˢ rx, Tendsto (fun a => approximate a p.1 p.2) atTop (nhds (value p.1 p.2)) := by
  obtain ⟨cs, hcs, hcd, hcm, hne⟩ := cands_walls G hG tx rx walls lo hi hlo hex
  obtain ⟨s, h1, h2, h3⟩ := hstep
  let P : Pt → Pt → List ℤ → Fm := fun t r c => fmValid (wallsAt walls c) walls c (rpath t r (wallsAt walls c))
    (scores (wallsAt walls c) (rpath t r (wallsAt walls c))).sum tol patch
  have hP : ∀ t ∈ tx, ∀ r ∈ rx, ∀ c ∈ cs, (P t.2 r.2 c).NoTie := by
    intro t ht' r hr' c hc
    have hc' := (hcm c).mp hc
    exact generic_noTie (by rw [rpath_length, wallsAt_length hc'.1]) (wallsAt_length hc'.1)
      (hg t ht' r hr' c hc' _ _ (traceImage_eq t.2 r.2 (wallsAt walls c)))
  refine ⟨fun t r => (cs.map fun c => (if (P t.2 r.2 c).hv = true then 1 else 0) * g t.2 r.2 (rpath t.2 r.2 (wallsAt walls c))).sum,
    fun a t r => (cs.map fun c => (P t.2 r.2 c).eval (s a) * g t.2 r.2 (rpath t.2 r.2 (wallsAt walls c))).sum, ?_, ?_, ?_⟩
  · refine accumulate_walls G hG tx rx ht hr walls lo hi hlo cs hcs hcd hcm hne split key _ f g hf
      (fun t r c => if (P t r c).hv = true then 1 else 0) ?_
    intro t ht' r hr' c hc
    have hc' := (hcm c).mp hc
    refine ⟨_, fmValid_hard hh kw (wallsAt walls c) walls c _ _ tol patch (by rw [rpath_length, wallsAt_length hc'.1]) (hP t ht' r hr' c hc), ?_⟩
    show Truthy.toF (.b (P t.2 r.2 c).hv) = _
    cases (P t.2 r.2 c).hv <;> simp [Truthy.toF]
  · intro a ha
    refine accumulate_walls G hG tx rx ht hr walls lo hi hlo cs hcs hcd hcm hne split key _ f g hf
      (fun t r c => (P t r c).eval (s a)) ?_
    intro t ht' r hr' c hc
    have hc' := (hcm c).mp hc
    exact ⟨_, fmValid_soft (kw := ⟨F.fin a, step⟩) hs (fun x => h2 a x ha) (h3 a ha).1 (h3 a ha).2.1 (wallsAt walls c) walls c _ _ tol patch
      (by rw [rpath_length, wallsAt_length hc'.1]), rfl⟩
  · intro p hp
    obtain ⟨hp1, hp2⟩ := List.mem_product.mp hp
    have : ∀ l : List (List ℤ), (∀ c ∈ l, c ∈ cs) → Tendsto
        (fun a => (l.map fun c => (P p.1.2 p.2.2 c).eval (s a) * g p.1.2 p.2.2 (rpath p.1.2 p.2.2 (wallsAt walls c))).sum) atTop
        (nhds (l.map fun c => (if (P p.1.2 p.2.2 c).hv = true then 1 else 0) * g p.1.2 p.2.2 (rpath p.1.2 p.2.2 (wallsAt walls c))).sum) := by
      intro l
      induction l with
      | nil => intro _; simp
      | cons c l ih =>
        intro hl
        simp only [List.map_cons, List.sum_cons]
        refine Tendsto.add (Tendsto.mul_const _ ?_) (ih fun c hc => hl c (by simp [hc]))
        have := Fm.eval_limit h1.limitPos h1.limitNeg _ (hP _ hp1 _ hp2 c (hl c (by simp)))
        convert this
    exact this cs fun c hc => hc

/-- **C81.** In hard mode, the value that `accumulate_over_paths` gives for a pair is the sum of the function over
the physical ray paths of the requested orders between the two ends (walls of non-zero length, tolerance in `(0, 1]`;
no transmitter that lies on the line of a wall is at the place of a receiver). -/
theorem C81_sum {Key : Type} (G : GraphLib) (hG : GraphContract G) (tx rx : PyDict Pt)
    (ht : Distinct tx) (hr : Distinct rx) (walls : List (Pt × Pt)) (hnd : ∀ w ∈ walls, w.1 ≠ w.2) (lo hi : ℤ) (hlo : 0 ≤ lo)
    (hex : ∃ c, InRange walls.length lo hi c) (split : Key → ℕ → List Key) (key : Option Key)
    (f : Scene.PathFun) (g : Pt → Pt → List Pt → ℝ) (hf : RealFun f g)
    (E : Env) (ap : Option Bool) (hh : Hard E ap) (kw : ActKw) (tol patch : ℝ) (h0 : 0 < tol) (h1 : tol ≤ 1) (hp : -(1 / 2) < patch)
    (hmove : ∀ t ∈ tx, ∀ r ∈ rx, ∀ w ∈ walls, OnLine w.1 w.2 t.2 → t.2 ≠ r.2) :
    ∃ rays : Pt → Pt → Finset (List ℤ × List Pt),
      (∀ t ∈ tx, ∀ r ∈ rx, ∀ c pts, (c, pts) ∈ rays t.2 r.2 ↔
        InRange walls.length lo hi c ∧ RayPath walls patch t.2 r.2 c pts) ∧
      (wallScene tx rx walls).accumulateOverPaths G split (imageMethod Key) { minOrder := lo, maxOrder := hi }
        ⟨E, F.fin tol, F.fin patch, ap, kw⟩ key f =
        .ok ((tx ×ˢ rx).map fun p => (p.1.1, p.2.1, F.fin (∑ ray ∈ rays p.1.2 p.2.2, g p.1.2 p.2.2 ray.2))) := by
  obtain ⟨cs, hcs, hcd, hcm, hne⟩ := cands_walls G hG tx rx walls lo hi hlo hex
  have tr : ∀ t ∈ tx, ∀ r ∈ rx, ∀ c ∈ cs, ∃ v, (finitePath (rpath t.2 r.2 (wallsAt walls c)) (scores (wallsAt walls c) (rpath t.2 r.2 (wallsAt walls c))).sum).isValid E
      ((wallsOf walls).map Obj.interact) c ((wallsOf (wallsAt walls c)).map Obj.interact) (F.fin tol) (F.fin patch) ap kw = .ok (.b v) ∧
      (v = true ↔ RayPath walls patch t.2 r.2 c (rpath t.2 r.2 (wallsAt walls c))) ∧
      ∀ pts, RayPath walls patch t.2 r.2 c pts → pts = rpath t.2 r.2 (wallsAt walls c) := by
    intro t ht' r hr' c hc
    have hc' := (hcm c).mp hc
    have hl : (rpath t.2 r.2 (wallsAt walls c)).length = c.length + 2 := by rw [rpath_length, wallsAt_length hc'.1]
    have htr := traceImage_eq t.2 r.2 (wallsAt walls c)
    have hC := C38_hard (finitePath (rpath t.2 r.2 (wallsAt walls c)) (scores (wallsAt walls c) (rpath t.2 r.2 (wallsAt walls c))).sum)
      E ap hh kw ((wallsOf walls).map Obj.interact)
      ((wallsOf (wallsAt walls c)).map Obj.interact) c (F.fin tol) (F.fin patch) (by simp [finitePath, hl])
      (by simp [wallsOf, wallsAt_length hc'.1])
    obtain ⟨v, hv, -⟩ := hC
    obtain ⟨q1, q2⟩ := traced_walls (Key := Unit) [] [] walls hnd hh kw tol patch h0 h1 hp none t.2 r.2 c hc'.1
      (finitePath (rpath t.2 r.2 (wallsAt walls c)) (scores (wallsAt walls c) (rpath t.2 r.2 (wallsAt walls c))).sum) (.b v) (by
        refine ⟨?_, ?_⟩
        · rw [objectsAt_walls]; exact htr
        · rw [wallScene_objects, objectsAt_walls]; exact hv)
    refine ⟨v, hv, ⟨fun hvt => ?_, fun hray => (q2 _ hray).2⟩, fun pts hray => (finitePath_inj (q2 _ hray).1).1.symm⟩
    obtain ⟨pts, e, hray⟩ := q1 (by rw [hvt]; rfl)
    obtain ⟨e1, e2⟩ := finitePath_inj e
    rw [e1]
    refine hray fun hce heq => ?_
    obtain ⟨i, c', rfl⟩ := List.exists_cons_of_ne_nil hce
    have hi := hc'.1.1 i (by simp)
    obtain ⟨w, hw⟩ : ∃ w, walls[i.toNat]? = some w := ⟨_, List.getElem?_eq_getElem (by omega)⟩
    have hwa : wallsAt walls (i :: c') = w :: wallsAt walls c' := by simp [wallsAt, hw]
    have hwm : w ∈ walls := List.mem_of_getElem? hw
    obtain ⟨inner, loss, hil, e3⟩ := C33_finite t.2 r.2 (wallsAt walls (i :: c'))
    rw [htr, e] at e3
    obtain ⟨e4, e5⟩ := finitePath_inj (Except.ok.inj e3)
    have hF := C30_on_lines t.2 r.2 (wallsAt walls (i :: c')) inner loss (by rw [htr, e, e3]) (fun v hv => by
      obtain ⟨i, -, hi⟩ := List.mem_filterMap.mp hv
      exact hnd v (List.mem_of_getElem? hi)) (by linarith)
    rw [e4]
    rw [hwa] at hF
    cases hF with
    | @cons _ b _ l hb _ =>
      exact ⟨t.2, by simp, b, by simp, fun h => hmove t ht' r hr' w hwm (h ▸ hb) heq⟩
  refine ⟨fun t r => ((cs.filter fun c => decide (RayPath walls patch t r c (rpath t r (wallsAt walls c)))).map
    fun c => (c, rpath t r (wallsAt walls c))).toFinset, ?_, ?_⟩
  · intro t ht' r hr' c pts
    simp only [List.mem_toFinset, List.mem_map, List.mem_filter, decide_eq_true_eq, Prod.mk.injEq]
    constructor
    · rintro ⟨c', ⟨hc, hray⟩, rfl, rfl⟩
      exact ⟨(hcm _).mp hc, hray⟩
    · rintro ⟨hc, hray⟩
      obtain ⟨-, -, -, huniq⟩ := tr t ht' r hr' c ((hcm _).mpr hc)
      have := huniq pts hray
      subst this
      exact ⟨c, ⟨(hcm _).mpr hc, hray⟩, rfl, rfl⟩
  · rw [accumulate_walls G hG tx rx ht hr walls lo hi hlo cs hcs hcd hcm hne split key _ f g hf
      (fun t r c => if RayPath walls patch t r c (rpath t r (wallsAt walls c)) then 1 else 0)]
    · congr 1
      apply List.map_congr_left
      intro p hp
      congr 3
      rw [List.sum_toFinset]
      · rw [List.map_map]
        generalize hT : p.1.2 = t
        generalize hR : p.2.2 = r
        clear hcm hne hcd hcs tr
        induction cs with
        | nil => rfl
        | cons c cs ih =>
          rw [List.map_cons, List.sum_cons, ih, List.filter_cons]
          by_cases hray : RayPath walls patch t r c (rpath t r (wallsAt walls c))
          · simp [hray]
          · simp [hray]
      · refine List.Nodup.map_on ?_ (hcd.filter _)
        intro a _ b _ e
        exact (Prod.mk.injEq _ _ _ _ ▸ e).1
    · intro t ht' r hr' c hc
      obtain ⟨v, hv, hiff, -⟩ := tr t ht' r hr' c hc
      refine ⟨_, hv, ?_⟩
      cases v
      · rw [if_neg (by rw [← hiff]; simp)]; simp [Truthy.toF]
      · rw [if_pos (hiff.mp rfl)]; simp [Truthy.toF]

/-- **C81.** In particular, the power received in a scene of walls is the sum, over the physical ray paths, of
`c ^ n / (height² + length²)`, where `n` is the number of reflections of the path and `length` its `length()` (see
C13 for how close that is to its Euclidean length). -/
theorem C81_power {Key : Type} (G : GraphLib) (hG : GraphContract G) (tx rx : PyDict Pt)
    (ht : Distinct tx) (hr : Distinct rx) (walls : List (Pt × Pt)) (hnd : ∀ w ∈ walls, w.1 ≠ w.2) (lo hi : ℤ) (hlo : 0 ≤ lo)
    (hex : ∃ c, InRange walls.length lo hi c) (split : Key → ℕ → List Key) (key : Option Key)
    (E : Env) (ap : Option Bool) (hh : Hard E ap) (kw : ActKw) (tol patch : ℝ) (h0 : 0 < tol) (h1 : tol ≤ 1)
    (hp : -(1 / 2) < patch) (coef height : ℝ) (hht : 0 < height)
    (hmove : ∀ t ∈ tx, ∀ r ∈ rx, ∀ w ∈ walls, OnLine w.1 w.2 t.2 → t.2 ≠ r.2) :
    ∃ (rays : Pt → Pt → Finset (List ℤ × List Pt)) (len : List Pt → ℝ),
      (∀ t ∈ tx, ∀ r ∈ rx, ∀ c pts, (c, pts) ∈ rays t.2 r.2 ↔
        InRange walls.length lo hi c ∧ RayPath walls patch t.2 r.2 c pts) ∧
      (∀ pts loss, (finitePath pts loss).length E = F.fin (len pts)) ∧
      (wallScene tx rx walls).accumulateOverPaths G split (imageMethod Key) { minOrder := lo, maxOrder := hi }
        ⟨E, F.fin tol, F.fin patch, ap, kw⟩ key (powerFun E coef height) =
        .ok ((tx ×ˢ rx).map fun p => (p.1.1, p.2.1,
          F.fin (∑ ray ∈ rays p.1.2 p.2.2, coef ^ ray.1.length / (height ^ 2 + len ray.2 ^ 2)))) := by
  obtain ⟨rays, hm, h⟩ := C81_sum G hG tx rx ht hr walls hnd lo hi hlo hex split key _ _ (realFun_power E coef height hht)
    E ap hh kw tol patch h0 h1 hp hmove
  refine ⟨rays, plen E.eps, hm, fun pts _ => pathLength_fin E pts, h.trans ?_⟩
  congr 1
  apply List.map_congr_left
  intro p hp'
  obtain ⟨hp1, hp2⟩ := List.mem_product.mp hp'
  congr 3
  apply Finset.sum_congr rfl
  rintro ⟨c, pts⟩ hray
  have hlen := ((hm _ hp1 _ hp2 c pts).mp hray).2.count
  simp only
  congr 2
  omega

/-! ## A concrete case -/

theorem range_one {c : List ℤ} (h : InRange 1 0 1 c) : c = [] ∨ c = [0] := by
  obtain ⟨⟨h1, -⟩, -, h2⟩ := h
  match c, h1, h2 with
  | [], _, _ => exact .inl rfl
  | [i], h1, _ =>
    have := h1 i (by simp)
    right; congr 1; push_cast at this; omega
  | _ :: _ :: _, _, h2 => simp at h2; omega

theorem ex_trace (c : List ℤ) (h : InRange 1 0 1 c) (pts : List Pt) (loss : ℝ)
    (ht : traceImage ⟨0, 1⟩ (wallsAt [(⟨0, 0⟩, ⟨3, 0⟩)] c) ⟨2, 1⟩ = .ok (finitePath pts loss)) :
    (c = [] ∧ pts = [⟨0, 1⟩, ⟨2, 1⟩] ∧ loss = 0) ∨ (c = [0] ∧ pts = [⟨0, 1⟩, ⟨1, 0⟩, ⟨2, 1⟩] ∧ loss = 0) := by
  rcases range_one h with rfl | rfl
  · left
    have e := traceImage_eq ⟨0, 1⟩ ⟨2, 1⟩ (wallsAt [(⟨0, 0⟩, ⟨3, 0⟩)] [])
    rw [ht] at e
    obtain ⟨rfl, rfl⟩ := finitePath_inj (Except.ok.inj e)
    exact ⟨rfl, by simp [rpath, rpts, wallsAt], by simp [wallsAt, scores]⟩
  · right
    have e := C73_complete ⟨0, 1⟩ ⟨2, 1⟩ [(⟨0, 0⟩, ⟨3, 0⟩)] exWall_ne [⟨1, 0⟩] example_specular
    have e' : traceImage ⟨0, 1⟩ [(⟨0, 0⟩, ⟨3, 0⟩)] ⟨2, 1⟩ = .ok (finitePath pts loss) := ht
    rw [e] at e'
    obtain ⟨rfl, rfl⟩ := finitePath_inj (Except.ok.inj e')
    exact ⟨rfl, rfl, rfl⟩

/-- The hypotheses of C80, C81 and C82 hold of the scene with one wall, a transmitter and a receiver. -/
theorem oneWall_fields : (∃ c, InRange [((⟨0, 0⟩, ⟨3, 0⟩) : Pt × Pt)].length 0 1 c) ∧
    (∀ t ∈ [("tx", (⟨0, 1⟩ : Pt))], ∀ r ∈ [("rx", (⟨2, 1⟩ : Pt))], ∀ c, InRange [((⟨0, 0⟩, ⟨3, 0⟩) : Pt × Pt)].length 0 1 c → ∀ pts loss,
      traceImage t.2 (wallsAt [(⟨0, 0⟩, ⟨3, 0⟩)] c) r.2 = .ok (finitePath pts loss) →
        Generic (wallsAt [(⟨0, 0⟩, ⟨3, 0⟩)] c) [(⟨0, 0⟩, ⟨3, 0⟩)] c pts loss (1 / 100) 0) ∧
    (∀ t ∈ [("tx", (⟨0, 1⟩ : Pt))], ∀ r ∈ [("rx", (⟨2, 1⟩ : Pt))], ∀ w ∈ [((⟨0, 0⟩, ⟨3, 0⟩) : Pt × Pt)], OnLine w.1 w.2 t.2 → t.2 ≠ r.2) := by
  refine ⟨⟨[], ⟨by simp, by simp⟩, by simp, by simp⟩, ?_, ?_⟩
  · intro t ht r hr c hc pts loss htr
    simp only [List.mem_singleton] at ht hr
    subst ht hr
    rcases ex_trace c hc pts loss htr with ⟨rfl, rfl, rfl⟩ | ⟨rfl, rfl, rfl⟩
    · refine ⟨by simp [wallsAt], ?_, by norm_num⟩
      intro i j w a b ha hb hj hadj
      left
      have hi : i = 0 := by
        rcases i with _ | _ | i <;> simp_all
      subst hi
      have hj0 : j = 0 := by
        rcases j with _ | j <;> simp_all
      subst hj0
      simp at ha hb hj
      subst ha hb hj
      norm_num [Parallel, pointAt]
    · refine ⟨?_, ?_, by norm_num⟩
      · intro i w q hw hq
        have hi : i = 0 := by
          rcases i with _ | i <;> simp_all [wallsAt]
        subst hi
        simp [wallsAt] at hw hq
        subst hw hq
        norm_num [NotLevelWithEnds, Orthogonal]
      · intro i j w a b ha hb hj hadj
        exfalso; apply hadj
        have hj0 : j = 0 := by
          cases j with
          | zero => rfl
          | succ j => simp at hj
        subst hj0
        match i, hb with
        | 0, _ => exact .inl rfl
        | 1, _ => exact .inr ⟨0, rfl, rfl⟩
        | i + 2, hb => simp at hb
  · intro t ht r hr w _ _
    simp only [List.mem_singleton] at ht hr
    subst ht hr
    simp

/-- Non-vacuity of C80, C81 and C82: that scene, with the function that counts paths. -/
example (E : Env) (kw : ActKw) := C80_limit (Key := ℕ) refLib refLib_contract [("tx", ⟨0, 1⟩)] [("rx", ⟨2, 1⟩)] (by simp [Distinct])
  (by simp [Distinct]) [(⟨0, 0⟩, ⟨3, 0⟩)] 0 1 le_rfl oneWall_fields.1 (fun _ _ => []) none (fun _ _ _ _ => F.fin 1) (fun _ _ _ => 1)
  (fun _ _ _ _ _ _ => rfl) E E (some false) (some true) (.inl rfl) (.inl rfl) kw sigmoid softStep_sigmoid (1 / 100) 0 oneWall_fields.2.1

example (E : Env) (kw : ActKw) := C81_sum (Key := ℕ) refLib refLib_contract [("tx", ⟨0, 1⟩)] [("rx", ⟨2, 1⟩)] (by simp [Distinct])
  (by simp [Distinct]) [(⟨0, 0⟩, ⟨3, 0⟩)] (by simp) 0 1 le_rfl oneWall_fields.1 (fun _ _ => []) none (fun _ _ _ _ => F.fin 1)
  (fun _ _ _ => 1) (fun _ _ _ _ _ _ => rfl) E (some false) (.inl rfl) kw (1 / 100) 0 (by norm_num) (by norm_num) (by norm_num)
  oneWall_fields.2.2

example (E : Env) (kw : ActKw) := C81_power (Key := ℕ) refLib refLib_contract [("tx", ⟨0, 1⟩)] [("rx", ⟨2, 1⟩)] (by simp [Distinct])
  (by simp [Distinct]) [(⟨0, 0⟩, ⟨3, 0⟩)] (by simp) 0 1 le_rfl oneWall_fields.1 (fun _ _ => []) none E (some false) (.inl rfl) kw
  (1 / 100) 0 (by norm_num) (by norm_num) (by norm_num) (1 / 2) (1 / 10) (by norm_num) oneWall_fields.2.2

end DiffeRT2d.Props
