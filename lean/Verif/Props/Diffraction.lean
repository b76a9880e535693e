import Verif.Props.Touching
import Verif.Spec.Diffraction
import Verif.Props.Trials
import Verif.Props.Fields

/-! # C126: diffraction at vertices -/

namespace DiffeRT2d.Props
open Classical Spec

/-! ## The traced path -/

theorem vertices_loss (vs : List Pt) : ∀ (loss : F) (pts : List (V2 F)), loss = 0 → vs.length + 2 ≤ pts.length →
    pathLoss loss (vs.map fun v => (Shape.vertex v).obj.interact) pts = 0 := by
  induction vs with
  | nil => intro loss pts h _; simpa [pathLoss] using h
  | cons v vs ih =>
    intro loss pts h hl
    match pts, hl with
    | a :: b :: c :: pts, hl =>
      simp only [List.map_cons, pathLoss]
      apply ih
      · rw [h]; simp [Shape.obj, Obj.interact, Vertex.interact, F.zero_eq]
      · simp at hl ⊢; omega
    | [], hl => simp at hl
    | [_], hl => simp at hl
    | [_, _], hl => simp at hl

theorem vertices_points (t r : V2 F) (vs : List Pt) (theta : List F) :
    parametricToCartesian (vs.map fun v => (Shape.vertex v).obj.interact) theta t r = t :: vs.map V2.fin ++ [r] := by
  have : ∀ j, toCartesianFrom theta j (vs.map fun v => (Shape.vertex v).obj.interact) = vs.map V2.fin := by
    induction vs with
    | nil => intro j; rfl
    | cons v vs ih => intro j; simp only [List.map_cons, toCartesianFrom, ih]; rfl
  unfold parametricToCartesian
  rw [this]

/-- **C126.** Through vertices only, `FermatPath` and `MinPath` return the broken line from the transmitter to the vertices and to the receiver, with
loss 0, whatever the random key, the optimizer, the gradient operator, and the numbers of steps and trials. -/
theorem C126_path {Key : Type} (E : Env) (M : Minimizer Key) (many : ℕ) (hM : Shaped M many) (t r : V2 F) (vs : List Pt) (key : Key) :
    FermatPath.fromTxObjectsRx E M t (vs.map fun v => (Shape.vertex v).obj.interact) r key many = .ok ⟨t :: vs.map V2.fin ++ [r], 0⟩ ∧
    MinPath.fromTxObjectsRx M t (vs.map fun v => (Shape.vertex v).obj.interact) r key many = .ok ⟨t :: vs.map V2.fin ++ [r], 0⟩ := by
  cases vs with
  | nil => exact ⟨rfl, rfl⟩
  | cons v vs =>
    have hl : ∀ theta, minLoss ((v :: vs).map fun v => (Shape.vertex v).obj.interact) t r theta = 0 := by
      intro theta
      unfold minLoss
      rw [vertices_points]
      exact vertices_loss _ _ _ rfl (by simp)
    refine ⟨?_, ?_⟩
    · obtain ⟨x, hx, -⟩ := minimizeMany_ok hM (fermatLoss E ((v :: vs).map fun v => (Shape.vertex v).obj.interact) t r) key
        (nUnknowns ((v :: vs).map fun v => (Shape.vertex v).obj.interact))
      unfold FermatPath.fromTxObjectsRx
      rw [if_neg (by simp), hx]
      simp only [bind, Except.bind, pure, Except.pure]
      rw [vertices_points, vertices_loss _ _ _ rfl (by simp)]
    · have h1 : ∀ x0, ∃ x, minimize M (minLoss ((v :: vs).map fun v => (Shape.vertex v).obj.interact) t r) x0 = .ok (x, 0) := by
        intro x0
        obtain ⟨xs, sts, -, h⟩ := C44_steps M (minLoss ((v :: vs).map fun v => (Shape.vertex v).obj.interact) t r) x0 hM.steps
        exact ⟨_, by rw [h, hl]⟩
      obtain ⟨x, hx⟩ : ∃ x, minimizeManyRandomUniform M (minLoss ((v :: vs).map fun v => (Shape.vertex v).obj.interact) t r) key
          (nUnknowns ((v :: vs).map fun v => (Shape.vertex v).obj.interact)) many = .ok (x, 0) := by
        by_cases hm : many = 1
        · obtain ⟨x, hx⟩ := h1 (M.uniform key (nUnknowns ((v :: vs).map fun v => (Shape.vertex v).obj.interact)))
          refine ⟨x, ?_⟩
          unfold minimizeManyRandomUniform
          rw [if_pos hm]; exact hx
        · obtain ⟨ys, e, hyl, hy⟩ := mapM_ok (fun k => minimizeRandomUniform M (minLoss ((v :: vs).map fun v => (Shape.vertex v).obj.interact) t r) k
              (nUnknowns ((v :: vs).map fun v => (Shape.vertex v).obj.interact))) (fun y => y.2 = 0) (M.split key many) (fun k _ => by
                obtain ⟨x, hx⟩ := h1 (M.uniform k (nUnknowns ((v :: vs).map fun v => (Shape.vertex v).obj.interact)))
                exact ⟨_, hx, rfl⟩)
          have hne : ys ≠ [] := by
            intro h; rw [h, hM.split] at hyl
            have := hM.many; simp at hyl; omega
          obtain ⟨i, b, hi, hb, -⟩ := F.argmin_spec (xs := ys.map Prod.snd) (by simpa using hne)
            (by intro x hx; obtain ⟨y, hy', rfl⟩ := List.mem_map.mp hx; rw [hy y hy']; simp [F.zero_eq])
          rw [List.getElem?_map] at hb
          obtain ⟨best, hbest, rfl⟩ := Option.map_eq_some_iff.mp hb
          refine ⟨best.1, ?_⟩
          unfold minimizeManyRandomUniform
          rw [if_neg hm]
          simp only [e, bind, Except.bind, hi]
          rw [List.getD_eq_getElem?_getD, hbest]
          have := hy best (List.mem_of_getElem? hbest)
          show Except.ok best = _
          rw [← this]
      unfold MinPath.fromTxObjectsRx
      rw [if_neg (by simp), hx]
      simp only [bind, Except.bind, pure, Except.pure]
      rw [vertices_points]

/-! ## Validity -/

theorem shape_hit {E : Env} {ap : Option Bool} (h : Hard E ap) (kw : ActKw) (s : Shape) (a b : Pt) (patch : ℝ) (hp : -(1 / 2) < patch) :
    Holds (s.obj.interact.intersects E ap kw (F.fin patch) (V2.fin a) (V2.fin b)) ↔ ∃ w, s.ends = some w ∧ Blocks w patch a b := by
  cases s with
  | wall o d =>
    refine (hit_blocks h kw (o, d) a b patch hp).trans ?_
    simp [Shape.ends]
  | ris o d φ =>
    refine (hit_blocks h kw (o, d) a b patch hp).trans ?_
    simp [Shape.ends]
  | vertex v => simp [Shape.obj, Obj.interact, Vertex.interact, falseValue, h.eq, Holds, Shape.ends]

theorem shapes_get (shapes : List Shape) (j : ℕ) (o : Interactable) :
    ((shapes.map Shape.obj).map Obj.interact)[j]? = some o ↔ ∃ s, shapes[j]? = some s ∧ o = s.obj.interact := by
  simp only [List.map_map, List.getElem?_map, Option.map_eq_some_iff, Function.comp_def]
  constructor
  · rintro ⟨w, h, rfl⟩; exact ⟨w, h, rfl⟩
  · rintro ⟨w, h, rfl⟩; exact ⟨w, h, rfl⟩

/-- What a valid path (hard mode) over any objects of a scene of walls, RISs and vertices satisfies: nothing stops a step, apart from the two objects
it joins. -/
theorem valid_clear {E : Env} {ap : Option Bool} (h : Hard E ap) (kw : ActKw) (shapes : List Shape) (c : List ℤ) (inter : List Interactable) (p : Path)
    (pts : List Pt) (hpts : p.xys = pts.map V2.fin) (tol : F) (patch : ℝ) (hlen : pts.length = c.length + 2) (hint : inter.length = c.length)
    (hp : -(1 / 2) < patch)
    (hv : p.isValid E ((shapes.map Shape.obj).map Obj.interact) c inter tol (F.fin patch) ap kw = .ok (.b true)) :
    ∀ (i j : ℕ) (s : Shape) (w : Pt × Pt) (a b : Pt), pts[i]? = some a → pts[i + 1]? = some b → shapes[j]? = some s → s.ends = some w →
      ¬ Adjacent c i j → ¬ Blocks w patch a b := by
  obtain ⟨v, hv', hiff⟩ := C38_hard p E ap h kw ((shapes.map Shape.obj).map Obj.interact) inter c tol (F.fin patch) (by rw [hpts]; simpa using hlen) hint
  rw [hv] at hv'
  obtain rfl : true = v := by simpa using hv'
  obtain ⟨-, h2, -⟩ := hiff.mp rfl
  intro i j s w a b ha hb hs hw hadj hbl
  refine h2 ⟨i, j, _, V2.fin a, V2.fin b, ?_, ?_, (shapes_get _ _ _).mpr ⟨s, hs, rfl⟩, hadj, (shape_hit h kw s a b patch hp).mpr ⟨w, hw, hbl⟩⟩
  · rw [hpts, List.getElem?_map, ha]; rfl
  · rw [hpts, List.getElem?_map, hb]; rfl

/-- Validity (hard mode) of a path over vertices: no wall and no RIS of the scene stops it. -/
theorem valid_vertices {E : Env} {ap : Option Bool} (h : Hard E ap) (kw : ActKw) (shapes : List Shape) (c : List ℤ) (vs : List Pt)
    (hc : List.Forall₂ (fun (i : ℤ) v => 0 ≤ i ∧ shapes[i.toNat]? = some (.vertex v)) c vs) (t r : Pt) (tol patch : ℝ) (h0 : 0 < tol)
    (hp : -(1 / 2) < patch) :
    ∃ b, (finitePath (t :: vs ++ [r]) 0).isValid E ((shapes.map Shape.obj).map Obj.interact) c (vs.map fun v => (Shape.vertex v).obj.interact)
        (F.fin tol) (F.fin patch) ap kw = .ok (.b b) ∧ (b = true ↔ DiffractionPath shapes patch t r c (t :: vs ++ [r])) := by
  have hl := hc.length_eq
  obtain ⟨b, hb, hiff⟩ := C38_hard (finitePath (t :: vs ++ [r]) 0) E ap h kw ((shapes.map Shape.obj).map Obj.interact)
    (vs.map fun v => (Shape.vertex v).obj.interact) c (F.fin tol) (F.fin patch) (by simp [finitePath, hl]) (by simp [hl])
  refine ⟨b, hb, hiff.trans ?_⟩
  have hnadj : ∀ (i j : ℕ) (s : Shape) (w : Pt × Pt), shapes[j]? = some s → s.ends = some w → ¬ Adjacent c i j := by
    intro i j s w hs hw hadj
    obtain ⟨k, hk⟩ : ∃ k, c[k]? = some (j : ℤ) := by
      rcases hadj with h | ⟨k, -, h⟩
      · exact ⟨_, h⟩
      · exact ⟨_, h⟩
    obtain ⟨hlt, hget⟩ := List.getElem?_eq_some_iff.mp hk
    obtain ⟨-, h2⟩ := (List.forall₂_iff_get.mp hc).2 k hlt (by omega)
    simp only [List.get_eq_getElem] at h2
    rw [hget, Int.toNat_natCast, hs] at h2
    cases h2; cases hw
  have hget : ∀ (i : ℕ) (q : V2 F), (finitePath (t :: vs ++ [r]) 0).xys[i]? = some q ↔ ∃ p, (t :: vs ++ [r])[i]? = some p ∧ q = V2.fin p :=
    fun i q => fin_get _ _ _
  constructor
  · rintro ⟨-, h2, -⟩
    refine ⟨by simp, by rw [List.getLast?_append]; rfl, by simp [hl], ?_, ?_⟩
    · intro i j q hi hq
      obtain ⟨hlt, hg⟩ := List.getElem?_eq_some_iff.mp hi
      obtain ⟨-, h2⟩ := (List.forall₂_iff_get.mp hc).2 i hlt (by omega)
      simp only [List.get_eq_getElem] at h2
      rw [hg, Int.toNat_natCast] at h2
      rw [h2]
      simp only [List.cons_append, List.getElem?_cons_succ] at hq
      rw [List.getElem?_append_left (by omega), List.getElem?_eq_getElem (by omega)] at hq
      rw [Option.some.inj hq]
    · intro i j s w p q hp' hq hs hw hbl
      exact h2 ⟨i, j, _, V2.fin p, V2.fin q, (hget _ _).mpr ⟨p, hp', rfl⟩, (hget _ _).mpr ⟨q, hq, rfl⟩, (shapes_get _ _ _).mpr ⟨s, hs, rfl⟩,
        hnadj i j s w hs hw, (shape_hit h kw s p q patch hp).mpr ⟨w, hw, hbl⟩⟩
  · intro hd
    refine ⟨?_, ?_, ?_⟩
    · intro i o q ho _
      rw [List.getElem?_map, Option.map_eq_some_iff] at ho
      obtain ⟨v, -, rfl⟩ := ho
      simp [Shape.obj, Obj.interact, Vertex.interact, trueValue, h.eq, Holds]
    · rintro ⟨i, j, o, a, b, ha, hb, ho, -, hit⟩
      obtain ⟨p, hp', rfl⟩ := (hget _ _).mp ha
      obtain ⟨q, hq, rfl⟩ := (hget _ _).mp hb
      obtain ⟨s, hs, rfl⟩ := (shapes_get _ _ _).mp ho
      obtain ⟨w, hw, hbl⟩ := (shape_hit h kw s p q patch hp).mp hit
      exact hd.clear i j s w p q hp' hq hs hw hbl
    · rw [← F.lt_iff]; simpa [finitePath] using h0

/-! ## The traversal -/

theorem chainKey_some {Key : Type} (split : Key → ℕ → List Key) (hsp : SplitCount split) : ∀ (n : ℕ) (k : Key), ∃ k', chainKey split n (some k) = some k' := by
  intro n
  induction n with
  | zero => intro k; exact ⟨k, rfl⟩
  | succ n ih =>
    intro k
    obtain ⟨k', hk⟩ : ∃ k', (split k 2)[0]? = some k' := ⟨_, List.getElem?_eq_getElem (by rw [hsp]; norm_num)⟩
    obtain ⟨k'', h⟩ := ih k'
    exact ⟨k'', by simp only [chainKey, Scene.splitKey, hk]; exact h⟩

/-- With a key, a method that traces every candidate whenever it has a key traces the whole scene. -/
theorem keyed_total {Key : Type} (G : GraphLib) (s : Scene) (tx rx : PyDict (V2 F)) (ht : Distinct tx) (hr : Distinct rx)
    (h1 : s.transmitters = .fromMapping tx) (h2 : s.receivers = .fromMapping rx)
    (o : Scene.Orders) (cs : List (List ℤ)) (hcs : s.allPathCandidates G o = .ok cs) (hc : ∀ c ∈ cs, IsCandidate s.objects.length c)
    (split : Key → ℕ → List Key) (hsp : SplitCount split) (key : Key) (m : Scene.PathMethod Key) (v : Scene.ValidOpts)
    (hm : ∀ (k : Key), ∀ t ∈ tx, ∀ r ∈ rx, ∀ c ∈ cs, ∃ path valid, TracedAs s m v (some k) t.2 r.2 c path valid) :
    ∃ ts, s.allPaths G split m o v (some key) = .ok ts := by
  rw [allPaths_eq G s tx rx ht hr h1 h2 o cs hcs split m v (some key)]
  have gen : ∀ (l : List (((String × V2 F) × (String × V2 F)) × List ℤ)) (key : Key),
      (∀ e ∈ l, e.1.1 ∈ tx ∧ e.1.2 ∈ rx ∧ e.2 ∈ cs) → ∃ ts, s.tracePaths split m v (some key) l = .ok ts := by
    intro l
    induction l with
    | nil => intro key _; exact ⟨[], rfl⟩
    | cons e l ih =>
      obtain ⟨⟨⟨tk, t⟩, ⟨rk, r⟩⟩, c⟩ := e
      intro key hl
      obtain ⟨ht', hr', hcc⟩ := hl _ (List.mem_cons_self ..)
      obtain ⟨k0, hk0⟩ : ∃ k', (split key 2)[0]? = some k' := ⟨_, List.getElem?_eq_getElem (by rw [hsp]; norm_num)⟩
      obtain ⟨k1, hk1⟩ : ∃ k', (split key 2)[1]? = some k' := ⟨_, List.getElem?_eq_getElem (by rw [hsp]; norm_num)⟩
      obtain ⟨path, valid, p1, p2⟩ := hm k1 (tk, t) ht' (rk, r) hr' c hcc
      obtain ⟨ts, hts⟩ := ih k0 (fun e he => hl e (by simp [he]))
      refine ⟨⟨tk, rk, valid, path, c⟩ :: ts, ?_⟩
      unfold Scene.tracePaths
      rw [interacting_eq s c (hc c hcc)]
      simp only [Scene.splitKey, hk0, hk1, bind, Except.bind]
      simp only at p1
      rw [p1]
      simp only [validity_eq, p2, hts]
      rfl
  apply gen
  rintro ⟨⟨t, r⟩, c⟩ he
  have h := List.mem_product.mp he
  have h' := List.mem_product.mp h.1
  exact ⟨h'.1, h'.2, h.2⟩

theorem shapeScene_objectsAt (tx rx : PyDict Pt) (shapes : List Shape) (c : List ℤ) (vs : List Pt)
    (hc : List.Forall₂ (fun (i : ℤ) v => 0 ≤ i ∧ shapes[i.toNat]? = some (.vertex v)) c vs) :
    objectsAt (sceneOf tx rx shapes) c = vs.map fun v => (Shape.vertex v).obj := by
  unfold objectsAt
  show c.filterMap (fun i => (shapes.map Shape.obj)[i.toNat]?) = _
  induction hc with
  | nil => rfl
  | cons h _ ih =>
    rw [List.filterMap_cons, List.getElem?_map, h.2]
    simp only [Option.map_some, List.map_cons, ih]

/-- The vertices that a candidate made of vertices names. -/
theorem vertices_of (shapes : List Shape) (c : List ℤ) (hc : IsCandidate shapes.length c)
    (hv : ∀ i ∈ c, ∀ o, (shapes.map Shape.obj)[i.toNat]? = some o → isVertex o = true) :
    ∃ vs, List.Forall₂ (fun (i : ℤ) v => 0 ≤ i ∧ shapes[i.toNat]? = some (.vertex v)) c vs := by
  have h1 := hc.1
  clear hc
  induction c with
  | nil => exact ⟨[], .nil⟩
  | cons i c ih =>
    obtain ⟨vs, h⟩ := ih (fun j hj => hv j (by simp [hj])) (fun j hj => h1 j (by simp [hj]))
    obtain ⟨a, b⟩ := h1 i (by simp)
    have hlt : i.toNat < shapes.length := by omega
    have hs := List.getElem?_eq_getElem hlt
    have := hv i (by simp) (shapes[i.toNat]).obj (by rw [List.getElem?_map, hs]; rfl)
    cases hsh : shapes[i.toNat] with
    | wall o d => rw [hsh] at this; simp [Shape.obj, isVertex] at this
    | ris o d φ => rw [hsh] at this; simp [Shape.obj, isVertex] at this
    | vertex v => rw [hsh] at hs; exact ⟨v :: vs, .cons ⟨a, hs⟩ h⟩

/-- The broken line of a diffraction path. -/
theorem diffraction_shape {shapes : List Shape} {patch : ℝ} {t r : Pt} {c : List ℤ} {pts : List Pt} (h : DiffractionPath shapes patch t r c pts)
    {vs : List Pt} (hc : List.Forall₂ (fun (i : ℤ) v => 0 ≤ i ∧ shapes[i.toNat]? = some (.vertex v)) c vs) : pts = t :: vs ++ [r] := by
  have hl := h.count
  have hs := h.start
  have hf := h.finish
  have hvl := hc.length_eq
  obtain ⟨qs, rfl⟩ : ∃ qs, pts = t :: qs ++ [r] := by
    match pts, hl, hs, hf with
    | a :: rest, hl, hs, hf =>
      simp at hs; subst hs
      have hne : rest ≠ [] := by rintro rfl; simp at hl
      rw [List.getLast?_cons_of_ne_nil hne] at hf
      obtain ⟨ys, rfl⟩ := List.getLast?_eq_some_iff.mp hf
      exact ⟨ys, rfl⟩
  congr 2
  have hql : qs.length = c.length := by simpa using hl
  apply List.ext_getElem (by omega)
  intro i h1 h2
  have hci : i < c.length := by omega
  obtain ⟨hi0, hi⟩ := (List.forall₂_iff_get.mp hc).2 i hci h2
  simp only [List.get_eq_getElem] at hi hi0
  have := h.visits i (c[i]).toNat qs[i] (by rw [List.getElem?_eq_getElem hci]; congr 1; omega) (by
    simp only [List.cons_append, List.getElem?_cons_succ]
    rw [List.getElem?_append_left h1, List.getElem?_eq_getElem h1])
  rw [hi] at this
  simpa using this.symm

section
variable {Key : Type} (G : GraphLib) (hG : GraphContract G) (tx rx : PyDict Pt) (ht : Distinct tx) (hr : Distinct rx) (shapes : List Shape)
  (lo hi : ℤ) (hlo : 0 ≤ lo) (split : Key → ℕ → List Key) (hsp : SplitCount split) (key : Key) (E : Env) (ap : Option Bool) (hh : Hard E ap) (kw : ActKw)
  (tol patch : ℝ) (h0 : 0 < tol) (hp : -(1 / 2) < patch)
  (E' : Env) (M : Minimizer Key) (many : ℕ) (hM : Shaped M many) (m : Scene.PathMethod Key) (hm : m = fermatMethod E' M many ∨ m = minMethod M many)
include hG ht hr hlo hsp hh h0 hp hM hm

/-- Tracing and checking all the candidates made of vertices. -/
theorem diffraction_traces :
    ∃ (fs : List (List ℤ)) (ts : List Scene.Traced) (vsOf : List ℤ → List Pt),
      (sceneOf tx rx shapes).allPathCandidates G { minOrder := lo, maxOrder := hi, filter := some isVertex } = .ok fs ∧ fs.Nodup ∧
      (∀ c, c ∈ fs ↔ InRange shapes.length lo hi c ∧ ∀ i ∈ c, ∃ v, shapes[i.toNat]? = some (.vertex v)) ∧
      (∀ c ∈ fs, List.Forall₂ (fun (i : ℤ) w => 0 ≤ i ∧ shapes[i.toNat]? = some (.vertex w)) c (vsOf c)) ∧
      (sceneOf tx rx shapes).allPaths G split m { minOrder := lo, maxOrder := hi, filter := some isVertex } ⟨E, F.fin tol, F.fin patch, ap, kw⟩ (some key) = .ok ts ∧
      ∀ (k : Option Key) (t r : Pt) (c : List ℤ) (path : Path) (valid : Truthy), c ∈ fs →
        TracedAs (sceneOf tx rx shapes) m ⟨E, F.fin tol, F.fin patch, ap, kw⟩ k (V2.fin t) (V2.fin r) c path valid →
        path = finitePath (t :: vsOf c ++ [r]) 0 ∧ ∃ b, valid = .b b ∧ (b = true ↔ DiffractionPath shapes patch t r c (t :: vsOf c ++ [r])) := by
  set s := sceneOf tx rx shapes with hs
  have hfin : ∀ d : PyDict Pt, Distinct d → Distinct (finPoints d) := by
    intro d hd; simpa [Distinct, finPoints, Function.comp_def] using hd
  have e1 : s.transmitters = .fromMapping (finPoints tx) := rfl
  have e2 : s.receivers = .fromMapping (finPoints rx) := rfl
  have hS : IsScene s := ⟨⟨_, hfin tx ht, e1⟩, ⟨_, hfin rx hr, e2⟩⟩
  have hobj : s.objects = shapes.map Shape.obj := rfl
  have hol : s.objects.length = shapes.length := by rw [hobj]; simp
  obtain ⟨cs, fs, hcs, hfs, hfd, -, hfm⟩ := C54_filter G hG s lo hi hlo isVertex
  obtain ⟨cs', hcs', -, hcm, -⟩ := C53_sound_complete G hG s lo hi hlo
  rw [hcs] at hcs'; cases hcs'
  rw [hol] at hcm
  have hfc : ∀ c, c ∈ fs ↔ InRange shapes.length lo hi c ∧ ∀ i ∈ c, ∃ v, shapes[i.toNat]? = some (.vertex v) := by
    intro c
    rw [hfm, hcm]
    constructor
    · rintro ⟨⟨a, b1, b2⟩, h⟩
      obtain ⟨vs, hvs⟩ := vertices_of shapes c a h
      refine ⟨⟨a, b1, b2⟩, fun i hi' => ?_⟩
      obtain ⟨k, hk, rfl⟩ := List.getElem_of_mem hi'
      exact ⟨_, ((List.forall₂_iff_get.mp hvs).2 k hk (by rw [← hvs.length_eq]; exact hk)).2⟩
    · rintro ⟨⟨a, b1, b2⟩, h⟩
      refine ⟨⟨a, b1, b2⟩, fun i hi' o ho => ?_⟩
      obtain ⟨w, hw⟩ := h i hi'
      rw [hobj, List.getElem?_map, hw] at ho
      obtain rfl := Option.some.inj ho
      rfl
  set v : Scene.ValidOpts := ⟨E, F.fin tol, F.fin patch, ap, kw⟩ with hv
  have hcand : ∀ c ∈ fs, IsCandidate shapes.length c := fun c hc => ((hfc c).mp hc).1.1
  -- one candidate
  have one : ∀ c ∈ fs, ∃ vs, List.Forall₂ (fun (i : ℤ) w => 0 ≤ i ∧ shapes[i.toNat]? = some (.vertex w)) c vs ∧ ∀ (k : Key) (t r : Pt) (path : Path) (valid : Truthy),
      TracedAs s m v (some k) (V2.fin t) (V2.fin r) c path valid ↔ path = finitePath (t :: vs ++ [r]) 0 ∧
        ∃ b, valid = .b b ∧ (b = true ↔ DiffractionPath shapes patch t r c (t :: vs ++ [r])) := by
    intro c hc
    obtain ⟨vs, hvs⟩ := vertices_of shapes c (hcand c hc) ((hfm c).mp hc).2
    refine ⟨vs, hvs, fun k t r path valid => ?_⟩
    have ho := shapeScene_objectsAt tx rx shapes c vs hvs
    have htr : m.trace (some k) (V2.fin t) (objectsAt s c) (V2.fin r) = .ok (finitePath (t :: vs ++ [r]) 0) := by
      obtain ⟨a, b⟩ := C126_path E' M many hM (V2.fin t) (V2.fin r) vs k
      have hmap : (vs.map fun v => (Shape.vertex v).obj).map Obj.interact = vs.map fun v => (Shape.vertex v).obj.interact := by simp
      have hpath : finitePath (t :: vs ++ [r]) 0 = ⟨V2.fin t :: vs.map V2.fin ++ [V2.fin r], 0⟩ := by simp [finitePath, F.zero_eq]
      rw [hs, ho, hpath]
      rcases hm with rfl | rfl
      · show FermatPath.fromTxObjectsRx E' M (V2.fin t) (List.map Obj.interact _) (V2.fin r) k many = _
        rw [hmap]; exact a
      · show MinPath.fromTxObjectsRx M (V2.fin t) (List.map Obj.interact _) (V2.fin r) k many = _
        rw [hmap]; exact b
    obtain ⟨b, hb, hiff⟩ := valid_vertices hh kw shapes c vs hvs t r tol patch h0 hp
    have hval : (finitePath (t :: vs ++ [r]) 0).isValid v.E (s.objects.map Obj.interact) c ((objectsAt s c).map Obj.interact) v.tol v.patch v.approx v.kw =
        .ok (.b b) := by
      rw [hs, ho, List.map_map]; exact hb
    unfold TracedAs
    rw [htr]
    constructor
    · rintro ⟨a1, a2⟩
      obtain rfl := Except.ok.inj a1
      rw [hval] at a2
      exact ⟨rfl, b, (Except.ok.inj a2).symm, hiff⟩
    · rintro ⟨rfl, b', rfl, hb'⟩
      refine ⟨rfl, ?_⟩
      rw [hval]
      congr 2
      rw [Bool.eq_iff_iff, hiff, hb']
  have hexists : ∀ (k : Key), ∀ t ∈ finPoints tx, ∀ r ∈ finPoints rx, ∀ c ∈ fs, ∃ path valid, TracedAs s m v (some k) t.2 r.2 c path valid := by
    intro k t ht' r hr' c hc
    obtain ⟨t', -, rfl⟩ := List.mem_map.mp ht'
    obtain ⟨r', -, rfl⟩ := List.mem_map.mp hr'
    obtain ⟨vs, -, h⟩ := one c hc
    exact ⟨_, .b (decide (DiffractionPath shapes patch t'.2 r'.2 c (t'.2 :: vs ++ [r'.2]))), (h k t'.2 r'.2 _ _).mpr ⟨rfl, _, rfl, by simp⟩⟩
  obtain ⟨ts, hts⟩ := keyed_total G s _ _ (hfin tx ht) (hfin rx hr) e1 e2 _ fs hfs (by rw [hol]; exact hcand) split hsp key m v hexists
  have hkey : ∀ (k : Option Key) (t r : V2 F) (c : List ℤ) (path : Path) (valid : Truthy), TracedAs s m v k t r c path valid → ∃ k', k = some k' := by
    intro k t r c path valid h
    cases k with
    | some k => exact ⟨k, rfl⟩
    | none =>
      exfalso
      have h1 := h.1
      rcases hm with rfl | rfl <;> cases h1
  choose! vsOf hvs h using one
  refine ⟨fs, ts, vsOf, hfs, hfd, hfc, hvs, hts, ?_⟩
  intro k t r c path valid hc htr
  obtain ⟨k', rfl⟩ := hkey _ _ _ _ _ _ htr
  exact (h c hc k' t r _ _).mp htr

/-- **C126.** Vertex diffraction in hard mode: with `filter_objects=lambda obj: isinstance(obj, Vertex)` and `FermatPath` or `MinPath`, whatever the
random key and the optimizer, `all_valid_paths` yields exactly the broken lines through the vertices that no wall and no RIS of the scene stops. -/
theorem C126_diffraction :
    ∃ out, (sceneOf tx rx shapes).allValidPaths G split m { minOrder := lo, maxOrder := hi, filter := some isVertex }
        ⟨E, F.fin tol, F.fin patch, ap, kw⟩ (some key) = .ok out ∧
      (out.map fun x => (x.1, x.2.1, x.2.2.2)).Nodup ∧
      ∀ tn rn path c, (tn, rn, path, c) ∈ out ↔ ∃ t r pts, (tn, t) ∈ tx ∧ (rn, r) ∈ rx ∧ InRange shapes.length lo hi c ∧
        (∀ i ∈ c, ∃ v, shapes[i.toNat]? = some (.vertex v)) ∧ path = finitePath pts 0 ∧ DiffractionPath shapes patch t r c pts := by
  obtain ⟨fs, ts, vsOf, hfs, hfd, hfc, hvs, hts, one⟩ := diffraction_traces G hG tx rx ht hr shapes lo hi hlo split hsp key E ap hh kw tol patch h0 hp E' M many hM m hm
  set s := sceneOf tx rx shapes with hs
  have hfin : ∀ d : PyDict Pt, Distinct d → Distinct (finPoints d) := by
    intro d hd; simpa [Distinct, finPoints, Function.comp_def] using hd
  have e1 : s.transmitters = .fromMapping (finPoints tx) := rfl
  have e2 : s.receivers = .fromMapping (finPoints rx) := rfl
  have hS : IsScene s := ⟨⟨_, hfin tx ht, e1⟩, ⟨_, hfin rx hr, e2⟩⟩
  set v : Scene.ValidOpts := ⟨E, F.fin tol, F.fin patch, ap, kw⟩ with hv
  obtain ⟨m1, m2, m3⟩ := traversal_mem G hG s _ _ (hfin tx ht) (hfin rx hr) e1 e2 { minOrder := lo, maxOrder := hi, filter := some isVertex } hlo split
    (some key) fs hfs hfd m v ts hts
  have hout := C57_valid G s hS { minOrder := lo, maxOrder := hi, filter := some isVertex } split (some key) m v
  rw [hts] at hout
  refine ⟨_, hout, ?_, ?_⟩
  · rw [List.map_map]
    exact m3.sublist (List.Sublist.map _ List.filter_sublist)
  · intro tn rn path c
    constructor
    · intro hmem
      obtain ⟨x, hx, hxe⟩ := List.mem_map.mp hmem
      obtain ⟨hx, hacc⟩ := List.mem_filter.mp hx
      simp only [Prod.mk.injEq] at hxe
      obtain ⟨rfl, rfl, rfl, rfl⟩ := hxe
      have hholds : Holds x.valid := by
        rcases of_decide_eq_true hacc with ⟨-, h⟩ | ⟨h, -⟩
        · exact h
        · exact (not_hard_soft hh h).elim
      obtain ⟨k, t, r, ht', hr', hc, htr⟩ := m1 x hx
      obtain ⟨t', htm, hte⟩ := List.mem_map.mp ht'
      obtain ⟨r', hrm, hre⟩ := List.mem_map.mp hr'
      simp only [Prod.mk.injEq] at hte hre
      obtain ⟨hte1, rfl⟩ := hte
      obtain ⟨hre1, rfl⟩ := hre
      obtain ⟨hpath, b, hb, hiff⟩ := one k t'.2 r'.2 _ _ _ hc htr
      have hbt : b = true := by rw [hb] at hholds; exact hholds
      exact ⟨t'.2, r'.2, _, by rw [← hte1]; exact htm, by rw [← hre1]; exact hrm, ((hfc _).mp hc).1, ((hfc _).mp hc).2, hpath, hiff.mp hbt⟩
    · rintro ⟨t, r, pts, ht', hr', hin, hvx, rfl, hd⟩
      have hc : c ∈ fs := (hfc c).mpr ⟨hin, hvx⟩
      obtain ⟨x, hx, k, x1, x2, x3, htr⟩ := m2 (tn, V2.fin t) (List.mem_map.mpr ⟨_, ht', rfl⟩) (rn, V2.fin r) (List.mem_map.mpr ⟨_, hr', rfl⟩) c hc
      obtain ⟨hpath, b, hb, hiff⟩ := one k t r _ _ _ hc htr
      have hpts := diffraction_shape hd (hvs c hc)
      refine List.mem_map.mpr ⟨x, List.mem_filter.mpr ⟨hx, ?_⟩, ?_⟩
      · refine decide_eq_true (.inl ⟨hh, ?_⟩)
        rw [hb]
        exact hiff.mpr (hpts ▸ hd)
      · rw [x1, x2, x3, hpath, hpts]

/-- **C126.** The accumulated value (for instance the power) of vertex diffraction, in hard mode, is the sum of the function over the broken lines
through the vertices that no wall and no RIS stops. -/
theorem C126_accumulate (hex : ∃ c, InRange shapes.length lo hi c ∧ ∀ i ∈ c, ∃ v, shapes[i.toNat]? = some (.vertex v))
    (f : Scene.PathFun) (g : Pt → Pt → List Pt → ℝ) (hf : RealFun f g) :
    ∃ paths : Pt → Pt → Finset (List ℤ × List Pt),
      (∀ t r c pts, (c, pts) ∈ paths t r ↔ InRange shapes.length lo hi c ∧ (∀ i ∈ c, ∃ v, shapes[i.toNat]? = some (.vertex v)) ∧
        DiffractionPath shapes patch t r c pts) ∧
      (sceneOf tx rx shapes).accumulateOverPaths G split m { minOrder := lo, maxOrder := hi, filter := some isVertex }
        ⟨E, F.fin tol, F.fin patch, ap, kw⟩ (some key) f =
        .ok ((tx ×ˢ rx).map fun p => (p.1.1, p.2.1, F.fin (∑ path ∈ paths p.1.2 p.2.2, g p.1.2 p.2.2 path.2))) := by
  obtain ⟨fs, ts, vsOf, hfs, hfd, hfc, hvs, hts, one⟩ := diffraction_traces G hG tx rx ht hr shapes lo hi hlo split hsp key E ap hh kw tol patch h0 hp E' M many hM m hm
  set s := sceneOf tx rx shapes with hs
  have hfin : ∀ d : PyDict Pt, Distinct d → Distinct (finPoints d) := by
    intro d hd; simpa [Distinct, finPoints, Function.comp_def] using hd
  have e1 : s.transmitters = .fromMapping (finPoints tx) := rfl
  have e2 : s.receivers = .fromMapping (finPoints rx) := rfl
  set v : Scene.ValidOpts := ⟨E, F.fin tol, F.fin patch, ap, kw⟩ with hv
  obtain ⟨m1, -, -⟩ := traversal_mem G hG s _ _ (hfin tx ht) (hfin rx hr) e1 e2 { minOrder := lo, maxOrder := hi, filter := some isVertex } hlo split
    (some key) fs hfs hfd m v ts hts
  have hne : fs ≠ [] := by
    obtain ⟨c, hc⟩ := hex
    exact List.ne_nil_of_mem ((hfc c).mpr hc)
  refine ⟨fun t r => ((fs.filter fun c => decide (DiffractionPath shapes patch t r c (t :: vsOf c ++ [r]))).map fun c => (c, t :: vsOf c ++ [r])).toFinset, ?_, ?_⟩
  · intro t r c pts
    simp only [List.mem_toFinset, List.mem_map, List.mem_filter, decide_eq_true_eq, Prod.mk.injEq]
    constructor
    · rintro ⟨c', ⟨hc, hd⟩, rfl, rfl⟩
      exact ⟨((hfc _).mp hc).1, ((hfc _).mp hc).2, hd⟩
    · rintro ⟨hc, hc2, hd⟩
      have hcf := (hfc c).mpr ⟨hc, hc2⟩
      have := diffraction_shape hd (hvs c hcf)
      subst this
      exact ⟨c, ⟨hcf, hd⟩, rfl, rfl⟩
  rw [C58_entries G hG s _ _ (hfin tx ht) (hfin rx hr) e1 e2 { minOrder := lo, maxOrder := hi, filter := some isVertex } hlo fs hfs hne split (some key) m v f, hts]
  show Except.ok _ = Except.ok _
  congr 1
  have hprod : finPoints tx ×ˢ finPoints rx = (tx ×ˢ rx).map fun e => ((e.1.1, V2.fin e.1.2), (e.2.1, V2.fin e.2.2)) :=
    product_map (fun kv : String × Pt => (kv.1, V2.fin kv.2)) (fun kv : String × Pt => (kv.1, V2.fin kv.2)) tx rx
  have key1 : ∀ (d : PyDict Pt), Distinct d → ∀ (n : String) (p : Pt) (q : V2 F), (n, p) ∈ d → (n, q) ∈ finPoints d → q = V2.fin p := by
    intro d hd n p q hp hq
    obtain ⟨⟨n', p'⟩, hm, he⟩ := List.mem_map.mp hq
    simp only [Prod.mk.injEq] at he
    obtain ⟨rfl, rfl⟩ := he
    have := List.inj_on_of_nodup_map hd hp hm rfl
    simp only [Prod.mk.injEq, true_and] at this
    rw [this]
  rw [hprod]
  show List.map _ (List.map _ _) = _
  rw [List.map_map]
  apply List.map_congr_left
  rintro ⟨⟨tn, t⟩, ⟨rn, r⟩⟩ hpair
  obtain ⟨hp1, hp2⟩ := List.mem_product.mp hpair
  simp only [Function.comp]
  congr 2
  have hterms := C58_terms G s _ _ (hfin tx ht) (hfin rx hr) e1 e2 { minOrder := lo, maxOrder := hi, filter := some isVertex } fs hfs split (some key) m v ts hts
    ((tn, V2.fin t), (rn, V2.fin r)) (by rw [hprod]; exact List.mem_map.mpr ⟨_, hpair, rfl⟩)
  have hw : (ts.filter fun x => (x.tx, x.rx) = (tn, rn)).map (weighted s f (V2.fin t) (V2.fin r)) =
      ((ts.filter fun x => (x.tx, x.rx) = (tn, rn)).map (·.candidate)).map fun c =>
        F.fin ((if DiffractionPath shapes patch t r c (t :: vsOf c ++ [r]) then 1 else 0) * g t r (t :: vsOf c ++ [r])) := by
    rw [List.map_map]
    apply List.map_congr_left
    intro x hx
    obtain ⟨hx, hnm⟩ := List.mem_filter.mp hx
    simp only [Prod.mk.injEq, decide_eq_true_eq] at hnm
    obtain ⟨k, t', r', ht', hr', hc', htr⟩ := m1 x hx
    rw [hnm.1] at ht'
    rw [hnm.2] at hr'
    obtain rfl := key1 tx ht tn t t' hp1 ht'
    obtain rfl := key1 rx hr rn r r' hp2 hr'
    obtain ⟨hpath, b, hb, hiff⟩ := one k t r _ _ _ hc' htr
    simp only [Function.comp, weighted]
    rw [hpath, hf t r _ _ _ (by simp), hb]
    cases b with
    | true => rw [if_pos (hiff.mp rfl)]; simp [Truthy.toF]
    | false => rw [if_neg (by rw [← hiff]; simp)]; simp [Truthy.toF]
  simp only at hterms
  rw [hw, hterms]
  rw [show (fs.map fun c => F.fin ((if DiffractionPath shapes patch t r c (t :: vsOf c ++ [r]) then 1 else 0) * g t r (t :: vsOf c ++ [r]))) =
    (fs.map fun c => (if DiffractionPath shapes patch t r c (t :: vsOf c ++ [r]) then 1 else 0) * g t r (t :: vsOf c ++ [r])).map F.fin by rw [List.map_map]; rfl, F.sum_fin]
  congr 1
  rw [List.sum_toFinset _ (List.Nodup.map_on (fun a _ b _ e => (Prod.mk.injEq _ _ _ _ ▸ e).1) (hfd.filter _)), List.map_map]
  clear * -
  induction fs with
  | nil => rfl
  | cons c cs ih =>
    rw [List.map_cons, List.sum_cons, ih, List.filter_cons]
    by_cases hd : DiffractionPath shapes patch t r c (t :: vsOf c ++ [r])
    · rw [if_pos hd, if_pos (decide_eq_true hd), List.map_cons, List.sum_cons, one_mul]; rfl
    · rw [if_neg hd, if_neg (by simpa using hd), zero_mul, zero_add]

end

/-! ## Vertices at the ends of walls -/

/-- **C126.** A diffraction path that visits a point of a wall (or RIS), within the patch and the tolerance of its ends, comes along this wall and leaves
along it. -/
theorem C126_edge {shapes : List Shape} {patch : ℝ} {t r : Pt} {c : List ℤ} {pts : List Pt} (h : DiffractionPath shapes patch t r c pts)
    {i j : ℕ} {s : Shape} {w : Pt × Pt} {p q q' : Pt} (hs : shapes[j]? = some s) (hw : s.ends = some w) (hnd : w.1 ≠ w.2)
    (hp : pts[i]? = some p) (hq : pts[i + 1]? = some q) (hq' : pts[i + 2]? = some q') (hon : OnExtended w patch q) :
    OnLine w.1 w.2 p ∧ OnLine w.1 w.2 q' :=
  ⟨(along_or_blocked hnd (.inr hon) (h.clear i j s w p q hp hq hs hw)).1, (along_or_blocked hnd (.inl hon) (h.clear (i + 1) j s w q q' hq hq' hs hw)).2⟩

/-- Two lines that are not parallel have at most one common point. -/
theorem common_point {a b c d p q : Pt} (h : ¬ Parallel a b c d) (p1 : OnLine a b p) (p2 : OnLine c d p) (q1 : OnLine a b q) (q2 : OnLine c d q) :
    p = q := by
  have e1 := onLine_side p1
  have e2 := onLine_side p2
  have e3 := onLine_side q1
  have e4 := onLine_side q2
  simp only [side] at e1 e2 e3 e4
  simp only [Parallel] at h
  have f1 : (b.x - a.x) * (q.y - p.y) - (b.y - a.y) * (q.x - p.x) = 0 := by linear_combination e3 - e1
  have f2 : (d.x - c.x) * (q.y - p.y) - (d.y - c.y) * (q.x - p.x) = 0 := by linear_combination e4 - e2
  have g1 : ((b.x - a.x) * (d.y - c.y) - (b.y - a.y) * (d.x - c.x)) * (q.x - p.x) = 0 := by
    linear_combination (d.x - c.x) * f1 - (b.x - a.x) * f2
  have g2 : ((b.x - a.x) * (d.y - c.y) - (b.y - a.y) * (d.x - c.x)) * (q.y - p.y) = 0 := by
    linear_combination (d.y - c.y) * f1 - (b.y - a.y) * f2
  have hk : (b.x - a.x) * (d.y - c.y) - (b.y - a.y) * (d.x - c.x) ≠ 0 := by
    intro h0; apply h; linear_combination h0
  have i1 := (mul_eq_zero.mp g1).resolve_left hk
  have i2 := (mul_eq_zero.mp g2).resolve_left hk
  exact V2.ext (by linarith) (by linarith)

/-- **C126.** No diffraction at a corner: a diffraction path does not visit a point of two walls (or RISs) that are not parallel, unless its neighbours
on the path are that same point. -/
theorem C126_corner {shapes : List Shape} {patch : ℝ} {t r : Pt} {c : List ℤ} {pts : List Pt} (h : DiffractionPath shapes patch t r c pts)
    {i j j' : ℕ} {s s' : Shape} {w w' : Pt × Pt} {p q q' : Pt} (hs : shapes[j]? = some s) (hs' : shapes[j']? = some s') (hw : s.ends = some w)
    (hw' : s'.ends = some w') (hpar : ¬ Parallel w.1 w.2 w'.1 w'.2)
    (hp : pts[i]? = some p) (hq : pts[i + 1]? = some q) (hq' : pts[i + 2]? = some q') (hon : OnExtended w patch q) (hon' : OnExtended w' patch q) :
    p = q ∧ q' = q := by
  have hne : w.1 ≠ w.2 := by intro e; apply hpar; simp [Parallel, e]
  have hne' : w'.1 ≠ w'.2 := by intro e; apply hpar; simp [Parallel, e]
  obtain ⟨a1, a2⟩ := C126_edge h hs hw hne hp hq hq' hon
  obtain ⟨b1, b2⟩ := C126_edge h hs' hw' hne' hp hq hq' hon'
  obtain ⟨u, e, -⟩ := hon
  obtain ⟨u', e', -⟩ := hon'
  exact ⟨common_point hpar a1 b1 ⟨u, e⟩ ⟨u', e'⟩, common_point hpar a2 b2 ⟨u, e⟩ ⟨u', e'⟩⟩

theorem pointAt_inj {a b : Pt} (hnd : a ≠ b) {s s' : ℝ} (e : pointAt a b s = pointAt a b s') : s = s' := by
  have hx := congrArg V2.x e
  have hy := congrArg V2.y e
  simp only [pointAt] at hx hy
  by_contra hs
  apply hnd
  have h1 : (s - s') * (b.x - a.x) = 0 := by linear_combination hx
  have h2 : (s - s') * (b.y - a.y) = 0 := by linear_combination hy
  have h3 := (mul_eq_zero.mp h1).resolve_left (sub_ne_zero.mpr hs)
  have h4 := (mul_eq_zero.mp h2).resolve_left (sub_ne_zero.mpr hs)
  exact V2.ext (by linarith) (by linarith)

/-- **C126.** The ends of a wall are within reach of the wall itself exactly when the patch is at least -1/202. -/
theorem C126_ends (w : Pt × Pt) (patch : ℝ) (hnd : w.1 ≠ w.2) :
    (OnExtended w patch w.1 ↔ -(1 / 202) ≤ patch) ∧ (OnExtended w patch w.2 ↔ -(1 / 202) ≤ patch) := by
  have inj : ∀ s s', pointAt w.1 w.2 s = pointAt w.1 w.2 s' → s = s' := fun s s' e => pointAt_inj hnd e
  have e0 : w.1 = pointAt w.1 w.2 0 := by ext <;> simp [pointAt]
  have e1 : w.2 = pointAt w.1 w.2 1 := by ext <;> simp [pointAt]
  constructor
  · constructor
    · rintro ⟨s, e, h1, h2⟩
      have : (0:ℝ) = s := inj _ _ (e0.symm.trans e)
      subst this; linarith
    · intro h; exact ⟨0, e0, by linarith, by linarith⟩
  · constructor
    · rintro ⟨s, e, h1, h2⟩
      have : (1:ℝ) = s := inj _ _ (e1.symm.trans e)
      subst this; linarith
    · intro h; exact ⟨1, e1, by linarith, by linarith⟩

/-- **C126.** The documented remedy: with a patch below -1/202, a wall never stops a step that starts or ends at one of its own ends. -/
theorem C126_patch (w : Pt × Pt) (patch : ℝ) (h2 : patch < -(1 / 202)) (a : Pt) :
    ¬ Blocks w patch a w.1 ∧ ¬ Blocks w patch w.1 a ∧ ¬ Blocks w patch a w.2 ∧ ¬ Blocks w patch w.2 a := by
  have e0 : w.1 = pointAt w.1 w.2 0 := by ext <;> simp [pointAt]
  have e1 : w.2 = pointAt w.1 w.2 1 := by ext <;> simp [pointAt]
  have key : ∀ (x y e : Pt) (s : ℝ), e = pointAt w.1 w.2 s → (s = 0 ∨ s = 1) → OnLine x y e → ¬ Blocks w patch x y := by
    rintro x y e s he hs hxy ⟨hpar, s', t', hst, ⟨b1, b2⟩, -⟩
    have hne : w.1 ≠ w.2 := by intro e; apply hpar; simp [Parallel, e]
    have h := common_point hpar ⟨s', rfl⟩ ⟨t', hst⟩ ⟨s, he⟩ hxy
    have hs' : s' = s := pointAt_inj hne (h.trans he)
    rcases hs with rfl | rfl <;> linarith
  refine ⟨key _ _ _ 0 e0 (.inl rfl) ⟨1, by ext <;> simp [pointAt]⟩, key _ _ _ 0 e0 (.inl rfl) ⟨0, by ext <;> simp [pointAt]⟩,
    key _ _ _ 1 e1 (.inr rfl) ⟨1, by ext <;> simp [pointAt]⟩, key _ _ _ 1 e1 (.inr rfl) ⟨0, by ext <;> simp [pointAt]⟩⟩

theorem ends_extended {w : Pt × Pt} {patch : ℝ} (hp : -(1 / 202) ≤ patch) {q : Pt} (h : q = w.1 ∨ q = w.2) : OnExtended w patch q := by
  rcases h with rfl | rfl
  · exact ⟨0, by ext <;> simp [pointAt], by linarith, by linarith⟩
  · exact ⟨1, by ext <;> simp [pointAt], by linarith, by linarith⟩

/-- **C126.** If every vertex is a corner of walls that are in the scene, there is no diffraction path at all between two different points. -/
theorem C126_no_diffraction {shapes : List Shape} (hv : VerticesAreCorners shapes) {patch : ℝ} (hp : -(1 / 202) ≤ patch) {t r : Pt} {c : List ℤ}
    {pts : List Pt} (hc : IsCandidate shapes.length c) (hne : c ≠ []) (h : DiffractionPath shapes patch t r c pts) : t = r := by
  have hl := h.count
  have step : ∀ i, i < c.length → ∀ p q q', pts[i]? = some p → pts[i + 1]? = some q → pts[i + 2]? = some q' → p = q ∧ q' = q := by
    intro i hi p q q' e1 e2 e3
    obtain ⟨h0, h1⟩ := hc.1 c[i] (List.getElem_mem hi)
    have hvis := h.visits i (c[i]).toNat q (by rw [List.getElem?_eq_getElem hi]; congr 1; omega) e2
    obtain ⟨s, hs, s', hs', w, w', hw, hw', hpar, a, b⟩ := hv q (List.mem_of_getElem? hvis)
    obtain ⟨j, hj⟩ := List.getElem?_of_mem hs
    obtain ⟨j', hj'⟩ := List.getElem?_of_mem hs'
    exact C126_corner h hj hj' hw hw' hpar e1 e2 e3 (ends_extended hp a) (ends_extended hp b)
  have hc1 : 1 ≤ c.length := List.length_pos_iff.mpr hne
  have all : ∀ i, i < pts.length → pts[i]? = some t := by
    intro i
    induction i with
    | zero => intro _; rw [← List.head?_eq_getElem?]; exact h.start
    | succ i ih =>
      intro hi
      have hpi := ih (by omega)
      rw [List.getElem?_eq_getElem hi]
      by_cases hlast : i < c.length
      · have := step i hlast t _ _ hpi (List.getElem?_eq_getElem hi) (List.getElem?_eq_getElem (by omega))
        rw [← this.1]
      · obtain ⟨k, rfl⟩ : ∃ k, i = k + 1 := ⟨i - 1, by omega⟩
        have := step k (by omega) _ _ _ (List.getElem?_eq_getElem (by omega)) hpi (List.getElem?_eq_getElem hi)
        rw [this.2]
  have := h.finish
  rw [List.getLast?_eq_getElem?, all _ (by omega)] at this
  exact Option.some.inj this

/-- Every tuple of the traversal is a traced candidate. -/
theorem traversal_sound {Key : Type} (G : GraphLib) (hG : GraphContract G) (s : Scene) (tx rx : PyDict (V2 F))
    (ht : Distinct tx) (hr : Distinct rx) (h1 : s.transmitters = .fromMapping tx)
    (h2 : s.receivers = .fromMapping rx) (o : Scene.Orders) (ho : NonNegative o) (split : Key → ℕ → List Key)
    (key : Option Key) (m : Scene.PathMethod Key) (v : Scene.ValidOpts) (ts : List Scene.Traced)
    (hts : s.allPaths G split m o v key = .ok ts) (x : Scene.Traced) (hx : x ∈ ts) :
    ∃ k t r, (x.tx, t) ∈ tx ∧ (x.rx, r) ∈ rx ∧ IsCandidate s.objects.length x.candidate ∧ TracedAs s m v k t r x.candidate x.path x.valid := by
  obtain ⟨cs, hcs, hc⟩ := orders_candidates G hG s o ho
  rw [allPaths_eq G s tx rx ht hr h1 h2 o cs hcs, tracePaths_ok] at hts
  obtain ⟨hl, hturn⟩ := hts
  obtain ⟨n, hn, rfl⟩ := List.getElem_of_mem hx
  have hlt : n < ((tx ×ˢ rx) ×ˢ cs).length := by rw [← hl]; exact hn
  rcases he : ((tx ×ˢ rx) ×ˢ cs)[n] with ⟨⟨t, r⟩, c⟩
  have hget : ((tx ×ˢ rx) ×ˢ cs)[n]? = some ((t, r), c) := by rw [List.getElem?_eq_getElem hlt, he]
  obtain ⟨e1, e2, e3, os, e4, e5, e6⟩ := hturn n _ _ hget (List.getElem?_eq_getElem hn)
  have hmem := List.mem_product.mp (List.mem_of_getElem? hget)
  have hmem' := List.mem_product.mp hmem.1
  have hos := interacting_eq s c (hc c hmem.2)
  simp only at e4
  rw [hos] at e4
  cases e4
  simp only at e1 e2 e3
  refine ⟨_, t.2, r.2, ?_, ?_, ?_, by rw [e3]; exact ⟨e5, e6⟩⟩
  · rw [e1]; exact hmem'.1
  · rw [e2]; exact hmem'.2
  · rw [e3]; exact hc c hmem.2

section
variable {Key : Type} (G : GraphLib) (hG : GraphContract G) (tx rx : PyDict Pt) (ht : Distinct tx) (hr : Distinct rx) (shapes : List Shape)
  (o : Scene.Orders) (ho : NonNegative o) (split : Key → ℕ → List Key) (key : Option Key) (E : Env) (ap : Option Bool) (hh : Hard E ap) (kw : ActKw)
  (tol : F) (patch : ℝ) (hp : -(1 / 2) < patch)
  (E' : Env) (M : Minimizer Key) (many : ℕ) (hM : Shaped M many) (m : Scene.PathMethod Key) (hm : m = fermatMethod E' M many ∨ m = minMethod M many)
include hG ht hr ho hh hp hM hm

/-- **C126.** Also on paths that mix reflections and diffractions, of any orders and with any filter: if a valid path (hard mode) of `FermatPath` or
`MinPath` with real points visits a vertex that is on a wall or RIS of the scene (within the patch and the tolerance), it comes along this wall and
leaves along it. -/
theorem C126_mixed (out : List (String × String × Path × List ℤ))
    (hout : (sceneOf tx rx shapes).allValidPaths G split m o ⟨E, tol, F.fin patch, ap, kw⟩ key = .ok out)
    (tn rn : String) (path : Path) (c : List ℤ) (hmem : (tn, rn, path, c) ∈ out) (pts : List Pt) (hpts : path.xys = pts.map V2.fin)
    (i j : ℕ) (s : Shape) (w : Pt × Pt) (p q q' : Pt) (hv : ∃ k : ℕ, c[i]? = some (k : ℤ) ∧ shapes[k]? = some (.vertex q))
    (hs : shapes[j]? = some s) (hw : s.ends = some w) (hnd : w.1 ≠ w.2)
    (hpi : pts[i]? = some p) (hqi : pts[i + 1]? = some q) (hqi' : pts[i + 2]? = some q') (hon : OnExtended w patch q) :
    OnLine w.1 w.2 p ∧ OnLine w.1 w.2 q' := by
  have hfin : ∀ d : PyDict Pt, Distinct d → Distinct (finPoints d) := by
    intro d hd; simpa [Distinct, finPoints, Function.comp_def] using hd
  have e1 : (sceneOf tx rx shapes).transmitters = .fromMapping (finPoints tx) := rfl
  have e2 : (sceneOf tx rx shapes).receivers = .fromMapping (finPoints rx) := rfl
  have hS : IsScene (sceneOf tx rx shapes) := ⟨⟨_, hfin tx ht, e1⟩, ⟨_, hfin rx hr, e2⟩⟩
  have hol : (sceneOf tx rx shapes).objects.length = shapes.length := by simp [sceneOf, Scene.make]
  rw [C57_valid G _ hS] at hout
  cases hts : (sceneOf tx rx shapes).allPaths G split m o ⟨E, tol, F.fin patch, ap, kw⟩ key with
  | error e => rw [hts] at hout; cases hout
  | ok ts =>
    rw [hts] at hout
    obtain rfl := Except.ok.inj hout
    obtain ⟨x, hx, hxe⟩ := List.mem_map.mp hmem
    obtain ⟨hx, hacc⟩ := List.mem_filter.mp hx
    simp only [Prod.mk.injEq] at hxe
    obtain ⟨rfl, rfl, rfl, rfl⟩ := hxe
    have hholds : Holds x.valid := by
      rcases of_decide_eq_true hacc with ⟨-, h⟩ | ⟨h, -⟩
      · exact h
      · exact (not_hard_soft hh h).elim
    obtain ⟨k, t, r, -, -, hc, htr⟩ := traversal_sound G hG _ _ _ (hfin tx ht) (hfin rx hr) e1 e2 o ho split key m _ ts hts x hx
    rw [hol] at hc
    obtain ⟨ss, hss⟩ : ∃ ss : List Shape, List.Forall₂ (fun (i : ℤ) s => 0 ≤ i ∧ shapes[i.toNat]? = some s) x.candidate ss := by
      have h1 := hc.1
      generalize x.candidate = c at h1
      induction c with
      | nil => exact ⟨[], .nil⟩
      | cons a c ih =>
        obtain ⟨ss, h⟩ := ih (fun j hj => h1 j (by simp [hj]))
        have ha := h1 a (by simp)
        exact ⟨_, .cons ⟨ha.1, List.getElem?_eq_getElem (show a.toNat < shapes.length by omega)⟩ h⟩
    have hobj : objectsAt (sceneOf tx rx shapes) x.candidate = ss.map Shape.obj := by
      unfold objectsAt
      show x.candidate.filterMap (fun i => (shapes.map Shape.obj)[i.toNat]?) = _
      clear * - hss
      generalize x.candidate = c at hss
      induction hss with
      | nil => rfl
      | cons h _ ih => rw [List.filterMap_cons, List.getElem?_map, h.2]; simp only [Option.map_some, List.map_cons, ih]
    obtain ⟨g1, g2⟩ := htr
    have hmap : (ss.map Shape.obj).map Obj.interact = ss.map fun s => s.obj.interact := by simp
    obtain ⟨inner, hxys, hil, hcar⟩ : ∃ inner : List (V2 F), x.path.xys = t :: inner ++ [r] ∧ inner.length = ss.length ∧
        ∀ (i : ℕ) (sh : Shape) (q : Pt), ss[i]? = some sh → inner[i]? = some (V2.fin q) → sh.Carries q := by
      rw [hobj] at g1
      cases k with
      | none => exfalso; rcases hm with rfl | rfl <;> cases g1
      | some k =>
        rcases hm with rfl | rfl
        · obtain ⟨p', inner, h1, h2, h3, h4, -⟩ := C28_fermat E' M many hM t r ss k
          change FermatPath.fromTxObjectsRx E' M t (List.map Obj.interact _) r k many = _ at g1
          rw [hmap, h1] at g1
          obtain rfl := Except.ok.inj g1
          exact ⟨inner, h2, h3, h4⟩
        · obtain ⟨p', inner, h1, h2, h3, h4, -⟩ := C28_min M many hM t r ss k
          change MinPath.fromTxObjectsRx M t (List.map Obj.interact _) r k many = _ at g1
          rw [hmap, h1] at g1
          obtain rfl := Except.ok.inj g1
          exact ⟨inner, h2, h3, h4⟩
    have hcl := hss.length_eq
    have hlen : pts.length = x.candidate.length + 2 := by
      have := congrArg List.length hxys
      rw [hpts] at this
      simp at this; omega
    have hvb : x.path.isValid E (((shapes.map Shape.obj)).map Obj.interact) x.candidate ((ss.map Shape.obj).map Obj.interact) tol (F.fin patch) ap kw =
        .ok (.b true) := by
      rw [hobj] at g2
      obtain ⟨b, hb, -⟩ := C38_hard x.path E ap hh kw ((shapes.map Shape.obj).map Obj.interact) ((ss.map Shape.obj).map Obj.interact) x.candidate tol (F.fin patch)
        (by rw [hpts]; simpa using hlen) (by simp [hcl])
      have : x.valid = .b b := by
        have := g2.symm.trans hb
        exact Except.ok.inj this
      rw [this] at hholds
      rw [hb, show b = true from hholds]
    have clear := valid_clear hh kw shapes x.candidate _ x.path pts hpts tol patch hlen (by simp [hcl]) hp hvb
    -- the points are on the lines of their walls
    have carried : ∀ (n : ℕ) (y : Pt), x.candidate[n]? = some (j : ℤ) → pts[n + 1]? = some y → OnLine w.1 w.2 y := by
      intro n y hn hy
      obtain ⟨hlt, hg⟩ := List.getElem?_eq_some_iff.mp hn
      obtain ⟨-, h2⟩ := (List.forall₂_iff_get.mp hss).2 n hlt (by omega)
      simp only [List.get_eq_getElem] at h2
      rw [hg, Int.toNat_natCast, hs] at h2
      have hin : inner[n]? = some (V2.fin y) := by
        have h3 : (pts.map V2.fin)[n + 1]? = some (V2.fin y) := by rw [List.getElem?_map, hy]; rfl
        rw [← hpts, hxys] at h3
        simp only [List.cons_append, List.getElem?_cons_succ] at h3
        rwa [List.getElem?_append_left (by omega)] at h3
      have := hcar n s y (by rw [List.getElem?_eq_getElem (by omega)]; exact h2.symm) hin
      cases s with
      | wall o d => cases hw; exact this
      | ris o d φ => cases hw; exact this
      | vertex v => cases hw
    obtain ⟨kv, hkv, hsv⟩ := hv
    have hkj : kv ≠ j := by rintro rfl; rw [hs] at hsv; cases hsv; cases hw
    constructor
    · by_cases hadj : Adjacent x.candidate i j
      · rcases hadj with h | ⟨n, rfl, h⟩
        · rw [hkv] at h; exact absurd (by exact_mod_cast Option.some.inj h) hkj
        · exact carried n p h hpi
      · exact (along_or_blocked hnd (.inr hon) (clear i j s w p q hpi hqi hs hw hadj)).1
    · by_cases hadj : Adjacent x.candidate (i + 1) j
      · rcases hadj with h | ⟨n, hn, h⟩
        · exact carried (i + 1) q' h hqi'
        · obtain rfl : n = i := by omega
          rw [hkv] at h; exact absurd (by exact_mod_cast Option.some.inj h) hkj
      · exact (along_or_blocked hnd (.inl hon) (clear (i + 1) j s w q q' hqi hqi' hs hw hadj)).2

end

/-! ## Non-vacuity -/

/-- A minimizer for the examples. -/
noncomputable def exMin : Minimizer Unit := ⟨adam (F.fin 0.1), 100, fun _ x => x, fun _ n => List.replicate n (F.fin 0.25), fun k n => List.replicate n k⟩

theorem exMin_shaped : Shaped exMin 1 := ⟨by simp [exMin], le_rfl, by simp [exMin], by simp [exMin], adam_shaped _, by simp [exMin]⟩

/-- Once its wall is removed, the vertex `(1,0)` diffracts. -/
theorem example_diffraction : DiffractionPath [.wall ⟨0, -5⟩ ⟨1, -5⟩, .vertex ⟨1, 0⟩] 0 ⟨0, 1⟩ ⟨0, -1⟩ [1] [⟨0, 1⟩, ⟨1, 0⟩, ⟨0, -1⟩] := by
  refine ⟨rfl, rfl, rfl, ?_, ?_⟩
  · intro i j q hi hq
    match i, hi with
    | 0, hi =>
      obtain rfl : j = 1 := by simp at hi; omega
      simp at hq; subst hq; rfl
  · rintro i j s w p q hp hq hs hw ⟨-, a, b, e, -, b1, b2⟩
    match j, hs with
    | 0, hs =>
      simp at hs; subst hs; cases hw
      match i, hp, hq with
      | 0, hp, hq =>
        simp at hp hq; subst hp hq
        have := congrArg V2.y e
        simp only [pointAt] at this
        norm_num at this; linarith
      | 1, hp, hq =>
        simp at hp hq; subst hp hq
        have := congrArg V2.y e
        simp only [pointAt] at this
        norm_num at this; linarith
    | 1, hs => simp at hs; subst hs; cases hw

/-- It is found. -/
example (E : Env) (kw : ActKw) : ∃ out, (sceneOf [("tx", ⟨0, 1⟩)] [("rx", ⟨0, -1⟩)] [.wall ⟨0, -5⟩ ⟨1, -5⟩, .vertex ⟨1, 0⟩]).allValidPaths refLib
      (fun _ n => List.replicate n ()) (fermatMethod E exMin) { minOrder := 1, maxOrder := 1, filter := some isVertex }
      ⟨E, F.fin (1 / 100), F.fin 0, some false, kw⟩ (some ()) = .ok out ∧
    ("tx", "rx", finitePath [⟨0, 1⟩, ⟨1, 0⟩, ⟨0, -1⟩] 0, [1]) ∈ out := by
  obtain ⟨out, e, -, h⟩ := C126_diffraction refLib refLib_contract [("tx", ⟨0, 1⟩)] [("rx", ⟨0, -1⟩)] (by simp [Distinct]) (by simp [Distinct])
    [.wall ⟨0, -5⟩ ⟨1, -5⟩, .vertex ⟨1, 0⟩] 1 1 (by norm_num) (fun _ n => List.replicate n ()) (fun _ n => by simp) () E (some false) (.inl rfl) kw
    (1 / 100) 0 (by norm_num) (by norm_num) E exMin 1 exMin_shaped _ (.inl rfl)
  refine ⟨out, e, (h _ _ _ _).mpr ⟨⟨0, 1⟩, ⟨0, -1⟩, _, by simp, by simp, ⟨⟨by simp, ?_⟩, by simp, by simp⟩, by simp, rfl, example_diffraction⟩⟩
  intro k a b h1 h2
  match k with
  | 0 => simp at h2
  | k + 1 => simp at h1

/-- With its wall in the scene, the vertex gives nothing unless the path goes along the wall. -/
example (t r : Pt) (pts : List Pt) (h : DiffractionPath [.wall ⟨0, 0⟩ ⟨1, 0⟩, .vertex ⟨1, 0⟩] 0 t r [1] pts) :
    t.y = 0 ∧ r.y = 0 := by
  have hpts := diffraction_shape h (vs := [⟨1, 0⟩]) (.cons ⟨by norm_num, rfl⟩ .nil)
  subst hpts
  obtain ⟨⟨a, e⟩, ⟨b, e'⟩⟩ := C126_edge h (i := 0) (j := 0) (w := (⟨0, 0⟩, ⟨1, 0⟩)) (p := t) (q := ⟨1, 0⟩) (q' := r) rfl rfl (by simp) rfl rfl rfl
    (ends_extended (by norm_num) (.inr rfl))
  rw [e, e']; simp [pointAt]

/-- A corner of two walls. -/
example : VerticesAreCorners [.wall ⟨0, 0⟩ ⟨1, 0⟩, .wall ⟨1, 0⟩ ⟨1, 1⟩, .vertex ⟨1, 0⟩] := by
  intro q hq
  simp at hq; subst hq
  exact ⟨.wall ⟨0, 0⟩ ⟨1, 0⟩, by simp, .wall ⟨1, 0⟩ ⟨1, 1⟩, by simp, (⟨0, 0⟩, ⟨1, 0⟩), (⟨1, 0⟩, ⟨1, 1⟩), rfl, rfl, by simp [Parallel], .inr rfl, .inl rfl⟩

end DiffeRT2d.Props
