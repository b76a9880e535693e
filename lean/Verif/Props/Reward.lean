import Verif.Spec.Sampler
import Verif.Props.Sharper
import Verif.Props.Samples

/-! # Property C132: the reward of the notebook -/

namespace DiffeRT2d.Props
open Classical Spec

/-- The indices are those of walls of the scene. -/
def InBounds (n : ℕ) (c : List ℤ) : Prop := ∀ i ∈ c, 0 ≤ i ∧ i < n

theorem takeFill_in {α : Type*} (a : List α) (fill : α) (i : ℤ) (h0 : 0 ≤ i) (h1 : i < a.length) : some (takeFill a fill i) = a[i.toNat]? := by
  have hlt : i.toNat < a.length := by omega
  simp only [takeFill, not_lt.mpr h0, if_false, List.getD_eq_getElem?_getD, List.getElem?_eq_getElem hlt, Option.getD_some]

theorem asWall_wallsOf (walls : List (Pt × Pt)) : (wallsOf walls).mapM Obj.asWall = some (walls.map fun w => Wall.ofPts w.1 w.2) := by
  induction walls with
  | nil => rfl
  | cons w ws ih => rw [wallsOf, List.map_cons, List.mapM_cons, ← wallsOf, ih]; rfl

/-- The walls that `jnp.take` selects are those that the candidate names. -/
theorem take_walls (walls : List (Pt × Pt)) (c : List ℤ) (hc : InBounds walls.length c) :
    (c.map fun i => Obj.wall (takeFill (walls.map fun w => Wall.ofPts w.1 w.2) Wall.nan i)) = wallsOf (wallsAt walls c) := by
  induction c with
  | nil => rfl
  | cons k c ih =>
    obtain ⟨h0, h1⟩ := hc k (by simp)
    have hlt : k.toNat < walls.length := by omega
    have e : wallsAt walls (k :: c) = walls[k.toNat] :: wallsAt walls c := by simp [wallsAt, List.getElem?_eq_getElem hlt]
    have := takeFill_in (walls.map fun w => Wall.ofPts w.1 w.2) Wall.nan k h0 (by simpa using h1)
    simp only [List.getElem?_map, List.getElem?_eq_getElem hlt, Option.map_some, Option.some.injEq] at this
    rw [List.map_cons, ih fun i hi => hc i (by simp [hi]), e, this]
    rfl

theorem inBounds_length {walls : List (Pt × Pt)} {c : List ℤ} (hc : InBounds walls.length c) : (wallsAt walls c).length = c.length := by
  have := congrArg List.length (take_walls walls c hc)
  simpa [wallsOf] using this.symm

/-- The scene of a sample. -/
abbrev oneLink (t r : Pt) (walls : List (Pt × Pt)) : Scene := wallScene [("tx", t)] [("rx", r)] walls

theorem reward_eq (E : Env) (t r : Pt) (walls : List (Pt × Pt)) (hne : walls ≠ []) (c : List ℤ) :
    reward E c (oneLink t r walls) = (do
      let path ← ImagePath.fromTxObjectsRx (V2.fin t) (c.map fun i => Obj.wall (takeFill (walls.map fun w => Wall.ofPts w.1 w.2) Wall.nan i)) (V2.fin r)
      let valid ← path.isValid E ((wallsOf walls).map Obj.interact) c
        ((c.map fun i => Obj.wall (takeFill (walls.map fun w => Wall.ofPts w.1 w.2) Wall.nan i)).map Obj.interact) VALID_TOL DEFAULT_PATCH none {}
      pure valid.toF) := by
  have e1 : (oneLink t r walls).transmitters.getItem "tx" = .ok (V2.fin t) := rfl
  have e2 : (oneLink t r walls).receivers.getItem "rx" = .ok (V2.fin r) := rfl
  have e3 : ¬ (walls.map fun w => Wall.ofPts w.1 w.2) = [] := by simpa using hne
  unfold reward
  rw [e1, e2, wallScene_objects, asWall_wallsOf]
  simp only [bind, Except.bind, e3, if_false, Scene.validity, wallScene_objects]

/-- The reward of a candidate is the validity of its traced path. -/
theorem reward_traced (E : Env) (t r : Pt) (walls : List (Pt × Pt)) (hne : walls ≠ []) (c : List ℤ) (hc : InBounds walls.length c) (path : Path) (valid : Truthy)
    (hp : traceImage t (wallsAt walls c) r = .ok path)
    (hv : path.isValid E ((wallsOf walls).map Obj.interact) c ((wallsOf (wallsAt walls c)).map Obj.interact) VALID_TOL DEFAULT_PATCH none {} = .ok valid) :
    reward E c (oneLink t r walls) = .ok valid.toF := by
  rw [reward_eq E t r walls hne, take_walls walls c hc]
  unfold traceImage at hp
  rw [hp]
  simp only [bind, Except.bind, hv]
  rfl

/-- **C132.** For every path that `all_paths` yields in the scene of a sample (default method and settings, any orders), the reward of its candidate is
the validity it is yielded with, as a float. -/
theorem C132_all_paths {Key : Type} (G : GraphLib) (hG : GraphContract G) (E : Env) (t r : Pt) (walls : List (Pt × Pt)) (hne : walls ≠ [])
    (o : Scene.Orders) (ho : NonNegative o) (split : Key → ℕ → List Key) (key : Option Key) (ts : List Scene.Traced)
    (hts : (oneLink t r walls).allPaths G split (imageMethod Key) o { E := E, kw := {} } key = .ok ts) :
    ∀ x ∈ ts, reward E x.candidate (oneLink t r walls) = .ok x.valid.toF := by
  intro x hx
  obtain ⟨cs, hcs, hc⟩ := orders_candidates G hG (oneLink t r walls) o ho
  rw [allPaths_eq G (oneLink t r walls) [("tx", V2.fin t)] [("rx", V2.fin r)] (by simp [Distinct]) (by simp [Distinct]) rfl rfl o cs hcs, tracePaths_ok] at hts
  obtain ⟨hl, hturn⟩ := hts
  obtain ⟨n, hn, rfl⟩ := List.getElem_of_mem hx
  have hlt : n < (([("tx", V2.fin t)] ×ˢ [("rx", V2.fin r)]) ×ˢ cs).length := by rw [← hl]; exact hn
  rcases he : (([("tx", V2.fin t)] ×ˢ [("rx", V2.fin r)]) ×ˢ cs)[n] with ⟨⟨t', r'⟩, c⟩
  have hget : (([("tx", V2.fin t)] ×ˢ [("rx", V2.fin r)]) ×ˢ cs)[n]? = some ((t', r'), c) := by rw [List.getElem?_eq_getElem hlt, he]
  obtain ⟨-, -, e3, os, e4, e5, e6⟩ := hturn n _ _ hget (List.getElem?_eq_getElem hn)
  have hmem := List.mem_product.mp (List.mem_of_getElem? hget)
  have hos := interacting_eq (oneLink t r walls) c (hc c hmem.2)
  simp only at e3 e4
  rw [hos, objectsAt_walls] at e4
  cases e4
  have hpair := List.mem_product.mp hmem.1
  simp only [List.mem_singleton] at hpair
  obtain ⟨rfl, rfl⟩ := hpair
  have hcand := hc c hmem.2
  rw [wallScene_objects] at hcand
  simp only [wallsOf, List.length_map] at hcand
  rw [e3]
  refine reward_traced E t r walls hne c hcand.1 _ _ e5 ?_
  simp only [Scene.validity, wallScene_objects] at e6
  exact e6

theorem valid_tol : VALID_TOL = F.fin (1 / 100) := by simp only [VALID_TOL, OfScientific.ofScientific]; norm_num

theorem default_patch : DEFAULT_PATCH = F.fin 0 := lit_00

/-- **C132.** In hard mode the reward of a candidate is 1 if it has a physical ray path, and 0 otherwise: for every scene with walls of non-zero
length, transmitter and receiver at different places, and every list of indices of walls, with repetitions or not. -/
theorem C132_hard (E : Env) (hE : E.enableApprox = false) (t r : Pt) (htr : t ≠ r) (walls : List (Pt × Pt)) (hne : walls ≠ []) (hnd : ∀ w ∈ walls, w.1 ≠ w.2)
    (c : List ℤ) (hc : InBounds walls.length c) :
    reward E c (oneLink t r walls) = .ok (if ∃ pts, RayPath walls 0 t r c pts then 1 else 0) := by
  have hh : Hard E none := .inr ⟨rfl, hE⟩
  have htrace := traceImage_eq t r (wallsAt walls c)
  have hl : (rpath t r (wallsAt walls c)).length = c.length + 2 := by rw [rpath_length, inBounds_length hc]
  by_cases hcand : IsCandidate walls.length c
  · obtain ⟨v, hv, -⟩ := C38_hard (finitePath (rpath t r (wallsAt walls c)) (scores (wallsAt walls c) (rpath t r (wallsAt walls c))).sum) E none hh {}
      ((wallsOf walls).map Obj.interact) ((wallsOf (wallsAt walls c)).map Obj.interact) c VALID_TOL DEFAULT_PATCH (by simp [finitePath, hl])
      (by simp [wallsOf, inBounds_length hc])
    rw [reward_traced E t r walls hne c hc _ _ htrace hv]
    obtain ⟨q1, q2⟩ := traced_walls (Key := Unit) [] [] walls hnd hh {} (1 / 100) 0 (by norm_num) (by norm_num) (by norm_num) none t r c hcand _ (.b v) (by
        refine ⟨?_, ?_⟩
        · rw [objectsAt_walls]; exact htrace
        · rw [wallScene_objects, objectsAt_walls, ← valid_tol, ← default_patch]; exact hv)
    have : v = true ↔ ∃ pts, RayPath walls 0 t r c pts := by
      constructor
      · intro h
        obtain ⟨pts, -, hray⟩ := q1 (by rw [h]; rfl)
        exact ⟨pts, hray fun _ h => absurd h htr⟩
      · rintro ⟨pts, hray⟩
        exact (q2 pts hray).2
    cases v with
    | true => rw [if_pos (this.mp rfl)]; rfl
    | false => rw [if_neg fun h => by simpa using this.mpr h]; rfl
  · -- the same wall twice in a row
    have hspec : ∀ pts, ¬ Specular (wallsAt walls c) pts := by
      intro pts hs
      apply hcand
      refine ⟨hc, fun k a b ha hb hab => ?_⟩
      subst hab
      obtain ⟨h0, h1⟩ := hc a (List.mem_of_getElem? ha)
      have hlt : a.toNat < walls.length := by omega
      have e1 := (wallsAt_get walls c hc k walls[a.toNat]).mpr ⟨a.toNat, by rw [ha]; congr 1; omega, List.getElem?_eq_getElem hlt⟩
      have e2 := (wallsAt_get walls c hc (k + 1) walls[a.toNat]).mpr ⟨a.toNat, by rw [hb]; congr 1; omega, List.getElem?_eq_getElem hlt⟩
      have hk := (List.getElem?_eq_some_iff.mp e2).1
      have hpl := hs.1
      obtain ⟨p, hp⟩ : ∃ p, pts[k]? = some p := ⟨_, List.getElem?_eq_getElem (by omega)⟩
      obtain ⟨q, hq⟩ : ∃ p, pts[k + 1]? = some p := ⟨_, List.getElem?_eq_getElem (by omega)⟩
      obtain ⟨q', hq'⟩ : ∃ p, pts[k + 2]? = some p := ⟨_, List.getElem?_eq_getElem (by omega)⟩
      obtain ⟨q'', hq''⟩ : ∃ p, pts[k + 3]? = some p := ⟨_, List.getElem?_eq_getElem (by omega)⟩
      have r1 := hs.2 k _ p q q' e1 hp hq hq'
      have r2 := hs.2 (k + 1) _ q q' q'' e2 hq hq' hq''
      obtain ⟨s, hon⟩ := r2.on
      have hz : side (walls[a.toNat]).1 (walls[a.toNat]).2 q' = 0 := by rw [hon]; simp only [side, pointAt]; ring
      have := r1.same
      rw [hz] at this
      simp at this
    have hno : ¬ ∃ pts, RayPath walls 0 t r c pts := by
      rintro ⟨pts, hray⟩
      refine hspec pts ⟨by rw [inBounds_length hc, hray.count], fun i w p q q' hw hp hq hq' => ?_⟩
      obtain ⟨j, hj, hw'⟩ := (wallsAt_get walls c hc i w).mp hw
      exact (hray.reflected i j w p q q' hj hw' hp hq hq').1
    rw [if_neg hno]
    obtain ⟨v, hv, hiff⟩ := C38_hard (finitePath (rpath t r (wallsAt walls c)) (scores (wallsAt walls c) (rpath t r (wallsAt walls c))).sum) E none hh {}
      ((wallsOf walls).map Obj.interact) ((wallsOf (wallsAt walls c)).map Obj.interact) c VALID_TOL DEFAULT_PATCH (by simp [finitePath, hl])
      (by simp [wallsOf, inBounds_length hc])
    rw [reward_traced E t r walls hne c hc _ _ htrace hv]
    cases v with
    | false => rfl
    | true =>
      exfalso
      have hlt := (hiff.mp rfl).2.2
      rw [← F.lt_iff, valid_tol] at hlt
      have hlt : (scores (wallsAt walls c) (rpath t r (wallsAt walls c))).sum < 1 / 100 := by simpa [finitePath] using hlt
      refine hspec _ (C73_sound t r _ ?_ _ _ htrace (by linarith) ⟨t, by simp [rpath], r, by simp [rpath], htr⟩)
      intro w hw
      obtain ⟨i, -, hi⟩ := List.mem_filterMap.mp hw
      exact hnd w (List.mem_of_getElem? hi)

/-- Non-vacuity: a reflection that exists, and the same wall twice. -/
example : reward ⟨false, 0⟩ [0] (oneLink ⟨0, 1⟩ ⟨2, 1⟩ [(⟨0, 0⟩, ⟨3, 0⟩)]) = .ok 1 := by
  rw [C132_hard _ rfl _ _ (by simp) _ (by simp) (by simp) _ (by simp [InBounds]), if_pos ⟨_, example_rayPath⟩]

/-- **C132.** A candidate with an index that is not one of a wall (the filler `num_walls` of the notebook, for instance) has no reward in hard mode,
and no error is raised: the missing wall is full of NaN. -/
theorem C132_filler (E : Env) (hE : E.enableApprox = false) (t r : Pt) (walls : List (Pt × Pt)) (hne : walls ≠ [])
    (c : List ℤ) (i : ℤ) (hi : i ∈ c) (hout : (walls.length : ℤ) ≤ i ∨ i < -walls.length) :
    reward E c (oneLink t r walls) = .ok 0 := by
  have hh : Hard E none := .inr ⟨rfl, hE⟩
  have hcne : c ≠ [] := List.ne_nil_of_mem hi
  rw [reward_eq E t r walls hne]
  set take := fun i : ℤ => takeFill (walls.map fun w => Wall.ofPts w.1 w.2) Wall.nan i with htake
  have hnan : take i = Wall.nan := by
    simp only [htake, takeFill, List.length_map]
    rcases hout with h | h
    · have h0 : ¬ i < 0 := by omega
      have : walls.length ≤ i.toNat := by omega
      simp [h0, List.getD_eq_getElem?_getD, List.getElem?_eq_none this]
    · have h0 : i < 0 := by omega
      have h1 : i + (walls.length : ℤ) < 0 := by omega
      simp [h0, h1]
  have hblen : ∀ (l : List (Wall × V2 F)) (x : V2 F), (backward x l).length = l.length := by
    intro l x
    induction l with
    | nil => rfl
    | cons a l ih => obtain ⟨w, im⟩ := a; simp [backward, ih]
  have hilen : ∀ (l : List Wall) (x : V2 F), (images x l).length = l.length := by
    intro l
    induction l with
    | nil => intro x; rfl
    | cons a l ih => intro x; simp [images, ih]
  obtain ⟨path, hpath, hlen⟩ : ∃ path, ImagePath.fromTxObjectsRx (V2.fin t) (c.map fun i => Obj.wall (take i)) (V2.fin r) = .ok path ∧
      path.xys.length = c.length + 2 := by
    obtain ⟨k, c', rfl⟩ := List.exists_cons_of_ne_nil hcne
    have hm : ∀ l : List ℤ, (l.map fun i => Obj.wall (take i)).mapM Obj.asWall = some (l.map take) := by
      intro l
      induction l with
      | nil => rfl
      | cons a l ih => rw [List.map_cons, List.mapM_cons, ih]; rfl
    refine ⟨imagePathCore (V2.fin t) ((k :: c').map take) (((k :: c').map fun i => Obj.wall (take i)).map Obj.interact) (V2.fin r), ?_, ?_⟩
    · have hall : ((c'.map fun i => Obj.wall (take i)).all fun o' => o'.cls == (Obj.wall (take k)).cls) = true := by
        simp [List.all_eq_true, Obj.cls]
      have := hm (k :: c')
      simp only [List.map_cons] at this ⊢
      simp only [ImagePath.fromTxObjectsRx, hall, if_true, this, List.map_cons]
    · simp [imagePathCore, hblen, hilen]
  obtain ⟨v, hv, hiff⟩ := C38_hard path E none hh {} ((wallsOf walls).map Obj.interact) ((c.map fun i => Obj.wall (take i)).map Obj.interact) c VALID_TOL DEFAULT_PATCH hlen (by simp)
  show (do
      let path ← ImagePath.fromTxObjectsRx (V2.fin t) (c.map fun i => Obj.wall (take i)) (V2.fin r)
      let valid ← path.isValid E ((wallsOf walls).map Obj.interact) c ((c.map fun i => Obj.wall (take i)).map Obj.interact) VALID_TOL DEFAULT_PATCH none {}
      pure valid.toF) = _
  rw [hpath]
  simp only [bind, Except.bind, hv]
  cases v with
  | false => rfl
  | true =>
    exfalso
    obtain ⟨n, hn, rfl⟩ := List.getElem_of_mem hi
    have ho : ((c.map fun i => Obj.wall (take i)).map Obj.interact)[n]? = some (Wall.nan).interact := by
      simp [List.getElem?_eq_getElem hn, hnan, Obj.interact]
    have hlt : n + 1 < path.xys.length := by omega
    have := (hiff.mp rfl).1 n _ _ ho (List.getElem?_eq_getElem hlt)
    have hpar : ∀ q, Wall.nan.toParam q = F.nan := by
      intro q
      have ht : Wall.nan.t = ⟨F.nan, F.nan⟩ := rfl
      simp only [Wall.toParam, ht, V2.dot, F.nan_mul, F.nan_add]
      rfl
    simp only [Wall.interact, List.headD_cons, hpar, Wall.contains] at this
    have hge : greaterEqual E none {} F.nan 0 = .b false := by
      simp [greaterEqual, hh.eq, F.le, F.lt, F.eq]
    rw [hge] at this
    simp [logicalAnd, hh.eq, Holds, Truthy.toBool] at this

/-- **C132.** In approximate mode (if it is enabled when the notebook runs) rewards are between 0 and 2/3: no path, however clearly valid, is rewarded
with more. -/
theorem C132_soft (E : Env) (hE : E.enableApprox = true) (t r : Pt) (walls : List (Pt × Pt)) (hne : walls ≠ []) (c : List ℤ) (hc : InBounds walls.length c) :
    ∃ x : ℝ, reward E c (oneLink t r walls) = .ok (F.fin x) ∧ 0 ≤ x ∧ x ≤ 2 / 3 := by
  have hs : Soft E none := .inr ⟨rfl, hE⟩
  have hl : (rpath t r (wallsAt walls c)).length = c.length + 2 := by rw [rpath_length, inBounds_length hc]
  have hpos : 0 ≤ (scores (wallsAt walls c) (rpath t r (wallsAt walls c))).sum := by
    refine List.sum_nonneg fun x hx => ?_
    rcases scores_mem (wallsAt walls c) t r t 1 (rpath_first t r _) x (by simpa [rpath] using hx) with h | h | h <;> rw [h] <;> norm_num
  obtain ⟨x, hx, h0, h1⟩ := C130_default E none hs (rpath t r (wallsAt walls c)) _ 0 hpos (walls.map fun w => Shape.wall w.1 w.2)
    ((wallsAt walls c).map fun w => Shape.wall w.1 w.2) c hl
  rw [← walls_shapes, ← walls_shapes, ← default_patch] at hx
  exact ⟨x, reward_traced E t r walls hne c hc _ _ (traceImage_eq t r _) hx, h0, h1⟩

/-- Non-vacuity: the reflection above. -/
example := C132_soft ⟨true, 0⟩ rfl ⟨0, 1⟩ ⟨2, 1⟩ [(⟨0, 0⟩, ⟨3, 0⟩)] (by simp) [0] (by simp [InBounds])

end DiffeRT2d.Props
