import Verif.Lemmas.Sharper
import Verif.Props.Fields
import Verif.Props.Methods

/-! # Property C130: the higher the slope, the closer to hard mode -/

namespace DiffeRT2d.Props
open Classical Spec

/-- **C130.** For any path and any objects: if every test of the path against an object is refined when the slope
grows from `a` to `b` (`C130_builtin`: the built-in objects with finite coordinates do), so is the validity of the path. The
loss and the tolerance are any floats (NaN and infinities included), and ties are allowed. -/
theorem C130_refined (E E₁ E₂ : Env) (ap ap₁ ap₂ : Option Bool) (h : Hard E ap) (h₁ : Soft E₁ ap₁) (h₂ : Soft E₂ ap₂)
    (kw : ActKw) (step : F → F → F) (hstep : SoftStep step) (a b : ℝ) (ha : 0 < a) (hab : a ≤ b)
    (p : Path) (hp : p.xys ≠ []) (objects inter : List Interactable) (candidate : List ℤ) (tol patch : F)
    (hlen : p.xys.length ≤ candidate.length + 2)
    (hon : ∀ o ∈ inter, ∀ q ∈ p.xys, Refined (o.contains E ap kw (o.toParam q)) (o.contains E₁ ap₁ ⟨F.fin a, step⟩ (o.toParam q))
      (o.contains E₂ ap₂ ⟨F.fin b, step⟩ (o.toParam q)))
    (hhit : ∀ o ∈ objects, ∀ q ∈ p.xys, ∀ q' ∈ p.xys, Refined (o.intersects E ap kw patch q q')
      (o.intersects E₁ ap₁ ⟨F.fin a, step⟩ patch q q') (o.intersects E₂ ap₂ ⟨F.fin b, step⟩ patch q q')) :
    ∃ v x x', p.isValid E objects candidate inter tol patch ap kw = .ok (.b v) ∧
      p.isValid E₁ objects candidate inter tol patch ap₁ ⟨F.fin a, step⟩ = .ok (.f (F.fin x)) ∧
      p.isValid E₂ objects candidate inter tol patch ap₂ ⟨F.fin b, step⟩ = .ok (.f (F.fin x')) ∧ Closer v x x' := by
  let R : Runs := ⟨E, E₁, E₂, ap, ap₁, ap₂, kw, step, a, b, h, h₁, h₂, hstep, ha, hab⟩
  have hnth : ∀ i, nth p.xys i ∈ p.xys := by
    intro i
    have hl : 0 < p.xys.length := List.length_pos_iff.mpr hp
    have hi : min i (p.xys.length - 1) < p.xys.length := by omega
    simp only [nth, List.getD_eq_getElem?_getD, List.getElem?_eq_getElem hi, Option.getD_some]
    exact List.getElem_mem hi
  have rOn : Refined (p.onObjects E inter ap kw) (p.onObjects E₁ inter ap₁ ⟨F.fin a, step⟩) (p.onObjects E₂ inter ap₂ ⟨F.fin b, step⟩) := by
    rw [onObjects_eq, onObjects_eq, onObjects_eq]
    unfold onVals
    refine Refined.foldl _ _ _ (fun x y => Refined.and R x y) _ _ _ _ ?_ (Refined.true R)
    rintro ⟨o, i⟩ hm
    exact hon o (List.mem_of_getElem? (List.mem_zipIdx_iff_getElem?.mp hm)) _ (hnth _)
  have rHit : Refined ((hitVals p E objects candidate patch ap kw).foldl (logicalOr E ap) (falseValue E ap))
      ((hitVals p E₁ objects candidate patch ap₁ ⟨F.fin a, step⟩).foldl (logicalOr E₁ ap₁) (falseValue E₁ ap₁))
      ((hitVals p E₂ objects candidate patch ap₂ ⟨F.fin b, step⟩).foldl (logicalOr E₂ ap₂) (falseValue E₂ ap₂)) := by
    rw [hitVals_pairs, hitVals_pairs, hitVals_pairs]
    refine Refined.foldl _ _ _ (fun x y => Refined.or R x y) _ _ _ _ ?_ (Refined.false R)
    intro x hx
    exact hhit _ (mem_objPairs hx).2 _ (hnth _) _ (hnth _)
  have rNot := rHit.not R
  obtain ⟨lv, e0, hl⟩ := less_refined R p.loss tol
  unfold Path.isValid
  rw [intersects_eq _ _ _ _ _ _ _ hlen, intersects_eq _ _ _ _ _ _ _ hlen, intersects_eq _ _ _ _ _ _ _ hlen]
  simp only [bind, Except.bind]
  obtain ⟨b1, u1, v1, x1, y1, z1, c1⟩ := rOn
  obtain ⟨b2, u2, v2, x2, y2, z2, c2⟩ := rNot
  simp only [R] at x2 y2 z2 e0 hl
  rw [x1, y1, z1, x2, y2, z2, e0]
  rcases hl with ⟨rfl, e1, e2⟩ | ⟨b3, u3, v3, x3, y3, z3, c3⟩
  · simp only [Runs.kw₁, Runs.kw₂] at e1 e2
    rw [e1, e2]
    refine ⟨false, 0, 0, ?_, ?_, ?_, ?_⟩
    · simp [logicalAll, h.eq, pure, Except.pure, Truthy.nanToNum, Truthy.toBool]
    · simp [logicalAll, h₁.eq, pure, Except.pure, Truthy.nanToNum, Truthy.toF, jnpMin, Truthy.isB, F.minOf]
    · simp [logicalAll, h₂.eq, pure, Except.pure, Truthy.nanToNum, Truthy.toF, jnpMin, Truthy.isB, F.minOf]
    · simp only [Closer, Bool.false_eq_true, if_false]; norm_num
  · rw [e0] at x3
    obtain rfl := Truthy.b.inj x3
    simp only [Runs.kw₁, Runs.kw₂] at y3 z3
    rw [y3, z3]
    refine ⟨_, _, _, ?_, ?_, ?_, (c1.and c2).and c3⟩
    · simp [logicalAll, h.eq, pure, Except.pure, Truthy.nanToNum, Truthy.toBool, Bool.and_assoc]
    · simp [logicalAll, h₁.eq, pure, Except.pure, Truthy.nanToNum, Truthy.toF, jnpMin, Truthy.isB, F.minOf]
    · simp [logicalAll, h₂.eq, pure, Except.pure, Truthy.nanToNum, Truthy.toF, jnpMin, Truthy.isB, F.minOf]

/-- **C130.** The tests of walls, RISs and vertices with finite coordinates are refined. -/
theorem C130_builtin (E E₁ E₂ : Env) (ap ap₁ ap₂ : Option Bool) (h : Hard E ap) (h₁ : Soft E₁ ap₁) (h₂ : Soft E₂ ap₂)
    (kw : ActKw) (step : F → F → F) (hstep : SoftStep step) (a b : ℝ) (ha : 0 < a) (hab : a ≤ b) (s : Shape) (patch : ℝ) (q q' : Pt) :
    Refined (s.obj.interact.contains E ap kw (s.obj.interact.toParam (V2.fin q)))
      (s.obj.interact.contains E₁ ap₁ ⟨F.fin a, step⟩ (s.obj.interact.toParam (V2.fin q)))
      (s.obj.interact.contains E₂ ap₂ ⟨F.fin b, step⟩ (s.obj.interact.toParam (V2.fin q))) ∧
    Refined (s.obj.interact.intersects E ap kw (F.fin patch) (V2.fin q) (V2.fin q'))
      (s.obj.interact.intersects E₁ ap₁ ⟨F.fin a, step⟩ (F.fin patch) (V2.fin q) (V2.fin q'))
      (s.obj.interact.intersects E₂ ap₂ ⟨F.fin b, step⟩ (F.fin patch) (V2.fin q) (V2.fin q')) :=
  let R : Runs := ⟨E, E₁, E₂, ap, ap₁, ap₂, kw, step, a, b, h, h₁, h₂, hstep, ha, hab⟩
  ⟨Refined.shape_on R s q, Refined.shape_hit R s patch q q'⟩

/-- **C130.** The higher the slope, the closer the validity of a path is to its validity in hard mode: for every path with
finite points among built-in objects with finite coordinates, every loss, tolerance and patch, and every soft step. The
distance is never more than 1/2. -/
theorem C130_closer (E E₁ E₂ : Env) (ap ap₁ ap₂ : Option Bool) (h : Hard E ap) (h₁ : Soft E₁ ap₁) (h₂ : Soft E₂ ap₂)
    (kw : ActKw) (step : F → F → F) (hstep : SoftStep step) (a b : ℝ) (ha : 0 < a) (hab : a ≤ b)
    (pts : List Pt) (loss tol : F) (patch : ℝ) (scene inter : List Shape) (candidate : List ℤ) (hlen : pts.length = candidate.length + 2) :
    ∃ v x x', Path.isValid ⟨pts.map V2.fin, loss⟩ E (scene.map fun s => s.obj.interact) candidate (inter.map fun s => s.obj.interact) tol (F.fin patch) ap kw = .ok (.b v) ∧
      Path.isValid ⟨pts.map V2.fin, loss⟩ E₁ (scene.map fun s => s.obj.interact) candidate (inter.map fun s => s.obj.interact) tol (F.fin patch) ap₁ ⟨F.fin a, step⟩ = .ok (.f (F.fin x)) ∧
      Path.isValid ⟨pts.map V2.fin, loss⟩ E₂ (scene.map fun s => s.obj.interact) candidate (inter.map fun s => s.obj.interact) tol (F.fin patch) ap₂ ⟨F.fin b, step⟩ = .ok (.f (F.fin x')) ∧
      |x' - bit v| ≤ |x - bit v| ∧ |x - bit v| ≤ 1 / 2 ∧ Closer v x x' := by
  have hne : pts ≠ [] := by rintro rfl; simp at hlen
  obtain ⟨v, x, x', e, e₁, e₂, hc⟩ := C130_refined E E₁ E₂ ap ap₁ ap₂ h h₁ h₂ kw step hstep a b ha hab ⟨pts.map V2.fin, loss⟩ (by simpa using hne)
    (scene.map fun s => s.obj.interact) (inter.map fun s => s.obj.interact) candidate tol (F.fin patch) (by simp [hlen])
    (by
      intro o ho q hq
      obtain ⟨s, -, rfl⟩ := List.mem_map.mp ho
      obtain ⟨q, -, rfl⟩ := List.mem_map.mp hq
      exact (C130_builtin E E₁ E₂ ap ap₁ ap₂ h h₁ h₂ kw step hstep a b ha hab s patch q q).1)
    (by
      intro o ho q hq q' hq'
      obtain ⟨s, -, rfl⟩ := List.mem_map.mp ho
      obtain ⟨q, -, rfl⟩ := List.mem_map.mp hq
      obtain ⟨q', -, rfl⟩ := List.mem_map.mp hq'
      exact (C130_builtin E E₁ E₂ ap ap₁ ap₂ h h₁ h₂ kw step hstep a b ha hab s patch q q').2)
  exact ⟨v, x, x', e, e₁, e₂, hc.abs.1, hc.abs.2, hc⟩

/-- Non-vacuity: a path with a tie (it reflects at the end of the wall) and another object, with the default function and slopes 1 and 1000. -/
example := C130_closer ⟨true, 0⟩ ⟨true, 0⟩ ⟨true, 0⟩ (some false) none (some true) (.inl rfl) (.inr ⟨rfl, rfl⟩) (.inl rfl) {}
  hardSigmoid softStep_hardSigmoid 1 1000 one_pos (by norm_num) [⟨0, 1⟩, ⟨1, 0⟩, ⟨2, 1⟩] 0 (F.fin (1 / 100)) 0 [.wall ⟨0, 0⟩ ⟨1, 0⟩, .vertex ⟨1, 1⟩] [.wall ⟨0, 0⟩ ⟨1, 0⟩] [0] rfl

/-- **C130.** Approximate mode never trusts a path fully: the degree of a path is at most the activation of the gap between the
tolerance and the loss of the path, hence, when the loss is not negative (it is a sum of squares for the built-in objects), of the tolerance itself. -/
theorem C130_ceiling (E : Env) (ap : Option Bool) (h : Soft E ap) (step : F → F → F) (s : ℝ → ℝ → ℝ) (hs : SoftStepReal s)
    (h1 : ∀ a x : ℝ, 0 < a → step (F.fin x) (F.fin a) = F.fin (s a x))
    (h2 : ∀ a : ℝ, 0 < a → step F.pinf (F.fin a) = F.fin 1 ∧ step F.ninf (F.fin a) = F.fin 0 ∧ step F.nan (F.fin a) = F.nan)
    (a : ℝ) (ha : 0 < a) (pts : List Pt) (loss tol patch : ℝ) (hl : 0 ≤ loss) (scene inter : List Shape) (candidate : List ℤ)
    (hlen : pts.length = candidate.length + 2) :
    ∃ x, (finitePath pts loss).isValid E (scene.map fun s => s.obj.interact) candidate (inter.map fun s => s.obj.interact) (F.fin tol) (F.fin patch) ap ⟨F.fin a, step⟩ =
        .ok (.f (F.fin x)) ∧ 0 ≤ x ∧ x ≤ s a (tol - loss) ∧ x ≤ s a tol := by
  refine ⟨_, fmShapes_soft (kw := ⟨F.fin a, step⟩) h (s := s a) (fun x => h1 a x ha) (h2 a ha).1 (h2 a ha).2.1 inter scene candidate pts loss tol patch hlen,
    (Fm.eval_range (fun x => hs.range a x ha) _).1, ?_⟩
  have : (fmShapes inter scene candidate pts loss tol patch).eval (s a) ≤ s a (tol - loss) := min_le_right _ _
  exact ⟨this, this.trans (hs.mono a ha (by linarith))⟩

/-- **C130.** With the default settings, no path has a degree above 2/3, however clearly valid it is: its contribution in
approximate mode is at least a third below its contribution in hard mode. -/
theorem C130_default (E : Env) (ap : Option Bool) (h : Soft E ap) (pts : List Pt) (loss patch : ℝ) (hl : 0 ≤ loss) (scene inter : List Shape) (candidate : List ℤ)
    (hlen : pts.length = candidate.length + 2) :
    ∃ x, (finitePath pts loss).isValid E (scene.map fun s => s.obj.interact) candidate (inter.map fun s => s.obj.interact) VALID_TOL (F.fin patch) ap {} =
        .ok (.f (F.fin x)) ∧ 0 ≤ x ∧ x ≤ 2 / 3 := by
  have hk : ({} : ActKw) = ⟨F.fin 100, hardSigmoid⟩ := by simp [DEFAULT_ALPHA]
  have ht : VALID_TOL = F.fin (1 / 100) := by simp only [VALID_TOL, OfScientific.ofScientific]; norm_num
  obtain ⟨s, hs, h1, h2⟩ := softStep_hardSigmoid
  obtain ⟨x, e, h0, -, h3⟩ := C130_ceiling E ap h hardSigmoid s hs h1 h2 100 (by norm_num) pts loss (1 / 100) patch hl scene inter candidate hlen
  refine ⟨x, by rw [hk, ht]; exact e, h0, h3.trans_eq ?_⟩
  have := h1 100 (1 / 100) (by norm_num)
  rw [hardSigmoid_fin] at this
  rw [← F.fin.inj this]
  norm_num

/-- A list of walls as shapes. -/
theorem walls_shapes (ws : List (Pt × Pt)) :
    (wallsOf ws).map Obj.interact = (ws.map fun w => Shape.wall w.1 w.2).map fun s => s.obj.interact := by
  simp only [wallsOf, List.map_map]; rfl

theorem sum_le {α : Type*} (l : List α) (f g : α → ℝ) (h : ∀ x ∈ l, f x ≤ g x) : (l.map f).sum ≤ (l.map g).sum := by
  induction l with
  | nil => simp
  | cons x l ih =>
    simp only [List.map_cons, List.sum_cons]
    exact add_le_add (h x (by simp)) (ih fun y hy => h y (by simp [hy]))

theorem sum_zero_of {α : Type*} (l : List α) (f : α → ℝ) (h : ∀ x ∈ l, 0 ≤ f x) (h0 : (l.map f).sum = 0) : ∀ x ∈ l, f x = 0 := by
  intro x hx
  have h1 : f x ≤ (l.map f).sum := List.single_le_sum (by simpa using h) _ (List.mem_map.mpr ⟨x, hx, rfl⟩)
  exact le_antisymm (h0 ▸ h1) (h x hx)

theorem sum_sub {α : Type*} (l : List α) (f g : α → ℝ) : (l.map fun x => f x - g x).sum = (l.map f).sum - (l.map g).sum := by
  induction l with
  | nil => simp
  | cons x l ih => simp only [List.map_cons, List.sum_cons, ih]; ring

/-- **C130.** What this means for `accumulate_over_paths` in a scene of walls, for a function with non-negative values (the
received power, for instance). `H` is the value in hard mode, `S a` the value in approximate mode with slope `a`, and
`T` the sum over all the traced paths, valid or not:

* `S a` is never below half of `H`, never above the middle of `H` and `T`, and never above `T` times the activation of the tolerance;
* in the shadow (`H = 0`) `S` decreases when the slope grows, and where every path is valid (`H = T`) it increases and stays below `H`;
* with the line of sight only (`min_order = max_order = 0`, as in `plot_power_profiles.py`), the higher the slope, the closer to `H`. -/
theorem C130_accumulate {Key : Type} (G : GraphLib) (hG : GraphContract G) (tx rx : PyDict Pt)
    (ht : Distinct tx) (hr : Distinct rx) (walls : List (Pt × Pt)) (lo hi : ℤ) (hlo : 0 ≤ lo)
    (hex : ∃ c, InRange walls.length lo hi c) (split : Key → ℕ → List Key) (key : Option Key)
    (f : Scene.PathFun) (g : Pt → Pt → List Pt → ℝ) (hf : RealFun f g) (hg : ∀ t r pts, 0 ≤ g t r pts)
    (E E' : Env) (ap ap' : Option Bool) (hh : Hard E ap) (hs : Soft E' ap') (kw : ActKw) (step : F → F → F) (hstep : SoftStep step)
    (tol patch : ℝ) :
    ∃ (H T : String × Pt → String × Pt → ℝ) (S : ℝ → String × Pt → String × Pt → ℝ) (C : Finset (List ℤ)) (traced : Pt → Pt → List ℤ → List Pt),
      (wallScene tx rx walls).accumulateOverPaths G split (imageMethod Key) { minOrder := lo, maxOrder := hi }
        ⟨E, F.fin tol, F.fin patch, ap, kw⟩ key f = .ok ((tx ×ˢ rx).map fun p => (p.1.1, p.2.1, F.fin (H p.1 p.2))) ∧
      (∀ a : ℝ, 0 < a → (wallScene tx rx walls).accumulateOverPaths G split (imageMethod Key) { minOrder := lo, maxOrder := hi }
        ⟨E', F.fin tol, F.fin patch, ap', ⟨F.fin a, step⟩⟩ key f = .ok ((tx ×ˢ rx).map fun p => (p.1.1, p.2.1, F.fin (S a p.1 p.2)))) ∧
      (∀ c, c ∈ C ↔ InRange walls.length lo hi c) ∧
      (∀ t r, ∀ c, ∃ loss, traceImage t (wallsAt walls c) r = .ok (finitePath (traced t r c) loss)) ∧
      (∀ t r, T t r = ∑ c ∈ C, g t.2 r.2 (traced t.2 r.2 c)) ∧
      ∀ t ∈ tx, ∀ r ∈ rx, (0 ≤ H t r ∧ H t r ≤ T t r) ∧
        (∀ a : ℝ, 0 < a → H t r / 2 ≤ S a t r ∧ S a t r ≤ (H t r + T t r) / 2 ∧
          ∃ ceil : ℝ, step (F.fin tol) (F.fin a) = F.fin ceil ∧ S a t r ≤ ceil * T t r) ∧
        ∀ a b : ℝ, 0 < a → a ≤ b → (H t r = 0 → S b t r ≤ S a t r) ∧ (H t r = T t r → S a t r ≤ S b t r ∧ S b t r ≤ H t r) ∧
          (hi = 0 → |S b t r - H t r| ≤ |S a t r - H t r|) := by
  obtain ⟨cs, hcs, hcd, hcm, hne⟩ := cands_walls G hG tx rx walls lo hi hlo hex
  obtain ⟨s, h1, h2, h3⟩ := id hstep
  let lossOf : Pt → Pt → List ℤ → ℝ := fun t r c => (scores (wallsAt walls c) (rpath t r (wallsAt walls c))).sum
  let P : Pt → Pt → List ℤ → Fm := fun t r c => fmValid (wallsAt walls c) walls c (rpath t r (wallsAt walls c)) (lossOf t r c) tol patch
  let V : Pt → Pt → List ℤ → Bool := fun t r c =>
    match (finitePath (rpath t r (wallsAt walls c)) (lossOf t r c)).isValid E ((wallsOf walls).map Obj.interact) c
      ((wallsOf (wallsAt walls c)).map Obj.interact) (F.fin tol) (F.fin patch) ap kw with
    | .ok (.b v) => v
    | _ => false
  have hlen : ∀ t r c, c ∈ cs → (rpath t r (wallsAt walls c)).length = c.length + 2 := by
    intro t r c hc
    rw [rpath_length, wallsAt_length ((hcm c).mp hc).1]
  have hsoft : ∀ (a : ℝ), 0 < a → ∀ t r c, c ∈ cs →
      (finitePath (rpath t r (wallsAt walls c)) (lossOf t r c)).isValid E' ((wallsOf walls).map Obj.interact) c
        ((wallsOf (wallsAt walls c)).map Obj.interact) (F.fin tol) (F.fin patch) ap' ⟨F.fin a, step⟩ = .ok (.f (F.fin ((P t r c).eval (s a)))) := by
    intro a ha t r c hc
    exact fmValid_soft (kw := ⟨F.fin a, step⟩) hs (fun x => h2 a x ha) (h3 a ha).1 (h3 a ha).2.1 (wallsAt walls c) walls c _ _ tol patch (hlen t r c hc)
  have hclose : ∀ (a b : ℝ), 0 < a → a ≤ b → ∀ t r c, c ∈ cs →
      (finitePath (rpath t r (wallsAt walls c)) (lossOf t r c)).isValid E ((wallsOf walls).map Obj.interact) c
        ((wallsOf (wallsAt walls c)).map Obj.interact) (F.fin tol) (F.fin patch) ap kw = .ok (.b (V t r c)) ∧
      Closer (V t r c) ((P t r c).eval (s a)) ((P t r c).eval (s b)) := by
    intro a b ha hab t r c hc
    obtain ⟨v, x, x', e, e₁, e₂, -, -, hcl⟩ := C130_closer E E' E' ap ap' ap' hh hs hs kw step hstep a b ha hab (rpath t r (wallsAt walls c))
      (F.fin (lossOf t r c)) (F.fin tol) patch (walls.map fun w => Shape.wall w.1 w.2) ((wallsAt walls c).map fun w => Shape.wall w.1 w.2) c (hlen t r c hc)
    rw [← walls_shapes, ← walls_shapes] at e e₁ e₂
    have k1 := hsoft a ha t r c hc
    have k2 := hsoft b (ha.trans_le hab) t r c hc
    have q1 := F.fin.inj (Truthy.f.inj (Except.ok.inj (k1.symm.trans e₁)))
    have q2 := F.fin.inj (Truthy.f.inj (Except.ok.inj (k2.symm.trans e₂)))
    have qv : V t r c = v := by
      show (match (finitePath (rpath t r (wallsAt walls c)) (lossOf t r c)).isValid E ((wallsOf walls).map Obj.interact) c
        ((wallsOf (wallsAt walls c)).map Obj.interact) (F.fin tol) (F.fin patch) ap kw with | .ok (.b v) => v | _ => false) = v
      have : finitePath (rpath t r (wallsAt walls c)) (lossOf t r c) = ⟨(rpath t r (wallsAt walls c)).map V2.fin, F.fin (lossOf t r c)⟩ := rfl
      rw [this, e]
    rw [qv, q1, q2]
    exact ⟨e, hcl⟩
  have hceil : ∀ (a : ℝ), 0 < a → ∀ t r c, (P t r c).eval (s a) ≤ s a tol := by
    intro a ha t r c
    have e : (P t r c).eval (s a) ≤ s a (tol - lossOf t r c) := min_le_right _ _
    have : 0 ≤ lossOf t r c := List.sum_nonneg (scores_nonneg _ _)
    exact e.trans (h1.mono a ha (by linarith))
  let w : String × Pt → String × Pt → List ℤ → ℝ := fun t r c => g t.2 r.2 (rpath t.2 r.2 (wallsAt walls c))
  have hw : ∀ t r c, 0 ≤ w t r c := fun t r c => hg _ _ _
  have hbit : ∀ v : Bool, (v = true ∧ bit v = 1) ∨ (v = false ∧ bit v = 0) := by intro v; cases v <;> simp [bit]
  let H : String × Pt → String × Pt → ℝ := fun t r => (cs.map fun c => bit (V t.2 r.2 c) * w t r c).sum
  let T : String × Pt → String × Pt → ℝ := fun t r => (cs.map fun c => w t r c).sum
  let S : ℝ → String × Pt → String × Pt → ℝ := fun a t r => (cs.map fun c => (P t.2 r.2 c).eval (s a) * w t r c).sum
  have Hdef : ∀ t r, H t r = (cs.map fun c => bit (V t.2 r.2 c) * w t r c).sum := fun _ _ => rfl
  have Tdef : ∀ t r, T t r = (cs.map fun c => w t r c).sum := fun _ _ => rfl
  have Sdef : ∀ a t r, S a t r = (cs.map fun c => (P t.2 r.2 c).eval (s a) * w t r c).sum := fun _ _ _ => rfl
  have hHnn : ∀ t r, 0 ≤ H t r := by
    intro t r
    rw [Hdef]
    apply List.sum_nonneg
    intro x hx
    obtain ⟨c, -, rfl⟩ := List.mem_map.mp hx
    rcases hbit (V t.2 r.2 c) with ⟨-, e⟩ | ⟨-, e⟩ <;> rw [e]
    · simpa using hw t r c
    · simp
  have hHT : ∀ t r, H t r ≤ T t r := by
    intro t r
    rw [Hdef, Tdef]
    apply sum_le
    intro c hc
    rcases hbit (V t.2 r.2 c) with ⟨-, e⟩ | ⟨-, e⟩ <;> rw [e]
    · simp
    · simpa using hw t r c
  have dark : ∀ t r, ∀ a b : ℝ, 0 < a → a ≤ b → H t r = 0 → S b t r ≤ S a t r := by
    intro t r a b ha hab h0
    rw [Sdef, Sdef]
    apply sum_le
    intro c hc
    have hz := sum_zero_of cs (fun c => bit (V t.2 r.2 c) * w t r c) (by
      intro c hc
      rcases hbit (V t.2 r.2 c) with ⟨-, e⟩ | ⟨-, e⟩ <;> simp only [e]
      · simpa using hw t r c
      · simp) h0 c hc
    obtain ⟨-, hcl⟩ := hclose a b ha hab t.2 r.2 c hc
    rcases hbit (V t.2 r.2 c) with ⟨e', e⟩ | ⟨e', e⟩
    · simp only [e, one_mul] at hz
      simp [hz]
    · rw [e'] at hcl
      simp only [Closer, Bool.false_eq_true, if_false] at hcl
      exact mul_le_mul_of_nonneg_right hcl.2.1 (hw t r c)
  have lit : ∀ t r, ∀ a b : ℝ, 0 < a → a ≤ b → H t r = T t r → S a t r ≤ S b t r ∧ S b t r ≤ H t r := by
    intro t r a b ha hab h0
    have hz : ∀ c ∈ cs, w t r c - bit (V t.2 r.2 c) * w t r c = 0 := by
      apply sum_zero_of cs (fun c => w t r c - bit (V t.2 r.2 c) * w t r c)
      · intro c hc
        rcases hbit (V t.2 r.2 c) with ⟨-, e⟩ | ⟨-, e⟩ <;> simp only [e]
        · simp
        · simpa using hw t r c
      · rw [sum_sub cs (fun c => w t r c) fun c => bit (V t.2 r.2 c) * w t r c, ← Hdef, ← Tdef, h0, sub_self]
    have hstep2 : ∀ c ∈ cs, (P t.2 r.2 c).eval (s a) * w t r c ≤ (P t.2 r.2 c).eval (s b) * w t r c ∧
        (P t.2 r.2 c).eval (s b) * w t r c ≤ bit (V t.2 r.2 c) * w t r c := by
      intro c hc
      have := hz c hc
      obtain ⟨-, hcl⟩ := hclose a b ha hab t.2 r.2 c hc
      rcases hbit (V t.2 r.2 c) with ⟨e', e⟩ | ⟨e', e⟩
      · rw [e'] at hcl
        simp only [Closer, if_true] at hcl
        rw [e]
        exact ⟨mul_le_mul_of_nonneg_right hcl.2.1 (hw t r c), mul_le_mul_of_nonneg_right hcl.2.2 (hw t r c)⟩
      · rw [e, zero_mul, sub_zero] at this
        simp [this]
    rw [Sdef, Sdef, Hdef]
    exact ⟨sum_le _ _ _ fun c hc => (hstep2 c hc).1, sum_le _ _ _ fun c hc => (hstep2 c hc).2⟩
  refine ⟨H, T, S, cs.toFinset, fun t r c => rpath t r (wallsAt walls c), ?_, ?_, ?_, ?_, ?_, ?_⟩
  · refine accumulate_walls G hG tx rx ht hr walls lo hi hlo cs hcs hcd hcm hne split key _ f g hf (fun t r c => bit (V t r c)) ?_
    intro t ht' r hr' c hc
    refine ⟨_, (hclose 1 1 one_pos le_rfl t.2 r.2 c hc).1, ?_⟩
    rcases hbit (V t.2 r.2 c) with ⟨e', e⟩ | ⟨e', e⟩ <;> rw [e, e'] <;> simp
  · intro a ha
    refine accumulate_walls G hG tx rx ht hr walls lo hi hlo cs hcs hcd hcm hne split key _ f g hf (fun t r c => (P t r c).eval (s a)) ?_
    intro t ht' r hr' c hc
    exact ⟨_, hsoft a ha t.2 r.2 c hc, rfl⟩
  · intro c; rw [List.mem_toFinset]; exact hcm c
  · intro t r c
    exact ⟨_, traceImage_eq t r (wallsAt walls c)⟩
  · intro t r
    rw [List.sum_toFinset _ hcd]
  · intro t ht' r hr'
    refine ⟨⟨hHnn t r, hHT t r⟩, ?_, ?_⟩
    · intro a ha
      have hcl := fun c hc => (hclose a a ha le_rfl t.2 r.2 c hc).2
      refine ⟨?_, ?_, s a tol, h2 a tol ha, ?_⟩
      · have : ((cs.map fun c => (1 / 2) * (bit (V t.2 r.2 c) * w t r c))).sum ≤ S a t r := by
          apply sum_le
          intro c hc
          have hw' := hw t r c
          have hcl' := hcl c hc
          rcases hbit (V t.2 r.2 c) with ⟨e', e⟩ | ⟨e', e⟩
          · rw [e'] at hcl'
            simp only [Closer, if_true] at hcl'
            rw [e, one_mul]; exact mul_le_mul_of_nonneg_right hcl'.1 hw'
          · rw [e, zero_mul, mul_zero]; exact mul_nonneg hcl'.range.1.1 hw'
        rw [List.sum_map_mul_left, ← Hdef] at this
        linarith
      · have : S a t r ≤ ((cs.map fun c => (1 / 2) * (bit (V t.2 r.2 c) * w t r c + w t r c))).sum := by
          apply sum_le
          intro c hc
          have hw' := hw t r c
          have hcl' := hcl c hc
          rcases hbit (V t.2 r.2 c) with ⟨e', e⟩ | ⟨e', e⟩
          · rw [e, one_mul]
            have := mul_le_mul_of_nonneg_right hcl'.range.1.2 hw'
            linarith
          · rw [e'] at hcl'
            simp only [Closer, Bool.false_eq_true, if_false] at hcl'
            rw [e, zero_mul, zero_add]; exact mul_le_mul_of_nonneg_right hcl'.2.2 hw'
        rw [List.sum_map_mul_left, List.sum_map_add, ← Hdef, ← Tdef] at this
        linarith
      · rw [Tdef, ← List.sum_map_mul_left, Sdef]
        apply sum_le
        intro c hc
        exact mul_le_mul_of_nonneg_right (hceil a ha _ _ _) (hw t r c)
    · intro a b ha hab
      refine ⟨dark t r a b ha hab, lit t r a b ha hab, ?_⟩
      rintro rfl
      have hcs1 : ∀ c ∈ cs, c = [] := by
        intro c hc
        have := ((hcm c).mp hc).2.2
        exact List.length_eq_zero_iff.mp (by omega)
      have hone : cs = [[]] := by
        cases cs with
        | nil => exact absurd rfl hne
        | cons c l =>
          have e := hcs1 c (by simp)
          subst e
          cases l with
          | nil => rfl
          | cons d l =>
            have e := hcs1 d (by simp)
            subst e
            simp at hcd
      have hS : ∀ a, S a t r = (P t.2 r.2 []).eval (s a) * w t r [] := by intro a; rw [Sdef, hone]; simp
      have hH : H t r = bit (V t.2 r.2 []) * w t r [] := by rw [Hdef, hone]; simp
      have hcl := (hclose a b ha hab t.2 r.2 [] (by simp [hone])).2.abs.1
      rw [hS, hS, hH, ← sub_mul, ← sub_mul, abs_mul, abs_mul]
      exact mul_le_mul_of_nonneg_right hcl (abs_nonneg _)

/-! ## With several paths, the total need not get closer -/

/-- A reflection just beyond the end of the wall. -/
theorem beyond_specular : Specular [(⟨0, 0⟩, ⟨1, 0⟩)] [⟨0, 1⟩, ⟨1001 / 1000, 0⟩, ⟨1001 / 500, 1⟩] := by
  refine ⟨rfl, fun i w a b c hw ha hb hc => ?_⟩
  cases i with
  | succ i => simp at hw
  | zero =>
    simp at hw ha hb hc; subst hw ha hb hc
    refine ⟨⟨1001 / 1000, by ext <;> norm_num [pointAt]⟩, by norm_num [side], ?_⟩
    norm_num [along, eucl]

theorem beyond_rpath : rpath ⟨0, 1⟩ ⟨1001 / 500, 1⟩ (wallsAt [(⟨0, 0⟩, ⟨1, 0⟩)] [0]) = [⟨0, 1⟩, ⟨1001 / 1000, 0⟩, ⟨1001 / 500, 1⟩] ∧
    (scores (wallsAt [(⟨0, 0⟩, ⟨1, 0⟩)] [0]) (rpath ⟨0, 1⟩ ⟨1001 / 500, 1⟩ (wallsAt [(⟨0, 0⟩, ⟨1, 0⟩)] [0]))).sum = 0 := by
  have e := C73_complete ⟨0, 1⟩ ⟨1001 / 500, 1⟩ [(⟨0, 0⟩, ⟨1, 0⟩)] (by simp) [⟨1001 / 1000, 0⟩] beyond_specular
  have e' := traceImage_eq ⟨0, 1⟩ ⟨1001 / 500, 1⟩ (wallsAt [(⟨0, 0⟩, ⟨1, 0⟩)] [0])
  rw [show wallsAt [((⟨0, 0⟩, ⟨1, 0⟩) : Pt × Pt)] [0] = [(⟨0, 0⟩, ⟨1, 0⟩)] from rfl] at *
  rw [e] at e'
  obtain ⟨h1, h2⟩ := finitePath_inj (Except.ok.inj e')
  exact ⟨h1.symm, h2.symm⟩

theorem beyond_fm : fmValid (wallsAt [(⟨0, 0⟩, ⟨1, 0⟩)] []) [(⟨0, 0⟩, ⟨1, 0⟩)] [] [⟨0, 1⟩, ⟨1001 / 500, 1⟩] 0 (1 / 100) 0 =
      .and (.and .top (.not (.or .bot .bot))) (.atom (1 / 100)) ∧
    fmValid (wallsAt [(⟨0, 0⟩, ⟨1, 0⟩)] [0]) [(⟨0, 0⟩, ⟨1, 0⟩)] [0] [⟨0, 1⟩, ⟨1001 / 1000, 0⟩, ⟨1001 / 500, 1⟩] 0 (1 / 100) 0 =
      .and (.and (.and .top (.and (.atom (1001 / 1000)) (.atom (-(1 / 1000))))) (.not .bot)) (.atom (1 / 100)) := by
  constructor
  · have h1 : hitPairs 2 [((⟨0, 0⟩, ⟨1, 0⟩) : Pt × Pt)] [] = [(0, (⟨0, 0⟩, ⟨1, 0⟩), 0)] := by
      simp [hitPairs, List.range_succ]
    have h2 : fmSeg (pointAt ⟨0, 0⟩ ⟨1, 0⟩ (-0)) (pointAt ⟨0, 0⟩ ⟨1, 0⟩ (1 + 0)) ⟨0, 1⟩ ⟨1001 / 500, 1⟩ (1 / 200) = .bot := by
      have : segParams (pointAt ⟨0, 0⟩ ⟨1, 0⟩ (-0)) (pointAt ⟨0, 0⟩ ⟨1, 0⟩ (1 + 0)) ⟨0, 1⟩ ⟨1001 / 500, 1⟩ = none := by
        simp [segParams, segD, pointAt]
      simp only [fmSeg, this]
    unfold fmValid
    rw [show ([⟨0, 1⟩, ⟨1001 / 500, 1⟩] : List Pt).length = 2 from rfl, h1]
    simp only [List.map_cons, List.map_nil, Fm.disj, List.foldl_cons, List.foldl_nil, wallsAt, List.filterMap_nil, List.zipIdx_nil, Fm.conj, rnth]
    simp only [List.length_cons, List.length_nil]
    norm_num
    simpa using h2
  · have h1 : hitPairs 3 [((⟨0, 0⟩, ⟨1, 0⟩) : Pt × Pt)] [0] = [] := by
      simp [hitPairs, List.range_succ]
    have h2 : fmOn ⟨0, 0⟩ ⟨1, 0⟩ ⟨1001 / 1000, 0⟩ = .and (.atom (1001 / 1000)) (.atom (-(1 / 1000))) := by
      have : rpar ⟨0, 0⟩ ⟨1, 0⟩ ⟨1001 / 1000, 0⟩ = 1001 / 1000 := by norm_num [rpar, dp]
      unfold fmOn; rw [this]; norm_num
    unfold fmValid
    rw [show ([⟨0, 1⟩, ⟨1001 / 1000, 0⟩, ⟨1001 / 500, 1⟩] : List Pt).length = 3 from rfl, h1]
    rw [show wallsAt [((⟨0, 0⟩, ⟨1, 0⟩) : Pt × Pt)] [0] = [(⟨0, 0⟩, ⟨1, 0⟩)] from rfl]
    simp only [List.map_nil, Fm.disj, List.foldl_nil, List.zipIdx_cons, List.zipIdx_nil, List.map_cons, Fm.conj, List.foldl_cons]
    rw [show rnth [⟨0, 1⟩, ⟨1001 / 1000, 0⟩, ⟨1001 / 500, 1⟩] (0 + 1) = ⟨1001 / 1000, 0⟩ from rfl, h2]
    norm_num

/-- **C130 (refuted for totals).** With more than one path, a higher slope does not always bring the accumulated value closer
to its value in hard mode. One wall, a transmitter and a receiver, orders 0 and 1, the default activation, tolerance and patch: the reflected path
misses the wall by 1/1000 of its length. Counting the paths (`fun = 1`) gives 1 in hard mode, and `1 + 9 a / 6000` in approximate mode for every
slope up to 100: the default slope, 100, is off by 0.15, the slope 1 by 0.0015 only. -/
theorem C130_total_refuted {Key : Type} (G : GraphLib) (hG : GraphContract G) (split : Key → ℕ → List Key) (key : Option Key)
    (E E' : Env) (ap ap' : Option Bool) (hh : Hard E ap) (hs : Soft E' ap') (kw : ActKw) :
    (wallScene [("tx", ⟨0, 1⟩)] [("rx", ⟨1001 / 500, 1⟩)] [(⟨0, 0⟩, ⟨1, 0⟩)]).accumulateOverPaths G split (imageMethod Key)
        { minOrder := 0, maxOrder := 1 } ⟨E, F.fin (1 / 100), F.fin 0, ap, kw⟩ key (fun _ _ _ _ => 1) = .ok [("tx", "rx", F.fin 1)] ∧
    (∀ a : ℝ, 0 < a → a ≤ 100 → (wallScene [("tx", ⟨0, 1⟩)] [("rx", ⟨1001 / 500, 1⟩)] [(⟨0, 0⟩, ⟨1, 0⟩)]).accumulateOverPaths G split (imageMethod Key)
        { minOrder := 0, maxOrder := 1 } ⟨E', F.fin (1 / 100), F.fin 0, ap', ⟨F.fin a, hardSigmoid⟩⟩ key (fun _ _ _ _ => 1) =
          .ok [("tx", "rx", F.fin (1 + 9 * a / 6000))]) := by
  let walls : List (Pt × Pt) := [(⟨0, 0⟩, ⟨1, 0⟩)]
  have d1 : Distinct [("tx", (⟨0, 1⟩ : Pt))] := by simp [Distinct]
  have d2 : Distinct [("rx", (⟨1001 / 500, 1⟩ : Pt))] := by simp [Distinct]
  have i0 : InRange 1 0 1 [] := by simp [InRange, IsCandidate]
  have i1 : InRange 1 0 1 [0] := by simp [InRange, IsCandidate]
  obtain ⟨cs, hcs, hcd, hcm, hne⟩ := cands_walls G hG [("tx", ⟨0, 1⟩)] [("rx", ⟨1001 / 500, 1⟩)] walls 0 1 le_rfl ⟨[], i0⟩
  have hperm : cs.Perm [[], [0]] := by
    rw [List.perm_ext_iff_of_nodup hcd (by simp)]
    intro c
    rw [hcm]
    constructor
    · intro h; rcases range_one h with rfl | rfl <;> simp
    · intro h; simp at h; rcases h with rfl | rfl
      · exact i0
      · exact i1
  have hf : RealFun (fun _ _ _ _ => 1) (fun _ _ _ => 1) := by intro t r pts loss os _; simp
  have p0 : rpath ⟨0, 1⟩ ⟨1001 / 500, 1⟩ (wallsAt walls []) = [⟨0, 1⟩, ⟨1001 / 500, 1⟩] := by simp [rpath, rpts, wallsAt]
  have s0 : (scores (wallsAt walls []) (rpath ⟨0, 1⟩ ⟨1001 / 500, 1⟩ (wallsAt walls []))).sum = 0 := by simp [wallsAt, scores]
  obtain ⟨p1, s1⟩ := beyond_rpath
  have hpair : ∀ c ∈ cs, c = [] ∨ c = [0] := fun c hc => range_one ((hcm c).mp hc)
  have hsoft : ∀ a : ℝ, 0 < a → a ≤ 100 → ∀ x : ℝ, activation ⟨F.fin a, hardSigmoid⟩ (F.fin x) = F.fin (min (max (a * x + 3) 0) 6 / 6) :=
    fun a _ _ x => hardSigmoid_fin a x
  constructor
  · rw [accumulate_walls G hG _ _ d1 d2 walls 0 1 le_rfl cs hcs hcd hcm hne split key _ _ _ hf (fun _ _ c => if c = [] then 1 else 0)]
    · congr 1
      simp only [List.product_cons, List.product_nil, List.map_cons, List.map_nil, List.append_nil]
      congr 3
      rw [(hperm.map _).sum_eq]; simp
    · intro t ht r hr c hc
      simp only [List.mem_singleton] at ht hr
      subst ht hr
      have key : ∀ (c : List ℤ) (pts : List Pt) (φ : Fm), fmValid (wallsAt walls c) walls c pts 0 (1 / 100) 0 = φ → pts.length = c.length + 2 → φ.NoTie →
          (finitePath pts 0).isValid E ((wallsOf walls).map Obj.interact) c ((wallsOf (wallsAt walls c)).map Obj.interact) (F.fin (1 / 100)) (F.fin 0) ap kw = .ok (.b φ.hv) := by
        rintro c pts φ rfl hl hn
        exact fmValid_hard hh kw _ _ _ _ _ _ _ hl hn
      rcases hpair c hc with rfl | rfl
      · rw [s0, p0]
        refine ⟨_, key _ _ _ beyond_fm.1 rfl ?_, ?_⟩
        · simp only [Fm.NoTie]; norm_num
        · simp only [Fm.hv]; norm_num
      · rw [s1, p1]
        refine ⟨_, key _ _ _ beyond_fm.2 rfl ?_, ?_⟩
        · simp only [Fm.NoTie]; norm_num
        · simp only [Fm.hv]; norm_num
  · intro a ha ha'
    rw [accumulate_walls G hG _ _ d1 d2 walls 0 1 le_rfl cs hcs hcd hcm hne split key _ _ _ hf (fun _ _ c => if c = [] then 1 / 2 + a / 600 else 1 / 2 - a / 6000)]
    · congr 1
      simp only [List.product_cons, List.product_nil, List.map_cons, List.map_nil, List.append_nil]
      congr 3
      rw [(hperm.map _).sum_eq]; simp; ring
    · intro t ht r hr c hc
      simp only [List.mem_singleton] at ht hr
      subst ht hr
      have key : ∀ (c : List ℤ) (pts : List Pt) (φ : Fm), fmValid (wallsAt walls c) walls c pts 0 (1 / 100) 0 = φ → pts.length = c.length + 2 →
          (finitePath pts 0).isValid E' ((wallsOf walls).map Obj.interact) c ((wallsOf (wallsAt walls c)).map Obj.interact) (F.fin (1 / 100)) (F.fin 0) ap' ⟨F.fin a, hardSigmoid⟩ =
            .ok (.f (F.fin (φ.eval fun x => min (max (a * x + 3) 0) 6 / 6))) := by
        rintro c pts φ rfl hl
        obtain ⟨_, _, hp, hn, -⟩ := Spec.GoodKw.real (kw := ⟨F.fin a, hardSigmoid⟩) ⟨softStep_hardSigmoid, a, ha, rfl⟩
        exact fmValid_soft hs (hsoft a ha ha') hp hn _ _ _ _ _ _ _ hl
      have m1 : min (max (a * (1 / 100) + 3) 0) 6 / 6 = 1 / 2 + a / 600 := by
        rw [max_eq_left (by linarith), min_eq_left (by linarith)]; ring
      have m2 : min (max (a * (-(1 / 1000)) + 3) 0) 6 / 6 = 1 / 2 - a / 6000 := by
        rw [max_eq_left (by linarith), min_eq_left (by linarith)]; ring
      have m3 : 1 / 2 ≤ min (max (a * (1001 / 1000) + 3) 0) 6 / 6 := by
        rw [max_eq_left (by linarith)]
        have : (3 : ℝ) ≤ min (a * (1001 / 1000) + 3) 6 := le_min (by linarith) (by norm_num)
        linarith
      rcases hpair c hc with rfl | rfl
      · rw [s0, p0]
        refine ⟨_, key _ _ _ beyond_fm.1 rfl, ?_⟩
        simp only [Fm.eval, m1, Truthy.toF_f, if_true]
        congr 1
        rw [max_self, sub_zero, min_self, min_eq_right (by linarith)]
      · rw [s1, p1]
        refine ⟨_, key _ _ _ beyond_fm.2 rfl, ?_⟩
        simp only [Fm.eval, m1, m2, Truthy.toF_f]
        rw [if_neg (by simp)]
        congr 1
        have e : min (min (max (a * (1001 / 1000) + 3) 0) 6 / 6) (1 / 2 - a / 6000) = 1 / 2 - a / 6000 := min_eq_right (by linarith)
        rw [e, sub_zero, min_eq_right (show 1 / 2 - a / 6000 ≤ 1 by linarith), min_eq_left (show 1 / 2 - a / 6000 ≤ 1 by linarith), min_eq_left (by linarith)]

/-- Non-vacuity of `C130_accumulate`: the received power along the line of sight and one reflection, in the scene with one wall, with the two built-in activations. -/
example {Key : Type} (G : GraphLib) (hG : GraphContract G) (split : Key → ℕ → List Key) (key : Option Key) (E : Env) (c height : ℝ) (hc : 0 ≤ c) (hh : 0 < height) :=
  have h (step : F → F → F) (hs : SoftStep step) := C130_accumulate G hG [("tx", ⟨0, 1⟩)] [("rx", ⟨2, 1⟩)] (by simp [Distinct]) (by simp [Distinct]) [(⟨0, 0⟩, ⟨3, 0⟩)] 0 1 le_rfl
    ⟨[], by simp [InRange, IsCandidate]⟩ split key (powerFun E c height) _ (realFun_power E c height hh) (fun _ _ _ => by positivity) E E (some false) (some true)
    (.inl rfl) (.inl rfl) {} step hs (1 / 100) 0
  And.intro (h _ softStep_sigmoid) (h _ softStep_hardSigmoid)

end DiffeRT2d.Props
