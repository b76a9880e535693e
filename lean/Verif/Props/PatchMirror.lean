import Verif.Props.Redraw
import Verif.Props.Patch
import Verif.Props.Interactive

/-! # C138: the patch is mirrored at -1/2 -/

namespace DiffeRT2d.Props
open Classical Spec

/-- **C138.** Moving both ends by the patch `-1 - p` gives the wall that the patch `p` gives, with its ends exchanged: the test for a
crossing is the same, in both modes and whatever the activation. -/
theorem C138_object (x : Shape) (E : Env) (ap : Option Bool) (kw : ActKw) (p : ℝ) (a b : Pt) :
    x.obj.interact.intersects E ap kw (F.fin (-1 - p)) (V2.fin a) (V2.fin b) =
      x.obj.interact.intersects E ap kw (F.fin p) (V2.fin a) (V2.fin b) := by
  have key : ∀ o d : Pt, (Wall.ofPts o d).intersects E ap kw (F.fin (-1 - p)) (V2.fin a) (V2.fin b) =
      (Wall.ofPts o d).intersects E ap kw (F.fin p) (V2.fin a) (V2.fin b) := by
    intro o d
    rw [patched, patched, segTol_eq, show -(-1 - p) = 1 + p by ring, show 1 + (-1 - p) = -p by ring]
    exact (C11_reverse E ap kw _ _ a b _).1
  cases x with
  | wall o d => exact key o d
  | ris o d φ => exact key o d
  | vertex q => rfl

/-- The patch that matters is the distance to -1/2. -/
theorem patch_fold (p : ℝ) : p = |p + 1 / 2| - 1 / 2 ∨ p = -1 - (|p + 1 / 2| - 1 / 2) := by
  rcases abs_choice (p + 1 / 2) with h | h
  · left; linarith
  · right; linarith

theorem C138_distance (x : Shape) (E : Env) (ap : Option Bool) (kw : ActKw) (p q : ℝ) (h : |p + 1 / 2| = |q + 1 / 2|) (a b : Pt) :
    x.obj.interact.intersects E ap kw (F.fin p) (V2.fin a) (V2.fin b) = x.obj.interact.intersects E ap kw (F.fin q) (V2.fin a) (V2.fin b) := by
  have f : ∀ p : ℝ, x.obj.interact.intersects E ap kw (F.fin p) (V2.fin a) (V2.fin b) =
      x.obj.interact.intersects E ap kw (F.fin (|p + 1 / 2| - 1 / 2)) (V2.fin a) (V2.fin b) := by
    intro p
    rcases patch_fold p with e | e
    · rw [← e]
    · conv_lhs => rw [e]
      exact C138_object x E ap kw _ a b
  rw [f p, f q, h]

theorem hitVals_mirror (pts : List Pt) (loss : F) (h0 : pts ≠ []) (E : Env) (shapes : List Shape) (c : List ℤ) (ap : Option Bool) (kw : ActKw) {p q : ℝ}
    (h : |p + 1 / 2| = |q + 1 / 2|) :
    hitVals ⟨pts.map V2.fin, loss⟩ E ((shapes.map Shape.obj).map Obj.interact) c (F.fin p) ap kw =
      hitVals ⟨pts.map V2.fin, loss⟩ E ((shapes.map Shape.obj).map Obj.interact) c (F.fin q) ap kw := by
  have := hitVals_patch pts loss h0 E shapes c ap kw (p := p) (p' := q) Eq fun x a b => C138_distance x E ap kw p q h a b
  rwa [List.forall₂_eq_eq_eq] at this

/-- **C138.** The validity of a path of finite points. -/
theorem C138_validity (pts : List Pt) (loss : F) (E : Env) (shapes : List Shape) (inter : List Interactable) (c : List ℤ) (hl : pts.length = c.length + 2)
    (tol : F) (ap : Option Bool) (kw : ActKw) (p q : ℝ) (h : |p + 1 / 2| = |q + 1 / 2|) :
    Path.isValid ⟨pts.map V2.fin, loss⟩ E ((shapes.map Shape.obj).map Obj.interact) c inter tol (F.fin p) ap kw =
      Path.isValid ⟨pts.map V2.fin, loss⟩ E ((shapes.map Shape.obj).map Obj.interact) c inter tol (F.fin q) ap kw := by
  have h0 : pts ≠ [] := by intro e; rw [e] at hl; simp at hl
  have hlen : (⟨pts.map V2.fin, loss⟩ : Path).xys.length ≤ c.length + 2 := by simp [hl]
  unfold Path.isValid
  rw [intersects_eq _ _ _ _ _ _ _ hlen, intersects_eq _ _ _ _ _ _ _ hlen, hitVals_mirror pts loss h0 E shapes c ap kw h]

section Scenes

variable {Key : Type} (G : GraphLib) (s : Scene) (hs : IsScene s) (shapes : List Shape) (hobj : s.objects = shapes.map Shape.obj)
  (o : Scene.Orders) (split : Key → ℕ → List Key) (key : Option Key) (m : Scene.PathMethod Key)
  (E : Env) (ap : Option Bool) (kw : ActKw) (tol : F) (p q : ℝ) (ts : List Scene.Traced)
  (e : s.allPaths G split m o ⟨E, tol, F.fin p, ap, kw⟩ key = .ok ts)
  (hfin : ∀ t ∈ ts, ∃ pts : List Pt, t.path.xys = pts.map V2.fin ∧ pts.length = t.candidate.length + 2)

include hs hobj e hfin in
/-- **C138.** `all_paths` returns the same for two patches at the same distance of -1/2: any path class, orders and key, as long as
the traced points are finite, one per interaction; scenes of walls, RIS and vertices; both modes. -/
theorem C138_paths (h : |p + 1 / 2| = |q + 1 / 2|) : s.allPaths G split m o ⟨E, tol, F.fin q, ap, kw⟩ key = .ok ts := by
  obtain ⟨ts', e', hF⟩ := allPaths_settings G s hs o split key m _ ⟨E, tol, F.fin q, ap, kw⟩ Eq ts e (by
    intro t ht os x hos hx
    obtain ⟨pts, e1, hl⟩ := hfin t ht
    have hpath : t.path = ⟨pts.map V2.fin, t.path.loss⟩ := by rw [← e1]
    refine ⟨x, ?_, rfl⟩
    rw [← hx]
    unfold Scene.validity
    rw [hpath, hobj]
    exact C138_validity pts _ E shapes _ _ hl tol ap kw q p h.symm)
  rw [e']
  congr 1
  have : List.Forall₂ Eq ts ts' := hF.imp fun a b hab => by
    obtain ⟨h1, h2, h3, h4, h5⟩ := hab
    cases a; cases b; simp_all
  rw [List.forall₂_eq_eq_eq] at this
  exact this.symm

include hs hobj e hfin in
/-- **C138.** The same for the valid paths. -/
theorem C138_valid_paths (h : |p + 1 / 2| = |q + 1 / 2|) :
    s.allValidPaths G split m o ⟨E, tol, F.fin q, ap, kw⟩ key = s.allValidPaths G split m o ⟨E, tol, F.fin p, ap, kw⟩ key := by
  rw [C57_valid G s hs, C57_valid G s hs, e, C138_paths G s hs shapes hobj o split key m E ap kw tol p q ts e hfin h]

include hs hobj e hfin in
/-- **C138.** The same for the accumulated values of any function. -/
theorem C138_accumulate (h : |p + 1 / 2| = |q + 1 / 2|) (f : Scene.PathFun) :
    s.accumulateOverPaths G split m o ⟨E, tol, F.fin q, ap, kw⟩ key f = s.accumulateOverPaths G split m o ⟨E, tol, F.fin p, ap, kw⟩ key f := by
  unfold Scene.accumulateOverPaths
  rw [e, C138_paths G s hs shapes hobj o split key m E ap kw tol p q ts e hfin h]

include hs hobj e hfin in
/-- **C138.** The complete version of C79 for the patch: the farther the patch is from -1/2, in whatever direction, the fewer paths are
valid. Below -1/2 a smaller patch makes the walls larger. -/
theorem C138_order (hmode : Hard E ap ∨ (Soft E ap ∧ GoodKw kw)) (h : |p + 1 / 2| ≤ |q + 1 / 2|) :
    ∃ out out', s.allValidPaths G split m o ⟨E, tol, F.fin p, ap, kw⟩ key = .ok out ∧
      s.allValidPaths G split m o ⟨E, tol, F.fin q, ap, kw⟩ key = .ok out' ∧ out'.Sublist out := by
  have fold : ∀ p : ℝ, |(|p + 1 / 2| - 1 / 2) + 1 / 2| = |p + 1 / 2| := fun p => by rw [sub_add_cancel, abs_abs]
  have e0 := C138_paths G s hs shapes hobj o split key m E ap kw tol p (|p + 1 / 2| - 1 / 2) ts e hfin (fold p).symm
  obtain ⟨out, out', h1, h2, h3⟩ := C79_patch G s hs shapes hobj o split key m E ap kw hmode tol _ (|q + 1 / 2| - 1 / 2)
    (by linarith [abs_nonneg (p + 1 / 2)]) (by linarith) ts e0 hfin
  refine ⟨out, out', ?_, ?_, h3⟩
  · rw [← h1, C138_valid_paths G s hs shapes hobj o split key m E ap kw tol p _ ts e hfin (fold p).symm]
  · obtain ⟨ts', e', hF⟩ := C79_patch_validity G s hs shapes hobj o split key m E ap kw hmode tol _ (|q + 1 / 2| - 1 / 2)
      (by linarith [abs_nonneg (p + 1 / 2)]) (by linarith) ts e0 hfin
    rw [← h2]
    refine C138_valid_paths G s hs shapes hobj o split key m E ap kw tol (|q + 1 / 2| - 1 / 2) q ts' e' ?_ (fold q)
    intro t' ht'
    obtain ⟨i, hi, rfl⟩ := List.mem_iff_getElem.mp ht'
    rw [List.forall₂_iff_get] at hF
    obtain ⟨-, -, g1, g2, -⟩ := hF.2 i (hF.1.symm ▸ hi) hi
    simp only [List.get_eq_getElem] at g1 g2
    rw [g1, g2]
    exact hfin _ (List.getElem_mem _)

end Scenes

/-! ## Grids and the application -/

/-- What the loops do for one pair of points and one candidate. -/
theorem mirror_turn (walls : List (Pt × Pt)) (s : Scene) (hs : s.objects = wallsOf walls) (E : Env) (ap : Option Bool) (kw : ActKw) (tol : F)
    (p q : ℝ) (h : |p + 1 / 2| = |q + 1 / 2|) (t r : Pt) (c : List ℤ) (hc : IsCandidate walls.length c) :
    s.getInteractingObjects c = .ok (wallsOf (wallsAt walls c)) ∧
    ∃ path : Path, ImagePath.fromTxObjectsRx (V2.fin t) (wallsOf (wallsAt walls c)) (V2.fin r) = .ok path ∧
      s.validity ⟨E, tol, F.fin p, ap, kw⟩ path c (wallsOf (wallsAt walls c)) = s.validity ⟨E, tol, F.fin q, ap, kw⟩ path c (wallsOf (wallsAt walls c)) := by
  have h1 : s.getInteractingObjects c = .ok (wallsOf (wallsAt walls c)) := by
    rw [interacting_eq s c (by rw [hs, wallsOf_length]; exact hc), ← objectsAt_walls [] [] walls c]
    unfold objectsAt
    rw [hs, wallScene_objects]
  have hsh : wallsOf walls = (walls.map fun w => Shape.wall w.1 w.2).map Shape.obj := by simp [wallsOf, Shape.obj]
  refine ⟨h1, _, traceImage_eq t r (wallsAt walls c), ?_⟩
  unfold Scene.validity
  rw [hs, hsh]
  exact C138_validity (rpath t r (wallsAt walls c)) _ E (walls.map fun w => Shape.wall w.1 w.2) _ c (by rw [rpath_length, wallsAt_length hc]) tol ap kw p q h

theorem mirror_trace {Key : Type} (walls : List (Pt × Pt)) (s : Scene) (hs : s.objects = wallsOf walls) (split : Key → ℕ → List Key)
    (E : Env) (ap : Option Bool) (kw : ActKw) (tol : F) (p q : ℝ) (h : |p + 1 / 2| = |q + 1 / 2|)
    (l : List (((String × V2 F) × (String × V2 F)) × List ℤ)) (hl : ∀ e ∈ l, IsCandidate walls.length e.2 ∧ ∃ t r, e.1.1.2 = V2.fin t ∧ e.1.2.2 = V2.fin r)
    (key : Option Key) :
    s.tracePaths split (imageMethod Key) ⟨E, tol, F.fin p, ap, kw⟩ key l = s.tracePaths split (imageMethod Key) ⟨E, tol, F.fin q, ap, kw⟩ key l := by
  induction l generalizing key with
  | nil => rfl
  | cons e l ih =>
    obtain ⟨⟨⟨tk, t⟩, ⟨rk, r⟩⟩, c⟩ := e
    obtain ⟨hc, t, r, rfl, rfl⟩ := hl _ List.mem_cons_self
    obtain ⟨h1, path, h3, h4⟩ := mirror_turn walls s hs E ap kw tol p q h t r c hc
    unfold Scene.tracePaths
    simp only [h1, bind, Except.bind, imageMethod] at ih ⊢
    simp only [h3, h4, ih fun e he => hl e (List.mem_cons_of_mem _ he)]

theorem mirror_facc {Key : Type} (walls : List (Pt × Pt)) (s : Scene) (hs : s.objects = wallsOf walls) (E : Env) (ap : Option Bool) (kw : ActKw) (tol : F)
    (p q : ℝ) (h : |p + 1 / 2| = |q + 1 / 2|) (f : Scene.PathFun) (t r : Pt) (l : List (List ℤ × Option Key))
    (hl : ∀ e ∈ l, IsCandidate walls.length e.1) (acc : F) :
    s.facc (imageMethod Key) ⟨E, tol, F.fin p, ap, kw⟩ f (V2.fin t) (V2.fin r) acc l =
      s.facc (imageMethod Key) ⟨E, tol, F.fin q, ap, kw⟩ f (V2.fin t) (V2.fin r) acc l := by
  induction l generalizing acc with
  | nil => rfl
  | cons e l ih =>
    obtain ⟨c, k⟩ := e
    obtain ⟨h1, path, h3, h4⟩ := mirror_turn walls s hs E ap kw tol p q h t r c (hl _ List.mem_cons_self)
    unfold Scene.facc
    simp only [h1, bind, Except.bind, imageMethod] at ih ⊢
    simp only [h3, h4, ih fun e he => hl e (List.mem_cons_of_mem _ he)]

section Images

variable {Key : Type} (G : GraphLib) (hG : GraphContract G) (tx rx : PyDict Pt) (ht : Distinct tx) (hr : Distinct rx) (walls : List (Pt × Pt))
  (o : Scene.Orders) (ho : NonNegative o) (split : Key → ℕ → List Key) (key : Option Key)
  (E : Env) (ap : Option Bool) (kw : ActKw) (tol : F) (p q : ℝ) (h : |p + 1 / 2| = |q + 1 / 2|)

include hG ht hr ho h in
/-- **C138.** With the image method in a scene of walls nothing has to be assumed about the paths, and walls may be degenerate. -/
theorem C138_image : (wallScene tx rx walls).allPaths G split (imageMethod Key) o ⟨E, tol, F.fin p, ap, kw⟩ key =
    (wallScene tx rx walls).allPaths G split (imageMethod Key) o ⟨E, tol, F.fin q, ap, kw⟩ key := by
  obtain ⟨cs, hcs, hc⟩ := orders_candidates G hG (wallScene tx rx walls) o ho
  rw [allPaths_eq G _ _ _ (finPoints_distinct ht) (finPoints_distinct hr) rfl rfl o cs hcs,
    allPaths_eq G _ _ _ (finPoints_distinct ht) (finPoints_distinct hr) rfl rfl o cs hcs]
  refine mirror_trace walls _ (wallScene_objects _ _ _) split E ap kw tol p q h _ ?_ key
  rintro ⟨⟨a, b⟩, c⟩ he
  obtain ⟨h1, h2⟩ := List.mem_product.mp he
  obtain ⟨h3, h4⟩ := List.mem_product.mp h1
  obtain ⟨t, -, rfl⟩ := List.mem_map.mp h3
  obtain ⟨r, -, rfl⟩ := List.mem_map.mp h4
  have := hc c h2
  rw [wallScene_objects, wallsOf_length] at this
  exact ⟨this, _, _, rfl, rfl⟩

include hG ht hr ho h in
/-- **C138.** The maps of both grid methods. -/
theorem C138_grids (f : Scene.PathFun) (gradOp : (V2 F → F) → V2 F → V2 F) (X Y : List (List ℝ)) :
    (wallScene tx rx walls).accumulateOnReceiversGrid G split (imageMethod Key) o ⟨E, tol, F.fin p, ap, kw⟩ key gradOp false false f (finGrid X) (finGrid Y) =
      (wallScene tx rx walls).accumulateOnReceiversGrid G split (imageMethod Key) o ⟨E, tol, F.fin q, ap, kw⟩ key gradOp false false f (finGrid X) (finGrid Y) ∧
    (wallScene tx rx walls).accumulateOnTransmittersGrid G split (imageMethod Key) o ⟨E, tol, F.fin p, ap, kw⟩ key gradOp false false f (finGrid X) (finGrid Y) =
      (wallScene tx rx walls).accumulateOnTransmittersGrid G split (imageMethod Key) o ⟨E, tol, F.fin q, ap, kw⟩ key gradOp false false f (finGrid X) (finGrid Y) := by
  obtain ⟨cs, hcs, hc⟩ := orders_candidates G hG (wallScene tx rx walls) o ho
  rw [wallScene_objects, wallsOf_length] at hc
  have hl : ∀ e ∈ cs.zip (Scene.gridKeys split key cs.length), IsCandidate walls.length e.1 := fun e he => hc _ (List.of_mem_zip he).1
  constructor
  · rw [receivers_eq G _ _ (finPoints_distinct ht) rfl o cs hcs, receivers_eq G (wallScene tx rx walls) _ (finPoints_distinct ht) rfl o cs hcs]
    exact gridCore_real gradOp tx _ _ (fun a b => mirror_facc walls _ (wallScene_objects _ _ _) E ap kw tol p q h f a b _ hl 0) X Y
  · rw [transmitters_eq G _ _ (finPoints_distinct hr) rfl o cs hcs, transmitters_eq G (wallScene tx rx walls) _ (finPoints_distinct hr) rfl o cs hcs]
    exact gridCore_real gradOp rx _ _ (fun a b => mirror_facc walls _ (wallScene_objects _ _ _) E ap kw tol p q h f b a _ hl 0) X Y

end Images

/-- **C138.** In the interactive application, with the image method: what the window shows for a patch is what it has to show for the
mirrored patch. In particular the slider at its lower end, -1, shows the walls as they are. -/
theorem C138_app {Key : Type} (A : App Key) (hG : GraphContract A.G) (n m : String) (t r : Pt) (walls : List (Pt × Pt)) (X Y : List (List ℝ))
    (w : Window Key) (hs : w.scene = wallScene [(n, t)] [(m, r)] walls) (hX : w.X = finGrid X) (hY : w.Y = finGrid Y) (hc : w.pathCls = .image)
    (p : ℝ) (hp : w.patch = F.fin p) (hd : Displays A w) : Displays A { w with patch := F.fin (-1 - p) } := by
  have h : |p + 1 / 2| = |(-1 - p) + 1 / 2| := by rw [← abs_neg]; congr 1; ring
  obtain ⟨⟨key, P, rest, h1, h2⟩, ⟨key', ts, h3, h4⟩⟩ := hd
  have hd1 : ∀ (a : String) (b : Pt), Distinct [(a, b)] := fun a b => by simp [Distinct]
  have ho : NonNegative { minOrder := (w.minOrder : ℤ), maxOrder := (w.maxOrder : ℤ) } := by simp [NonNegative]
  rw [hs, hp, hc] at h1 h3
  rw [hX, hY] at h1
  refine ⟨⟨key, P, rest, ?_, h2⟩, key', ts, ?_, h4⟩
  · rw [← h1]
    simp only [hs, hX, hY, hc]
    unfold Scene.accumulateOnReceiversGridAll
    simp only [PathClass.method]
    rw [(C138_grids A.G hG _ _ (hd1 n t) (hd1 m r) walls _ ho A.split (some key) A.E _ _ _ p (-1 - p) h _ A.gradOp X Y).1]
  · rw [← h3]
    simp only [hs, hc, PathClass.method]
    exact (C138_image A.G hG _ _ (hd1 n t) (hd1 m r) walls _ ho A.split (some key') A.E _ _ _ p (-1 - p) h).symm

/-- **C138.** So a negative patch need not shorten a wall: a wall of length 1, made "smaller" by the patch -2, stops a ray that passes it
at half its length, which it does not stop without a patch. -/
theorem C138_negative_refuted (E : Env) (kw : ActKw) :
    (Wall.ofPts ⟨0, 0⟩ ⟨1, 0⟩).intersects E (some false) kw (F.fin (-2)) (V2.fin ⟨3 / 2, -1⟩) (V2.fin ⟨3 / 2, 1⟩) = .b true ∧
    (Wall.ofPts ⟨0, 0⟩ ⟨1, 0⟩).intersects E (some false) kw (F.fin 0) (V2.fin ⟨3 / 2, -1⟩) (V2.fin ⟨3 / 2, 1⟩) ≠ .b true := by
  constructor
  · have := C138_object (.wall ⟨0, 0⟩ ⟨1, 0⟩) E (some false) kw 1 ⟨3 / 2, -1⟩ ⟨3 / 2, 1⟩
    rw [show (-1 - 1 : ℝ) = -2 by norm_num] at this
    refine this.trans ?_
    rw [show (Shape.wall ⟨0, 0⟩ ⟨1, 0⟩).obj.interact.intersects E (some false) kw (F.fin 1) (V2.fin ⟨3 / 2, -1⟩) (V2.fin ⟨3 / 2, 1⟩) =
      (Wall.ofPts ⟨0, 0⟩ ⟨1, 0⟩).intersects E (some false) kw (F.fin 1) (V2.fin ⟨3 / 2, -1⟩) (V2.fin ⟨3 / 2, 1⟩) from rfl,
      C20_parameter E _ (.inl rfl) kw _ _ _ _ _ (by norm_num)]
    exact ⟨by norm_num [Parallel], 3 / 2, 1 / 2, by ext <;> norm_num [pointAt], by norm_num, by norm_num⟩
  · rw [Ne, C20_zero E _ (.inl rfl)]
    rintro ⟨-, s, t, e, ⟨-, h⟩, -⟩
    have := congrArg V2.x e
    norm_num [pointAt] at this
    linarith

/-- Non-vacuity: the pairs of patches are those that mirror each other, and those that are equal. -/
example (p q : ℝ) : |p + 1 / 2| = |q + 1 / 2| ↔ q = p ∨ q = -1 - p := by
  rw [abs_eq_abs]
  constructor
  · rintro (h | h)
    · left; linarith
    · right; linarith
  · rintro (h | h)
    · left; linarith
    · right; linarith

/-- Non-vacuity: the patches -3/2 and 1/2, and the received power in a scene of three walls. -/
example (E : Env) (ap : Option Bool) := C138_image (Key := ℕ) refLib refLib_contract [("tx", ⟨0, 1⟩)] [("rx", ⟨2, 1⟩)] (by simp [Distinct])
  (by simp [Distinct]) [(⟨0, 0⟩, ⟨3, 0⟩), (⟨0, 4⟩, ⟨3, 4⟩), (⟨3, 0⟩, ⟨3, 4⟩)] { maxOrder := 2 } (by simp [NonNegative]) (fun _ _ => []) none E ap {} VALID_TOL
  (-(3 / 2)) (1 / 2) (by norm_num [abs_of_nonneg, abs_of_neg])

end DiffeRT2d.Props
