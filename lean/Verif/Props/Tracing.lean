import Verif.Lemmas.Tracing
import Verif.Lemmas.Wall
import Verif.Lemmas.Image

/-! # Properties C28, C29: what every tracing method returns; routing of the unknowns -/

namespace DiffeRT2d.Props
open Classical Spec

/-! ## C29 — routing -/

/-- The unknown vector is cut into consecutive slices, one per object, of exactly the number of
parameters of that object, covering the vector; point `i + 1` of the path is object `i` at its slice. -/
theorem C29_routing (objects : List Interactable) (theta : List F) (tx rx : V2 F)
    (h : theta.length = (objects.map Interactable.paramCount).sum) :
    ∃ slices : List (List F), slices.flatten = theta ∧
      slices.map List.length = objects.map Interactable.paramCount ∧
      parametricToCartesian objects theta tx rx =
        tx :: List.zipWith (fun o s => o.toCart s) objects slices ++ [rx] := by
  refine ⟨blocks (objects.map Interactable.paramCount) theta, blocks_flatten _ _ h, blocks_lengths _ _ h, ?_⟩
  rw [parametricToCartesian, toCartesianFrom_eq _ _ _ (by simpa [nUnknowns] using h)]
  simp

/-- Non-vacuity: a wall, a vertex and a wall have two unknowns. -/
example (w₁ w₂ : Wall) (v : Vertex) (a b : F) (tx rx : V2 F) :=
  C29_routing [w₁.interact, v.interact, w₂.interact] [a, b] tx rx rfl

/-- The same, point by point: object `i` reads exactly the entries from the sum of the counts before it
to that sum plus its own count. -/
theorem C29_offset (objects : List Interactable) (theta : List F) (tx rx : V2 F)
    (h : theta.length = (objects.map Interactable.paramCount).sum) (i : ℕ) (o : Interactable)
    (ho : objects[i]? = some o) :
    ∃ slice : List F, (parametricToCartesian objects theta tx rx)[i + 1]? = some (o.toCart slice) ∧
      slice.length = o.paramCount ∧
      ∀ k < o.paramCount,
        slice[k]? = theta[((objects.take i).map Interactable.paramCount).sum + k]? := by
  have key : ∀ (os : List Interactable) (th : List F) (i : ℕ) (o : Interactable),
      th.length = (os.map Interactable.paramCount).sum → os[i]? = some o →
      ∃ s : List F, (blocks (os.map Interactable.paramCount) th)[i]? = some s ∧ s.length = o.paramCount ∧
        ∀ k < o.paramCount, s[k]? = th[((os.take i).map Interactable.paramCount).sum + k]? := by
    intro os
    induction os with
    | nil => intro th i o _ ho; simp at ho
    | cons a os ih =>
      intro th i o hl ho
      simp only [List.map_cons, List.sum_cons] at hl
      cases i with
      | zero =>
        simp only [List.getElem?_cons_zero, Option.some.injEq] at ho; subst ho
        refine ⟨th.take a.paramCount, rfl, by simp; omega, fun k hk => ?_⟩
        simp [List.getElem?_take, hk]
      | succ i =>
        obtain ⟨s, h1, h2, h3⟩ := ih (th.drop a.paramCount) i o (by simp; omega) (by simpa using ho)
        refine ⟨s, by simpa [blocks] using h1, h2, fun k hk => ?_⟩
        rw [h3 k hk, List.getElem?_drop]
        simp [Nat.add_assoc]
  obtain ⟨s, h1, h2, h3⟩ := key objects theta i o h ho
  refine ⟨s, ?_, h2, h3⟩
  rw [parametricToCartesian, toCartesianFrom_eq _ _ _ (by simpa [nUnknowns] using h)]
  simp only [List.drop_zero, List.cons_append, List.getElem?_cons_succ]
  rw [List.getElem?_append_left]
  · simp [List.getElem?_zipWith, ho, h1]
  · have := List.getElem?_eq_some_iff.mp ho
    have := List.getElem?_eq_some_iff.mp h1
    simp; tauto

/-- Non-vacuity: the last of a wall, a vertex and a wall. -/
example (w₁ w₂ : Wall) (v : Vertex) (a b : F) (tx rx : V2 F) :=
  C29_offset [w₁.interact, v.interact, w₂.interact] [a, b] tx rx rfl 2 _ rfl

/-- Non-vacuity: a wall, a vertex and a wall have two unknowns; the second wall reads the second one. -/
example (w₁ w₂ : Wall) (v : Vertex) (a b : F) (tx rx : V2 F) :
    parametricToCartesian [w₁.interact, v.interact, w₂.interact] [a, b] tx rx =
      [tx, w₁.toCart a, v.xy, w₂.toCart b, rx] := rfl

/-! ## C28 — end points, number of points, inner points on their objects -/

theorem not_finite_of_mul {s : F} (h : s.isFinite = false) (a b c : ℝ) :
    F.fin a + s * F.fin b ≠ F.fin c := by
  have key : ∀ t : F, t.isFinite = false → F.fin a + t ≠ F.fin c := by
    intro t ht
    show F.add (F.fin a) t ≠ F.fin c
    cases t <;> simp_all [F.add, F.isFinite]
  apply key
  show (F.mul s (F.fin b)).isFinite = false
  cases s with
  | fin x => simp [F.isFinite] at h
  | nan => rfl
  | pinf => simp only [F.mul]; split_ifs <;> rfl
  | ninf => simp only [F.mul]; split_ifs <;> rfl

theorem carries_of_finite (sh : Shape) (ps : List F) (q : Pt)
    (h : sh.obj.interact.toCart ps = V2.fin q) : sh.Carries q := by
  have wall : ∀ o d : Pt, ∀ s : F, (Wall.ofPts o d).toCart s = V2.fin q → OnLine o d q := by
    intro o d s h
    have hx := congrArg V2.x h
    simp only [Wall.toCart, Wall.ofPts, Wall.t, V2.fin_sub, V2.smul_x, V2.add_x, V2.fin] at hx
    cases s with
    | fin s => rw [toCart_fin] at h; exact ⟨s, (V2.fin_inj.mp h).symm⟩
    | nan => exact absurd hx (not_finite_of_mul rfl _ _ _)
    | pinf => exact absurd hx (not_finite_of_mul rfl _ _ _)
    | ninf => exact absurd hx (not_finite_of_mul rfl _ _ _)
  cases sh with
  | wall o d => exact wall o d _ h
  | ris o d φ => exact wall o d _ h
  | vertex p => exact (V2.fin_inj.mp h).symm

/-- `Path`: straight segments between the middles of the objects, loss 0. -/
theorem C28_path (tx rx : V2 F) (shapes : List Shape) :
    Path.fromTxObjectsRx tx (shapes.map fun s => s.obj.interact) rx =
      ⟨tx :: shapes.map (fun s => V2.fin s.middle) ++ [rx], 0⟩ := by
  unfold Path.fromTxObjectsRx
  congr 3
  rw [List.map_map]
  apply List.map_congr_left
  intro s _
  have wall : ∀ o d : Pt, (Wall.ofPts o d).toCart 0.5 = V2.fin (midpoint o d) := by
    intro o d
    have : (0.5 : F) = F.fin (1 / 2) := by simp only [OfScientific.ofScientific]; norm_num
    rw [this, toCart_fin]
    congr 1
    ext <;> simp only [pointAt, midpoint] <;> ring
  cases s with
  | wall o d => exact wall o d
  | ris o d φ => exact wall o d
  | vertex p => rfl

theorem mapM_some_length {α β : Type} {f : α → Option β} {xs : List α} {ys : List β}
    (h : xs.mapM f = some ys) : ys.length = xs.length := by
  induction xs generalizing ys with
  | nil => simp at h; simp [← h]
  | cons x xs ih =>
    simp only [List.mapM_cons, Option.pure_def, Option.bind_eq_bind, Option.bind_eq_some_iff] at h
    obtain ⟨y, -, zs, hz, h⟩ := h
    simp only [Option.some.injEq] at h
    rw [← h]; simp [ih hz]

/-- `ImagePath`: whatever the objects, if it returns a path then this path starts at the transmitter, ends
at the receiver, and has one point per object in between. -/
theorem C28_image (tx rx : V2 F) (objects : List Obj) (p : Path)
    (h : ImagePath.fromTxObjectsRx tx objects rx = .ok p) :
    ∃ inner : List (V2 F), p.xys = tx :: inner ++ [rx] ∧ inner.length = objects.length ∧
      (objects = [] → p.loss = 0) := by
  have him : ∀ (ws : List Wall) (im : V2 F), (images im ws).length = ws.length := by
    intro ws
    induction ws with
    | nil => intro im; rfl
    | cons w ws ih => intro im; simp [images, ih]
  have hbk : ∀ (l : List (Wall × V2 F)), (backward rx l).length = l.length := by
    intro l
    induction l with
    | nil => rfl
    | cons w ws ih => simp [backward, ih]
  unfold ImagePath.fromTxObjectsRx at h
  cases objects with
  | nil =>
    simp only [Except.ok.injEq] at h; subst h
    exact ⟨[], rfl, rfl, fun _ => rfl⟩
  | cons o os =>
    simp only at h
    split at h
    · split at h
      · rename_i ws hws
        simp only [Except.ok.injEq] at h; subst h
        refine ⟨backward rx (ws.zip (images tx ws)), rfl, ?_, by simp⟩
        have hl : ws.length = (o :: os).length := by
          exact mapM_some_length hws
        simp [hbk, him, hl]
      · simp at h
    · simp at h

/-- `ImagePath` accepts every list of walls, and every list of RISs. -/
theorem C28_image_total (tx rx : V2 F) (objects : List Obj)
    (h : (∀ o ∈ objects, ∃ w, o = .wall w) ∨ (∀ o ∈ objects, ∃ r, o = .ris r)) :
    ∃ p, ImagePath.fromTxObjectsRx tx objects rx = .ok p := by
  cases objects with
  | nil => exact ⟨_, rfl⟩
  | cons o os =>
    have hcls : os.all (fun o' => o'.cls == o.cls) = true := by
      rw [List.all_eq_true]
      intro o' ho'
      rcases h with h | h
      · obtain ⟨w, rfl⟩ := h o (by simp); obtain ⟨w', rfl⟩ := h o' (by simp [ho']); rfl
      · obtain ⟨w, rfl⟩ := h o (by simp); obtain ⟨w', rfl⟩ := h o' (by simp [ho']); rfl
    have hm : ∃ ws, (o :: os).mapM Obj.asWall = some ws := by
      have : ∀ o' ∈ o :: os, ∃ w, Obj.asWall o' = some w := by
        intro o' ho'
        rcases h with h | h
        · obtain ⟨w, rfl⟩ := h o' ho'; exact ⟨_, rfl⟩
        · obtain ⟨w, rfl⟩ := h o' ho'; exact ⟨_, rfl⟩
      generalize o :: os = l at this
      clear h hcls
      induction l with
      | nil => exact ⟨[], rfl⟩
      | cons a l ih =>
        obtain ⟨w, hw⟩ := this a (by simp)
        obtain ⟨ws, hws⟩ := ih fun o' ho' => this o' (by simp [ho'])
        exact ⟨w :: ws, by simp [hw, hws]⟩
    obtain ⟨ws, hws⟩ := hm
    refine ⟨imagePathCore tx ws ((o :: os).map Obj.interact) rx, ?_⟩
    simp only [ImagePath.fromTxObjectsRx, hcls, if_true, hws]

theorem inner_of_theta (tx rx : V2 F) (shapes : List Shape) (theta : List F)
    (hl : theta.length = nUnknowns (shapes.map fun s => s.obj.interact)) :
    ∃ inner : List (V2 F),
      parametricToCartesian (shapes.map fun s => s.obj.interact) theta tx rx = tx :: inner ++ [rx] ∧
      inner.length = shapes.length ∧
      (∀ (i : ℕ) (sh : Shape) (q : Pt), shapes[i]? = some sh → inner[i]? = some (V2.fin q) → sh.Carries q) ∧
      (∀ (i : ℕ) (v : Pt), shapes[i]? = some (.vertex v) → inner[i]? = some (V2.fin v)) := by
  obtain ⟨slices, h1, h2, h3⟩ := C29_routing _ theta tx rx hl
  have hlen : slices.length = shapes.length := by
    have := congrArg List.length h2; simpa using this
  refine ⟨_, h3, by simp [hlen], ?_, ?_⟩
  · intro i sh q hsh hq
    simp only [List.getElem?_zipWith, List.getElem?_map, hsh, Option.map_some] at hq
    cases hs : slices[i]? with
    | none => simp [hs] at hq
    | some s =>
      simp only [hs, Option.some.injEq] at hq
      exact carries_of_finite sh s q hq
  · intro i v hv
    have hi : i < slices.length := by
      rw [hlen]; exact (List.getElem?_eq_some_iff.mp hv).1
    simp only [List.getElem?_zipWith, List.getElem?_map, hv, Option.map_some, List.getElem?_eq_getElem hi]
    rfl

/-- `FermatPath`: for any mix of walls, RISs and vertices, any optimizer, number of steps and trials, and
any random key, a path is returned; it joins the transmitter to the receiver with one point per object;
each (finite) inner point is on the line of its wall, or is its vertex. No object: straight line. -/
theorem C28_fermat {Key : Type} (E : Env) (M : Minimizer Key) (many : ℕ) (hM : Shaped M many)
    (tx rx : V2 F) (shapes : List Shape) (key : Key) :
    ∃ (p : Path) (inner : List (V2 F)),
      FermatPath.fromTxObjectsRx E M tx (shapes.map fun s => s.obj.interact) rx key many = .ok p ∧
      p.xys = tx :: inner ++ [rx] ∧ inner.length = shapes.length ∧
      (∀ (i : ℕ) (sh : Shape) (q : Pt), shapes[i]? = some sh → inner[i]? = some (V2.fin q) → sh.Carries q) ∧
      (∀ (i : ℕ) (v : Pt), shapes[i]? = some (.vertex v) → inner[i]? = some (V2.fin v)) ∧
      (shapes = [] → p.loss = 0) := by
  unfold FermatPath.fromTxObjectsRx
  cases shapes with
  | nil => exact ⟨_, [], rfl, rfl, rfl, by simp, by simp, fun _ => rfl⟩
  | cons s ss =>
    obtain ⟨r, hr, hl⟩ := minimizeMany_ok hM
      (fermatLoss E ((s :: ss).map fun s => s.obj.interact) tx rx) key
      (nUnknowns ((s :: ss).map fun s => s.obj.interact))
    obtain ⟨inner, h1, h2, h3, h4⟩ := inner_of_theta tx rx (s :: ss) r.1 hl
    rw [if_neg (by simp), hr]
    exact ⟨_, inner, rfl, h1, h2, h3, h4, by simp⟩

/-- `MinPath`: same. -/
theorem C28_min {Key : Type} (M : Minimizer Key) (many : ℕ) (hM : Shaped M many)
    (tx rx : V2 F) (shapes : List Shape) (key : Key) :
    ∃ (p : Path) (inner : List (V2 F)),
      MinPath.fromTxObjectsRx M tx (shapes.map fun s => s.obj.interact) rx key many = .ok p ∧
      p.xys = tx :: inner ++ [rx] ∧ inner.length = shapes.length ∧
      (∀ (i : ℕ) (sh : Shape) (q : Pt), shapes[i]? = some sh → inner[i]? = some (V2.fin q) → sh.Carries q) ∧
      (∀ (i : ℕ) (v : Pt), shapes[i]? = some (.vertex v) → inner[i]? = some (V2.fin v)) ∧
      (shapes = [] → p.loss = 0) := by
  unfold MinPath.fromTxObjectsRx
  cases shapes with
  | nil => exact ⟨_, [], rfl, rfl, rfl, by simp, by simp, fun _ => rfl⟩
  | cons s ss =>
    obtain ⟨r, hr, hl⟩ := minimizeMany_ok hM
      (minLoss ((s :: ss).map fun s => s.obj.interact) tx rx) key
      (nUnknowns ((s :: ss).map fun s => s.obj.interact))
    obtain ⟨inner, h1, h2, h3, h4⟩ := inner_of_theta tx rx (s :: ss) r.1 hl
    rw [if_neg (by simp), hr]
    exact ⟨_, inner, rfl, h1, h2, h3, h4, by simp⟩

/-- C29 for `FermatPath`: whatever the objects (any mix of parameter counts), optimizer, trials and key, the traced points are
those of the objects at consecutive slices of one vector, each slice of exactly the number of parameters of its object. -/
theorem C29_fermat {Key : Type} (E : Env) (M : Minimizer Key) (many : ℕ) (hM : Shaped M many) (tx rx : V2 F)
    (objects : List Interactable) (key : Key) :
    ∃ (p : Path) (slices : List (List F)), FermatPath.fromTxObjectsRx E M tx objects rx key many = .ok p ∧
      slices.map List.length = objects.map Interactable.paramCount ∧
      p.xys = tx :: List.zipWith (fun o s => o.toCart s) objects slices ++ [rx] := by
  unfold FermatPath.fromTxObjectsRx
  cases objects with
  | nil => exact ⟨_, [], rfl, rfl, rfl⟩
  | cons o os =>
    obtain ⟨r, hr, hl⟩ := minimizeMany_ok hM (fermatLoss E (o :: os) tx rx) key (nUnknowns (o :: os))
    obtain ⟨slices, -, h2, h3⟩ := C29_routing (o :: os) r.1 tx rx hl
    rw [if_neg (by simp), hr]
    exact ⟨_, slices, rfl, h2, h3⟩

/-- C29 for `MinPath`. -/
theorem C29_min {Key : Type} (M : Minimizer Key) (many : ℕ) (hM : Shaped M many) (tx rx : V2 F)
    (objects : List Interactable) (key : Key) :
    ∃ (p : Path) (slices : List (List F)), MinPath.fromTxObjectsRx M tx objects rx key many = .ok p ∧
      slices.map List.length = objects.map Interactable.paramCount ∧
      p.xys = tx :: List.zipWith (fun o s => o.toCart s) objects slices ++ [rx] := by
  unfold MinPath.fromTxObjectsRx
  cases objects with
  | nil => exact ⟨_, [], rfl, rfl, rfl⟩
  | cons o os =>
    obtain ⟨r, hr, hl⟩ := minimizeMany_ok hM (minLoss (o :: os) tx rx) key (nUnknowns (o :: os))
    obtain ⟨slices, -, h2, h3⟩ := C29_routing (o :: os) r.1 tx rx hl
    rw [if_neg (by simp), hr]
    exact ⟨_, slices, rfl, h2, h3⟩

/-- Adam keeps shapes. -/
theorem adam_shaped (lr : F) : ∃ StateFor : ℕ → (adam lr).State → Prop,
    (∀ x0, StateFor x0.length ((adam lr).init x0)) ∧
    ∀ g st, StateFor g.length st → ((adam lr).update g st).1.length = g.length ∧
      StateFor g.length ((adam lr).update g st).2 := by
  refine ⟨fun n st => st.1.length = n ∧ st.2.1.length = n, fun x0 => by simp [adam], ?_⟩
  rintro g ⟨m, v, c⟩ ⟨h1, h2⟩
  simp only at h1 h2
  simp [adam, h1, h2]

/-- The default optimizer (Adam) with a constant generator and a given gradient. -/
noncomputable def exampleMinimizer (steps : ℕ) : Minimizer Unit where
  optimizer := adam
  steps := steps
  grad := fun _ x => x.map fun _ => 0
  uniform := fun _ n => List.replicate n (F.fin (1 / 2))
  split := fun _ n => List.replicate n ()

/-- Non-vacuity of the hypotheses on the minimizer. -/
theorem exampleMinimizer_shaped : Shaped (exampleMinimizer 100) 10 :=
  ⟨by simp [exampleMinimizer], by norm_num, by simp [exampleMinimizer], by simp [exampleMinimizer],
    adam_shaped 0.1, by simp [exampleMinimizer]⟩

/-- Non-vacuity of C28 and C29: a wall, a vertex and a RIS, with 100 steps and 10 trials. -/
example (E : Env) (tx rx : V2 F) := C28_fermat E (exampleMinimizer 100) 10 exampleMinimizer_shaped tx rx
  [.wall ⟨0, 0⟩ ⟨3, 0⟩, .vertex ⟨5, 5⟩, .ris ⟨0, 9⟩ ⟨3, 9⟩ 1] ()

example (tx rx : V2 F) := C28_min (exampleMinimizer 100) 10 exampleMinimizer_shaped tx rx
  [.wall ⟨0, 0⟩ ⟨3, 0⟩, .vertex ⟨5, 5⟩, .ris ⟨0, 9⟩ ⟨3, 9⟩ 1] ()

example (E : Env) (tx rx : V2 F) (w : Wall) (v : Vertex) :=
  C29_fermat E (exampleMinimizer 100) 10 exampleMinimizer_shaped tx rx [w.interact, v.interact] ()

example (tx rx : V2 F) (w : Wall) (v : Vertex) :=
  C29_min (exampleMinimizer 100) 10 exampleMinimizer_shaped tx rx [w.interact, v.interact] ()

example (tx rx : V2 F) (v w : Wall) : True := by
  obtain ⟨p, h⟩ := C28_image_total tx rx [.wall v, .wall w] (.inl (by simp))
  have := C28_image tx rx _ p h
  trivial

/-- Non-vacuity: the middle of the wall from (0,0) to (2,0). -/
example (tx rx : V2 F) :
    Path.fromTxObjectsRx tx [(Wall.ofPts ⟨0, 0⟩ ⟨2, 0⟩).interact] rx = ⟨[tx, V2.fin ⟨1, 0⟩, rx], 0⟩ := by
  have := C28_path tx rx [.wall ⟨0, 0⟩ ⟨2, 0⟩]
  simpa [Shape.obj, Obj.interact, Shape.middle, midpoint] using this

end DiffeRT2d.Props
