import Verif.Spec.Interactive
import Verif.Props.Plot
import Verif.Props.Fields
import Verif.Props.Grid
import Verif.Props.Tracing
import Verif.Props.Validity
import Verif.Lemmas.Argmin

/-! # C129: the interactive application -/

namespace DiffeRT2d.Props
open Classical Spec Window

variable {Key : Type}

/-! ## One redrawing -/

/-- What the application needs from the libraries. -/
structure GoodApp (A : App Key) : Prop where
  graph : GraphContract A.G
  split : SplitCount A.split
  minimizer : Shaped A.M 1

theorem method_total {A : App Key} (hA : GoodApp A) (cl : PathClass) (k : Key) (t r : V2 F) (walls : List (Pt × Pt)) :
    ∃ path, (cl.method A).trace (some k) t (wallsOf walls) r = .ok path ∧ path.xys.length = walls.length + 2 := by
  have hsh : wallsOf walls = (walls.map fun w => Shape.wall w.1 w.2).map Shape.obj := by simp [wallsOf, Shape.obj]
  have hi : (wallsOf walls).map Obj.interact = (walls.map fun w => Shape.wall w.1 w.2).map fun s => s.obj.interact := by
    rw [hsh, List.map_map]; rfl
  cases cl with
  | image =>
    obtain ⟨p, hp⟩ := C28_image_total t r (wallsOf walls) (.inl fun o ho => by
      obtain ⟨w, -, rfl⟩ := List.mem_map.mp ho; exact ⟨_, rfl⟩)
    obtain ⟨inner, e, hl, -⟩ := C28_image t r _ p hp
    exact ⟨p, hp, by rw [e]; simp [hl, wallsOf]⟩
  | FPT =>
    obtain ⟨p, inner, hp, e, hl, -⟩ := C28_fermat A.E A.M 1 hA.minimizer t r (walls.map fun w => Shape.wall w.1 w.2) k
    refine ⟨p, ?_, by rw [e]; simp [hl]⟩
    show FermatPath.fromTxObjectsRx A.E A.M t ((wallsOf walls).map Obj.interact) r k 1 = _
    rw [hi, hp]
  | MPT =>
    obtain ⟨p, inner, hp, e, hl, -⟩ := C28_min A.M 1 hA.minimizer t r (walls.map fun w => Shape.wall w.1 w.2) k
    refine ⟨p, ?_, by rw [e]; simp [hl]⟩
    show MinPath.fromTxObjectsRx A.M t ((wallsOf walls).map Obj.interact) r k 1 = _
    rw [hi, hp]

/-- A path of the right size has a validity between 0 and 1, a Boolean in hard mode. -/
theorem validity_degree (s : Scene) (walls ws : List (Pt × Pt)) (hs : s.objects = wallsOf walls) (E : Env) (tol patch : F) (ap : Bool) (kw : ActKw)
    (hk : GoodKw kw) (path : Path) (c : List ℤ) (hc : ws.length = c.length) (hl : path.xys.length = c.length + 2) :
    ∃ (v : Truthy) (d : ℝ), s.validity ⟨E, tol, patch, some ap, kw⟩ path c (wallsOf ws) = .ok v ∧ v.toF = F.fin d ∧ 0 ≤ d ∧ d ≤ 1 ∧
      (ap = false → ∃ b, v = .b b) := by
  unfold Scene.validity
  rw [hs]
  have hb := fun h => (C38_builtin E (some ap) h kw hk).1
  cases ap with
  | false =>
    obtain ⟨v, hv, -⟩ := C38_hard path E (some false) (.inl rfl) kw ((wallsOf walls).map Obj.interact) ((wallsOf ws).map Obj.interact) c tol patch hl
      (by simp [wallsOf, hc])
    refine ⟨.b v, if v then 1 else 0, hv, ?_, ?_, ?_, fun _ => ⟨v, rfl⟩⟩
    · cases v <;> simp [Truthy.toF, F.zero_eq, F.one_eq]
    · split_ifs <;> norm_num
    · split_ifs <;> norm_num
  | true =>
    have hs : Soft E (some true) := .inl rfl
    have hall : ∀ l : List (Pt × Pt), ∀ o ∈ (wallsOf l).map Obj.interact, FuzzyObject E (some true) kw o := by
      intro l o ho
      simp only [wallsOf, List.map_map, List.mem_map] at ho
      obtain ⟨w, -, rfl⟩ := ho
      exact hb hs _
    obtain ⟨r, hr, h0, h1, -⟩ := C38_soft path E (some true) hs kw hk ((wallsOf walls).map Obj.interact) ((wallsOf ws).map Obj.interact) c tol patch hl.le
      (hall _) (hall _)
    exact ⟨.f (F.fin r), r, hr, rfl, h0, h1, by simp⟩

theorem objectsAt_wallsOf {s : Scene} {walls : List (Pt × Pt)} (hs : s.objects = wallsOf walls) {c : List ℤ} (hc : IsCandidate s.objects.length c) :
    ∃ ws, objectsAt s c = wallsOf ws ∧ ws.length = c.length := by
  refine ⟨c.filterMap fun i => walls[i.toNat]?, ?_, ?_⟩
  · unfold objectsAt wallsOf
    rw [hs, List.map_filterMap]
    congr 1
    funext i
    simp [wallsOf]
  · have := objectsAt_length s c hc
    unfold objectsAt at this
    rw [hs] at this
    rw [← this]
    simp only [wallsOf, List.getElem?_map]
    induction c with
    | nil => rfl
    | cons i c ih =>
      have := ih ⟨fun j hj => hc.1 j (by simp [hj]), fun k a b ha hb => hc.2 (k + 1) a b (by simpa using ha) (by simpa using hb)⟩
        (objectsAt_length s c ⟨fun j hj => hc.1 j (by simp [hj]), fun k a b ha hb => hc.2 (k + 1) a b (by simpa using ha) (by simpa using hb)⟩ |> fun h => by
          unfold objectsAt at h; rwa [hs] at h)
      cases h : walls[i.toNat]? <;> simp [h, this]

/-- One turn of a traversal cannot fail. -/
theorem turn_total {A : App Key} (hA : GoodApp A) (cl : PathClass) {s : Scene} {walls : List (Pt × Pt)} (hs : s.objects = wallsOf walls)
    (tol patch : F) (ap : Bool) {kw : ActKw} (hk : GoodKw kw) (k : Key) (t r : V2 F) {c : List ℤ} (hc : IsCandidate s.objects.length c) :
    ∃ (path : Path) (v : Truthy) (d : ℝ), s.getInteractingObjects c = .ok (objectsAt s c) ∧ (cl.method A).trace (some k) t (objectsAt s c) r = .ok path ∧
      s.validity ⟨A.E, tol, patch, some ap, kw⟩ path c (objectsAt s c) = .ok v ∧ v.toF = F.fin d ∧ 0 ≤ d ∧ d ≤ 1 ∧ (ap = false → ∃ b, v = .b b) := by
  obtain ⟨ws, e, hl⟩ := objectsAt_wallsOf hs hc
  obtain ⟨path, hp, hpl⟩ := method_total hA cl k t r ws
  obtain ⟨v, d, h1, h2, h3, h4, h5⟩ := validity_degree s walls ws hs A.E tol patch ap kw hk path c hl (by omega)
  exact ⟨path, v, d, interacting_eq s c hc, by rw [e, hp], by rw [e, h1], h2, h3, h4, h5⟩

theorem split_two {A : App Key} (hA : GoodApp A) (k : Key) : ∃ a b, Scene.splitKey A.split (some k) = (some a, some b) := by
  have := hA.split k 2
  match h : A.split k 2, this with
  | [a, b], _ => exact ⟨a, b, by simp [Scene.splitKey, h]⟩

theorem tracePaths_keyed {A : App Key} (hA : GoodApp A) (cl : PathClass) {s : Scene} {walls : List (Pt × Pt)} (hs : s.objects = wallsOf walls)
    (tol patch : F) (ap : Bool) {kw : ActKw} (hk : GoodKw kw) (l : List (NamedPair × List ℤ)) (hl : ∀ e ∈ l, IsCandidate s.objects.length e.2) (k : Key) :
    ∃ ts, s.tracePaths A.split (cl.method A) ⟨A.E, tol, patch, some ap, kw⟩ (some k) l = .ok ts ∧
      ∀ x ∈ ts, (∃ d : ℝ, x.valid.toF = F.fin d ∧ 0 ≤ d ∧ d ≤ 1) ∧ (ap = false → ∃ b, x.valid = .b b) := by
  induction l generalizing k with
  | nil => exact ⟨[], rfl, by simp⟩
  | cons e l ih =>
    obtain ⟨⟨⟨tk, t⟩, ⟨rk, r⟩⟩, c⟩ := e
    obtain ⟨a, b, hab⟩ := split_two hA k
    obtain ⟨path, v, d, h1, h2, h3, h4, h5, h6, h7⟩ := turn_total hA cl hs tol patch ap hk b t r (hl _ List.mem_cons_self)
    obtain ⟨ts, hts, hv⟩ := ih (fun e he => hl e (List.mem_cons_of_mem _ he)) a
    refine ⟨⟨tk, rk, v, path, c⟩ :: ts, ?_, ?_⟩
    · unfold Scene.tracePaths
      simp only [h1, hab, h2, h3, hts, bind, Except.bind, pure, Except.pure]
    · intro x hx
      rcases List.mem_cons.mp hx with rfl | hx
      · exact ⟨⟨d, h4, h5, h6⟩, h7⟩
      · exact hv x hx

theorem facc_keyed {A : App Key} (hA : GoodApp A) (cl : PathClass) {s : Scene} {walls : List (Pt × Pt)} (hs : s.objects = wallsOf walls)
    (tol patch : F) (ap : Bool) {kw : ActKw} (hk : GoodKw kw) (f : Scene.PathFun) (t r : V2 F) (l : List (List ℤ × Option Key))
    (hl : ∀ e ∈ l, IsCandidate s.objects.length e.1 ∧ ∃ k, e.2 = some k) (a : F) :
    ∃ z, s.facc (cl.method A) ⟨A.E, tol, patch, some ap, kw⟩ f t r a l = .ok z := by
  induction l generalizing a with
  | nil => exact ⟨a, rfl⟩
  | cons e l ih =>
    obtain ⟨c, k⟩ := e
    obtain ⟨hc, k, rfl⟩ := hl _ List.mem_cons_self
    obtain ⟨path, v, d, h1, h2, h3, -⟩ := turn_total hA cl hs tol patch ap hk k t r hc
    obtain ⟨z, hz⟩ := ih (fun e he => hl e (List.mem_cons_of_mem _ he)) (a + v.toF * f t r path (objectsAt s c))
    refine ⟨z, ?_⟩
    unfold Scene.facc
    simp only [h1, h2, h3, bind, Except.bind]
    exact hz

theorem plotPath_ok {t : Scene.Traced} {d : ℝ} (h : t.valid.toF = F.fin d) (h0 : 0 ≤ d) (h1 : d ≤ 1) : plotPath t = .ok [rayOf t] := by
  unfold plotPath rayOf
  rw [h, F.zero_eq, F.one_eq, if_pos (by rw [Bool.and_eq_true, F.le_fin, F.le_fin]; simp [h0, h1])]
  rfl

theorem mapM_plot {ts : List Scene.Traced} (h : ∀ x ∈ ts, ∃ d : ℝ, x.valid.toF = F.fin d ∧ 0 ≤ d ∧ d ≤ 1) :
    ts.mapM plotPath = .ok (ts.map fun t => [rayOf t]) := by
  induction ts with
  | nil => rfl
  | cons t ts ih =>
    obtain ⟨d, h1, h2, h3⟩ := h t List.mem_cons_self
    rw [List.mapM_cons, plotPath_ok h1 h2 h3, ih fun x hx => h x (List.mem_cons_of_mem _ hx)]
    rfl

/-- The scenes of the application: one transmitter, one receiver, walls. -/
def roomScene (n m : String) (t r : Pt) (walls : List (Pt × Pt)) : Scene := wallScene [(n, t)] [(m, r)] walls

/-- Between two callbacks: the window is ready for a redrawing. -/
structure Ready (A : App Key) (n m : String) (t r : Pt) (walls : List (Pt × Pt)) (w : Window Key) : Prop where
  scene : w.scene = roomScene n m t r walls
  grid : gridShape w.X = gridShape w.Y
  slope : ∃ a : ℝ, 0 < a ∧ w.alpha = F.fin a

theorem good_function (f : FunctionName) : SoftStep f.function := by
  cases f
  · exact softStep_sigmoid
  · exact softStep_hardSigmoid

theorem redraw {A : App Key} (hA : GoodApp A) {n m : String} {t r : Pt} {walls : List (Pt × Pt)} {w : Window Key} (h : Ready A n m t r walls w) :
    ∃ (key : Key) (cov : Scene.Grid F) (rays : List Artist),
      onSceneChange A w = ({ w with key := key, coverage := cov, pathArtists := rays }, none) ∧
      Displays A { w with key := key, coverage := cov, pathArtists := rays } := by
  obtain ⟨hsc, hgrid, a, ha, hal⟩ := h
  have hk : GoodKw ⟨w.alpha, w.function.function⟩ := ⟨good_function _, a, ha, hal⟩
  have hobj : w.scene.objects = wallsOf walls := by rw [hsc]; exact wallScene_objects _ _ _
  have e1 : w.scene.transmitters = .fromMapping (finPoints [(n, t)]) := by rw [hsc]; rfl
  have e2 : w.scene.receivers = .fromMapping (finPoints [(m, r)]) := by rw [hsc]; rfl
  have d1 : Distinct (finPoints [(n, t)]) := by simp [Distinct, finPoints]
  have d2 : Distinct (finPoints [(m, r)]) := by simp [Distinct, finPoints]
  obtain ⟨cs, hcs, hc⟩ := orders_candidates A.G hA.graph w.scene { minOrder := w.minOrder, maxOrder := w.maxOrder } (by simp [NonNegative])
  have h3 := hA.split w.key 3
  match hsp : A.split w.key 3, h3 with
  | [k, ka, kl], _ =>
    -- the map
    have hkeys : ∀ e ∈ cs.zip (Scene.gridKeys A.split (some ka) cs.length), IsCandidate w.scene.objects.length e.1 ∧ ∃ k, e.2 = some k := by
      intro e he
      obtain ⟨c, k⟩ := e
      have := List.of_mem_zip he
      refine ⟨hc c this.1, ?_⟩
      obtain ⟨k', -, e⟩ := List.mem_map.mp this.2
      exact ⟨k', e.symm⟩
    obtain ⟨rs, hrs⟩ := gridCore_total A.gradOp (finPoints [(n, t)])
      (fun t r => w.scene.facc (w.pathCls.method A) (w.opts A) (w.power A) t r 0 (cs.zip (Scene.gridKeys A.split (some ka) cs.length))) w.X w.Y hgrid
      (fun p _ a b x y _ _ => facc_keyed hA w.pathCls hobj _ _ _ hk _ _ _ _ hkeys _)
    have hacc := receivers_eq A.G w.scene _ d1 e1 { minOrder := w.minOrder, maxOrder := w.maxOrder } cs hcs A.split (some ka) (w.pathCls.method A)
      (w.opts A) (w.power A) A.gradOp false false w.X w.Y
    rw [hrs] at hacc
    obtain ⟨-, hf⟩ := gridCore_ok hrs
    obtain ⟨r0, rfl⟩ : ∃ r0, rs = [r0] := by
      have := hf.length_eq
      match rs, this with
      | [x], _ => exact ⟨x, rfl⟩
    obtain ⟨P, rest, hP⟩ : ∃ P rest, w.scene.accumulateOnReceiversGridAll A.G A.split (w.pathCls.method A) { minOrder := w.minOrder, maxOrder := w.maxOrder }
        (w.opts A) (some ka) A.gradOp false false (w.power A) w.X w.Y = .ok (some P, rest) := by
      unfold Scene.accumulateOnReceiversGridAll
      rw [hacc]
      exact ⟨_, _, rfl⟩
    -- the rays
    have hall := allPaths_eq A.G w.scene _ _ d1 d2 e1 e2 { minOrder := w.minOrder, maxOrder := w.maxOrder } cs hcs A.split (w.pathCls.method A) (w.opts A) (some kl)
    obtain ⟨ts, hts, hv⟩ := tracePaths_keyed hA w.pathCls hobj VALID_TOL w.patch w.approx hk ((finPoints [(n, t)] ×ˢ finPoints [(m, r)]).flatMap fun pair => cs.map fun c => (pair, c)) (fun e he => by
      obtain ⟨p, -, he⟩ := List.mem_flatMap.mp he
      obtain ⟨c, hc', rfl⟩ := List.mem_map.mp he
      exact hc c hc') kl
    have hts' := hall.trans hts
    refine ⟨k, P.map (List.map toDB), ts.map rayOf, ?_, ⟨⟨ka, P, rest, hP, ?_⟩, ⟨kl, ts, hts', rfl⟩⟩⟩
    · unfold onSceneChange
      simp only [hsp]
      show (match w.scene.accumulateOnReceiversGridAll A.G A.split (w.pathCls.method A) { minOrder := w.minOrder, maxOrder := w.maxOrder }
        (w.opts A) (some ka) A.gradOp false false (w.power A) w.X w.Y with
        | .error e => _ | .ok (none, _) => _ | .ok (some P, _) => _) = _
      rw [hP]
      show (match (w.scene.allPaths A.G A.split (w.pathCls.method A) { minOrder := w.minOrder, maxOrder := w.maxOrder } (w.opts A) (some kl)) >>= fun ts => ts.mapM plotPath with
        | .error e => _ | .ok artists => _) = _
      rw [hts']
      show (match ts.mapM plotPath with | .error e => _ | .ok artists => _) = _
      rw [mapM_plot fun x hx => (hv x hx).1]
      have : ∀ l : List Scene.Traced, (l.map fun t => [rayOf t]).flatten = l.map rayOf := fun l => by induction l <;> simp_all
      simp only [this]
    · show List.map (List.map toDB) P = _
      congr 1
      congr 1
      funext p
      unfold toDB
      congr 1
      simp only [OfScientific.ofScientific]
      norm_num
      rfl

/-! ## Sliders -/

theorem linear_values (a b : ℝ) : (Slider.linear (F.fin a) (F.fin b)).values = (List.range 100).map fun i => F.fin (notch a b i) := by
  show linspace (F.fin a) (F.fin b) 100 = _
  rw [linspace_fin]
  apply List.map_congr_left
  intro i _
  congr 1
  unfold evenly notch
  norm_num
  ring

theorem log_values (a b : ℝ) : (Slider.log (F.fin a) (F.fin b)).values = (List.range 100).map fun i => F.fin ((10 : ℝ) ^ notch a b i) := by
  show (linspace (F.fin a) (F.fin b) 100).map F.tenPow = _
  have := linear_values a b
  unfold Slider.linear at this
  simp only at this
  rw [this, List.map_map]
  rfl

/-- **C129.** `setValue` moves a slider to a position whose value is nearest to the one asked for, the first one if there are several. -/
theorem C129_set_value (g : ℕ → ℝ) (i0 : ℕ) (v : ℝ) :
    ∃ i < 100, (Slider.mk ((List.range 100).map fun i => F.fin (g i)) i0).setValue (F.fin v) = ⟨(List.range 100).map fun i => F.fin (g i), i⟩ ∧
      (∀ j < 100, |g i - v| ≤ |g j - v|) ∧ ∀ j < i, |g i - v| < |g j - v| := by
  obtain ⟨i, b, h1, h2, h3, h4⟩ := F.argmin_spec (xs := ((List.range 100).map fun i => F.fin (g i)).map fun x => (x - F.fin v).abs) (by simp)
    (by simp [F.abs])
  have hi : i < 100 := by
    have := F.argmin_lt h1
    simpa using this
  refine ⟨i, hi, ?_, ?_, ?_⟩
  · unfold Slider.setValue
    simp only [h1, Slider.moveTo]
    simp; omega
  · intro j hj
    have e : b = F.fin |g i - v| := by simpa [hi, F.abs] using h2.symm
    have := h3 (F.fin |g j - v|) (by simp only [List.map_map, List.mem_map, List.mem_range]; exact ⟨j, hj, rfl⟩)
    rw [e] at this
    simpa [F.lt] using this
  · intro j hj
    have e : b = F.fin |g i - v| := by simpa [hi, F.abs] using h2.symm
    have := h4 j hj (F.fin |g j - v|) (by simp [show j < 100 by omega, F.abs])
    rw [e] at this
    simpa [F.lt] using this

/-! ## The window at any time -/

theorem plotNamed_marker (n : String) (p : V2 F) (colour : String) :
    plotNamed (n, p) [] [] false (PyDict.merge [("color", .str colour)] [("picker", .other 1)]) [] =
      .ok [.scatter p [] [("color", .str colour), ("picker", .other 1), ("marker", .str "o")]] := by
  unfold plotNamed bindPlot
  simp [PyDict.merge, PyDict.set, pointPlot, annotateText, annotateOffset, annotateKwargs, pointParams, PyDict.setdefault, List.lookup, bind, Except.bind, pure, Except.pure]

theorem mapM_walls (up : UserPlot) (walls : List (Pt × Pt)) :
    (wallsOf walls).mapM (fun o => do
      let kw ← bindPlot [[], []]
      o.plot up ([] ++ []) kw) = .ok (walls.map fun w => rayPlot (Wall.ofPts w.1 w.2) [] []) := by
  induction walls with
  | nil => rfl
  | cons w ws ih =>
    show (wallsOf (w :: ws)).mapM _ = _
    rw [wallsOf, List.map_cons, List.mapM_cons]
    rw [wallsOf] at ih
    rw [ih]
    simp [bindPlot, Obj.plot, bind, Except.bind, pure, Except.pure]

theorem plot_room (up : UserPlot) (n m : String) (t r : Pt) (walls : List (Pt × Pt)) :
    ∃ artists, (wallScene [(n, t)] [(m, r)] walls).plot up
      { annotate := false, transmittersKwargs := [("picker", .other 1)], receiversKwargs := [("picker", .other 1)] } = .ok artists ∧
      artists.filter hasPicker = [.scatter (V2.fin t) [] [("color", .str "blue"), ("picker", .other 1), ("marker", .str "o")],
        .scatter (V2.fin r) [] [("color", .str "green"), ("picker", .other 1), ("marker", .str "o")]] := by
  have i1 : (wallScene [(n, t)] [(m, r)] walls).transmitters.items = .ok [(n, V2.fin t)] := items_eq (m := [(n, V2.fin t)]) (by simp [Distinct])
  have i2 : (wallScene [(n, t)] [(m, r)] walls).receivers.items = .ok [(m, V2.fin r)] := items_eq (m := [(m, V2.fin r)]) (by simp [Distinct])
  unfold Scene.plot Scene.plotTransmitters Scene.plotObjects Scene.plotReceivers
  rw [i1, i2, wallScene_objects]
  simp only [if_true, bind, Except.bind, List.mapM_cons, List.mapM_nil, plotNamed_marker, pure, Except.pure]
  have := mapM_walls up walls
  simp only [bind, Except.bind] at this
  rw [this]
  refine ⟨_, rfl, ?_⟩
  have h : (walls.map fun w => rayPlot (Wall.ofPts w.1 w.2) [] []).flatten.filter hasPicker = [] := by
    rw [List.filter_eq_nil_iff]
    intro a ha
    obtain ⟨l, hl, ha⟩ := List.mem_flatten.mp ha
    obtain ⟨w, -, rfl⟩ := List.mem_map.mp hl
    simp only [rayPlot, List.mem_singleton] at ha
    subst ha
    simp [hasPicker, PyDict.setdefault, List.lookup]
  simp only [List.flatten_append, List.filter_append, h]
  simp [hasPicker, List.lookup]

/-- The markers that can be clicked. -/
def markersOf (t r : Pt) : List Artist :=
  [.scatter (V2.fin t) [] [("color", .str "blue"), ("picker", .other 1), ("marker", .str "o")],
    .scatter (V2.fin r) [] [("color", .str "green"), ("picker", .other 1), ("marker", .str "o")]]

/-- What holds of the window at any time. -/
structure Always (A : App Key) (n m : String) (t r : Pt) (walls : List (Pt × Pt)) (X Y : Scene.Grid F) (w : Window Key) : Prop where
  scene : w.scene = roomScene n m t r walls
  gridX : w.X = X
  gridY : w.Y = Y
  picked : w.picked = none
  markers : w.markers = markersOf t r
  alphas : w.alphaSlider.values = (List.range 100).map fun i => F.fin ((10 : ℝ) ^ notch 0 3 i)
  alphaAt : w.alphaSlider.index < 100
  patches : w.patchSlider.values = (List.range 100).map fun i => F.fin (notch (-1) 1 i)
  patchAt : w.patchSlider.index < 100
  coefs : w.rCoefSlider.values = (List.range 100).map fun i => F.fin (notch 0 1 i)
  coefAt : w.rCoefSlider.index < 100
  alpha : w.alpha = F.fin ((10 : ℝ) ^ notch 0 3 w.alphaSlider.index)
  alphaLabel : w.alphaLabel = w.alpha ∨ w.alphaLabel = F.fin 1 ∧ w.alpha = F.fin 100
  patch : w.patch = F.fin (notch (-1) 1 w.patchSlider.index) ∨ w.patch = F.fin 0 ∧ w.patchSlider.index = 49
  patchLabel : w.patchLabel = w.patch
  coef : w.rCoef = F.fin (notch 0 1 w.rCoefSlider.index) ∨ w.rCoef = F.fin (1 / 2) ∧ w.rCoefSlider.index = 49
  coefLabel : w.rCoefLabel = w.rCoef
  minOrder : w.minOrder ≤ 99
  maxOrder : w.maxOrder ≤ 99

variable {A : App Key} {n m : String} {t r : Pt} {walls : List (Pt × Pt)} {X Y : Scene.Grid F}

theorem Always.ready {w : Window Key} (h : Always A n m t r walls X Y w) (hXY : gridShape X = gridShape Y) : Ready A n m t r walls w :=
  ⟨h.scene, by rw [h.gridX, h.gridY, hXY], _, by positivity, h.alpha⟩

theorem Always.drawn {w : Window Key} (h : Always A n m t r walls X Y w) (key : Key) (cov : Scene.Grid F) (rays : List Artist) :
    Always A n m t r walls X Y { w with key := key, coverage := cov, pathArtists := rays } := by
  obtain ⟨_, _, _, _, _, _, _, _, _, _, _, _, _, _, _, _, _, _, _⟩ := h
  constructor <;> assumption

theorem moveTo_index {g : ℕ → ℝ} {s : Slider} (h : s.values = (List.range 100).map fun i => F.fin (g i)) (i : ℕ) : (s.moveTo i).index = min i 99 := by
  simp [Slider.moveTo, h]

theorem moveTo_value {g : ℕ → ℝ} {s : Slider} (h : s.values = (List.range 100).map fun i => F.fin (g i)) (i : ℕ) :
    (s.moveTo i).value = F.fin (g (min i 99)) := by
  have : min i 99 < 100 := by omega
  simp [Slider.value, Slider.moveTo, h, this]

/-- An action either does nothing, or is a click on a marker, which raises, or changes the settings and redraws. -/
theorem action_cases (A : App Key) {w : Window Key} (h : Always A n m t r walls X Y w) (e : Event) :
    (step A w e = (w, none) ∧ ¬ MovesPatch w e ∧ ¬ MovesCoef w e) ∨ (∃ i < 2, e = .pick i ∧ step A w e = (w, some .attributeError)) ∨
      (∃ w', Always A n m t r walls X Y w' ∧ step A w e = onSceneChange A w' ∧
        (MovesPatch w e → w'.patch = F.fin (notch (-1) 1 w'.patchSlider.index)) ∧
        (¬ MovesPatch w e → w'.patch = w.patch ∧ w'.patchSlider.index = w.patchSlider.index) ∧
        (MovesCoef w e → w'.rCoef = F.fin (notch 0 1 w'.rCoefSlider.index)) ∧
        (¬ MovesCoef w e → w'.rCoef = w.rCoef ∧ w'.rCoefSlider.index = w.rCoefSlider.index)) := by
  have h' := h
  obtain ⟨h1, h2, h3, h4, h5, h6, h7, h8, h9, h10, h11, h12, h13, h14, h15, h16, h17, h18, h19⟩ := h'
  cases e with
  | pick i =>
    simp only [step, h5]
    match i with
    | 0 => refine .inr (.inl ⟨0, by norm_num, rfl, ?_⟩); simp [markersOf, onPick, h4, getXYData, bind, Except.bind]
    | 1 => refine .inr (.inl ⟨1, by norm_num, rfl, ?_⟩); simp [markersOf, onPick, h4, getXYData, bind, Except.bind]
    | i + 2 => exact .inl ⟨rfl, id, id⟩
  | motion x y =>
    refine .inl ⟨?_, id, id⟩
    simp [step, onMotion, h4]
  | toggleApprox =>
    refine .inr (.inr ⟨{ w with approx := !w.approx }, ?_, rfl, ?_, ?_, ?_, ?_⟩)
    · constructor <;> assumption
    · exact fun h => h.elim
    · exact fun _ => ⟨rfl, rfl⟩
    · exact fun h => h.elim
    · exact fun _ => ⟨rfl, rfl⟩
  | alphaSlider i =>
    simp only [step]
    by_cases hi : (w.alphaSlider.moveTo i).index = w.alphaSlider.index
    · exact .inl ⟨if_pos hi, id, id⟩
    refine .inr (.inr ⟨{ w with alphaSlider := w.alphaSlider.moveTo i, alpha := (w.alphaSlider.moveTo i).value, alphaLabel := (w.alphaSlider.moveTo i).value },
      ?_, by rw [if_neg hi], ?_, ?_, ?_, ?_⟩)
    · constructor <;> first | assumption | skip
      · show (w.alphaSlider.moveTo i).index < 100
        rw [moveTo_index h6]; omega
      · show (w.alphaSlider.moveTo i).value = _
        rw [moveTo_value h6]
        show _ = F.fin ((10 : ℝ) ^ notch 0 3 (w.alphaSlider.moveTo i).index)
        rw [moveTo_index h6]
      · exact .inl rfl
    · exact fun h => h.elim
    · exact fun _ => ⟨rfl, rfl⟩
    · exact fun h => h.elim
    · exact fun _ => ⟨rfl, rfl⟩
  | patchSlider i =>
    simp only [step, MovesPatch]
    by_cases hi : (w.patchSlider.moveTo i).index = w.patchSlider.index
    · exact .inl ⟨if_pos hi, by rw [moveTo_index h8] at hi; exact fun h => h hi, id⟩
    have hp : (w.patchSlider.moveTo i).value = F.fin (notch (-1) 1 (w.patchSlider.moveTo i).index) := by
      rw [moveTo_value h8, moveTo_index h8]
    refine .inr (.inr ⟨{ w with patchSlider := w.patchSlider.moveTo i, patch := (w.patchSlider.moveTo i).value, patchLabel := (w.patchSlider.moveTo i).value },
      ?_, by rw [if_neg hi], fun _ => hp, ?_, ?_, ?_⟩)
    · constructor <;> first | assumption | skip
      · show (w.patchSlider.moveTo i).index < 100
        rw [moveTo_index h8]; omega
      · exact .inl hp
      · rfl
    · rw [moveTo_index h8] at hi
      exact fun h => absurd hi h
    · exact fun h => h.elim
    · exact fun _ => ⟨rfl, rfl⟩
  | rCoefSlider i =>
    simp only [step, MovesCoef]
    by_cases hi : (w.rCoefSlider.moveTo i).index = w.rCoefSlider.index
    · exact .inl ⟨if_pos hi, id, by rw [moveTo_index h10] at hi; exact fun h => h hi⟩
    have hp : (w.rCoefSlider.moveTo i).value = F.fin (notch 0 1 (w.rCoefSlider.moveTo i).index) := by
      rw [moveTo_value h10, moveTo_index h10]
    refine .inr (.inr ⟨{ w with rCoefSlider := w.rCoefSlider.moveTo i, rCoef := (w.rCoefSlider.moveTo i).value, rCoefLabel := (w.rCoefSlider.moveTo i).value },
      ?_, by rw [if_neg hi], ?_, ?_, fun _ => hp, ?_⟩)
    · constructor <;> first | assumption | skip
      · show (w.rCoefSlider.moveTo i).index < 100
        rw [moveTo_index h10]; omega
      · exact .inl hp
      · rfl
    · exact fun h => h.elim
    · exact fun _ => ⟨rfl, rfl⟩
    · rw [moveTo_index h10] at hi
      exact fun h => absurd hi h
  | minOrder k =>
    simp only [step]
    by_cases hi : min k 99 = w.minOrder
    · exact .inl ⟨if_pos hi, id, id⟩
    refine .inr (.inr ⟨{ w with minOrder := min k 99 }, ?_, by rw [if_neg hi], ?_, ?_, ?_, ?_⟩)
    · constructor <;> first | assumption | skip
      exact min_le_right _ _
    · exact fun h => h.elim
    · exact fun _ => ⟨rfl, rfl⟩
    · exact fun h => h.elim
    · exact fun _ => ⟨rfl, rfl⟩
  | maxOrder k =>
    simp only [step]
    by_cases hi : min k 99 = w.maxOrder
    · exact .inl ⟨if_pos hi, id, id⟩
    refine .inr (.inr ⟨{ w with maxOrder := min k 99 }, ?_, by rw [if_neg hi], ?_, ?_, ?_, ?_⟩)
    · constructor <;> first | assumption | skip
      exact min_le_right _ _
    · exact fun h => h.elim
    · exact fun _ => ⟨rfl, rfl⟩
    · exact fun h => h.elim
    · exact fun _ => ⟨rfl, rfl⟩
  | function f =>
    simp only [step]
    by_cases hi : f = w.function
    · exact .inl ⟨if_pos hi, id, id⟩
    refine .inr (.inr ⟨{ w with function := f }, ?_, by rw [if_neg hi], ?_, ?_, ?_, ?_⟩)
    · constructor <;> assumption
    · exact fun h => h.elim
    · exact fun _ => ⟨rfl, rfl⟩
    · exact fun h => h.elim
    · exact fun _ => ⟨rfl, rfl⟩
  | method c =>
    simp only [step]
    by_cases hi : c = w.pathCls
    · exact .inl ⟨if_pos hi, id, id⟩
    refine .inr (.inr ⟨{ w with pathCls := c }, ?_, by rw [if_neg hi], ?_, ?_, ?_, ?_⟩)
    · constructor <;> assumption
    · exact fun h => h.elim
    · exact fun _ => ⟨rfl, rfl⟩
    · exact fun h => h.elim
    · exact fun _ => ⟨rfl, rfl⟩

theorem SameSettings.refl (w : Window Key) : SameSettings w w := ⟨rfl, rfl, rfl, rfl, rfl, rfl, rfl, rfl⟩

/-- An action gives the settings that it asks for. -/
theorem step_asked (hA : GoodApp A) (hXY : gridShape X = gridShape Y) {w : Window Key} (h : Always A n m t r walls X Y w) (e : Event) :
    SameSettings (step A w e).1 (asked w e) := by
  have drawn : ∀ w' : Window Key, w'.scene = w.scene → w'.X = w.X → w'.Y = w.Y → (∃ a : ℝ, 0 < a ∧ w'.alpha = F.fin a) → SameSettings (onSceneChange A w').1 w' := by
    intro w' h1 h2 h3 h4
    obtain ⟨k, cov, rays, e', -⟩ := redraw hA (A := A) (n := n) (m := m) (t := t) (r := r) (walls := walls) (w := w')
      ⟨h1.trans h.scene, by rw [h2, h3, h.gridX, h.gridY, hXY], h4⟩
    rw [e']
    exact ⟨rfl, rfl, rfl, rfl, rfl, rfl, rfl, rfl⟩
  have ha : ∃ a : ℝ, 0 < a ∧ w.alpha = F.fin a := ⟨_, by positivity, h.alpha⟩
  have h' := h
  obtain ⟨h1, h2, h3, h4, h5, h6, h7, h8, h9, h10, h11, h12, h13, h14, h15, h16, h17, h18, h19⟩ := h'
  cases e with
  | pick i =>
    rcases action_cases A h (.pick i) with ⟨e, -⟩ | ⟨_, -, -, e⟩ | ⟨w', h', e, -⟩
    · rw [e]; exact SameSettings.refl w
    · rw [e]; exact SameSettings.refl w
    · simp only [step, h5]
      match i with
      | 0 => simp [markersOf, onPick, h4, getXYData, bind, Except.bind, asked, SameSettings]
      | 1 => simp [markersOf, onPick, h4, getXYData, bind, Except.bind, asked, SameSettings]
      | i + 2 => exact SameSettings.refl w
  | motion x y => simp [step, onMotion, h4, asked, SameSettings]
  | toggleApprox => exact drawn _ rfl rfl rfl ha
  | alphaSlider i =>
    simp only [step, asked]
    by_cases hi : (w.alphaSlider.moveTo i).index = w.alphaSlider.index
    · rw [if_pos hi]
      rw [moveTo_index h6] at hi
      exact ⟨rfl, rfl, rfl, rfl, by rw [hi]; exact h12, rfl, rfl, rfl⟩
    · rw [if_neg hi]
      obtain ⟨a1, a2, a3, a4, a5, a6, a7, a8⟩ := drawn { w with alphaSlider := w.alphaSlider.moveTo i, alpha := (w.alphaSlider.moveTo i).value, alphaLabel := (w.alphaSlider.moveTo i).value } rfl rfl rfl
        ⟨_, by positivity, moveTo_value h6 i⟩
      exact ⟨a1, a2, a3, a4, a5.trans (moveTo_value h6 i), a6, a7, a8⟩
  | patchSlider i =>
    simp only [step, asked]
    by_cases hi : (w.patchSlider.moveTo i).index = w.patchSlider.index
    · rw [if_pos hi]
      rw [moveTo_index h8] at hi
      rw [if_pos hi]; exact SameSettings.refl w
    · rw [if_neg hi]
      rw [moveTo_index h8] at hi
      rw [if_neg hi]
      obtain ⟨a1, a2, a3, a4, a5, a6, a7, a8⟩ := drawn { w with patchSlider := w.patchSlider.moveTo i, patch := (w.patchSlider.moveTo i).value, patchLabel := (w.patchSlider.moveTo i).value } rfl rfl rfl ha
      exact ⟨a1, a2, a3.trans (moveTo_value h8 i), a4, a5, a6, a7, a8⟩
  | rCoefSlider i =>
    simp only [step, asked]
    by_cases hi : (w.rCoefSlider.moveTo i).index = w.rCoefSlider.index
    · rw [if_pos hi]
      rw [moveTo_index h10] at hi
      rw [if_pos hi]; exact SameSettings.refl w
    · rw [if_neg hi]
      rw [moveTo_index h10] at hi
      rw [if_neg hi]
      obtain ⟨a1, a2, a3, a4, a5, a6, a7, a8⟩ := drawn { w with rCoefSlider := w.rCoefSlider.moveTo i, rCoef := (w.rCoefSlider.moveTo i).value, rCoefLabel := (w.rCoefSlider.moveTo i).value } rfl rfl rfl ha
      exact ⟨a1, a2, a3, a4, a5, a6, a7.trans (moveTo_value h10 i), a8⟩
  | minOrder k =>
    simp only [step, asked]
    by_cases hi : min k 99 = w.minOrder
    · rw [if_pos hi, hi]; exact SameSettings.refl w
    · rw [if_neg hi]; exact drawn _ rfl rfl rfl ha
  | maxOrder k =>
    simp only [step, asked]
    by_cases hi : min k 99 = w.maxOrder
    · rw [if_pos hi, hi]; exact SameSettings.refl w
    · rw [if_neg hi]; exact drawn _ rfl rfl rfl ha
  | function f =>
    simp only [step, asked]
    by_cases hi : f = w.function
    · rw [if_pos hi, hi]; exact SameSettings.refl w
    · rw [if_neg hi]; exact drawn _ rfl rfl rfl ha
  | method c =>
    simp only [step, asked]
    by_cases hi : c = w.pathCls
    · rw [if_pos hi, hi]; exact SameSettings.refl w
    · rw [if_neg hi]; exact drawn _ rfl rfl rfl ha

theorem step_always (hA : GoodApp A) (hXY : gridShape X = gridShape Y) {w : Window Key} (h : Always A n m t r walls X Y w) (hd : Displays A w) (e : Event) :
    Always A n m t r walls X Y (step A w e).1 ∧ Displays A (step A w e).1 := by
  rcases action_cases A h e with ⟨e, -⟩ | ⟨i, -, -, e⟩ | ⟨w', h', e, -⟩
  · rw [e]; exact ⟨h, hd⟩
  · rw [e]; exact ⟨h, hd⟩
  · obtain ⟨key, cov, rays, e', hd'⟩ := redraw hA (h'.ready hXY)
    rw [e, e']
    exact ⟨h'.drawn key cov rays, hd'⟩

theorem run_always (hA : GoodApp A) (hXY : gridShape X = gridShape Y) {w : Window Key} (h : Always A n m t r walls X Y w) (hd : Displays A w)
    (history : List Event) : Always A n m t r walls X Y (w.run A history) ∧ Displays A (w.run A history) := by
  induction history generalizing w with
  | nil => exact ⟨h, hd⟩
  | cons e history ih =>
    obtain ⟨h', hd'⟩ := step_always hA hXY h hd e
    exact ih h' hd'

/-! ## The beginning -/

theorem notch_injective {a b : ℝ} (hab : a < b) {i j : ℕ} (h : notch a b i = notch a b j) : i = j := by
  unfold notch at h
  have : (i : ℝ) = j := by
    have h0 : (b - a) ≠ 0 := by linarith
    have := mul_left_cancel₀ h0 (add_left_cancel h)
    field_simp at this
    exact this
  exact_mod_cast this

theorem alpha_start : ((Slider.log 0 3).setValue DEFAULT_ALPHA) = ⟨(List.range 100).map fun i => F.fin ((10 : ℝ) ^ notch 0 3 i), 66⟩ := by
  have e : Slider.log 0 3 = ⟨(List.range 100).map fun i => F.fin ((10 : ℝ) ^ notch 0 3 i), 0⟩ := by
    have := log_values 0 3
    rw [show (0 : F) = F.fin 0 from F.zero_eq, show (3 : F) = F.fin 3 by exact F.ofNat_eq 3]
    rw [← this]; rfl
  obtain ⟨i, hi, h1, h2, -⟩ := C129_set_value (fun i => (10 : ℝ) ^ notch 0 3 i) 0 100
  rw [e, show DEFAULT_ALPHA = F.fin 100 from F.ofNat_eq 100, h1]
  have h66 : (10 : ℝ) ^ notch 0 3 66 = 100 := by
    have : notch 0 3 66 = ((2 : ℕ) : ℝ) := by unfold notch; norm_num
    rw [this, Real.rpow_natCast]; norm_num
  have := h2 66 (by norm_num)
  simp only [h66, sub_self, abs_zero] at this
  have h0 : (10 : ℝ) ^ notch 0 3 i = (10 : ℝ) ^ notch 0 3 66 := by
    rw [h66]; linarith [abs_nonpos_iff.mp this]
  have h3 : notch 0 3 i = notch 0 3 66 := by
    rcases lt_trichotomy (notch 0 3 i) (notch 0 3 66) with h | h | h
    · exact absurd h0 (Real.rpow_lt_rpow_of_exponent_lt (by norm_num) h).ne
    · exact h
    · exact absurd h0 (Real.rpow_lt_rpow_of_exponent_lt (by norm_num) h).ne'
  rw [notch_injective (by norm_num) h3]

theorem middle_start {a b v : ℝ} (hab : a < b) (hv : v = (a + b) / 2) :
    ((Slider.linear (F.fin a) (F.fin b)).setValue (F.fin v)) = ⟨(List.range 100).map fun i => F.fin (notch a b i), 49⟩ := by
  have e : Slider.linear (F.fin a) (F.fin b) = ⟨(List.range 100).map fun i => F.fin (notch a b i), 0⟩ := by
    rw [← linear_values]; rfl
  obtain ⟨i, hi, h1, h2, h3⟩ := C129_set_value (fun i => notch a b i) 0 v
  rw [e, h1]
  have key : ∀ j : ℕ, |notch a b j - v| = (b - a) / 99 * |(j : ℝ) - 99 / 2| := by
    intro j
    rw [show notch a b j - v = (b - a) / 99 * ((j : ℝ) - 99 / 2) by rw [hv]; unfold notch; ring, abs_mul,
      abs_of_pos (show 0 < (b - a) / 99 by linarith)]
  have hpos : 0 < (b - a) / 99 := by linarith
  have h49 := h2 49 (by norm_num)
  rw [key, key, mul_le_mul_iff_right₀ hpos] at h49
  norm_num at h49
  have hle : i ≤ 50 ∧ 49 ≤ i := by
    rw [abs_le] at h49
    constructor
    · have : (i : ℝ) ≤ 50 := by linarith [h49.2]
      exact_mod_cast this
    · have : (49 : ℝ) ≤ i := by linarith [h49.1]
      exact_mod_cast this
  have : i ≠ 50 := by
    rintro rfl
    have := h3 49 (by norm_num)
    rw [key, key, mul_lt_mul_iff_right₀ hpos] at this
    norm_num at this
  have : i = 49 := by omega
  rw [this]


theorem grid_shapes (b : BBox) (n : ℕ) : gridShape (b.grid 50 (some n)).1 = List.replicate n 50 ∧ gridShape (b.grid 50 (some n)).2 = List.replicate n 50 := by
  obtain ⟨h1, h2, h3, h4, -⟩ := C26_shape b 50 n
  constructor
  · refine List.eq_replicate_iff.mpr ⟨by simp [gridShape, h1], fun x hx => ?_⟩
    obtain ⟨row, hr, rfl⟩ := List.mem_map.mp hx
    exact h3 row hr
  · refine List.eq_replicate_iff.mpr ⟨by simp [gridShape, h2], fun x hx => ?_⟩
    obtain ⟨row, hr, rfl⟩ := List.mem_map.mp hx
    exact h4 row hr

/-- The window of a room at the beginning. -/
theorem create_room (hA : GoodApp A) (n m : String) (t r : Pt) (walls : List (Pt × Pt)) (res : ℕ) (key : Key) :
    ∃ b w, (wallScene [(n, t)] [(m, r)] walls).bbox = .ok b ∧
      TightBox b ([t] ++ [r] ++ (walls.map fun w => Shape.wall w.1 w.2).flatMap Shape.points) ∧
      create A (wallScene [(n, t)] [(m, r)] walls) res key = .ok w ∧ Displays A w ∧
      Always A n m t r walls (b.grid 50 (some res)).1 (b.grid 50 (some res)).2 w ∧
      w.minOrder = 0 ∧ w.maxOrder = 1 ∧ w.patch = F.fin 0 ∧ w.approx = false ∧ w.alpha = F.fin 100 ∧ w.function = .hardSigmoid ∧ w.rCoef = F.fin (1 / 2) ∧
      w.pathCls = .image ∧ w.alphaLabel = F.fin 1 ∧ w.patchSlider.index = 49 ∧ w.rCoefSlider.index = 49 := by
  obtain ⟨b, hb, htight⟩ := C25_scene [(n, t)] [(m, r)] (by simp [Distinct]) (by simp [Distinct]) (walls.map fun w => .wall w.1 w.2) (by simp)
  obtain ⟨artists, ha, hm⟩ := plot_room A.userPlot n m t r walls
  have hzero : (0.0 : F) = F.fin 0 := by
    simp only [OfScientific.ofScientific]
    norm_num
    exact NNRat.cast_zero
  have hpt : DEFAULT_PATCH = F.fin 0 := hzero
  have hal : DEFAULT_ALPHA = F.fin 100 := F.ofNat_eq 100
  have hhalf : (0.5 : F) = F.fin (1 / 2) := by simp only [OfScientific.ofScientific]; norm_num
  have h66 : (10 : ℝ) ^ notch 0 3 66 = 100 := by
    have : notch 0 3 66 = ((2 : ℕ) : ℝ) := by unfold notch; norm_num
    rw [this, Real.rpow_natCast]; norm_num
  have s2 : (Slider.linear (-1.0) 1.0).setValue 0.0 = ⟨(List.range 100).map fun i => F.fin (notch (-1) 1 i), 49⟩ := by
    rw [← middle_start (a := -1) (b := 1) (v := 0) (by norm_num) (by norm_num)]
    rw [hzero, show (1.0 : F) = F.fin 1 by simp only [OfScientific.ofScientific]; norm_num,
      show -(F.fin 1) = F.fin (-1) from rfl]
  have s3 : (Slider.linear 0.0 1.0).setValue 0.5 = ⟨(List.range 100).map fun i => F.fin (notch 0 1 i), 49⟩ := by
    rw [← middle_start (a := 0) (b := 1) (v := 1 / 2) (by norm_num) (by norm_num)]
    rw [hzero, show (1.0 : F) = F.fin 1 by simp only [OfScientific.ofScientific]; norm_num,
      hhalf]
  set w : Window Key :=
    { scene := wallScene [(n, t)] [(m, r)] walls, minOrder := 0, maxOrder := 1, patch := DEFAULT_PATCH, approx := false, alpha := DEFAULT_ALPHA,
      function := .hardSigmoid,
      rCoef := 0.5, pathCls := .image, key := key, picked := none, pickedTx := false,
      alphaSlider := (Slider.log 0 3).setValue DEFAULT_ALPHA, alphaLabel := 1,
      patchSlider := (Slider.linear (-1.0) 1.0).setValue 0.0, patchLabel := 0,
      rCoefSlider := (Slider.linear 0.0 1.0).setValue 0.5, rCoefLabel := 0.5,
      X := (b.grid 50 (some res)).1, Y := (b.grid 50 (some res)).2, coverage := (b.grid 50 (some res)).1.map (List.map fun _ => 0),
      markers := artists.filter hasPicker, pathArtists := [] } with hw
  have hw1 : Always A n m t r walls (b.grid 50 (some res)).1 (b.grid 50 (some res)).2 w := by
    constructor
    · rfl
    · rfl
    · rfl
    · rfl
    · exact hm
    · show ((Slider.log 0 3).setValue DEFAULT_ALPHA).values = _
      rw [alpha_start]
    · show ((Slider.log 0 3).setValue DEFAULT_ALPHA).index < _
      rw [alpha_start]; norm_num
    · show ((Slider.linear (-1.0) 1.0).setValue 0.0).values = _
      rw [s2]
    · show ((Slider.linear (-1.0) 1.0).setValue 0.0).index < _
      rw [s2]; norm_num
    · show ((Slider.linear 0.0 1.0).setValue 0.5).values = _
      rw [s3]
    · show ((Slider.linear 0.0 1.0).setValue 0.5).index < _
      rw [s3]; norm_num
    · show DEFAULT_ALPHA = F.fin ((10 : ℝ) ^ notch 0 3 ((Slider.log 0 3).setValue DEFAULT_ALPHA).index)
      rw [alpha_start, hal, h66]
    · exact .inr ⟨F.one_eq, hal⟩
    · refine .inr ⟨hpt, ?_⟩
      show ((Slider.linear (-1.0) 1.0).setValue 0.0).index = _
      rw [s2]
    · exact F.zero_eq.trans hpt.symm
    · refine .inr ⟨hhalf, ?_⟩
      show ((Slider.linear 0.0 1.0).setValue 0.5).index = _
      rw [s3]
    · rfl
    · show 0 ≤ 99; norm_num
    · show 1 ≤ 99; norm_num
  have hsh : gridShape (b.grid 50 (some res)).1 = gridShape (b.grid 50 (some res)).2 := (grid_shapes b res).1.trans (grid_shapes b res).2.symm
  obtain ⟨k, cov, rays, e, hd⟩ := redraw hA (hw1.ready hsh)
  refine ⟨b, _, hb, htight, ?_, hd, hw1.drawn k cov rays, rfl, rfl, hpt, rfl, hal, rfl, hhalf, rfl, F.one_eq, ?_, ?_⟩
  · have l1 : (wallScene [(n, t)] [(m, r)] walls).transmitters.len = 1 := rfl
    have l2 : (wallScene [(n, t)] [(m, r)] walls).receivers.len = 1 := rfl
    have hb' : (wallScene [(n, t)] [(m, r)] walls).bbox = .ok b := hb
    unfold create
    rw [l1, l2, hb', ha]
    show (match onSceneChange A w with | (w, none) => pure w | (_, some e) => throw e) = _
    rw [e]
    rfl
  · show ((Slider.linear (-1.0) 1.0).setValue 0.0).index = _
    rw [s2]
  · show ((Slider.linear 0.0 1.0).setValue 0.5).index = _
    rw [s3]

end DiffeRT2d.Props
