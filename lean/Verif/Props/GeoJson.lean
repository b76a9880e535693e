import Verif.Spec.GeoJson
import Verif.Lemmas.Traversal
import Verif.Lemmas.Candidates
import Verif.Props.Scene
import Verif.Props.BBox

/-! # Properties C63-C65: GeoJSON import -/

namespace DiffeRT2d.Props
open Classical Spec

/-! ## Lemmas -/

theorem wallOfRows_position (a b : Pt) : wallOfRows (position a) (position b) = .ok (Wall.ofPts a b) := by
  simp [wallOfRows, position, Json.row, Json.number, bind, Except.bind, pure, Except.pure, Wall.ofPts, V2.fin]

theorem pyIndex_ok {α : Type} (xs : List α) (i : ℕ) (x : α) (h : xs[i]? = some x) :
    Scene.pyIndex xs i = .ok x := by
  have h0 : ¬ ((i : ℤ) < 0) := by omega
  simp [Scene.pyIndex, h0, h]

theorem pyIndex_last {α : Type} (xs : List α) (x : α) (h : xs.getLast? = some x) :
    Scene.pyIndex xs (-1) = .ok x := by
  have hne : xs ≠ [] := by rintro rfl; simp at h
  have hl : 0 < xs.length := List.length_pos_of_ne_nil hne
  have h0 : ¬ ((-1 : ℤ) + xs.length < 0) := by omega
  have h1 : ((-1 : ℤ) + xs.length).toNat = xs.length - 1 := by omega
  rw [List.getLast?_eq_getElem?] at h
  simp [Scene.pyIndex, h0, h1, h]

theorem cyclicPairs_get (ps : List Pt) (i : ℕ) (hi : i < ps.length) :
    ∃ a b, (cyclicPairs ps)[i]? = some (a, b) ∧ Scene.pyIndex ps ((i : ℤ) - 1) = .ok a ∧
      Scene.pyIndex ps (i : ℤ) = .ok b := by
  cases ps with
  | nil => simp at hi
  | cons p ps =>
    cases i with
    | zero =>
      refine ⟨_, p, rfl, ?_, pyIndex_ok _ 0 _ rfl⟩
      simpa using pyIndex_last (p :: ps) _ (List.getLast?_eq_getLast_of_ne_nil (List.cons_ne_nil p ps))
    | succ i =>
      have hi' : i < ps.length := by simpa using hi
      have hj : i < (p :: ps).length := by simp; omega
      refine ⟨(p :: ps)[i], ps[i], ?_, ?_, ?_⟩
      · simp [cyclicPairs, List.getElem?_zip_eq_some, hi', hj]
      · have := pyIndex_ok (p :: ps) i _ (List.getElem?_eq_getElem hj)
        simpa using this
      · exact pyIndex_ok (p :: ps) (i + 1) _ (by simp [hi'])

theorem pyIndex_map {α β : Type} (f : α → β) (xs : List α) (i : ℤ) (x : α) (h : Scene.pyIndex xs i = .ok x) :
    Scene.pyIndex (xs.map f) i = .ok (f x) := by
  unfold Scene.pyIndex at h ⊢
  simp only [List.length_map, List.getElem?_map] at h ⊢
  set j : ℕ := (if i < 0 then i + (xs.length : ℤ) else i).toNat
  by_cases hj : (if i < 0 then i + (xs.length : ℤ) else i) < 0
  · simp [hj] at h
  · simp only [hj, if_false] at h ⊢
    cases hx : xs[j]? with
    | none => simp [hx] at h
    | some y =>
      have hy : y = x := by simpa [hx] using h
      simp [hy]

theorem cyclicPairs_length (ps : List Pt) : (cyclicPairs ps).length = ps.length := by
  cases ps <;> simp [cyclicPairs]

theorem ring_walls (ps : List Pt) :
    (List.range ps.length).mapM (ringWall (ringJson ps)) =
      .ok ((cyclicPairs ps).map fun ab => Wall.ofPts ab.1 ab.2) := by
  rw [mapM_iff]
  rw [List.forall₂_iff_get]
  refine ⟨by simp [cyclicPairs_length], ?_⟩
  intro i h1 h2
  have hi : i < ps.length := by simpa using h1
  obtain ⟨a, b, he, ha, hb⟩ := cyclicPairs_get ps i hi
  have h3 : i < (cyclicPairs ps).length := by rw [cyclicPairs_length]; exact hi
  rw [List.getElem?_eq_getElem h3, Option.some_inj] at he
  simp only [List.get_eq_getElem, List.getElem_range, List.getElem_map, he]
  unfold ringWall
  simp only [ringJson, Json.index, pyIndex_map _ _ _ _ ha, pyIndex_map _ _ _ _ hb]
  exact wallOfRows_position a b

theorem feature_walls (f : Json) (ps : List Pt) (h : Contributes f ps) :
    featureWalls f = .ok ((cyclicPairs ps).map fun ab => Wall.ofPts ab.1 ab.2) := by
  rcases h with ⟨g, holes, ⟨d, rfl, hd⟩, ht, hc⟩ | ⟨rfl, (⟨d, rfl, hd⟩ | ⟨d, rfl, hd⟩) |
    ⟨g, type, c, cs, ⟨d, rfl, hd⟩, ht, hty, hc⟩⟩
  · have hg : g ≠ [] := by rintro rfl; simp at ht
    simp only [featureWalls, Json.get, hd, Option.getD_some, bind, Except.bind, Json.truthy, Json.item, ht, hc,
      Json.index]
    have h0 : Scene.pyIndex (ringJson ps :: holes) 0 = .ok (ringJson ps) :=
      pyIndex_ok (ringJson ps :: holes) 0 _ rfl
    have hl : (ringJson ps).len = .ok ps.length := by simp [ringJson, Json.len]
    have hb : (!g.isEmpty) = true := by cases g <;> simp_all
    simp only [h0, hl, hb, if_true]
    exact ring_walls ps
  · simp [featureWalls, Json.get, hd, bind, Except.bind, Json.truthy, pure, Except.pure, cyclicPairs]
  · simp [featureWalls, Json.get, hd, bind, Except.bind, Json.truthy, pure, Except.pure, cyclicPairs]
  · have hg : g ≠ [] := by rintro rfl; simp at ht
    have hb : (!g.isEmpty) = true := by cases g <;> simp_all
    have h0 : Scene.pyIndex (.arr c :: cs) 0 = .ok (Json.arr c) := pyIndex_ok (.arr c :: cs) 0 _ rfl
    have hne : ¬ (Json.str type = Json.str "Polygon") := by simpa using hty
    simp only [featureWalls, Json.get, hd, Option.getD_some, bind, Except.bind, Json.truthy, Json.item, ht, hc,
      Json.index, h0, hb, if_true, Json.len, hne, if_false]
    rfl

theorem features_walls (features : List Json) (rings : List (List Pt))
    (h : List.Forall₂ Contributes features rings) :
    features.mapM featureWalls =
      .ok (rings.map fun ps => (cyclicPairs ps).map fun ab => Wall.ofPts ab.1 ab.2) := by
  rw [mapM_iff, List.forall₂_map_right_iff]
  exact h.imp fun f ps hf => feature_walls f ps hf

theorem shapes_obj (rings : List (List Pt)) :
    ((rings.map fun ps => (cyclicPairs ps).map fun ab => Wall.ofPts ab.1 ab.2).flatten).map Obj.wall =
      (rings.flatMap ringShapes).map Shape.obj := by
  induction rings with
  | nil => rfl
  | cons ps rings ih =>
    simp only [List.map_cons, List.flatten_cons, List.map_append, List.flatMap_cons, ih]
    simp [ringShapes, Shape.obj, Function.comp_def]

theorem location_fin (b : BBox) (ps : List Pt) (h : TightBox b ps) (loc : Loc) :
    ∃ p : Pt, b.getLocation loc = V2.fin p ∧ (∀ q : Pt, TightBox b (q :: ps) ↔
      ∃ lo hi : Pt, b = ⟨V2.fin lo, V2.fin hi⟩ ∧ lo.x ≤ q.x ∧ q.x ≤ hi.x ∧ lo.y ≤ q.y ∧ q.y ≤ hi.y) ∧
      TightBox b (p :: ps) := by
  obtain ⟨lo, hi, rfl, hin, ⟨p1, m1, e1⟩, ⟨p2, m2, e2⟩, ⟨p3, m3, e3⟩, ⟨p4, m4, e4⟩⟩ := h
  have hx : lo.x ≤ hi.x := by have := hin _ m1; linarith [this.2.1, e1]
  have hy : lo.y ≤ hi.y := by have := hin _ m3; linarith [this.2.2.2, e3]
  obtain ⟨p, hp, hb⟩ := C26_location_inside lo hi hx hy loc
  have key : ∀ q : Pt, (lo.x ≤ q.x ∧ q.x ≤ hi.x ∧ lo.y ≤ q.y ∧ q.y ≤ hi.y) →
      TightBox ⟨V2.fin lo, V2.fin hi⟩ (q :: ps) := by
    intro q hq
    refine ⟨lo, hi, rfl, ?_, ⟨p1, .tail _ m1, e1⟩, ⟨p2, .tail _ m2, e2⟩, ⟨p3, .tail _ m3, e3⟩, ⟨p4, .tail _ m4, e4⟩⟩
    intro r hr
    rcases List.mem_cons.1 hr with rfl | hr
    · exact hq
    · exact hin r hr
  refine ⟨p, hp, ?_, key p hb⟩
  intro q
  constructor
  · rintro ⟨lo', hi', he, hin', -⟩
    exact ⟨lo', hi', he, hin' q (by simp)⟩
  · rintro ⟨lo', hi', he, hq⟩
    simp only [BBox.mk.injEq, V2.fin, V2.mk.injEq, F.fin.injEq] at he
    obtain ⟨⟨h1, h2⟩, h3, h4⟩ := he
    exact key q (by rw [h1, h2, h3, h4]; exact hq)

/-! ## C63 — GeoJSON import -/

/-- The objects are the walls joining cyclically consecutive vertices of the outer rings of the polygons, in
order; the transmitter and the receiver are at the requested locations of the box of the walls. -/
theorem C63_walls (doc : Json) (features : List Json) (rings : List (List Pt)) (txLoc rxLoc : Loc)
    (hd : Document doc features) (hf : List.Forall₂ Contributes features rings)
    (hne : rings.flatMap ringShapes ≠ []) :
    ∃ (box : BBox) (tx rx : Pt), TightBox box ((rings.flatMap ringShapes).flatMap Shape.points) ∧
      box.getLocation txLoc = V2.fin tx ∧ box.getLocation rxLoc = V2.fin rx ∧
      fromGeojson (.text doc) txLoc rxLoc =
        .ok (sceneOf [("tx", tx)] [("rx", rx)] (rings.flatMap ringShapes)) := by
  set shapes := rings.flatMap ringShapes with hs
  obtain ⟨box, hb, htight⟩ := C25_scene [] [] (by simp [Distinct]) (by simp [Distinct]) shapes (by simp [hne])
  simp only [List.map_nil, List.nil_append] at htight
  obtain ⟨tx, htx, -, htight'⟩ := location_fin box _ htight txLoc
  obtain ⟨rx, hrx, -, -⟩ := location_fin box _ htight rxLoc
  refine ⟨box, tx, rx, htight, htx, hrx, ?_⟩
  obtain ⟨box', hb', htight''⟩ := C25_scene [("tx", tx)] [] (by simp [Distinct]) (by simp [Distinct]) shapes
    (by simp)
  simp only [List.map_cons, List.map_nil, List.append_nil, List.cons_append, List.nil_append] at htight''
  have hbb : box' = box := C25_unique _ _ _ htight'' htight'
  obtain ⟨d, rfl, hd⟩ := hd
  have hget : (Json.obj d).get "features" (.arr []) = .ok (.arr features) := by
    rcases hd with hd | ⟨hd, rfl⟩ <;> simp [Json.get, hd]
  have hwalls := shapes_obj rings
  set walls := (rings.map fun ps => (cyclicPairs ps).map fun ab => Wall.ofPts ab.1 ab.2).flatten with hw
  have hpos : 0 < walls.length := by
    have : walls ≠ [] := by
      intro h0; rw [h0] at hwalls
      exact hne (List.map_eq_nil_iff.1 hwalls.symm)
    exact List.length_pos_of_ne_nil this
  have hmk : Scene.make [] [] (walls.map Obj.wall) = sceneOf [] [] shapes := by
    rw [hwalls]; rfl
  simp only [fromGeojson, fromGeojsonText, hget, bind, Except.bind, Json.iter, features_walls features rings hf,
    ← hw, hpos, if_true, hmk, Scene.getLocation, hb, pure, Except.pure, htx]
  have h1 : (sceneOf [] [] shapes).withTransmitters [("tx", V2.fin tx)] = .ok (sceneOf [("tx", tx)] [] shapes) := by
    rfl
  simp only [h1, hb', hbb, hrx]
  rfl

/-- Without polygons: no objects, the transmitter at (0, 0) and the receiver at (1, 1). -/
theorem C63_empty (doc : Json) (features : List Json) (rings : List (List Pt)) (txLoc rxLoc : Loc)
    (hd : Document doc features) (hf : List.Forall₂ Contributes features rings)
    (he : rings.flatMap ringShapes = []) :
    fromGeojson (.text doc) txLoc rxLoc = .ok (sceneOf [("tx", ⟨0, 0⟩)] [("rx", ⟨1, 1⟩)] []) := by
  obtain ⟨d, rfl, hd⟩ := hd
  have hget : (Json.obj d).get "features" (.arr []) = .ok (.arr features) := by
    rcases hd with hd | ⟨hd, rfl⟩ <;> simp [Json.get, hd]
  have hwalls := shapes_obj rings
  set walls := (rings.map fun ps => (cyclicPairs ps).map fun ab => Wall.ofPts ab.1 ab.2).flatten with hw
  rw [he] at hwalls
  have hnil : walls = [] := by simpa using hwalls
  simp only [fromGeojson, fromGeojsonText, hget, bind, Except.bind, Json.iter, features_walls features rings hf,
    ← hw, hnil]
  have z : (0.0 : F) = F.fin 0 := by
    simp only [OfScientific.ofScientific]; norm_num; exact Rat.cast_zero
  have o : (1.0 : F) = F.fin 1 := by
    simp only [OfScientific.ofScientific]; norm_num
  rw [z, o]
  rfl

/-- Non-vacuity: a document whose only feature has no geometry. -/
example := C63_empty (.obj [("features", .arr [.obj [("id", .str "node/1")]])]) [.obj [("id", .str "node/1")]] [[]] .NW .SE
  ⟨_, rfl, .inl rfl⟩ (.cons (.inr ⟨rfl, .inl (.inl ⟨_, rfl, rfl⟩)⟩) .nil) rfl

/-- The cyclic pairs, vertex by vertex: the `i`-th wall of a ring of `n` vertices joins vertex `i - 1`, modulo
`n`, to vertex `i`. -/
theorem C63_cyclic (ps : List Pt) (i : ℕ) (hi : i < ps.length) :
    ∃ a b : Pt, ps[(i + ps.length - 1) % ps.length]? = some a ∧ ps[i]? = some b ∧
      (ringShapes ps)[i]? = some (.wall a b) ∧ (ringShapes ps).length = ps.length := by
  have hlen : (ringShapes ps).length = ps.length := by simp [ringShapes, cyclicPairs_length]
  cases ps with
  | nil => simp at hi
  | cons p ps =>
    cases i with
    | zero =>
      refine ⟨(p :: ps).getLast (List.cons_ne_nil p ps), p, ?_, rfl, rfl, hlen⟩
      have : (0 + (p :: ps).length - 1) % (p :: ps).length = (p :: ps).length - 1 := by
        rw [Nat.mod_eq_of_lt] <;> simp
      rw [this, ← List.getLast?_eq_getElem?]
      exact List.getLast?_eq_getLast_of_ne_nil _
    | succ i =>
      have hi' : i < ps.length := by simpa using hi
      have hj : i < (p :: ps).length := by simp; omega
      refine ⟨(p :: ps)[i], ps[i], ?_, by simp [hi'], ?_, hlen⟩
      · have : (i + 1 + (p :: ps).length - 1) % (p :: ps).length = i := by
          rw [show i + 1 + (p :: ps).length - 1 = i + (p :: ps).length by omega, Nat.add_mod_right,
            Nat.mod_eq_of_lt hj]
        rw [this, List.getElem?_eq_getElem hj]
      · simp [ringShapes, cyclicPairs, List.getElem?_zip_eq_some, hi', hj]

/-- Non-vacuity: the third wall of a ring of four vertices. -/
example := C63_cyclic [⟨0, 0⟩, ⟨4, 0⟩, ⟨4, 3⟩, ⟨0, 3⟩] 2 (by simp)

/-- A file gives the same scene as its text; other arguments raise `NotImplementedError`. -/
theorem C63_sources (doc : Json) (txLoc rxLoc : Loc) :
    fromGeojson (.readable doc) txLoc rxLoc = fromGeojson (.text doc) txLoc rxLoc ∧
      fromGeojson .other txLoc rxLoc = .error .notImplementedError := ⟨rfl, rfl⟩

/-- A building with a triangular outline (closed, as the standard requires). -/
def triangle : List Pt := [⟨0, 0⟩, ⟨4, 0⟩, ⟨0, 3⟩, ⟨0, 0⟩]

/-- A document with that building, a feature without geometry and a road. -/
def town : Json := .obj [("type", .str "FeatureCollection"), ("features", .arr [
  .obj [("geometry", .obj [("type", .str "Polygon"), ("coordinates", .arr [ringJson triangle])])],
  .obj [("id", .str "node/1")],
  .obj [("geometry", .obj [("type", .str "LineString"), ("coordinates", ringJson [⟨7, 7⟩, ⟨8, 8⟩])])]])]

theorem town_document : ∃ features, Document town features ∧ List.Forall₂ Contributes features [triangle, [], []] := by
  refine ⟨_, ⟨_, rfl, .inl rfl⟩, .cons (.inl ⟨_, [], ⟨_, rfl, rfl⟩, rfl, rfl⟩) (.cons (.inr ⟨rfl, .inl (.inl ⟨_, rfl, rfl⟩)⟩)
    (.cons (.inr ⟨rfl, .inr ⟨_, "LineString", _, _, ⟨_, rfl, rfl⟩, rfl, by decide, rfl⟩⟩) .nil))⟩

/-- Non-vacuity: the transmitter goes to the north-west corner (0, 3), the receiver to the south-east corner
(4, 0). -/
example : fromGeojson (.text town) = .ok (sceneOf [("tx", ⟨0, 3⟩)] [("rx", ⟨4, 0⟩)]
    [.wall ⟨0, 0⟩ ⟨0, 0⟩, .wall ⟨0, 0⟩ ⟨4, 0⟩, .wall ⟨4, 0⟩ ⟨0, 3⟩, .wall ⟨0, 3⟩ ⟨0, 0⟩]) := by
  obtain ⟨fs, hd, hf⟩ := town_document
  obtain ⟨box, tx, rx, hb, ht, hr, h⟩ := C63_walls town fs _ .NW .SE hd hf (by simp [ringShapes, cyclicPairs, triangle])
  have hbox : TightBox ⟨V2.fin ⟨0, 0⟩, V2.fin ⟨4, 3⟩⟩
      (([triangle, [], []].flatMap ringShapes).flatMap Shape.points) := by
    refine ⟨_, _, rfl, ?_, ⟨⟨0, 0⟩, ?_⟩, ⟨⟨4, 0⟩, ?_⟩, ⟨⟨0, 0⟩, ?_⟩, ⟨⟨0, 3⟩, ?_⟩⟩ <;>
      simp [ringShapes, cyclicPairs, triangle, Shape.points]
  rw [C25_unique _ _ _ hb hbox] at ht hr
  obtain ⟨p, hp, h1, -, -, -, h2, -⟩ := C26_location ⟨0, 0⟩ ⟨4, 3⟩ .NW
  obtain ⟨q, hq, -, h3, -, h4, -, -⟩ := C26_location ⟨0, 0⟩ ⟨4, 3⟩ .SE
  have e1 : tx = ⟨0, 3⟩ := by
    have : V2.fin tx = V2.fin p := ht.symm.trans hp
    simp only [V2.fin, V2.mk.injEq, F.fin.injEq] at this
    ext
    · rw [this.1]; exact h1 (by simp)
    · rw [this.2]; exact h2 (by simp)
  have e2 : rx = ⟨4, 0⟩ := by
    have : V2.fin rx = V2.fin q := hr.symm.trans hq
    simp only [V2.fin, V2.mk.injEq, F.fin.injEq] at this
    ext
    · rw [this.1]; exact h3 (by simp)
    · rw [this.2]; exact h4 (by simp)
  rw [h, e1, e2]
  rfl

/-! ## C64 — one wall per ring segment -/

/-- For every closed ring the claim fails: the scene has one wall more than the ring has segments, and the
first wall of each ring has zero length. -/
theorem C64_refuted (ps : List Pt) (h : ClosedRing ps) :
    ∃ p : Pt, (ringShapes ps).head? = some (.wall p p) ∧
      (ringShapes ps).length = (segmentsOf ps).length + 1 := by
  obtain ⟨h2, h⟩ := h
  cases ps with
  | nil => simp at h2
  | cons p ps =>
    refine ⟨p, ?_, by simp [ringShapes, cyclicPairs, segmentsOf]⟩
    rw [List.getLast?_eq_getLast_of_ne_nil (List.cons_ne_nil p ps)] at h
    simp only [List.head?_cons, Option.some_inj] at h
    simp [ringShapes, cyclicPairs, h]

/-- Non-vacuity: a triangle. -/
example := C64_refuted triangle ⟨by simp [triangle], rfl⟩

/-- The walls after the first are exactly the segments of the ring, in order; if consecutive vertices are
distinct none of them has zero length. (Missing from the claim: the first wall, see `C64_refuted`.) -/
theorem C64_partial (ps : List Pt) :
    (ringShapes ps).tail = (segmentsOf ps).map (fun ab => .wall ab.1 ab.2) ∧
      ((∀ ab ∈ segmentsOf ps, ab.1 ≠ ab.2) → ∀ s ∈ (ringShapes ps).tail, ∀ a b, s = .wall a b → a ≠ b) := by
  have key : (ringShapes ps).tail = (segmentsOf ps).map (fun ab => .wall ab.1 ab.2) := by
    cases ps <;> simp [ringShapes, cyclicPairs, segmentsOf]
  refine ⟨key, ?_⟩
  intro hd s hs a b hsab
  rw [key] at hs
  obtain ⟨ab, hab, rfl⟩ := List.mem_map.1 hs
  simp only [Shape.wall.injEq] at hsab
  rw [← hsab.1, ← hsab.2]
  exact hd ab hab

/-- The refutation on a real document: the scene imported from one closed polygon. -/
theorem C64_refuted_document :
    ∃ s, fromGeojson (.text town) = .ok s ∧ ClosedRing triangle ∧ (segmentsOf triangle).length = 3 ∧
      s.objects.length = 4 ∧ s.objects.head? = some (.wall (Wall.ofPts ⟨0, 0⟩ ⟨0, 0⟩)) := by
  obtain ⟨fs, hd, hf⟩ := town_document
  obtain ⟨box, tx, rx, -, -, -, h⟩ := C63_walls town fs _ .NW .SE hd hf (by simp [ringShapes, cyclicPairs, triangle])
  exact ⟨_, h, by simp [ClosedRing, triangle], rfl, rfl, rfl⟩

/-! ## C65 — other geometries are skipped -/

/-- Features without geometry and geometries given by a nonempty array of arrays (line strings, multi points,
multi polygons, ...) contribute nothing. (Missing from the claim: points, see `C65_refuted`.) -/
theorem C65_partial (doc : Json) (features : List Json) (txLoc rxLoc : Loc) (hd : Document doc features)
    (hf : ∀ f ∈ features, NoGeometry f ∨ OtherGeometry f) :
    fromGeojson (.text doc) txLoc rxLoc = .ok (sceneOf [("tx", ⟨0, 0⟩)] [("rx", ⟨1, 1⟩)] []) := by
  refine C63_empty doc features (features.map fun _ => []) txLoc rxLoc hd ?_ ?_
  · rw [List.forall₂_map_right_iff, List.forall₂_same]
    exact fun f hfm => .inr ⟨rfl, hf f hfm⟩
  · simp [List.flatMap_map, ringShapes, cyclicPairs]

/-- Non-vacuity: a feature without geometry and a line string. -/
example := C65_partial (.obj [("features", .arr [.obj [("id", .str "node/1")],
    .obj [("geometry", .obj [("type", .str "LineString"), ("coordinates", ringJson [⟨7, 7⟩, ⟨8, 8⟩])])]])]) _ .NW .SE
  ⟨_, rfl, .inl rfl⟩ (by
    intro f hf
    simp only [List.mem_cons, List.not_mem_nil, or_false] at hf
    rcases hf with rfl | rfl
    · exact .inl (.inl ⟨_, rfl, rfl⟩)
    · exact .inr ⟨_, "LineString", _, _, ⟨_, rfl, rfl⟩, rfl, by decide, rfl⟩)

/-- Skipped features may stand anywhere among polygons. -/
theorem C65_among (doc doc' : Json) (fs gs : List Json) (f : Json) (rings rings' : List (List Pt))
    (txLoc rxLoc : Loc) (hd : Document doc (fs ++ f :: gs)) (hd' : Document doc' (fs ++ gs))
    (hf : NoGeometry f ∨ OtherGeometry f) (h1 : List.Forall₂ Contributes fs rings)
    (h2 : List.Forall₂ Contributes gs rings') :
    fromGeojson (.text doc) txLoc rxLoc = fromGeojson (.text doc') txLoc rxLoc := by
  have hA : List.Forall₂ Contributes (fs ++ f :: gs) (rings ++ [] :: rings') :=
    List.rel_append h1 (.cons (.inr ⟨rfl, hf⟩) h2)
  have hB : List.Forall₂ Contributes (fs ++ gs) (rings ++ rings') := List.rel_append h1 h2
  have he : (rings ++ [] :: rings').flatMap ringShapes = (rings ++ rings').flatMap ringShapes := by
    simp [ringShapes, cyclicPairs]
  by_cases hne : (rings ++ rings').flatMap ringShapes = []
  · rw [C63_empty doc _ _ txLoc rxLoc hd hA (he.trans hne), C63_empty doc' _ _ txLoc rxLoc hd' hB hne]
  · obtain ⟨b, tx, rx, hb, ht, hr, h⟩ := C63_walls doc _ _ txLoc rxLoc hd hA (he ▸ hne)
    obtain ⟨b', tx', rx', hb', ht', hr', h'⟩ := C63_walls doc' _ _ txLoc rxLoc hd' hB hne
    rw [he] at hb h
    have hbb := C25_unique _ _ _ hb hb'
    subst hbb
    have inj : ∀ a c : Pt, V2.fin a = V2.fin c → a = c := by
      intro a c hac
      simp only [V2.fin, V2.mk.injEq, F.fin.injEq] at hac
      ext <;> simp [hac]
    rw [h, h', inj _ _ (ht.symm.trans ht'), inj _ _ (hr.symm.trans hr')]

/-- Non-vacuity: a triangle followed by a feature without geometry. -/
example := C65_among
  (.obj [("features", .arr [.obj [("geometry", .obj [("type", .str "Polygon"), ("coordinates", .arr [ringJson triangle])])],
    .obj [("id", .str "node/1")]])])
  (.obj [("features", .arr [.obj [("geometry", .obj [("type", .str "Polygon"), ("coordinates", .arr [ringJson triangle])])]])])
  [.obj [("geometry", .obj [("type", .str "Polygon"), ("coordinates", .arr [ringJson triangle])])]] []
  (.obj [("id", .str "node/1")]) [triangle] [] .NW .SE ⟨_, rfl, .inl rfl⟩ ⟨_, rfl, .inl rfl⟩ (.inl (.inl ⟨_, rfl, rfl⟩))
  (.cons (.inl ⟨_, [], ⟨_, rfl, rfl⟩, rfl, rfl⟩) .nil) .nil

/-- A `Point` feature makes the import fail, wherever it stands after importable features. -/
theorem C65_refuted (p : Pt) (doc : Json) (fs gs : List Json) (point : Json) (rings : List (List Pt))
    (hd : Document doc (fs ++ point :: gs)) (hfs : List.Forall₂ Contributes fs rings)
    (hp : ∃ g, Carried point (.obj g) ∧ g.lookup "type" = some (.str "Point") ∧
      g.lookup "coordinates" = some (position p)) (txLoc rxLoc : Loc) :
    fromGeojson (.text doc) txLoc rxLoc = .error .typeError := by
  obtain ⟨d, rfl, hd⟩ := hd
  have hd : d.lookup "features" = some (.arr (fs ++ point :: gs)) := by
    rcases hd with hd | ⟨-, hd⟩
    · exact hd
    · simp at hd
  obtain ⟨g, ⟨d', rfl, hd'⟩, ht, hc⟩ := hp
  have hpt : featureWalls (.obj d') = .error .typeError := by
    have hg : g ≠ [] := by rintro rfl; simp at ht
    have hb : (!g.isEmpty) = true := by cases g <;> simp_all
    have h0 : Scene.pyIndex [Json.num (.fin p.x), .num (.fin p.y)] 0 = .ok (.num (.fin p.x)) :=
      pyIndex_ok [Json.num (.fin p.x), .num (.fin p.y)] 0 _ rfl
    simp only [featureWalls, Json.get, hd', Option.getD_some, bind, Except.bind, Json.truthy, Json.item, ht, hc,
      Json.index, position, h0, hb, if_true, Json.len]
  have hall : (fs ++ Json.obj d' :: gs).mapM featureWalls = .error .typeError := by
    rw [List.mapM_append, features_walls fs rings hfs]
    simp [bind, Except.bind, hpt]
  simp [fromGeojson, fromGeojsonText, Json.get, hd, bind, Except.bind, Json.iter, hall]

/-- A feature whose geometry is `null`, `false`, `0` or empty contributes nothing: the other features give the same walls without it. -/
theorem C65_falsy (doc : Json) (fs gs : List Json) (f : Json) (rings rings' : List (List Pt)) (hd : Document doc (fs ++ f :: gs)) (hf : FalsyGeometry f)
    (h1 : List.Forall₂ Contributes fs rings) (h2 : List.Forall₂ Contributes gs rings') (txLoc rxLoc : Loc) :
    fromGeojson (.text doc) txLoc rxLoc = fromGeojson (.text (.obj [("features", .arr (fs ++ gs))])) txLoc rxLoc := by
  obtain ⟨d, rfl, hd⟩ := hd
  have hd : d.lookup "features" = some (.arr (fs ++ f :: gs)) := by
    rcases hd with hd | ⟨-, hd⟩
    · exact hd
    · simp at hd
  obtain ⟨g, ⟨d', rfl, hd'⟩, hg⟩ := hf
  have ht : g.truthy = false := by
    rcases hg with rfl | rfl | rfl | rfl | rfl | rfl <;> simp [Json.truthy, F.zero_eq]
  have hpt : featureWalls (.obj d') = .ok [] := by
    simp [featureWalls, Json.get, hd', bind, Except.bind, ht, pure, Except.pure]
  simp [fromGeojson, fromGeojsonText, Json.get, hd, bind, Except.bind, Json.iter, List.mapM_append, features_walls fs rings h1, hpt,
    features_walls gs rings' h2, pure, Except.pure]

/-- Non-vacuity: the number 0. -/
example := C65_falsy (.obj [("features", .arr [.obj [("geometry", .num (.fin 0))]])]) [] [] _ [] [] ⟨_, rfl, .inl rfl⟩ ⟨_, ⟨_, rfl, rfl⟩, .inr (.inr (.inl rfl))⟩ .nil .nil .NW .SE

/-- Any other geometry without entries makes the whole import fail, wherever the feature stands. -/
theorem C65_scalar (doc : Json) (fs gs : List Json) (f : Json) (rings : List (List Pt)) (hd : Document doc (fs ++ f :: gs)) (hf : ScalarGeometry f)
    (hfs : List.Forall₂ Contributes fs rings) (txLoc rxLoc : Loc) : fromGeojson (.text doc) txLoc rxLoc = .error .typeError := by
  obtain ⟨d, rfl, hd⟩ := hd
  have hd : d.lookup "features" = some (.arr (fs ++ f :: gs)) := by
    rcases hd with hd | ⟨-, hd⟩
    · exact hd
    · simp at hd
  obtain ⟨g, ⟨d', rfl, hd'⟩, hg⟩ := hf
  have ht : g.truthy = true ∧ g.item "type" = .error .typeError := by
    rcases hg with rfl | ⟨x, hx, rfl⟩ | ⟨s, hs, rfl⟩ | ⟨x, xs, rfl⟩
    · simp [Json.truthy, Json.item]
    · refine ⟨?_, rfl⟩
      rcases x with x | _ | _ | _ <;> simp_all [Json.truthy, F.zero_eq, F.eq]
    · simp [Json.truthy, Json.item, hs]
    · simp [Json.truthy, Json.item]
  have hpt : featureWalls (.obj d') = .error .typeError := by
    simp [featureWalls, Json.get, hd', bind, Except.bind, ht.1, ht.2]
  have hall : (fs ++ Json.obj d' :: gs).mapM featureWalls = .error .typeError := by
    rw [List.mapM_append, features_walls fs rings hfs]
    simp [bind, Except.bind, hpt]
  simp [fromGeojson, fromGeojsonText, Json.get, hd, bind, Except.bind, Json.iter, hall]

/-- Non-vacuity: the number 1. -/
example := C65_scalar (.obj [("features", .arr [.obj [("geometry", .num (.fin 1))]])]) [] [] _ [] ⟨_, rfl, .inl rfl⟩
  ⟨_, ⟨_, rfl, rfl⟩, .inr (.inl ⟨F.fin 1, by simp, rfl⟩)⟩ .nil .NW .SE

/-- Non-vacuity: one point. -/
example : fromGeojson (.text (.obj [("features", .arr [.obj [("geometry", .obj [("type", .str "Point"),
    ("coordinates", position ⟨4, 50⟩)])]])])) = .error .typeError :=
  C65_refuted ⟨4, 50⟩ _ [] [] _ [] ⟨_, rfl, .inl rfl⟩ .nil ⟨_, ⟨_, rfl, rfl⟩, rfl, rfl⟩ .NW .SE

end DiffeRT2d.Props
