import Verif.Spec.Presets
import Verif.Lemmas.Traversal
import Verif.Lemmas.Length
import Verif.Props.Scene
import Verif.Props.Length
import Verif.Props.BBox
import Verif.Props.GeoJson
import Std.Data.String.ToNat

/-! # Properties C66, C67, C68: random scenes, preset scenes, received power -/

namespace DiffeRT2d.Props
open Classical Spec

/-! ## C66 — random scenes -/

theorem wallEnds_append (xs ys : List Obj) : wallEnds (xs ++ ys) = wallEnds xs ++ wallEnds ys := by
  induction xs with
  | nil => rfl
  | cons o xs ih => cases o <;> simp [wallEnds, ih]

theorem take_two {α : Type} (xs : List α) (k : ℕ) (a b : α) (ha : xs[k]? = some a) (hb : xs[k + 1]? = some b) :
    xs.take (k + 2) = xs.take k ++ [a, b] := by
  rw [List.take_add_one, List.take_add_one, ha, hb]; simp

theorem named_distinct (pre : String) (n : ℕ) : ((List.range n).map fun i => pre ++ Nat.repr i).Nodup := by
  rw [List.nodup_map_iff_inj_on List.nodup_range]
  intro i _ j _ h
  have h2 : (pre ++ Nat.repr i).toList = (pre ++ Nat.repr j).toList := by rw [h]
  rw [String.toList_append, String.toList_append] at h2
  exact Nat.repr_injective (String.toList_injective (List.append_cancel_left h2))

theorem pyIndex_neg {α : Type} (xs : List α) (i : ℕ) (x : α) (hi : i < xs.length)
    (h : xs.reverse[i]? = some x) : Scene.pyIndex xs (-((i : ℤ) + 1)) = .ok x := by
  rw [List.getElem?_reverse hi] at h
  have h1 : (-((i : ℤ) + 1)) < 0 := by omega
  have h2 : ¬ (-((i : ℤ) + 1) + (xs.length : ℤ) < 0) := by omega
  have h3 : (-((i : ℤ) + 1) + (xs.length : ℤ)).toNat = xs.length - 1 - i := by omega
  simp only [Scene.pyIndex, h1, if_true, h2, if_false, h3, h]

/-- A random scene has the requested numbers of elements, with distinct names; the transmitters, the ends of
the walls and the receivers in reverse order are the drawn points, each used exactly once. -/
theorem C66_random {Key : Type} (draw : Key → ℕ → List (V2 F)) (hdraw : ∀ k n, (draw k n).length = n)
    (nTx nWalls nRx : ℕ) (key : Key) :
    ∃ s txs rxs, Scene.randomUniformScene draw nTx nWalls nRx key = .ok s ∧ IsScene s ∧
      s.transmitters.items = .ok txs ∧ s.receivers.items = .ok rxs ∧
      txs.length = nTx ∧ rxs.length = nRx ∧ s.objects.length = nWalls ∧
      (∀ o ∈ s.objects, ∃ w, o = .wall w) ∧
      txs.map Prod.fst = (List.range nTx).map (fun i => "tx_" ++ Nat.repr i) ∧
      rxs.map Prod.fst = (List.range nRx).map (fun i => "rx_" ++ Nat.repr i) ∧
      (txs.map Prod.fst).Nodup ∧ (rxs.map Prod.fst).Nodup ∧
      txs.map Prod.snd ++ wallEnds s.objects ++ (rxs.map Prod.snd).reverse =
        draw key (nTx + 2 * nWalls + nRx) := by
  set pts := draw key (nTx + 2 * nWalls + nRx) with hpts
  have hlen : pts.length = nTx + 2 * nWalls + nRx := hdraw _ _
  set txs : PyDict (V2 F) := ((List.range nTx).map fun i => "tx_" ++ Nat.repr i).zip (pts.take nTx) with htxs
  set rxs : PyDict (V2 F) := ((List.range nRx).map fun i => "rx_" ++ Nat.repr i).zip (pts.reverse.take nRx) with hrxs
  set g : ℕ → Wall := fun i => ⟨pts.getD (2 * i + nTx) V2.nan, pts.getD (2 * i + nTx + 1) V2.nan⟩ with hg
  have hget : ∀ i < nWalls, pts[2 * i + nTx]? = some (pts.getD (2 * i + nTx) V2.nan) ∧
      pts[2 * i + nTx + 1]? = some (pts.getD (2 * i + nTx + 1) V2.nan) := by
    intro i hi
    have h1 : 2 * i + nTx < pts.length := by omega
    have h2 : 2 * i + nTx + 1 < pts.length := by omega
    simp [List.getD, h1, h2]
  have htx1 : txs.map Prod.fst = (List.range nTx).map (fun i => "tx_" ++ Nat.repr i) :=
    List.map_fst_zip (by simp [hlen]; omega)
  have htx2 : txs.map Prod.snd = pts.take nTx := List.map_snd_zip (by simp)
  have hrx1 : rxs.map Prod.fst = (List.range nRx).map (fun i => "rx_" ++ Nat.repr i) :=
    List.map_fst_zip (by simp [hlen])
  have hrx2 : rxs.map Prod.snd = pts.reverse.take nRx := List.map_snd_zip (by simp)
  have hnt : Distinct txs := by unfold Distinct; rw [htx1]; exact named_distinct _ _
  have hnr : Distinct rxs := by unfold Distinct; rw [hrx1]; exact named_distinct _ _
  have hmt : ((List.range nTx).mapM fun (i : ℕ) => do
      pure ("tx_" ++ Nat.repr i, ← Scene.pyIndex pts (i : ℤ)) : Except PyErr (PyDict (V2 F))) = .ok txs := by
    rw [mapM_iff, List.forall₂_iff_get]
    refine ⟨by simp [htxs, hlen]; omega, ?_⟩
    intro i h1 h2
    have hi : i < nTx := by simpa using h1
    have hi' : i < pts.length := by omega
    have := pyIndex_ok pts i _ (List.getElem?_eq_getElem hi')
    simp [htxs, this, bind, Except.bind, pure, Except.pure]
  have hmr : ((List.range nRx).mapM fun (i : ℕ) => do
      pure ("rx_" ++ Nat.repr i, ← Scene.pyIndex pts (-((i : ℤ) + 1))) : Except PyErr (PyDict (V2 F))) = .ok rxs := by
    rw [mapM_iff, List.forall₂_iff_get]
    refine ⟨by simp [hrxs, hlen], ?_⟩
    intro i h1 h2
    have hi : i < nRx := by simpa using h1
    have hi' : i < pts.length := by omega
    have hi'' : i < pts.reverse.length := by simpa using hi'
    have := pyIndex_neg pts i _ hi' (List.getElem?_eq_getElem hi'')
    simp only [List.get_eq_getElem, List.getElem_range, this, bind, Except.bind, pure, Except.pure, hrxs,
      List.getElem_zip, List.getElem_map, List.getElem_take]
  have hmw : ((List.range nWalls).mapM fun (i : ℕ) =>
      Scene.wallOfPoints ((pts.take (2 * i + 2 + nTx)).drop (2 * i + nTx))) = .ok ((List.range nWalls).map g) := by
    rw [mapM_iff, List.forall₂_map_right_iff, List.forall₂_same]
    intro i hi
    obtain ⟨ha, hb⟩ := hget i (by simpa using hi)
    have hk : (pts.take (2 * i + nTx)).length = 2 * i + nTx := by
      rw [List.length_take]
      have := List.mem_range.1 hi
      omega
    rw [show 2 * i + 2 + nTx = (2 * i + nTx) + 2 by ring, take_two pts _ _ _ ha hb, List.drop_append_of_le_length hk.ge,
      List.drop_eq_nil_of_le hk.le]
    rfl
  have hends : ∀ k ≤ nWalls, wallEnds (((List.range k).map g).map Obj.wall) = (pts.drop nTx).take (2 * k) := by
    intro k
    induction k with
    | zero => intro _; rfl
    | succ k ih =>
      intro hk
      obtain ⟨ha, hb⟩ := hget k (by omega)
      rw [List.range_succ, List.map_append, List.map_append, wallEnds_append, ih (by omega)]
      rw [show 2 * (k + 1) = 2 * k + 2 by ring, take_two (pts.drop nTx) (2 * k) _ _
        (by rw [List.getElem?_drop, add_comm, ha]) (by rw [List.getElem?_drop, show nTx + (2 * k + 1) = 2 * k + nTx + 1 by ring, hb])]
      rfl
  refine ⟨Scene.make txs rxs (((List.range nWalls).map g).map Obj.wall), txs, rxs, ?_, ⟨⟨txs, hnt, rfl⟩, ⟨rxs, hnr, rfl⟩⟩,
    items_eq hnt, items_eq hnr, ?_, ?_, ?_, ?_, htx1, hrx1, hnt, hnr, ?_⟩
  · unfold Scene.randomUniformScene
    simp only [← hpts]
    rw [hmt]
    simp only [bind, Except.bind] at hmr ⊢
    rw [hmr, hmw]
    rfl
  · have := congrArg List.length htx1; simpa using this
  · have := congrArg List.length hrx1; simpa using this
  · simp [Scene.make]
  · intro o ho
    simp only [Scene.make, List.mem_map] at ho
    obtain ⟨w, -, rfl⟩ := ho
    exact ⟨w, rfl⟩
  · show txs.map Prod.snd ++ wallEnds (((List.range nWalls).map g).map Obj.wall) ++ _ = _
    rw [htx2, hends nWalls le_rfl, hrx2, List.reverse_take, List.reverse_reverse, List.length_reverse, hlen,
      Nat.add_sub_cancel, List.append_assoc]
    have h1 : (pts.drop nTx).take (2 * nWalls) ++ pts.drop (nTx + 2 * nWalls) = pts.drop nTx := by
      rw [← List.drop_drop, List.take_append_drop]
    rw [h1, List.take_append_drop]

/-- Non-vacuity: a generator that repeats one point. -/
example := C66_random (fun (_ : Unit) n => List.replicate n (V2.fin ⟨1 / 2, 1 / 3⟩)) (by simp) 2 1 1 ()

/-- If the drawn coordinates lie in `[0, 1)`, so do all points of the scene. -/
theorem C66_inside {Key : Type} (draw : Key → ℕ → List (V2 F)) (hdraw : ∀ k n, (draw k n).length = n)
    (hunit : ∀ k n, ∀ p ∈ draw k n, ∃ q : Pt, p = V2.fin q ∧ 0 ≤ q.x ∧ q.x < 1 ∧ 0 ≤ q.y ∧ q.y < 1)
    (nTx nWalls nRx : ℕ) (key : Key) :
    ∃ s txs rxs, Scene.randomUniformScene draw nTx nWalls nRx key = .ok s ∧
      s.transmitters.items = .ok txs ∧ s.receivers.items = .ok rxs ∧
      ∀ p ∈ txs.map Prod.snd ++ wallEnds s.objects ++ rxs.map Prod.snd,
        ∃ q : Pt, p = V2.fin q ∧ 0 ≤ q.x ∧ q.x < 1 ∧ 0 ≤ q.y ∧ q.y < 1 := by
  obtain ⟨s, txs, rxs, h1, -, h2, h3, -, -, -, -, -, -, -, -, h⟩ := C66_random draw hdraw nTx nWalls nRx key
  refine ⟨s, txs, rxs, h1, h2, h3, ?_⟩
  intro p hp
  refine hunit key (nTx + 2 * nWalls + nRx) p ?_
  rw [← h]
  simpa using hp

/-- Non-vacuity: a generator that repeats one point. -/
example := C66_inside (fun (_ : Unit) n => List.replicate n (V2.fin ⟨1 / 2, 1 / 3⟩)) (by simp)
  (by
    intro k n p hp
    rw [List.mem_replicate] at hp
    exact ⟨_, hp.2, by norm_num, by norm_num, by norm_num, by norm_num⟩) 2 1 1 ()

/-- Non-vacuity: a generator of distinct points; two transmitters, one wall, one receiver use the points
0, 1 | 2, 3 | 4. -/
example : ∃ s, Scene.randomUniformScene (fun (_ : Unit) n => (List.range n).map fun i => V2.fin ⟨i, 0⟩) 2 1 1 () =
    .ok s ∧ s.objects = [.wall (Wall.ofPts ⟨(2 : ℕ), 0⟩ ⟨(3 : ℕ), 0⟩)] ∧
      s.receivers.getItem "rx_0" = .ok (V2.fin ⟨(4 : ℕ), 0⟩) := ⟨_, rfl, rfl, rfl⟩

/-! ## C67 — preset scenes -/

theorem lit_05 : (0.5 : F) = F.fin (1 / 2) := by rw [F.ofScientific_eq]; congr 1; norm_num

theorem segment_fin (x y x' y' : ℝ) :
    Scene.segment (.fin x) (.fin y) (.fin x') (.fin y') = (Shape.wall ⟨x, y⟩ ⟨x', y'⟩).obj := rfl

theorem lit_00 : (0.0 : F) = F.fin 0 := by rw [F.ofScientific_eq]; congr 1; norm_num
theorem lit_10 : (1.0 : F) = F.fin 1 := by rw [F.ofScientific_eq]; congr 1; norm_num
theorem lit_04 : (0.4 : F) = F.fin (2 / 5) := by rw [F.ofScientific_eq]; congr 1; norm_num
theorem lit_03 : (0.3 : F) = F.fin (3 / 10) := by rw [F.ofScientific_eq]; congr 1; norm_num
theorem lit_01 : (0.1 : F) = F.fin (1 / 10) := by rw [F.ofScientific_eq]; congr 1; norm_num

/-- The room: the walls of the unit square, closed. -/
theorem C67_square (tx rx : Pt) :
    Scene.squareScene (V2.fin tx) (V2.fin rx) =
      sceneOf [("tx", tx)] [("rx", rx)] (closedPolygon (squareCorners roomCentre 1)) := by
  unfold Scene.squareScene sceneOf
  rw [lit_00, lit_10]
  have : closedPolygon (squareCorners roomCentre 1) =
      [.wall ⟨0, 0⟩ ⟨1, 0⟩, .wall ⟨1, 0⟩ ⟨1, 1⟩, .wall ⟨1, 1⟩ ⟨0, 1⟩, .wall ⟨0, 1⟩ ⟨0, 0⟩] := by
    simp [closedPolygon, squareCorners, roomCentre, List.rotate]
    norm_num
  rw [this]
  rfl

/-- `square_scene_with_wall` adds the vertical wall with centre the centre of the room and length `|ratio|`. -/
theorem C67_wall (ratio : ℝ) (tx rx : Pt) :
    ∃ a b : Pt, Scene.squareSceneWithWall (F.fin ratio) (V2.fin tx) (V2.fin rx) =
        sceneOf [("tx", tx)] [("rx", rx)] (closedPolygon (squareCorners roomCentre 1) ++ [.wall a b]) ∧
      a.x = b.x ∧ midpoint a b = roomCentre ∧ eucl a b = |ratio| ∧ b.y - a.y = ratio := by
  refine ⟨⟨1 / 2, 1 / 2 * (1 - ratio)⟩, ⟨1 / 2, 1 / 2 * (1 + ratio)⟩, ?_, rfl, ?_, ?_, ?_⟩
  · unfold Scene.squareSceneWithWall
    rw [C67_square, lit_05]
    simp only [F.one_eq, F.fin_sub, F.fin_add, F.fin_mul, segment_fin, Scene.addObjects, Scene.withObjects,
      sceneOf, Scene.make, List.map_append, List.map_cons, List.map_nil]
  · simp only [midpoint, roomCentre]; congr 1 <;> ring
  · simp only [eucl]
    rw [show (1 / 2 - 1 / 2 : ℝ) ^ 2 + (1 / 2 * (1 + ratio) - 1 / 2 * (1 - ratio)) ^ 2 = ratio ^ 2 by ring,
      Real.sqrt_sq_eq_abs]
  · simp; ring

/-- `square_scene_with_obstacle` adds the closed axis-aligned square with centre the centre of the room and side
`|ratio|`. -/
theorem C67_obstacle (ratio : ℝ) (tx rx : Pt) :
    Scene.squareSceneWithObstacle (F.fin ratio) (V2.fin tx) (V2.fin rx) =
      sceneOf [("tx", tx)] [("rx", rx)]
        (closedPolygon (squareCorners roomCentre 1) ++ closedPolygon (squareCorners roomCentre ratio)) := by
  unfold Scene.squareSceneWithObstacle
  rw [C67_square, lit_05]
  have : closedPolygon (squareCorners roomCentre ratio) =
      [.wall ⟨1 / 2 - 1 / 2 * ratio, 1 / 2 - 1 / 2 * ratio⟩ ⟨1 / 2 + 1 / 2 * ratio, 1 / 2 - 1 / 2 * ratio⟩,
       .wall ⟨1 / 2 + 1 / 2 * ratio, 1 / 2 - 1 / 2 * ratio⟩ ⟨1 / 2 + 1 / 2 * ratio, 1 / 2 + 1 / 2 * ratio⟩,
       .wall ⟨1 / 2 + 1 / 2 * ratio, 1 / 2 + 1 / 2 * ratio⟩ ⟨1 / 2 - 1 / 2 * ratio, 1 / 2 + 1 / 2 * ratio⟩,
       .wall ⟨1 / 2 - 1 / 2 * ratio, 1 / 2 + 1 / 2 * ratio⟩ ⟨1 / 2 - 1 / 2 * ratio, 1 / 2 - 1 / 2 * ratio⟩] := by
    have h : ratio / 2 = 1 / 2 * ratio := by ring
    simp [closedPolygon, squareCorners, roomCentre, List.rotate, h]
  rw [this]
  simp only [F.fin_sub, F.fin_add, F.fin_mul, segment_fin, Scene.addObjects, Scene.withObjects, sceneOf, Scene.make,
    List.map_append, List.map_cons, List.map_nil]

/-- The sides of a square have length `|s|`, are horizontal or vertical, and its corners have their mean in the
centre. -/
theorem C67_square_sides (c : Pt) (s : ℝ) :
    (∀ w ∈ closedPolygon (squareCorners c s), ∃ a b : Pt, w = .wall a b ∧ eucl a b = |s| ∧ (a.x = b.x ∨ a.y = b.y)) ∧
      (∀ i a b, (closedPolygon (squareCorners c s))[i]? = some (.wall a b) →
        ∃ d : Pt, (closedPolygon (squareCorners c s))[(i + 1) % 4]? = some (.wall b d)) ∧
      ((squareCorners c s).map V2.x).sum / 4 = c.x ∧ ((squareCorners c s).map V2.y).sum / 4 = c.y := by
  refine ⟨?_, ?_, ?_, ?_⟩
  · have hs : Real.sqrt (s ^ 2) = |s| := Real.sqrt_sq_eq_abs s
    intro w hw
    simp only [closedPolygon, squareCorners, List.rotate, List.length_cons, List.length_nil, List.zipWith_cons_cons,
      List.zipWith_nil_right, List.mem_cons, List.not_mem_nil, or_false] at hw
    simp at hw
    rcases hw with rfl | rfl | rfl | rfl
    · exact ⟨_, _, rfl, by rw [eucl, ← hs]; congr 1; ring, .inr rfl⟩
    · exact ⟨_, _, rfl, by rw [eucl, ← hs]; congr 1; ring, .inl rfl⟩
    · exact ⟨_, _, rfl, by rw [eucl, ← hs]; congr 1; ring, .inr rfl⟩
    · exact ⟨_, _, rfl, by rw [eucl, ← hs]; congr 1; ring, .inl rfl⟩
  · intro i a b h
    match i, h with
    | 0, h | 1, h | 2, h | 3, h =>
      simp [closedPolygon, squareCorners, List.rotate] at h ⊢
      simp [h]
    | n + 4, h => simp [closedPolygon, squareCorners, List.rotate] at h
  · simp [squareCorners]; ring
  · simp [squareCorners]; ring

/-- `basic_scene`: the closed room and three walls inside it. -/
theorem C67_basic (tx rx : Pt) :
    ∃ inner : List Shape, Scene.basicScene (V2.fin tx) (V2.fin rx) =
        sceneOf [("tx", tx)] [("rx", rx)] (closedPolygon (squareCorners roomCentre 1) ++ inner) ∧
      inner.length = 3 ∧ ∀ w ∈ inner, ∀ p ∈ w.points, InRoom p := by
  refine ⟨[.wall ⟨2 / 5, 0⟩ ⟨2 / 5, 2 / 5⟩, .wall ⟨2 / 5, 2 / 5⟩ ⟨3 / 10, 2 / 5⟩, .wall ⟨1 / 10, 2 / 5⟩ ⟨0, 2 / 5⟩], ?_, rfl, ?_⟩
  · have h := C67_square tx rx
    have ho : Scene.basicScene (V2.fin tx) (V2.fin rx) = (Scene.squareScene (V2.fin tx) (V2.fin rx)).addObjects
        [Scene.segment 0.4 0.0 0.4 0.4, Scene.segment 0.4 0.4 0.3 0.4, Scene.segment 0.1 0.4 0.0 0.4] := rfl
    rw [ho, h, lit_00, lit_01, lit_03, lit_04]
    simp only [segment_fin, Scene.addObjects, Scene.withObjects, sceneOf, Scene.make, List.map_append, List.map_cons,
      List.map_nil]
  · intro w hw p hp
    simp only [List.mem_cons, List.not_mem_nil, or_false] at hw
    rcases hw with rfl | rfl | rfl <;>
      · simp only [Shape.points, List.mem_cons, List.not_mem_nil, or_false] at hp
        rcases hp with rfl | rfl <;> norm_num [InRoom]

theorem box_room (tx rx : Pt) (inner : List Shape) (ht : InRoom tx) (hr : InRoom rx)
    (hin : ∀ w ∈ inner, ∀ p ∈ w.points, InRoom p) :
    (sceneOf [("tx", tx)] [("rx", rx)] (closedPolygon (squareCorners roomCentre 1) ++ inner)).bbox =
      .ok ⟨V2.fin ⟨0, 0⟩, V2.fin ⟨1, 1⟩⟩ := by
  obtain ⟨b, hb, htight⟩ := C25_scene [("tx", tx)] [("rx", rx)] (by simp [Distinct]) (by simp [Distinct])
    (closedPolygon (squareCorners roomCentre 1) ++ inner) (by simp)
  rw [hb]
  congr 1
  refine C25_unique _ _ _ htight ?_
  have hroom : closedPolygon (squareCorners roomCentre 1) =
      [.wall ⟨0, 0⟩ ⟨1, 0⟩, .wall ⟨1, 0⟩ ⟨1, 1⟩, .wall ⟨1, 1⟩ ⟨0, 1⟩, .wall ⟨0, 1⟩ ⟨0, 0⟩] := by
    simp [closedPolygon, squareCorners, roomCentre, List.rotate]
    norm_num
  rw [hroom]
  refine ⟨⟨0, 0⟩, ⟨1, 1⟩, rfl, ?_, ⟨⟨0, 0⟩, ?_, rfl⟩, ⟨⟨1, 0⟩, ?_, rfl⟩, ⟨⟨0, 0⟩, ?_, rfl⟩, ⟨⟨0, 1⟩, ?_, rfl⟩⟩
  · intro p hp
    simp only [List.map_cons, List.map_nil, List.cons_append, List.nil_append, List.flatMap_cons, List.mem_cons,
      Shape.points, List.mem_flatMap, List.flatMap_append, List.flatMap_nil, List.mem_append] at hp
    rcases hp with rfl | rfl | rfl | rfl | rfl | rfl | rfl | rfl | rfl | rfl | ⟨w, hw, hpw⟩
    · exact ht
    · exact hr
    all_goals first | exact hin w hw p hpw | norm_num
  all_goals simp [Shape.points]

/-- The bounding box of the preset scenes is the unit square, for transmitter and receiver in the room and
`|ratio| ≤ 1`. -/
theorem C67_bbox (tx rx : Pt) (ht : InRoom tx) (hr : InRoom rx) (ratio : ℝ) (hratio : |ratio| ≤ 1) :
    (Scene.squareScene (V2.fin tx) (V2.fin rx)).bbox = .ok ⟨V2.fin ⟨0, 0⟩, V2.fin ⟨1, 1⟩⟩ ∧
    (Scene.basicScene (V2.fin tx) (V2.fin rx)).bbox = .ok ⟨V2.fin ⟨0, 0⟩, V2.fin ⟨1, 1⟩⟩ ∧
    (Scene.squareSceneWithWall (F.fin ratio) (V2.fin tx) (V2.fin rx)).bbox = .ok ⟨V2.fin ⟨0, 0⟩, V2.fin ⟨1, 1⟩⟩ ∧
    (Scene.squareSceneWithObstacle (F.fin ratio) (V2.fin tx) (V2.fin rx)).bbox = .ok ⟨V2.fin ⟨0, 0⟩, V2.fin ⟨1, 1⟩⟩ := by
  have hr1 := abs_le.1 hratio
  refine ⟨?_, ?_, ?_, ?_⟩
  · rw [C67_square]
    simpa using box_room tx rx [] ht hr (by simp)
  · obtain ⟨inner, h, -, hin⟩ := C67_basic tx rx
    rw [h]
    exact box_room tx rx inner ht hr hin
  · obtain ⟨a, b, h, hx, hm, -, hy⟩ := C67_wall ratio tx rx
    rw [h]
    refine box_room tx rx _ ht hr ?_
    simp only [midpoint, roomCentre, V2.mk.injEq] at hm
    intro w hw p hp
    simp only [List.mem_singleton] at hw
    subst hw
    simp only [Shape.points, List.mem_cons, List.not_mem_nil, or_false] at hp
    rcases hp with rfl | rfl <;> (refine ⟨?_, ?_, ?_, ?_⟩ <;> linarith [hm.1, hm.2])
  · rw [C67_obstacle]
    refine box_room tx rx _ ht hr ?_
    intro w hw p hp
    simp [closedPolygon, squareCorners, List.rotate, roomCentre] at hw
    rcases hw with rfl | rfl | rfl | rfl <;>
      · simp only [Shape.points, List.mem_cons, List.not_mem_nil, or_false] at hp
        rcases hp with rfl | rfl <;> (refine ⟨?_, ?_, ?_, ?_⟩ <;> dsimp <;> linarith)

/-- Non-vacuity: the default transmitter of `square_scene` and another point. -/
example := C67_bbox ⟨1 / 5, 1 / 5⟩ ⟨1 / 2, 3 / 5⟩ (by norm_num [InRoom]) (by norm_num [InRoom]) (1 / 10) (by norm_num [abs_le])

/-- Selecting a preset by name calls it with the given arguments; only the presets with an inner wall or
obstacle accept a ratio. -/
theorem C67_by_name (ratio : F) (tx rx : V2 F) :
    Scene.fromSceneName "basic_scene" { txCoords := some tx, rxCoords := some rx } = some (.ok (Scene.basicScene tx rx)) ∧
    Scene.fromSceneName "square_scene" { txCoords := some tx, rxCoords := some rx } = some (.ok (Scene.squareScene tx rx)) ∧
    Scene.fromSceneName "square_scene_with_wall" ⟨some ratio, some tx, some rx⟩ =
      some (.ok (Scene.squareSceneWithWall ratio tx rx)) ∧
    Scene.fromSceneName "square_scene_with_obstacle" ⟨some ratio, some tx, some rx⟩ =
      some (.ok (Scene.squareSceneWithObstacle ratio tx rx)) ∧
    Scene.fromSceneName "basic_scene" {} = some (.ok Scene.basicScene) ∧
    Scene.fromSceneName "square_scene" {} = some (.ok Scene.squareScene) ∧
    Scene.fromSceneName "square_scene_with_wall" {} = some (.ok Scene.squareSceneWithWall) ∧
    Scene.fromSceneName "square_scene_with_obstacle" {} = some (.ok Scene.squareSceneWithObstacle) ∧
    Scene.fromSceneName "basic_scene" ⟨some ratio, some tx, some rx⟩ = some (.error .typeError) ∧
    Scene.fromSceneName "square_scene" ⟨some ratio, some tx, some rx⟩ = some (.error .typeError) := by
  refine ⟨?_, ?_, ?_, ?_, ?_, ?_, ?_, ?_, ?_, ?_⟩ <;> simp [Scene.fromSceneName]

/-- Non-vacuity: the default transmitter of `square_scene` is in the room; the ratio of the obstacle is at most
one. -/
example : InRoom ⟨1 / 5, 1 / 5⟩ ∧ |(1 / 10 : ℝ)| ≤ 1 := by
  refine ⟨by norm_num [InRoom], ?_⟩
  rw [abs_le]; norm_num

/-! ## C68 — received power -/

theorem npow_fin (c : ℝ) (n : ℕ) : (F.fin c).npow n = F.fin (c ^ n) := by
  induction n using Nat.strong_induction_on with
  | _ n ih =>
    match n with
    | 0 => simp [F.npow]
    | 1 => simp [F.npow]
    | n + 2 => rw [F.npow, ih (n + 1) (by omega), F.fin_mul, ← pow_succ]

/-- The value: reflection coefficient to the number of interactions, over height² + length². -/
theorem C68_value (E : Env) (tx rx : V2 F) (objects : List Interactable) (pts : List Pt) (loss : F)
    (h2 : 2 ≤ pts.length) (c height : ℝ) (hh : 0 < height) :
    ∃ L : ℝ, (Path.mk (pts.map V2.fin) loss).length E = F.fin L ∧ 0 ≤ L ∧
      receivedPower E tx rx ⟨pts.map V2.fin, loss⟩ objects (F.fin c) (F.fin height) =
        F.fin (c ^ (pts.length - 2) / (height ^ 2 + L ^ 2)) := by
  obtain ⟨L, hL, h0, -⟩ := C13_close E pts
  refine ⟨L, hL, h0, ?_⟩
  unfold receivedPower
  have hn : (0 : ℤ) ≤ ((List.map V2.fin pts).length : ℤ) - 2 := by rw [List.length_map]; omega
  have hn' : (((List.map V2.fin pts).length : ℤ) - 2).toNat = pts.length - 2 := by rw [List.length_map]; omega
  simp only [Path.length, hL, F.ipow, hn, if_true, hn', npow_fin, F.fin_mul, F.fin_add]
  rw [F.fin_div _ (by nlinarith)]
  congr 2; ring

/-- Non-vacuity: one reflection and the default height. -/
example (E : Env) (tx rx : V2 F) (os : List Interactable) :=
  C68_value E tx rx os [⟨0, 0⟩, ⟨1, 0⟩, ⟨1, 1⟩] 0 (by simp) (1 / 2) (1 / 10) (by norm_num)

/-- For a non-zero coefficient the law holds for every path, even one with fewer than two points, whose number of interactions is negative. -/
theorem C68_any (E : Env) (tx rx : V2 F) (objects : List Interactable) (pts : List Pt) (loss : F)
    (c height : ℝ) (hc : c ≠ 0) (hh : 0 < height) :
    ∃ L : ℝ, (Path.mk (pts.map V2.fin) loss).length E = F.fin L ∧ 0 ≤ L ∧
      receivedPower E tx rx ⟨pts.map V2.fin, loss⟩ objects (F.fin c) (F.fin height) =
        F.fin (c ^ ((pts.length : ℤ) - 2) / (height ^ 2 + L ^ 2)) := by
  rcases Nat.lt_or_ge pts.length 2 with h | h
  · obtain ⟨L, hL, h0, -⟩ := C13_close E pts
    refine ⟨L, hL, h0, ?_⟩
    unfold receivedPower
    have hp : F.ipow (F.fin c) ((pts.length : ℤ) - 2) = F.fin (c ^ ((pts.length : ℤ) - 2)) := by
      have hn : ¬(0 : ℤ) ≤ (pts.length : ℤ) - 2 := by omega
      rw [F.ipow, if_neg hn, npow_fin, F.one_eq, F.fin_div _ (pow_ne_zero _ hc), F.fin_inj]
      have : ((pts.length : ℤ) - 2) = -((-((pts.length : ℤ) - 2)).toNat : ℤ) := by omega
      conv_rhs => rw [this, zpow_neg, zpow_natCast]
      rw [one_div]
    simp only [List.length_map, hp, Path.length, hL, F.fin_mul, F.fin_add]
    rw [F.fin_div _ (by nlinarith)]
    congr 2; ring
  · obtain ⟨L, h1, h2, h3⟩ := C68_value E tx rx objects pts loss h c height hh
    refine ⟨L, h1, h2, h3.trans ?_⟩
    congr 2
    rw [show ((pts.length : ℤ) - 2) = ((pts.length - 2 : ℕ) : ℤ) by omega, zpow_natCast]

/-- Non-vacuity: a path of one point. -/
example (E : Env) (tx rx : V2 F) (os : List Interactable) := C68_any E tx rx os [⟨0, 0⟩] 0 (1 / 2) (1 / 10) (by norm_num) (by norm_num)

/-- Between 0 and 1/height². -/
theorem C68_bounds (E : Env) (tx rx : V2 F) (objects : List Interactable) (pts : List Pt) (loss : F)
    (h2 : 2 ≤ pts.length) (c height : ℝ) (hc : 0 ≤ c) (hc1 : c ≤ 1) (hh : 0 < height) :
    ∃ P : ℝ, receivedPower E tx rx ⟨pts.map V2.fin, loss⟩ objects (F.fin c) (F.fin height) = F.fin P ∧
      0 ≤ P ∧ P ≤ 1 / height ^ 2 ∧ (0 < c → 0 < P) := by
  obtain ⟨L, -, h0, h⟩ := C68_value E tx rx objects pts loss h2 c height hh
  refine ⟨_, h, by positivity, ?_, fun hcp => by positivity⟩
  have h3 : c ^ (pts.length - 2) ≤ 1 := pow_le_one₀ hc hc1
  exact div_le_div₀ zero_le_one h3 (by positivity) (by nlinarith)

/-- Non-vacuity: one reflection. -/
example (E : Env) (tx rx : V2 F) (os : List Interactable) :=
  C68_bounds E tx rx os [⟨0, 0⟩, ⟨1, 0⟩, ⟨1, 1⟩] 0 (by simp) (1 / 2) (1 / 10) (by norm_num) (by norm_num) (by norm_num)

/-- A path at least as long with at least as many interactions receives at most as much power. -/
theorem C68_monotone (E : Env) (tx rx tx' rx' : V2 F) (objects objects' : List Interactable) (pts pts' : List Pt)
    (loss loss' : F) (h2 : 2 ≤ pts.length) (c height : ℝ) (hc : 0 ≤ c) (hc1 : c ≤ 1) (hh : 0 < height)
    (hlen : F.le ((Path.mk (pts.map V2.fin) loss).length E) ((Path.mk (pts'.map V2.fin) loss').length E) = true)
    (hn : pts.length ≤ pts'.length) :
    F.le (receivedPower E tx' rx' ⟨pts'.map V2.fin, loss'⟩ objects' (F.fin c) (F.fin height))
      (receivedPower E tx rx ⟨pts.map V2.fin, loss⟩ objects (F.fin c) (F.fin height)) = true := by
  obtain ⟨L, hL, h0, h⟩ := C68_value E tx rx objects pts loss h2 c height hh
  obtain ⟨L', hL', h0', h'⟩ := C68_value E tx' rx' objects' pts' loss' (h2.trans hn) c height hh
  rw [h, h', F.le_fin, decide_eq_true_eq]
  rw [hL, hL', F.le_fin, decide_eq_true_eq] at hlen
  refine div_le_div₀ (by positivity) (pow_le_pow_of_le_one hc hc1 (by omega)) (by positivity) ?_
  nlinarith

/-- Non-vacuity: a path and itself. -/
example (E : Env) (tx rx : V2 F) (os : List Interactable) :=
  C68_monotone E tx rx tx rx os os [⟨0, 0⟩, ⟨1, 0⟩, ⟨1, 1⟩] [⟨0, 0⟩, ⟨1, 0⟩, ⟨1, 1⟩] 0 0 (by simp) (1 / 2) (1 / 10) (by norm_num) (by norm_num)
    (by norm_num) (by
      obtain ⟨L, hL, -⟩ := C68_value E tx rx os [⟨0, 0⟩, ⟨1, 0⟩, ⟨1, 1⟩] 0 (by simp) (1 / 2) (1 / 10) (by norm_num)
      rw [hL]; simp [F.le]) le_rfl

/-- Nothing but the coordinates of the path matters. -/
theorem C68_only_path (E : Env) (tx rx tx' rx' : V2 F) (objects objects' : List Interactable) (xys : List (V2 F))
    (loss loss' : F) (c height : F) :
    receivedPower E tx rx ⟨xys, loss⟩ objects c height = receivedPower E tx' rx' ⟨xys, loss'⟩ objects' c height := rfl

/-- With the default parameters the power is at most `P0` = 100; it is 100 exactly at zero distance in
line of sight, if no offset is added to the differences; the offset that the code adds makes it smaller. -/
theorem C68_P0 (E : Env) (p : Pt) (tx rx : V2 F) (objects : List Interactable) (loss : F) :
    P0 = F.fin 100 ∧
    (∀ pts : List Pt, 2 ≤ pts.length →
      F.le (receivedPower E tx rx ⟨pts.map V2.fin, loss⟩ objects) P0 = true) ∧
    receivedPower E tx rx ⟨[V2.fin p, V2.fin p], loss⟩ objects = F.fin (1 / (1 / 100 + 2 * E.eps ^ 2)) ∧
    (E.eps = 0 → receivedPower E tx rx ⟨[V2.fin p, V2.fin p], loss⟩ objects = P0) := by
  have hP : P0 = F.fin 100 := by unfold P0; rw [F.ofScientific_eq]; congr 1; norm_num
  have hR : DEFAULT_R_COEF = F.fin (1 / 2) := lit_05
  have hH : DEFAULT_HEIGHT = F.fin (1 / 10) := lit_01
  have hz : receivedPower E tx rx ⟨[V2.fin p, V2.fin p], loss⟩ objects = F.fin (1 / (1 / 100 + 2 * E.eps ^ 2)) := by
    obtain ⟨L, hL, h0, h⟩ := C68_value E tx rx objects [p, p] loss le_rfl (1 / 2) (1 / 10) (by norm_num)
    have hL2 : L ^ 2 = 2 * E.eps ^ 2 := by
      have hs : L = Real.sqrt (2 * E.eps ^ 2) := by
        have h1 : (Path.mk ([p, p].map V2.fin) loss).length E = F.fin (Real.sqrt (2 * E.eps ^ 2)) := by
          show pathLength E ([p, p].map V2.fin) = _
          rw [pathLength_fin]
          congr 1
          rw [show 2 * E.eps ^ 2 = E.eps * E.eps + E.eps * E.eps by ring]
          simp [plen, nrm]
        rw [hL] at h1
        exact F.fin_inj.1 h1
      rw [hs, Real.sq_sqrt (by positivity)]
    rw [hR, hH]
    simp only [List.map_cons, List.map_nil] at h
    rw [h, hL2]
    norm_num
  refine ⟨hP, ?_, hz, ?_⟩
  · intro pts h2
    obtain ⟨P, h, -, h1, -⟩ := C68_bounds E tx rx objects pts loss h2 (1 / 2) (1 / 10) (by norm_num) (by norm_num)
      (by norm_num)
    rw [hR, hH, h, hP, F.le_fin, decide_eq_true_eq]
    norm_num at h1 ⊢
    exact h1
  · intro he
    rw [hz, he, hP]
    norm_num

/-- Non-vacuity: a path with one reflection and its line of sight path. -/
example : 2 ≤ ([⟨0, 0⟩, ⟨1, 1⟩] : List Pt).length ∧
    ([⟨0, 0⟩, ⟨1, 1⟩] : List Pt).length ≤ ([⟨0, 0⟩, ⟨1, 0⟩, ⟨1, 1⟩] : List Pt).length := by simp

end DiffeRT2d.Props
