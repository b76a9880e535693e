import Verif.Spec.Sampler
import Verif.Props.Presets
import Verif.Props.Wall

/-! # Property C131: the training samples of the notebook -/

namespace DiffeRT2d.Props
open Classical Spec

/-- Each wall of the room and of the obstacle turns, about the centre, by the opposite of the angle that `rotate` gets. -/
theorem rotate_square (c : Pt) (o : Pt) (θ : ℝ) :
    (Wall.ofPts o ⟨c.x - (o.y - c.y), c.y + (o.x - c.x)⟩).rotate (F.fin θ) (V2.fin c) =
      Wall.ofPts (rotated c (-θ) o) (rotated c (-θ) ⟨c.x - (o.y - c.y), c.y + (o.x - c.x)⟩) := by
  simp only [rotated, Real.cos_neg, Real.sin_neg]
  ext <;> simp [Wall.rotate, Wall.ofPts] <;> ring

theorem roomWithObstacle_eq (ratio : ℝ) :
    closedPolygon (squareCorners roomCentre 1) ++ closedPolygon (squareCorners roomCentre ratio) =
      (roomWithObstacle ratio).map fun w => Shape.wall w.1 w.2 := by
  simp [closedPolygon, roomWithObstacle, squareCorners, List.rotate]

theorem roomWithObstacle_length (ratio : ℝ) : (roomWithObstacle ratio).length = 8 := by
  simp [roomWithObstacle, squareCorners]

/-- The second end of each wall is its first end turned by a right angle about the centre. -/
theorem roomWithObstacle_quarter (ratio : ℝ) : ∀ w ∈ roomWithObstacle ratio,
    w.2 = ⟨roomCentre.x - (w.1.y - roomCentre.y), roomCentre.y + (w.1.x - roomCentre.x)⟩ := by
  intro w hw
  simp [roomWithObstacle, squareCorners, List.rotate] at hw
  rcases hw with rfl | rfl | rfl | rfl | rfl | rfl | rfl | rfl <;> (ext <;> simp [roomCentre] <;> try ring)

theorem sample_scene (ratio : ℝ) : Scene.squareSceneWithObstacle (F.fin ratio) =
    wallScene [("tx", ⟨1 / 5, 1 / 5⟩)] [("rx", ⟨1 / 2, 3 / 5⟩)] (roomWithObstacle ratio) := by
  have h1 : (⟨0.2, 0.2⟩ : V2 F) = V2.fin ⟨1 / 5, 1 / 5⟩ := by
    simp only [V2.fin, V2.mk.injEq]; constructor <;> (rw [F.ofScientific_eq]; congr 1; norm_num)
  have h2 : (⟨0.5, 0.6⟩ : V2 F) = V2.fin ⟨1 / 2, 3 / 5⟩ := by
    simp only [V2.fin, V2.mk.injEq]; constructor <;> (rw [F.ofScientific_eq]; congr 1; norm_num)
  rw [h1, h2, C67_obstacle, roomWithObstacle_eq]
  rfl

theorem mapM_ok {α β : Type} (f : α → Except PyErr β) (g : α → β) : ∀ (l : List α), (∀ x ∈ l, f x = .ok (g x)) → l.mapM f = .ok (l.map g)
  | [], _ => rfl
  | x :: l, h => by
    rw [List.mapM_cons, h x (by simp), mapM_ok f g l fun y hy => h y (by simp [hy])]
    rfl

/-- Taking the `i`-th wall of the preset and turning it. -/
theorem rotateObject_eq (ratio : ℝ) (i : ℕ) (hi : i < 8) (θ : ℝ) :
    rotateObject (wallScene [("tx", ⟨1 / 5, 1 / 5⟩)] [("rx", ⟨1 / 2, 3 / 5⟩)] (roomWithObstacle ratio)) (V2.fin roomCentre) i (F.fin θ) =
      .ok (Wall.ofPts (turned (-θ) ((roomWithObstacle ratio)[i]'(by rw [roomWithObstacle_length]; exact hi))).1
        (turned (-θ) ((roomWithObstacle ratio)[i]'(by rw [roomWithObstacle_length]; exact hi))).2) := by
  have hi' : i < (roomWithObstacle ratio).length := by rw [roomWithObstacle_length]; exact hi
  have hq := roomWithObstacle_quarter ratio _ (List.getElem_mem hi')
  have hg : (wallScene [("tx", ⟨1 / 5, 1 / 5⟩)] [("rx", ⟨1 / 2, 3 / 5⟩)] (roomWithObstacle ratio)).objects[i]? =
      some (.wall (Wall.ofPts (roomWithObstacle ratio)[i].1 (roomWithObstacle ratio)[i].2)) := by
    simp [wallScene, sceneOf, Scene.make, List.getElem?_eq_getElem hi', Shape.obj]
  have hn : ¬ ((i : ℤ) < 0) := by omega
  unfold rotateObject
  simp only [Scene.pyIndex, hn, if_false, Int.toNat_natCast, hg, bind, Except.bind, Obj.asWall, pure, Except.pure, turned]
  rw [hq, rotate_square]

/-- **C131.** One turn of the generator, whatever its key. The angle of a wall is the *opposite* of the angle that was drawn. -/
theorem C131_step {Key : Type} (J : Jax Key) (hJ : DataContract J) (a b : ℝ) (n : ℤ) (u v : ℝ) (ha : 0 ≤ a) (hab : a ≤ b) (hb : b ≤ 1)
    (hn : 0 ≤ n) (hn8 : n ≤ 8) (huv : u ≤ v) (key : Key) :
    ∃ (key' : Key) (tx rx : Pt) (walls : List (Pt × Pt)), sampleStep J ⟨F.fin a, F.fin b, n, F.fin u, F.fin v⟩ key = .ok (sampleRows tx rx walls, key') ∧
      SampleOf a b n (-v) (-u) tx rx walls := by
  have hl := hJ.split key 6
  match hs : J.split key 6, hl with
  | [k0, k1, k2, k3, k4, k5], _ =>
    obtain ⟨r, hr, hr1, hr2⟩ := hJ.uniform0 k1 a b hab
    obtain ⟨hpl, hp⟩ := hJ.uniform2 k2 2
    match hp2 : J.uniform2 k2 2, hpl with
    | [p, q], _ =>
      rw [hp2] at hp
      obtain ⟨tx, rfl, htx⟩ := hp p (by simp)
      obtain ⟨rx, rfl, hrx⟩ := hp q (by simp)
      have hscene := sample_scene r
      set S := wallScene [("tx", ⟨1 / 5, 1 / 5⟩)] [("rx", ⟨1 / 2, 3 / 5⟩)] (roomWithObstacle r) with hS
      have hlen : S.objects.length = 8 := by
        simp [hS, wallScene, sceneOf, Scene.make, roomWithObstacle_length]
      have hbox : S.bbox = .ok ⟨V2.fin ⟨0, 0⟩, V2.fin ⟨1, 1⟩⟩ := by
        rw [hS, wallScene, ← roomWithObstacle_eq, ← C67_obstacle]
        exact (C67_bbox _ _ (by norm_num [InRoom]) (by norm_num [InRoom]) r (by rw [abs_le]; constructor <;> linarith)).2.2.2
      have hcen : BBox.center ⟨V2.fin ⟨0, 0⟩, V2.fin ⟨1, 1⟩⟩ = V2.fin roomCentre := by
        rw [C25_center]; simp [midpoint, roomCentre]
      obtain ⟨hm1, hm2⟩ := hJ.randint k3 n (8 + 1) (by omega)
      set m := J.randint k3 n (8 + 1) with hm
      have hnd : ((List.range 8).map fun (i : ℕ) => (i : ℤ)).Nodup := by decide
      obtain ⟨hc1, hc2, hc3⟩ := hJ.choice k4 ((List.range 8).map fun (i : ℕ) => (i : ℤ)) m.toNat hnd (by simp; omega)
      set ids := J.choice k4 ((List.range 8).map fun (i : ℕ) => (i : ℤ)) m.toNat with hids
      obtain ⟨ha1, ha2⟩ := hJ.uniform1 k5 m.toNat u v huv
      set angles := J.uniform1 k5 m.toNat (F.fin u) (F.fin v) with hang
      have hidx : ∀ i ∈ ids, ∃ k : ℕ, k < 8 ∧ i = (k : ℤ) := by
        intro i hi
        obtain ⟨k, hk, rfl⟩ := List.mem_map.mp (hc3 i hi)
        exact ⟨k, List.mem_range.mp hk, rfl⟩
      let val : F → ℝ := fun x => match x with | .fin r => r | _ => 0
      let picks : List (ℕ × ℝ) := (ids.zip angles).map fun p => (p.1.toNat, -(val p.2))
      have hpl : picks.length = m.toNat := by simp [picks, hc1, ha1]
      have hmem : ∀ p ∈ ids.zip angles, ∃ (k : ℕ) (t : ℝ), k < 8 ∧ p = ((k : ℤ), F.fin t) ∧ u ≤ t ∧ t ≤ v := by
        rintro ⟨i, x⟩ hp
        obtain ⟨k, hk, rfl⟩ := hidx i (List.of_mem_zip hp).1
        obtain ⟨t, rfl, ht⟩ := ha2 x (List.of_mem_zip hp).2
        exact ⟨k, t, hk, rfl, ht⟩
      let W : ℤ × F → Pt × Pt := fun p => turned (-(val p.2)) ((roomWithObstacle r).getD p.1.toNat (⟨0, 0⟩, ⟨0, 0⟩))
      refine ⟨k0, tx, rx, (ids.zip angles).map W, ?_, htx, hrx, r, picks, hr1, hr2, by omega, by omega, ?_, ?_, ?_⟩
      · have hmap : (ids.zip angles).mapM (fun wa => rotateObject S (V2.fin roomCentre) wa.1 wa.2) =
            .ok ((ids.zip angles).map fun p => Wall.ofPts (W p).1 (W p).2) := by
          refine mapM_ok _ _ _ fun p hp => ?_
          obtain ⟨k, t, hk, rfl, -⟩ := hmem p hp
          rw [hS, rotateObject_eq r k hk t]
          have hk' : k < (roomWithObstacle r).length := by rw [roomWithObstacle_length]; exact hk
          simp only [W, val, Int.toNat_natCast, List.getD_eq_getElem?_getD, List.getElem?_eq_getElem hk', Option.getD_some]
        have hcond : ¬ (m < 0 ∨ (8 : ℤ) < m) := by omega
        unfold sampleStep
        rw [hs]
        simp only [hr, hscene, hbox, bind, Except.bind, hcen, hlen]
        norm_num only [Nat.cast_ofNat]
        rw [show (9 : ℤ) = 8 + 1 by norm_num, ← hm, if_neg hcond, ← hids, ← hang, hmap, hp2]
        simp [sampleRows, List.flatMap_map, Wall.ofPts, pure, Except.pure]
      · have : picks.map Prod.fst = ids.map Int.toNat := by
          simp only [picks, List.map_map]
          rw [show (Prod.fst ∘ fun p : ℤ × F => (p.1.toNat, -val p.2)) = Int.toNat ∘ Prod.fst from rfl, ← List.map_map,
            List.map_fst_zip (by omega)]
        rw [this]
        refine List.Nodup.map_on ?_ hc2
        intro x hx y hy hxy
        obtain ⟨k, -, rfl⟩ := hidx x hx
        obtain ⟨l, -, rfl⟩ := hidx y hy
        simpa using hxy
      · intro p hp
        obtain ⟨x, hx, rfl⟩ := List.mem_map.mp hp
        obtain ⟨k, t, hk, rfl, h1, h2⟩ := hmem x hx
        refine ⟨by simpa using hk, ?_, ?_⟩ <;> (simp only [val]; linarith)
      · simp only [picks, List.map_map]
        refine List.map_congr_left fun p hp => ?_
        obtain ⟨k, t, hk, rfl, -⟩ := hmem p hp
        have hk' : k < (roomWithObstacle r).length := by rw [roomWithObstacle_length]; exact hk
        simp only [W, val, Function.comp, Int.toNat_natCast, List.getD_eq_getElem?_getD, List.getElem?_eq_getElem hk', Option.getD_some, Option.map_some]

/-- **C131.** Reading a sample as a scene gives back its transmitter, its receiver and its walls, in order. -/
theorem C131_scene (tx rx : Pt) (walls : List (Pt × Pt)) :
    sample2Scene (sampleRows tx rx walls) = .ok (wallScene [("tx", tx)] [("rx", rx)] walls) := by
  have h : ∀ ws : List (Pt × Pt), wallRows (ws.flatMap fun w => [V2.fin w.1, V2.fin w.2]) = .ok (ws.map fun w => Wall.ofPts w.1 w.2) := by
    intro ws
    induction ws with
    | nil => rfl
    | cons w ws ih => simp [wallRows, ih, bind, Except.bind, pure, Except.pure, Wall.ofPts]
  simp [sample2Scene, sampleRows, h, bind, Except.bind, pure, Except.pure, wallScene, sceneOf, finPoints]
  rfl

/-- **C131.** The generator never stops: it yields any number of samples from any key, and each of them is as documented, for any range of angles
that contains the opposites of its angles (as the default range does); read as a scene, it is the described scene. -/
theorem C131_samples {Key : Type} (J : Jax Key) (hJ : DataContract J) (a b : ℝ) (n : ℤ) (v : ℝ) (ha : 0 ≤ a) (hab : a ≤ b) (hb : b ≤ 1)
    (hn : 0 ≤ n) (hn8 : n ≤ 8) (hv : 0 ≤ v) (count : ℕ) (key : Key) :
    ∃ samples, randomSamples J ⟨F.fin a, F.fin b, n, F.fin (-v), F.fin v⟩ count key = .ok samples ∧ samples.length = count ∧
      ∀ xys ∈ samples, ∃ tx rx walls, SampleOf a b n (-v) v tx rx walls ∧ xys = sampleRows tx rx walls ∧
        sample2Scene xys = .ok (wallScene [("tx", tx)] [("rx", rx)] walls) := by
  induction count generalizing key with
  | zero => exact ⟨[], rfl, rfl, by simp⟩
  | succ count ih =>
    obtain ⟨key', tx, rx, walls, h, hs⟩ := C131_step J hJ a b n (-v) v ha hab hb hn hn8 (by linarith) key
    obtain ⟨samples, h', hl, hm⟩ := ih key'
    rw [neg_neg] at hs
    refine ⟨sampleRows tx rx walls :: samples, ?_, by simp [hl], ?_⟩
    · simp only [randomSamples, h, h', bind, Except.bind, pure, Except.pure]
    · intro xys hx
      rcases List.mem_cons.mp hx with rfl | hx
      · exact ⟨tx, rx, walls, hs, rfl, C131_scene tx rx walls⟩
      · exact hm xys hx

/-- **C131.** The same for the default arguments: ratios from 0.2 to 0.4, four to eight walls, angles up to a tenth of π. -/
theorem C131_default {Key : Type} (J : Jax Key) (hJ : DataContract J) (count : ℕ) (key : Key) :
    ∃ samples, randomSamples J {} count key = .ok samples ∧ samples.length = count ∧
      ∀ xys ∈ samples, ∃ tx rx walls, SampleOf (1 / 5) (2 / 5) 4 (-(Real.pi / 10)) (Real.pi / 10) tx rx walls ∧ xys = sampleRows tx rx walls ∧
        sample2Scene xys = .ok (wallScene [("tx", tx)] [("rx", rx)] walls) := by
  have h := C131_samples J hJ (1 / 5) (2 / 5) 4 (Real.pi / 10) (by norm_num) (by norm_num) (by norm_num) (by norm_num) (by norm_num)
    (by positivity) count key
  have e : ({} : SampleOpts) = ⟨F.fin (1 / 5), F.fin (2 / 5), 4, F.fin (-(Real.pi / 10)), F.fin (Real.pi / 10)⟩ := by
    have h1 : (0.20 : F) = F.fin (1 / 5) := by rw [F.ofScientific_eq]; congr 1; norm_num
    have h2 : (0.40 : F) = F.fin (2 / 5) := by rw [F.ofScientific_eq]; congr 1; norm_num
    have h3 : -0.1 * Real.pi = -(Real.pi / 10) := by ring
    have h4 : 0.1 * Real.pi = Real.pi / 10 := by ring
    simp only [h1, h2, h3, h4]
  rw [e]
  exact h

/-- **C131.** What a user may rely on in each training scene: a wall keeps its length (1 for the room, the ratio for the obstacle), and its ends keep
their distance to the centre of the room. -/
theorem C131_rigid (a b : ℝ) (n : ℤ) (u v : ℝ) (ha : 0 ≤ a) (tx rx : Pt) (walls : List (Pt × Pt)) (h : SampleOf a b n u v tx rx walls) :
    n ≤ walls.length ∧ walls.length ≤ 8 ∧ ∃ ratio, a ≤ ratio ∧ ratio ≤ b ∧ ∀ w ∈ walls, eucl w.1 w.2 = 1 ∧
      (eucl roomCentre w.1) ^ 2 = 1 / 2 ∧ (eucl roomCentre w.2) ^ 2 = 1 / 2 ∨
      eucl w.1 w.2 = ratio ∧ (eucl roomCentre w.1) ^ 2 = ratio ^ 2 / 2 ∧ (eucl roomCentre w.2) ^ 2 = ratio ^ 2 / 2 := by
  obtain ⟨ratio, picks, h1, h2, h3, h4, -, h6, h7⟩ := h.walls
  have hl : walls.length = picks.length := by simpa using congrArg List.length h7
  refine ⟨by omega, by omega, ratio, h1, h2, ?_⟩
  intro w hw
  have : some w ∈ picks.map fun p => (roomWithObstacle ratio)[p.1]?.map (turned p.2) := h7 ▸ List.mem_map.mpr ⟨w, hw, rfl⟩
  obtain ⟨p, hp, he⟩ := List.mem_map.mp this
  obtain ⟨w₀, hw₀, rfl⟩ := Option.map_eq_some_iff.mp he
  have hr : 0 ≤ ratio := by linarith
  have e1 : ∀ q q' : Pt, eucl (rotated roomCentre p.2 q) (rotated roomCentre p.2 q') = eucl q q' := by
    intro q q'
    simp only [eucl, rotated]
    congr 1
    have := Real.sin_sq_add_cos_sq p.2
    linear_combination ((q'.x - q.x) ^ 2 + (q'.y - q.y) ^ 2) * this
  have e2 : rotated roomCentre p.2 roomCentre = roomCentre := by ext <;> simp [rotated]
  have e3 : ∀ q : Pt, eucl roomCentre (rotated roomCentre p.2 q) = eucl roomCentre q := fun q => by
    have := e1 roomCentre q
    rwa [e2] at this
  simp only [turned, e1, e3]
  have hsq : ∀ q q' : Pt, (eucl q q') ^ 2 = (q'.x - q.x) ^ 2 + (q'.y - q.y) ^ 2 := fun q q' => Real.sq_sqrt (by positivity)
  have hroot : ∀ (q q' : Pt) (l : ℝ), 0 ≤ l → (q'.x - q.x) ^ 2 + (q'.y - q.y) ^ 2 = l ^ 2 → eucl q q' = l := by
    intro q q' l hl e
    rw [eucl, e, Real.sqrt_sq hl]
  have hm := List.mem_of_getElem? hw₀
  simp [roomWithObstacle, squareCorners, List.rotate] at hm
  rcases hm with rfl | rfl | rfl | rfl | rfl | rfl | rfl | rfl
  · left; refine ⟨hroot _ _ _ (by norm_num) ?_, ?_, ?_⟩ <;> (try rw [hsq]) <;> simp only [roomCentre] <;> ring
  · left; refine ⟨hroot _ _ _ (by norm_num) ?_, ?_, ?_⟩ <;> (try rw [hsq]) <;> simp only [roomCentre] <;> ring
  · left; refine ⟨hroot _ _ _ (by norm_num) ?_, ?_, ?_⟩ <;> (try rw [hsq]) <;> simp only [roomCentre] <;> ring
  · left; refine ⟨hroot _ _ _ (by norm_num) ?_, ?_, ?_⟩ <;> (try rw [hsq]) <;> simp only [roomCentre] <;> ring
  · right; refine ⟨hroot _ _ _ hr ?_, ?_, ?_⟩ <;> (try rw [hsq]) <;> simp only [roomCentre] <;> ring
  · right; refine ⟨hroot _ _ _ hr ?_, ?_, ?_⟩ <;> (try rw [hsq]) <;> simp only [roomCentre] <;> ring
  · right; refine ⟨hroot _ _ _ hr ?_, ?_, ?_⟩ <;> (try rw [hsq]) <;> simp only [roomCentre] <;> ring
  · right; refine ⟨hroot _ _ _ hr ?_, ?_, ?_⟩ <;> (try rw [hsq]) <;> simp only [roomCentre] <;> ring

/-- A generator that satisfies the contract: the ends of the ranges, the first indices. -/
noncomputable def firstJax : Jax Unit where
  split _ n := List.replicate n ()
  uniform0 _ a _ := a
  uniform1 _ n a _ := List.replicate n a
  uniform2 _ n := List.replicate n (V2.fin ⟨1 / 4, 1 / 2⟩)
  randint _ a _ := a
  choice _ l n := l.take n
  categorical _ _ := 0

theorem firstJax_contract : DataContract firstJax where
  split _ n := by simp [firstJax]
  uniform0 _ a b h := ⟨a, rfl, le_rfl, h⟩
  uniform1 _ n a b h := ⟨by simp [firstJax], fun x hx => ⟨a, List.eq_of_mem_replicate hx, le_rfl, h⟩⟩
  uniform2 _ n := ⟨by simp [firstJax], fun p hp => ⟨_, List.eq_of_mem_replicate hp, by norm_num [InRoom]⟩⟩
  randint _ a b h := ⟨le_rfl, h⟩
  choice _ l n hl hn := ⟨by simp [firstJax, hn], hl.sublist (List.take_sublist _ _), fun x hx => List.mem_of_mem_take hx⟩

/-- Non-vacuity: ten default samples. -/
example := C131_default firstJax firstJax_contract 10 ()

/-- The corners are on the diagonals. -/
theorem roomWithObstacle_diagonal (ratio : ℝ) (hr : 0 < ratio) : ∀ w ∈ roomWithObstacle ratio,
    (w.1.x - 1 / 2) ^ 2 = (w.1.y - 1 / 2) ^ 2 ∧ (w.1.x - 1 / 2) * (w.1.y - 1 / 2) ≠ 0 := by
  intro w hw
  have : ratio / 2 * (ratio / 2) ≠ 0 := by positivity
  simp [roomWithObstacle, squareCorners, List.rotate, roomCentre] at hw
  rcases hw with rfl | rfl | rfl | rfl | rfl | rfl | rfl | rfl <;> refine ⟨by ring, ?_⟩ <;> norm_num <;> positivity

/-- **C131 (refuted in general).** For a range of angles that is not symmetric the samples are not as documented, because the walls turn the other
way: with `min_angle = max_angle = π/6`, for all other arguments and every key, the sample is not one whose walls have turned by π/6
(counterclockwise, which is what the matrix of `rotate` is for). -/
theorem C131_clockwise_refuted {Key : Type} (J : Jax Key) (hJ : DataContract J) (a b : ℝ) (n : ℤ) (ha : 0 < a) (hab : a ≤ b) (hb : b ≤ 1)
    (hn : 1 ≤ n) (hn8 : n ≤ 8) (key : Key) :
    ∃ (key' : Key) (tx rx : Pt) (walls : List (Pt × Pt)), sampleStep J ⟨F.fin a, F.fin b, n, F.fin (Real.pi / 6), F.fin (Real.pi / 6)⟩ key =
      .ok (sampleRows tx rx walls, key') ∧ ¬ SampleOf a b n (Real.pi / 6) (Real.pi / 6) tx rx walls := by
  obtain ⟨key', tx, rx, walls, h, hs⟩ := C131_step J hJ a b n (Real.pi / 6) (Real.pi / 6) ha.le hab hb (by omega) hn8 le_rfl key
  refine ⟨key', tx, rx, walls, h, fun hs' => ?_⟩
  obtain ⟨r, picks, h1, -, h3, -, -, h6, h7⟩ := hs.walls
  obtain ⟨r', picks', h1', -, h3', -, -, h6', h7'⟩ := hs'.walls
  match walls, picks, picks', h3, h3' with
  | _, [], _, h3, _ => simp at h3; omega
  | _, _, [], _, h3' => simp at h3'; omega
  | [], _ :: _, _, _, _ => simp at h7
  | w :: walls, p :: picks, p' :: picks', _, _ =>
    simp only [List.map_cons, List.cons.injEq] at h7 h7'
    obtain ⟨w₀, hw, e⟩ := Option.map_eq_some_iff.mp h7.1.symm
    obtain ⟨w₁, hw', e'⟩ := Option.map_eq_some_iff.mp h7'.1.symm
    obtain ⟨-, q1, q2⟩ := h6 p (by simp)
    obtain ⟨-, q1', q2'⟩ := h6' p' (by simp)
    have hp : p.2 = -(Real.pi / 6) := le_antisymm q2 q1
    have hp' : p'.2 = Real.pi / 6 := le_antisymm q2' q1'
    rw [hp] at e
    rw [hp'] at e'
    obtain ⟨d1, d2⟩ := roomWithObstacle_diagonal r (by linarith) _ (List.mem_of_getElem? hw)
    obtain ⟨d1', -⟩ := roomWithObstacle_diagonal r' (by linarith) _ (List.mem_of_getElem? hw')
    have hx := congrArg (fun w : Pt × Pt => w.1) (e'.trans e.symm)
    simp only [turned, rotated, roomCentre, V2.mk.injEq, Real.cos_neg, Real.sin_neg, Real.cos_pi_div_six, Real.sin_pi_div_six] at hx
    obtain ⟨ex, ey⟩ := hx
    have h3 : Real.sqrt 3 ^ 2 = 3 := Real.sq_sqrt (by norm_num)
    set X := w₀.1.x - 1 / 2
    set Y := w₀.1.y - 1 / 2
    set X' := w₁.1.x - 1 / 2
    set Y' := w₁.1.y - 1 / 2
    -- the two are related by a rotation of π/3
    have hX : X' = X / 2 + Real.sqrt 3 / 2 * Y := by linear_combination Real.sqrt 3 / 2 * ex + 1 / 2 * ey + (-X' / 4 + X / 4) * h3
    have hY : Y' = -(Real.sqrt 3 / 2) * X + Y / 2 := by linear_combination -1 / 2 * ex + Real.sqrt 3 / 2 * ey + (-Y' / 4 + Y / 4) * h3
    apply d2
    have h0 : 0 < Real.sqrt 3 := by positivity
    rw [hX, hY] at d1'
    have : Real.sqrt 3 * (X * Y) = 0 := by linear_combination d1' / 1 - (1 / 4) * d1 + (X ^ 2 - Y ^ 2) / 4 * h3 + 3 / 4 * d1
    rcases mul_eq_zero.mp this with h | h
    · exact absurd h h0.ne'
    · exact h

/-- Non-vacuity: the default ratios and number of walls. -/
example := C131_clockwise_refuted firstJax firstJax_contract (1 / 5) (2 / 5) 4 (by norm_num) (by norm_num) (by norm_num) (by norm_num) (by norm_num) ()

end DiffeRT2d.Props
