import Verif.Lemmas.Shadow
import Verif.Spec.ZeroGradient
import Verif.Props.Directions
import Verif.Props.Fields
import Verif.Props.Opaque
import Verif.Props.Presets

/-! # C149: the zero-gradient region -/

namespace DiffeRT2d.Props
open Classical Spec

/-- The line of sight, as a ray path. -/
theorem sight_ray_iff (walls : List (Pt × Pt)) (patch : ℝ) (t r : Pt) (c : List ℤ) (pts : List Pt) (hc : c = []) :
    RayPath walls patch t r c pts ↔ pts = [t, r] ∧ ∀ w ∈ walls, ¬Blocks w patch t r := by
  subst hc
  constructor
  · intro h
    match pts, h.count with
    | [a, b], _ =>
      obtain rfl : a = t := by simpa using h.start
      obtain rfl : b = r := by simpa using h.finish
      refine ⟨rfl, fun w hw => ?_⟩
      obtain ⟨j, hj⟩ := List.mem_iff_getElem?.mp hw
      exact h.clear 0 j w a b rfl rfl hj (by simp [Adjacent])
  · rintro ⟨rfl, h⟩
    refine ⟨rfl, rfl, rfl, fun i j w p q q' hi => by simp at hi, fun i j w p q hp hq hw _ => ?_⟩
    match i with
    | 0 =>
      obtain rfl := Option.some.inj hp
      obtain rfl := Option.some.inj hq
      exact h w (List.mem_of_getElem? hw)
    | i + 1 => simp at hq

theorem middle_scene (ratio : ℝ) : Scene.squareSceneWithWall (F.fin ratio) = wallScene [("tx", middleTx)] [("rx", ⟨4 / 5, 1 / 2⟩)] (middleWalls ratio) := by
  have e2 : (⟨0.2, 0.5⟩ : V2 F) = V2.fin middleTx := by
    simp only [V2.fin, middleTx, F.ofScientific_eq]; norm_num
  have e3 : (⟨0.8, 0.5⟩ : V2 F) = V2.fin ⟨4 / 5, 1 / 2⟩ := by
    simp only [V2.fin, F.ofScientific_eq]; norm_num
  unfold Scene.squareSceneWithWall
  rw [e2, e3, squareScene_walls, lit_05]
  simp [Scene.addObjects, Scene.withObjects, wallScene, sceneOf, Scene.make, middleWalls, segment_fin, F.one_eq, F.fin_sub, F.fin_add, F.fin_mul]

/-- Behind the wall nothing is in sight. -/
theorem behind_blocked {ratio : ℝ} (h0 : 0 < ratio) {r : Pt} (h : Behind ratio r) : ∃ w ∈ middleWalls ratio, Blocks w 0 middleTx r := by
  obtain ⟨h1, h2⟩ := h
  have hd : 0 < r.x - 1 / 5 := by linarith
  refine ⟨_, List.mem_append_right _ (List.mem_singleton_self _), blocks_vertical (by linarith) (by norm_num [middleTx]) h1 ((3 / 10) / (r.x - 1 / 5)) ?_ ?_ ?_⟩
  · simp only [middleTx]; rw [div_mul_cancel₀ _ hd.ne']; norm_num
  all_goals
    simp only [middleTx]
    have : |3 / 10 / (r.x - 1 / 5) * (r.y - 1 / 2)| ≤ ratio / 2 := by
      rw [abs_mul, abs_of_pos (by positivity), div_mul_eq_mul_div, div_le_iff₀ hd]; exact h2
    obtain ⟨h3, h4⟩ := abs_le.mp this
    linarith

theorem sight_clear {ratio : ℝ} (h0 : 0 < ratio) {r : Pt} (h : InSight ratio r) : ∀ w ∈ middleWalls ratio, ¬Blocks w 0 middleTx r := by
  obtain ⟨x0, x1, y0, y1, h⟩ := h
  norm_num at x0 x1 y0 y1 h
  intro w hw
  simp only [middleWalls, roomWalls, List.cons_append, List.nil_append, List.mem_cons, List.not_mem_nil, or_false] at hw
  rcases hw with rfl | rfl | rfl | rfl | rfl
  · refine not_blocks_horizontal fun t t0 t1 e => ?_
    simp only [middleTx] at e
    nlinarith
  · refine not_blocks_vertical fun t t0 t1 e => ?_
    simp only [middleTx] at e
    nlinarith
  · refine not_blocks_horizontal fun t t0 t1 e => ?_
    simp only [middleTx] at e
    nlinarith
  · refine not_blocks_vertical fun t t0 t1 e => ?_
    simp only [middleTx] at e
    nlinarith
  · by_cases hx : r.x ≤ 49 / 100
    · refine not_blocks_vertical fun t t0 t1 e => ?_
      simp only [middleTx] at e
      nlinarith
    · have h := h.resolve_left hx
      push Not at hx
      refine not_blocks_off (by linarith) fun t e => ?_
      simp only [middleTx] at e ⊢
      have hd : 0 < r.x - 1 / 5 := by linarith
      have ht : t = 3 / 10 / (r.x - 1 / 5) := by rw [eq_div_iff hd.ne']; linarith
      have h2 : ratio / 2 + ratio / 200 < |t * (r.y - 1 / 2)| := by
        rw [abs_mul, ht, abs_of_pos (by positivity), div_mul_eq_mul_div, lt_div_iff₀ hd]; linarith
      rcases lt_abs.mp h2 with h2 | h2
      · right; linarith
      · left; linarith

theorem middle_off {ratio : ℝ} (h0 : 0 < ratio) {w : Pt × Pt} (hw : w ∈ middleWalls ratio) : w.1 ≠ w.2 ∧ ¬OnLine w.1 w.2 middleTx := by
  simp only [middleWalls, roomWalls, List.cons_append, List.nil_append, List.mem_cons, List.not_mem_nil, or_false] at hw
  rcases hw with rfl | rfl | rfl | rfl | rfl <;>
    refine ⟨fun h => ?_, fun ⟨s, h⟩ => ?_⟩ <;> simp [middleTx, pointAt] at h <;> first | linarith | (norm_num at h)

/-- **C149.** The figure of the zero-gradient region, in line of sight and without approximation, at every receiver. Behind the wall, the power and its gradient are exactly zero; in
sight, the power is that of the line of sight, and the gradient is that of the free space: not zero (it is undefined only where the receiver is the transmitter up to
the guard). -/
theorem C149_figure (G : GraphLib) (hG : GraphContract G) {Key : Type} (split : Key → ℕ → List Key) (key : Option Key) (ratio : ℝ) (h0 : 0 < ratio)
    (E : Env) (he : 0 < E.eps) (ap : Option Bool) (hh : Hard E ap) (kw : Rev.ActKw Rev.Coord) (kw' : ActKw) (hk : SameKw kw kw')
    (coef height : ℝ) (hc : 0 < coef) (hht : 0 < height) :
    ∃ (value : ℝ × ℝ → ℝ) (gradient : ℝ × ℝ → V2 F),
      (∀ r : ℝ × ℝ, ∃ s, (Scene.squareSceneWithWall (F.fin ratio)).withReceivers [("rx", V2.fin ⟨r.1, r.2⟩)] = .ok s ∧
        s.accumulateOverPaths G split (imageMethod Key) { minOrder := 0, maxOrder := 0 } ⟨E, F.fin (1 / 100), F.fin 0, ap, kw'⟩ key (powerFun E coef height) =
          .ok [("tx", "rx", F.fin (value r))]) ∧
      (∀ P : Scene.Grid (ℝ × ℝ), Rev.accumulateOnReceiversGrid (Scene.squareSceneWithWall (F.fin ratio)) G { minOrder := 0, maxOrder := 0 }
        ⟨E, F.fin (1 / 100), F.fin 0, ap, kw⟩ true true (Rev.receivedPower E (F.fin coef) (F.fin height)) (gridX P) (gridY P) =
          .ok [("tx", .both (P.map fun row => row.map fun p => F.fin (value p)) (P.map fun row => row.map gradient))]) ∧
      ∀ r : ℝ × ℝ,
        (Behind ratio ⟨r.1, r.2⟩ → value r = 0 ∧ gradient r = V2.fin ⟨0, 0⟩) ∧
        (InSight ratio ⟨r.1, r.2⟩ → value r = 1 / (height ^ 2 + ((r.1 + E.eps - 1 / 5) ^ 2 + (r.2 + E.eps - 1 / 2) ^ 2)) ∧
          (r ≠ (1 / 5 - E.eps, 1 / 2 - E.eps) →
            gradient r = V2.fin ⟨-(2 * value r ^ 2 * (r.1 + E.eps - 1 / 5)), -(2 * value r ^ 2 * (r.2 + E.eps - 1 / 2))⟩ ∧ gradient r ≠ V2.fin ⟨0, 0⟩)) := by
  obtain ⟨value, gradient, q1, q2⟩ := (C144_sight G hG [("tx", middleTx)] [("rx", ⟨4 / 5, 1 / 2⟩)] (by simp [Distinct]) (by simp [Distinct]) (middleWalls ratio) E ap hh (1 / 100) 0
    kw kw' hk coef height hht).1
  obtain ⟨value', gradient', points, accepted, k1, k2, k3, k4, k5⟩ := C100_receivers G hG [("tx", middleTx)] [("rx", ⟨4 / 5, 1 / 2⟩)] (by simp [Distinct]) (middleWalls ratio) 0 0 le_rfl
    ⟨[], sight_only.mpr rfl⟩ split key E ap hh (1 / 100) 0 kw kw' hk coef height hht
  have hpts : ∀ t r, points t r [] = [t, ⟨r.1, r.2⟩] := by
    intro t r
    obtain ⟨loss, hl⟩ := k3 t r []
    exact (traceImage_iff hl).1
  have hval : ∀ r, value' ("tx", middleTx) r = value ("tx", middleTx) r := by
    intro r
    have h1 := q1 [[r]]
    have h2 := (k2 true [[r]]).1
    rw [h1] at h2
    have h3 : value' ("tx", middleTx) r = value ("tx", middleTx) r ∧ gradient' ("tx", middleTx) r = gradient ("tx", middleTx) r := by simpa using h2.symm
    exact h3.1
  have hsum : ∀ r : ℝ × ℝ, value ("tx", middleTx) r =
      if ∀ w ∈ middleWalls ratio, ¬Blocks w 0 middleTx ⟨r.1, r.2⟩ then 1 / (height ^ 2 + ((r.1 + E.eps - 1 / 5) ^ 2 + (r.2 + E.eps - 1 / 2) ^ 2)) else 0 := by
    intro r
    obtain ⟨rays, len, hm, -, hacc⟩ := C81_power G hG [("tx", middleTx)] [("rx", ⟨r.1, r.2⟩)] (by simp [Distinct]) (by simp [Distinct]) (middleWalls ratio)
      (fun w hw => (middle_off h0 hw).1) 0 0 le_rfl ⟨[], sight_only.mpr rfl⟩ split key E ap hh kw' (1 / 100) 0 (by norm_num) (by norm_num) (by norm_num) coef height hht
      (fun t ht _ _ w hw ho => by
        simp only [List.mem_singleton] at ht
        subst ht
        exact absurd ho (middle_off h0 hw).2)
    have hm' := hm _ (List.mem_singleton_self _) _ (List.mem_singleton_self _)
    have hv : value' ("tx", middleTx) r = ∑ ray ∈ rays middleTx ⟨r.1, r.2⟩, coef ^ ray.1.length / (height ^ 2 + len ray.2 ^ 2) := by
      have := (k1 r).symm.trans hacc
      simpa using this
    have hpos : ∀ ray ∈ rays middleTx ⟨r.1, r.2⟩, 0 < coef ^ ray.1.length / (height ^ 2 + len ray.2 ^ 2) := fun ray _ => by positivity
    have h5 := (k5 _ (List.mem_singleton_self _) r).1
    rw [← hval]
    split_ifs with hb
    · have : 0 < value' ("tx", middleTx) r := by
        rw [hv]
        exact Finset.sum_pos hpos ⟨([], _), (hm' _ _).mpr ⟨sight_only.mpr rfl, (sight_ray_iff _ _ _ _ _ _ rfl).mpr ⟨rfl, hb⟩⟩⟩
      rcases Finset.subset_singleton_iff.mp (show accepted middleTx r ⊆ {[]} from fun c hc => by simp [sight_only.mp ((k4 _ _ _).mp hc).1]) with hA | hA
      · rw [h5, hA] at this; simp at this
      · rw [h5, hA, Finset.sum_singleton, hpts, sight_power]
        unfold eucl
        rw [Real.sq_sqrt (by positivity)]
        simp only [middleTx]
    · rw [hv]
      refine Finset.sum_eq_zero fun ray hr => absurd ?_ hb
      obtain ⟨h1, h2⟩ := (hm' ray.1 ray.2).mp hr
      exact ((sight_ray_iff _ _ _ _ _ _ (sight_only.mp h1)).mp h2).2
  refine ⟨value ("tx", middleTx), gradient ("tx", middleTx), fun r => ⟨wallScene [("tx", middleTx)] [("rx", ⟨r.1, r.2⟩)] (middleWalls ratio), ?_, ?_⟩, fun P => ?_, fun r => ⟨fun hb => ?_, fun hs => ?_⟩⟩
  · rw [middle_scene]
    unfold Scene.withReceivers Scene.bindKwargs
    rw [if_neg (by simp)]; rfl
  · rw [k1 r]; simp [hval]
  · rw [middle_scene]
    exact q1 P
  · obtain ⟨w, hw, hbl⟩ := behind_blocked h0 hb
    have hv : value ("tx", middleTx) r = 0 := by
      rw [hsum, if_neg]
      exact fun h => h w hw hbl
    refine ⟨hv, ?_⟩
    rw [(q2 _ (List.mem_singleton_self _) r).1, hv]
    · simp
    · intro h
      have h1 := congrArg V2.x h
      have h2 := hb.1
      simp only [middleTx] at h1 h2
      linarith
  · have hv := hsum r
    rw [if_pos (sight_clear h0 hs)] at hv
    refine ⟨hv, fun hne => ?_⟩
    have hne' : (⟨r.1, r.2⟩ : Pt) ≠ ⟨middleTx.x - E.eps, middleTx.y - E.eps⟩ := by
      intro h
      apply hne
      have h1 := congrArg V2.x h
      have h2 := congrArg V2.y h
      simp only [middleTx] at h1 h2
      exact Prod.ext h1 h2
    have hg := (q2 _ (List.mem_singleton_self _) r).1 hne'
    refine ⟨hg, fun h => hne ?_⟩
    rw [hg] at h
    have hvp : 0 < value ("tx", middleTx) r := by rw [hv]; positivity
    generalize value ("tx", middleTx) r = v at h hvp
    simp only [V2.fin, V2.mk.injEq, F.fin.injEq, middleTx] at h
    obtain ⟨h1, h2⟩ := h
    have h1 : r.1 + E.eps - 1 / 5 = 0 := by
      rcases mul_eq_zero.mp (neg_eq_zero.mp h1) with h | h
      · have := pow_pos hvp 2; exfalso; linarith
      · exact h
    have h2 : r.2 + E.eps - 1 / 2 = 0 := by
      rcases mul_eq_zero.mp (neg_eq_zero.mp h2) with h | h
      · have := pow_pos hvp 2; exfalso; linarith
      · exact h
    exact Prod.ext (by simp only; linarith) (by simp only; linarith)

/-- C149 speaks, for the default ratio, of the point that the figure marks with a null gradient, and of points in sight on both sides of the wall. -/
example : Behind (3 / 5) ⟨3 / 5, 1 / 2⟩ ∧ InSight (3 / 5) ⟨3 / 10, 1 / 2⟩ ∧ InSight (3 / 5) ⟨11 / 20, 1 / 20⟩ := by
  refine ⟨⟨by norm_num, by norm_num⟩, ?_, ?_⟩ <;> simp only [InSight] <;> norm_num [abs_of_neg]

end DiffeRT2d.Props
