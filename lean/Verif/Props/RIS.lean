import Verif.Lemmas.RIS
import Verif.Lemmas.Argmin
import Verif.Props.GradPaths
import Verif.Props.Diffraction
import Mathlib.Analysis.Calculus.Deriv.MeanValue

/-! # C128 — what a RIS serves -/

namespace DiffeRT2d.Props
open Classical Spec

/-! ## The score of a RIS -/

/-- The normal of a wall, as a real vector. -/
theorem normal_eq {o d n : Pt} (hn : (Wall.ofPts o d).normal = V2.fin n) : n = rn o d := by
  rw [normal_fin] at hn
  exact (V2.fin_inj.mp hn).symm

/-- **C128** (score). For a tolerance up to 1, the RIS accepts the step from its point `b` to `c` exactly when `c` is in the narrow cone around its beam,
whatever the point the ray comes from. -/
theorem C128_score (o d n : Pt) (hod : o ≠ d) (hn : (Wall.ofPts o d).normal = V2.fin n) (φ : ℝ) (a : V2 F) (b c : Pt) (tol : ℝ) (h1 : tol ≤ 1) :
    Lt ((RIS.mk (Wall.ofPts o d) (F.fin φ)).evaluate a (V2.fin b) (V2.fin c)) (F.fin tol) ↔ InCone (beam n φ) (1 - tol / 2) b c := by
  obtain rfl := normal_eq hn
  unfold InCone
  by_cases hbc : b = c
  · subst hbc
    rw [ris_score_self hod, ← F.lt_iff]
    have e1 : eucl b b = 0 := by simp [eucl]
    have e2 : advance (beam (rn o d) φ) b b = 0 := by simp [advance]
    rw [e1, e2]
    simpa using h1
  · rw [ris_score hod φ a hbc, ← F.lt_iff]
    have hp := eucl_pos' hbc
    have : F.lt (F.fin (2 - 2 * (advance (beam (rn o d) φ) b c / eucl b c))) (F.fin tol) = true ↔ 2 - 2 * (advance (beam (rn o d) φ) b c / eucl b c) < tol := by simp
    rw [this, ← lt_div_iff₀ hp]
    constructor <;> intro h <;> linarith

/-- **C128** (mirror). A RIS whose beam is the mirror image of the incoming direction scores like a wall. -/
theorem C128_mirror (o d n : Pt) (hod : o ≠ d) (hn : (Wall.ofPts o d).normal = V2.fin n) (φ : ℝ) (a b c i : Pt) (hi : IsDirection (b - a) i)
    (hφ : beam n φ = ⟨i.x - 2 * (i.x * n.x + i.y * n.y) * n.x, i.y - 2 * (i.x * n.x + i.y * n.y) * n.y⟩) :
    (RIS.mk (Wall.ofPts o d) (F.fin φ)).evaluate (V2.fin a) (V2.fin b) (V2.fin c) = (Wall.ofPts o d).evaluate (V2.fin a) (V2.fin b) (V2.fin c) := by
  obtain rfl := normal_eq hn
  obtain rfl := IsDirection.eq_unit hi
  rw [ris_beam hod, hφ, evaluate_fin, F.fin_inj]
  simp only [dp, reval, V2.sub_x, V2.sub_y, V2.smul_x, V2.smul_y]
  ring


/-- **C128** (turn over). Swapping the ends of a RIS turns its beam around: the score becomes 4 minus the score. A wall does not change. -/
theorem C128_reversed (o d : Pt) (hod : o ≠ d) (φ : ℝ) (a : V2 F) (b c : Pt) (hbc : b ≠ c) :
    ∃ x : ℝ, (RIS.mk (Wall.ofPts o d) (F.fin φ)).evaluate a (V2.fin b) (V2.fin c) = F.fin x ∧
      (RIS.mk (Wall.ofPts d o) (F.fin φ)).evaluate a (V2.fin b) (V2.fin c) = F.fin (4 - x) := by
  refine ⟨_, ris_score hod φ a hbc, ?_⟩
  rw [ris_score hod.symm φ a hbc, F.fin_inj]
  have : advance (beam (rn d o) φ) b c = -advance (beam (rn o d) φ) b c := by
    rw [rn_swap]
    simp only [advance, beam, V2.neg_x, V2.neg_y]
    ring
  rw [this]
  ring

/-- **C128** (half a turn). Swapping the ends of a RIS and adding half a turn to its angle changes no score. -/
theorem C128_half_turn (o d : Pt) (hod : o ≠ d) (φ : ℝ) (a : V2 F) (b c : Pt) :
    (RIS.mk (Wall.ofPts d o) (F.fin (φ + Real.pi))).evaluate a (V2.fin b) (V2.fin c) = (RIS.mk (Wall.ofPts o d) (F.fin φ)).evaluate a (V2.fin b) (V2.fin c) := by
  rw [ris_beam hod, ris_beam hod.symm, F.fin_inj]
  have : beam (rn d o) (φ + Real.pi) = beam (rn o d) φ := by
    rw [rn_swap]
    simp [beam, Real.cos_add_pi, Real.sin_add_pi]
  rw [this]

/-! ## Paths over RISs -/

theorem toCartesianFrom_at (θ : List F) (os : List Interactable) (j k : ℕ) (o : Interactable) (h : os[k]? = some o) :
    ∃ l, (toCartesianFrom θ j os)[k]? = some (o.toCart l) := by
  induction os generalizing j k with
  | nil => simp at h
  | cons o' os ih =>
    cases k with
    | zero => simp only [List.getElem?_cons_zero, Option.some.injEq] at h; subst h; exact ⟨_, rfl⟩
    | succ k => simpa [toCartesianFrom] using ih (j + o'.paramCount) k h

/-- The score that `minimize` returns is the value of the function somewhere. -/
theorem minimize_value {Key : Type} {M : Minimizer Key} {f : List F → F} {x0 : List F} {r : List F × F} (h : minimize M f x0 = .ok r) : ∃ x, r.2 = f x := by
  have key : ∀ (k : ℕ) (x : List F) (st : M.optimizer.State), ∀ l ∈ (minimizeScan M.optimizer (M.grad f) f k x st).2, ∃ y, l = f y := by
    intro k
    induction k with
    | zero => intro x st l hl; simp [minimizeScan] at hl
    | succ k ih =>
      intro x st l hl
      simp only [minimizeScan, List.mem_cons] at hl
      rcases hl with rfl | hl
      · exact ⟨x, rfl⟩
      · exact ih _ _ _ hl
  unfold minimize at h
  simp only at h
  split at h
  · cases h
  · rename_i loss hl
    cases h
    exact key _ _ _ _ (List.mem_of_getLast? hl)

theorem minimizeMany_value {Key : Type} {M : Minimizer Key} {f : List F → F} {key : Key} {n many : ℕ} {r : List F × F}
    (h : minimizeManyRandomUniform M f key n many = .ok r) : ∃ x, r.2 = f x := by
  unfold minimizeManyRandomUniform at h
  split at h
  · exact minimize_value h
  · simp only at h
    cases ht : (M.split key many).mapM fun k => minimizeRandomUniform M f k n with
    | error e => rw [ht] at h; cases h
    | ok trials =>
      rw [ht] at h
      simp only [bind, Except.bind] at h
      split at h
      · cases h
      · rename_i i hi
        have hlt := F.argmin_lt hi
        rw [List.length_map] at hlt
        have hr : trials[i] = r := by
          have := Except.ok.inj h
          rw [← this]
          simp [hlt]
        have hf := (mapM_iff _ _ _).mp ht
        have hk := (List.forall₂_iff_get.mp hf).2 i (by rw [hf.length_eq]; exact hlt) hlt
        simp only [List.get_eq_getElem, hr] at hk
        exact minimize_value hk

/-- The loss of a path of `FermatPath` or `MinPath` is the total score of points that are on the objects (for `FermatPath`, the points of the path). -/
theorem traced_score {Key : Type} (E' : Env) (M : Minimizer Key) (many : ℕ) (m : Scene.PathMethod Key) (hm : m = fermatMethod E' M many ∨ m = minMethod M many)
    (key : Option Key) (t r : V2 F) (objs : List Obj) (hne : objs ≠ []) (p : Path) (h : m.trace key t objs r = .ok p) :
    ∃ θ, TotalScore (objs.map Obj.interact) (parametricToCartesian (objs.map Obj.interact) θ t r) p.loss ∧
      (m = fermatMethod E' M many → p.xys = parametricToCartesian (objs.map Obj.interact) θ t r) ∧ p.xys.length = objs.length + 2 := by
  cases key with
  | none => rcases hm with rfl | rfl <;> cases h
  | some key =>
    have hl : ∀ θ, (objs.map Obj.interact).length + 2 ≤ (parametricToCartesian (objs.map Obj.interact) θ t r).length := by
      intro θ; simp [parametricToCartesian, toCartesianFrom_length]
    have hl' : ∀ θ, (parametricToCartesian (objs.map Obj.interact) θ t r).length = objs.length + 2 := by
      intro θ; simp [parametricToCartesian, toCartesianFrom_length]
    have fer : FermatPath.fromTxObjectsRx E' M t (objs.map Obj.interact) r key many = .ok p → ∃ θ, TotalScore (objs.map Obj.interact)
        (parametricToCartesian (objs.map Obj.interact) θ t r) p.loss ∧ p.xys = parametricToCartesian (objs.map Obj.interact) θ t r := by
      intro h
      unfold FermatPath.fromTxObjectsRx at h
      rw [if_neg (by simpa using hne)] at h
      cases hx : minimizeManyRandomUniform M (fermatLoss E' (objs.map Obj.interact) t r) key (nUnknowns (objs.map Obj.interact)) many with
      | error e => rw [hx] at h; cases h
      | ok x =>
        rw [hx] at h
        cases h
        exact ⟨x.1, totalScore_pathLoss _ _ (hl _), rfl⟩
    rcases hm with rfl | rfl
    · obtain ⟨θ, h1, h2⟩ := fer h
      exact ⟨θ, h1, fun _ => h2, by rw [h2, hl']⟩
    · by_cases he : minMethod M many = fermatMethod E' M many
      · have h' : (fermatMethod E' M many).trace (some key) t objs r = .ok p := he ▸ h
        obtain ⟨θ, h1, h2⟩ := fer h'
        exact ⟨θ, h1, fun _ => h2, by rw [h2, hl']⟩
      · have h' : MinPath.fromTxObjectsRx M t (objs.map Obj.interact) r key many = .ok p := h
        unfold MinPath.fromTxObjectsRx at h'
        rw [if_neg (by simpa using hne)] at h'
        cases hx : minimizeManyRandomUniform M (minLoss (objs.map Obj.interact) t r) key (nUnknowns (objs.map Obj.interact)) many with
        | error e => rw [hx] at h'; cases h'
        | ok x =>
          rw [hx] at h'
          cases h'
          obtain ⟨θ, hθ⟩ := minimizeMany_value hx
          refine ⟨θ, ?_, fun h => absurd h he, hl' _⟩
          show TotalScore _ _ x.2
          rw [hθ]
          exact totalScore_pathLoss _ _ (hl _)

/-- A RIS with a score below the tolerance. -/
theorem ris_lt {o d n : Pt} (hod : o ≠ d) (hn : (Wall.ofPts o d).normal = V2.fin n) {φ : ℝ} {a b c : V2 F} {x tol : ℝ} (h1 : tol ≤ 1)
    (h : (Shape.ris o d φ).obj.interact.evaluate a b c = F.fin x) (hx : x < tol) : ∃ p q : Pt, b = V2.fin p ∧ c = V2.fin q ∧ InCone (beam n φ) (1 - tol / 2) p q := by
  have h' : (RIS.mk (Wall.ofPts o d) (F.fin φ)).evaluate a b c = F.fin x := h
  obtain ⟨p, q, rfl, rfl⟩ := ris_real h'
  refine ⟨p, q, rfl, rfl, (C128_score o d n hod hn φ a p q tol h1).mp ?_⟩
  rw [h', ← F.lt_iff]
  simpa using hx

/-- **C128** (own points). On a valid path (hard mode) of `FermatPath`, every RIS is left in the cone around its beam, from a point of the RIS. -/
theorem C128_fermat {Key : Type} (E' : Env) (M : Minimizer Key) (many : ℕ) (key : Option Key) (t r : V2 F) (shapes : List Shape) (p : Path)
    (hp : (fermatMethod E' M many).trace key t (shapes.map Shape.obj) r = .ok p) (E : Env) (ap : Option Bool) (hh : Hard E ap) (kw : ActKw) (tol : ℝ) (h1 : tol ≤ 1)
    (patch : F) (objects : List Interactable) (candidate : List ℤ) (hc : candidate.length = shapes.length)
    (hv : p.isValid E objects candidate ((shapes.map Shape.obj).map Obj.interact) (F.fin tol) patch ap kw = .ok (.b true))
    (i : ℕ) (o d n : Pt) (φ : ℝ) (hi : shapes[i]? = some (.ris o d φ)) (hod : o ≠ d) (hn : (Wall.ofPts o d).normal = V2.fin n) :
    ∃ b c : Pt, p.xys[i + 1]? = some (V2.fin b) ∧ p.xys[i + 2]? = some (V2.fin c) ∧ OnSegment o d b ∧ InCone (beam n φ) (1 - tol / 2) b c := by
  have hne : shapes.map Shape.obj ≠ [] := by rintro e; rw [List.map_eq_nil_iff] at e; rw [e] at hi; simp at hi
  obtain ⟨θ, hs, hx, hl⟩ := traced_score E' M many _ (.inl rfl) key t r _ hne p hp
  have hx := hx rfl
  rw [← hx] at hs
  rw [List.length_map] at hl
  obtain ⟨v, hv', hiff⟩ := C38_hard p E ap hh kw objects ((shapes.map Shape.obj).map Obj.interact) candidate (F.fin tol) patch (by omega) (by simp [hc])
  rw [hv] at hv'
  obtain rfl : true = v := by simpa using hv'
  obtain ⟨g1, -, g3⟩ := hiff.mp rfl
  rw [List.map_map] at hs
  have hil : i < shapes.length := (List.getElem?_eq_some_iff.mp hi).1
  obtain ⟨x, -, hx1, hx2⟩ := score_lt (shapes := shapes) hs hl g3 i _ _ _ _ hi (List.getElem?_eq_getElem (by omega)) (List.getElem?_eq_getElem (by omega))
    (List.getElem?_eq_getElem (by omega))
  obtain ⟨b, c, hb, hc', hcone⟩ := ris_lt hod hn h1 hx2 hx1
  refine ⟨b, c, by rw [List.getElem?_eq_getElem (by omega), hb], by rw [List.getElem?_eq_getElem (by omega), hc'], ?_, hcone⟩
  have hb' : p.xys[i + 1]? = some (V2.fin b) := by rw [List.getElem?_eq_getElem (by omega), hb]
  have ho : ((shapes.map Shape.obj).map Obj.interact)[i]? = some (Shape.ris o d φ).obj.interact := by simp [hi]
  have hin := g1 i _ _ ho hb'
  obtain ⟨l, hl'⟩ := toCartesianFrom_at θ _ 0 i _ ho
  have hb2 : p.xys[i + 1]? = some ((Shape.ris o d φ).obj.interact.toCart l) := by
    rw [hx]
    simp only [parametricToCartesian, List.cons_append, List.getElem?_cons_succ]
    rw [List.getElem?_append_left (by rw [toCartesianFrom_length]; simpa using hil)]
    exact hl'
  rw [hb'] at hb2
  have hcart : (Wall.ofPts o d).toCart (l.headD F.nan) = V2.fin b := (Option.some.inj hb2).symm
  obtain ⟨s, hs'⟩ := toCart_real hcart
  rw [hs', toCart_fin] at hcart
  obtain rfl := V2.fin_inj.mp hcart
  have : Holds ((Wall.ofPts o d).contains E ap kw ((Wall.ofPts o d).toParam (V2.fin (pointAt o d s)))) := hin
  rw [toParam_fin, rpar_pointAt hod] at this
  have hc2 : 0 ≤ s ∧ s ≤ 1 := by
    simpa [Wall.contains, greaterEqual, lessEqual, logicalAnd, hh.eq, Holds, Truthy.toBool] using this
  exact ⟨s, hc2.1, hc2.2, rfl⟩

/-- **C128** (own points). On a valid path (hard mode) of `ImagePath`, every RIS is left in the cone around its beam. -/
theorem C128_image (t r : V2 F) (shapes : List Shape) (p : Path)
    (hp : ImagePath.fromTxObjectsRx t (shapes.map Shape.obj) r = .ok p) (E : Env) (ap : Option Bool) (hh : Hard E ap) (kw : ActKw) (tol : ℝ) (h1 : tol ≤ 1)
    (patch : F) (objects : List Interactable) (candidate : List ℤ) (hc : candidate.length = shapes.length)
    (hv : p.isValid E objects candidate ((shapes.map Shape.obj).map Obj.interact) (F.fin tol) patch ap kw = .ok (.b true))
    (i : ℕ) (o d n : Pt) (φ : ℝ) (hi : shapes[i]? = some (.ris o d φ)) (hod : o ≠ d) (hn : (Wall.ofPts o d).normal = V2.fin n) :
    ∃ b c : Pt, p.xys[i + 1]? = some (V2.fin b) ∧ p.xys[i + 2]? = some (V2.fin c) ∧ InCone (beam n φ) (1 - tol / 2) b c := by
  have hs := C71_image t r _ p hp
  obtain ⟨inner, hx, hl, -⟩ := C28_image t r _ p hp
  have hl : p.xys.length = shapes.length + 2 := by rw [hx]; simp [hl]
  obtain ⟨v, hv', hiff⟩ := C38_hard p E ap hh kw objects ((shapes.map Shape.obj).map Obj.interact) candidate (F.fin tol) patch (by omega) (by simp [hc])
  rw [hv] at hv'
  obtain rfl : true = v := by simpa using hv'
  obtain ⟨-, -, g3⟩ := hiff.mp rfl
  rw [List.map_map] at hs
  have hil : i < shapes.length := (List.getElem?_eq_some_iff.mp hi).1
  obtain ⟨x, -, hx1, hx2⟩ := score_lt (shapes := shapes) hs hl g3 i _ _ _ _ hi (List.getElem?_eq_getElem (by omega)) (List.getElem?_eq_getElem (by omega))
    (List.getElem?_eq_getElem (by omega))
  obtain ⟨b, c, hb, hc', hcone⟩ := ris_lt hod hn h1 hx2 hx1
  exact ⟨b, c, by rw [List.getElem?_eq_getElem (by omega), hb], by rw [List.getElem?_eq_getElem (by omega), hc'], hcone⟩

/-- **C128** (served). A valid path (hard mode) of `FermatPath` or `MinPath` over a chain of objects that ends with a RIS reaches only receivers in the
cone around the beam of that RIS, seen from some point of its line: whatever the transmitter, the random key, the optimizer and the gradient. -/
theorem C128_served {Key : Type} (E' : Env) (M : Minimizer Key) (many : ℕ) (m : Scene.PathMethod Key) (hm : m = fermatMethod E' M many ∨ m = minMethod M many)
    (key : Option Key) (t : V2 F) (r : Pt) (shapes : List Shape) (p : Path)
    (hp : m.trace key t (shapes.map Shape.obj) (V2.fin r) = .ok p) (E : Env) (ap : Option Bool) (hh : Hard E ap) (kw : ActKw) (tol : ℝ) (h1 : tol ≤ 1)
    (patch : F) (objects : List Interactable) (candidate : List ℤ) (hc : candidate.length = shapes.length)
    (hv : p.isValid E objects candidate ((shapes.map Shape.obj).map Obj.interact) (F.fin tol) patch ap kw = .ok (.b true))
    (o d n : Pt) (φ : ℝ) (hlast : shapes.getLast? = some (.ris o d φ)) (hod : o ≠ d) (hn : (Wall.ofPts o d).normal = V2.fin n) :
    ∃ b : Pt, OnLine o d b ∧ InCone (beam n φ) (1 - tol / 2) b r := by
  have hne : shapes ≠ [] := by rintro rfl; simp at hlast
  obtain ⟨θ, hs, -, hl⟩ := traced_score E' M many _ hm key t (V2.fin r) _ (by simpa using hne) p hp
  rw [List.length_map] at hl
  obtain ⟨v, hv', hiff⟩ := C38_hard p E ap hh kw objects ((shapes.map Shape.obj).map Obj.interact) candidate (F.fin tol) patch (by omega) (by simp [hc])
  rw [hv] at hv'
  obtain rfl : true = v := by simpa using hv'
  obtain ⟨-, -, g3⟩ := hiff.mp rfl
  set pts := parametricToCartesian ((shapes.map Shape.obj).map Obj.interact) θ t (V2.fin r) with hpts
  have hpl : pts.length = shapes.length + 2 := by rw [hpts]; simp [parametricToCartesian, toCartesianFrom_length]
  rw [List.map_map] at hs
  have hpos : 0 < shapes.length := List.length_pos_of_ne_nil hne
  have hi : shapes[shapes.length - 1]? = some (.ris o d φ) := by rw [← List.getLast?_eq_getElem?]; exact hlast
  obtain ⟨x, -, hx1, hx2⟩ := score_lt (shapes := shapes) hs hpl g3 (shapes.length - 1) _ _ _ _ hi (List.getElem?_eq_getElem (by omega)) (List.getElem?_eq_getElem (by omega))
    (List.getElem?_eq_getElem (by omega))
  obtain ⟨b, c, hb, hc', hcone⟩ := ris_lt hod hn h1 hx2 hx1
  have hcr : c = r := by
    have e : pts[shapes.length - 1 + 2]? = some (V2.fin r) := by
      have : shapes.length - 1 + 2 = shapes.length + 1 := by omega
      rw [this, hpts]
      simp only [parametricToCartesian, List.cons_append, List.getElem?_cons_succ]
      rw [List.getElem?_append_right (by rw [toCartesianFrom_length]; simp), toCartesianFrom_length]
      simp
    rw [List.getElem?_eq_getElem (by omega), hc'] at e
    exact V2.fin_inj.mp (Option.some.inj e)
  subst hcr
  have ho : ((shapes.map Shape.obj).map Obj.interact)[shapes.length - 1]? = some (Shape.ris o d φ).obj.interact := by simp [hi]
  obtain ⟨l, hl'⟩ := toCartesianFrom_at θ _ 0 _ _ ho
  have hb2 : pts[shapes.length - 1 + 1]? = some ((Shape.ris o d φ).obj.interact.toCart l) := by
    rw [hpts]
    simp only [parametricToCartesian, List.cons_append, List.getElem?_cons_succ]
    rw [List.getElem?_append_left (by rw [toCartesianFrom_length]; simp; omega)]
    exact hl'
  rw [List.getElem?_eq_getElem (by omega), hb] at hb2
  have hcart : (Wall.ofPts o d).toCart (l.headD F.nan) = V2.fin b := (Option.some.inj hb2).symm
  obtain ⟨s, hs'⟩ := toCart_real hcart
  rw [hs', toCart_fin] at hcart
  exact ⟨b, ⟨s, (V2.fin_inj.mp hcart).symm⟩, hcone⟩

/-! ## The wrong side -/

/-- Coordinates of the step from a point of the line of a RIS: along the normal it does not depend on the point. -/
theorem on_line_height {o d b : Pt} (h : OnLine o d b) (r : Pt) : (r.x - b.x) * (rn o d).x + (r.y - b.y) * (rn o d).y = (r.x - o.x) * (rn o d).x + (r.y - o.y) * (rn o d).y := by
  obtain ⟨s, rfl⟩ := h
  obtain ⟨l, hl, h1, h2⟩ := rn_scaled o d
  simp only [pointAt]
  have h3 : d.x - o.x = -(l * (rn o d).y) := by linarith
  rw [h1, h3]; ring

/-- No point of the line of the RIS sees in its cone a receiver that is behind the beam. -/
theorem wrong_side {o d b r : Pt} (hod : o ≠ d) (hb : OnLine o d b) (φ k : ℝ) (hk : |Real.sin φ| ≤ k)
    (hr : 0 ≤ Real.cos φ * ((r.x - o.x) * (rn o d).x + (r.y - o.y) * (rn o d).y)) : ¬ InCone (beam (rn o d) φ) k b r := by
  rw [← on_line_height hb] at hr
  have hn := rn_sq hod
  unfold InCone
  rw [not_lt]
  set n := rn o d
  simp only [dp] at hn
  set T : ℝ := (r.x - b.x) * n.y - (r.y - b.y) * n.x with hT
  have e1 : advance (beam n φ) b r = -(Real.cos φ * ((r.x - b.x) * n.x + (r.y - b.y) * n.y)) - Real.sin φ * T := by
    simp only [advance, beam, hT]; ring
  have hT1 : |T| ≤ eucl b r := by
    apply Real.abs_le_sqrt
    have : T ^ 2 = ((b.x - r.x) ^ 2 + (b.y - r.y) ^ 2) * (n.x * n.x + n.y * n.y) - ((r.x - b.x) * n.x + (r.y - b.y) * n.y) ^ 2 := by
      rw [hT]; ring
    rw [this, hn]
    nlinarith [sq_nonneg ((r.x - b.x) * n.x + (r.y - b.y) * n.y)]
  have h2 : -(Real.sin φ * T) ≤ |Real.sin φ| * |T| := by rw [← abs_mul]; exact neg_le_abs _
  have h3 : |Real.sin φ| * |T| ≤ k * eucl b r := mul_le_mul hk hT1 (abs_nonneg _) ((abs_nonneg _).trans hk)
  linarith

/-- **C128** (wrong side). If the angle of the RIS is not grazing, no receiver on its line or on the side away from its beam is ever served. -/
theorem C128_wrong_side {Key : Type} (E' : Env) (M : Minimizer Key) (many : ℕ) (m : Scene.PathMethod Key) (hm : m = fermatMethod E' M many ∨ m = minMethod M many)
    (key : Option Key) (t : V2 F) (r : Pt) (shapes : List Shape) (p : Path)
    (hp : m.trace key t (shapes.map Shape.obj) (V2.fin r) = .ok p) (E : Env) (ap : Option Bool) (hh : Hard E ap) (kw : ActKw) (tol : ℝ) (h1 : tol ≤ 1)
    (patch : F) (objects : List Interactable) (candidate : List ℤ) (hc : candidate.length = shapes.length)
    (o d n : Pt) (φ : ℝ) (hlast : shapes.getLast? = some (.ris o d φ)) (hod : o ≠ d) (hn : (Wall.ofPts o d).normal = V2.fin n)
    (hφ : |Real.sin φ| ≤ 1 - tol / 2) (hr : 0 ≤ Real.cos φ * ((r.x - o.x) * n.x + (r.y - o.y) * n.y)) :
    p.isValid E objects candidate ((shapes.map Shape.obj).map Obj.interact) (F.fin tol) patch ap kw ≠ .ok (.b true) := by
  intro hv
  obtain ⟨b, hb, hcone⟩ := C128_served E' M many m hm key t r shapes p hp E ap hh kw tol h1 patch objects candidate hc hv o d n φ hlast hod hn
  obtain rfl := normal_eq hn
  exact wrong_side hod hb φ _ hφ hr hcone

section
variable {Key : Type} (G : GraphLib) (hG : GraphContract G) (tx rx : PyDict Pt) (ht : Distinct tx) (hr : Distinct rx) (shapes : List Shape)
  (lo hi : ℤ) (hlo : 1 ≤ lo) (split : Key → ℕ → List Key) (key : Option Key) (E : Env) (ap : Option Bool) (hh : Hard E ap) (kw : ActKw)
  (tol patch : ℝ) (htol : tol ≤ 1) (hlen : ∀ o d φ, .ris o d φ ∈ shapes → o ≠ d)
  (E' : Env) (M : Minimizer Key) (many : ℕ) (m : Scene.PathMethod Key) (hm : m = fermatMethod E' M many ∨ m = minMethod M many)
include hG ht hr hlo hh htol hlen hm

/-- **C128** (scene). With `filter_objects=lambda obj: isinstance(obj, RIS)` and `min_order >= 1`, every valid path that `all_valid_paths` yields ends at
a receiver in the cone around the beam of a RIS of the scene, seen from a point of its line. -/
theorem C128_scene (out : List (String × String × Path × List ℤ))
    (hout : (sceneOf tx rx shapes).allValidPaths G split m { minOrder := lo, maxOrder := hi, filter := some isRIS }
        ⟨E, F.fin tol, F.fin patch, ap, kw⟩ key = .ok out) (tn rname : String) (path : Path) (c : List ℤ) (hmem : (tn, rname, path, c) ∈ out) :
    ∃ (r o d n b : Pt) (φ : ℝ) (j : ℤ), (rname, r) ∈ rx ∧ c.getLast? = some j ∧ shapes[j.toNat]? = some (.ris o d φ) ∧
      (Wall.ofPts o d).normal = V2.fin n ∧ OnLine o d b ∧ InCone (beam n φ) (1 - tol / 2) b r := by
  set s := sceneOf tx rx shapes with hs
  have hfin : ∀ d : PyDict Pt, Distinct d → Distinct (finPoints d) := by
    intro d hd; simpa [Distinct, finPoints, Function.comp_def] using hd
  have e1 : s.transmitters = .fromMapping (finPoints tx) := rfl
  have e2 : s.receivers = .fromMapping (finPoints rx) := rfl
  have hS : IsScene s := ⟨⟨_, hfin tx ht, e1⟩, ⟨_, hfin rx hr, e2⟩⟩
  have hobj : s.objects = shapes.map Shape.obj := rfl
  have hol : s.objects.length = shapes.length := by rw [hobj]; simp
  have hlo0 : 0 ≤ lo := by omega
  obtain ⟨cs, fs, hcs, hfs, hfd, -, hfm⟩ := C54_filter G hG s lo hi hlo0 isRIS
  obtain ⟨cs', hcs', -, hcm, -⟩ := C53_sound_complete G hG s lo hi hlo0
  rw [hcs] at hcs'; cases hcs'
  rw [hol] at hcm
  have hv := C57_valid G s hS { minOrder := lo, maxOrder := hi, filter := some isRIS } split key m ⟨E, F.fin tol, F.fin patch, ap, kw⟩
  rw [hout] at hv
  cases hts : s.allPaths G split m { minOrder := lo, maxOrder := hi, filter := some isRIS } ⟨E, F.fin tol, F.fin patch, ap, kw⟩ key with
  | error e => rw [hts] at hv; cases hv
  | ok ts =>
    rw [hts] at hv
    obtain ⟨m1, -, -⟩ := traversal_mem G hG s _ _ (hfin tx ht) (hfin rx hr) e1 e2 { minOrder := lo, maxOrder := hi, filter := some isRIS } hlo0 split
      key fs hfs hfd m ⟨E, F.fin tol, F.fin patch, ap, kw⟩ ts hts
    have hv := Except.ok.inj hv
    rw [hv] at hmem
    obtain ⟨x, hx, hxe⟩ := List.mem_map.mp hmem
    obtain ⟨hx, hacc⟩ := List.mem_filter.mp hx
    simp only [Prod.mk.injEq] at hxe
    obtain ⟨rfl, rfl, rfl, rfl⟩ := hxe
    obtain ⟨k, t, r, -, hr', hc, htr, hval⟩ := m1 x hx
    obtain ⟨r', hrm, hre⟩ := List.mem_map.mp hr'
    simp only [Prod.mk.injEq] at hre
    obtain ⟨hre1, rfl⟩ := hre
    obtain ⟨hcc, hris⟩ := (hfm _).mp hc
    obtain ⟨⟨hrange, -⟩, hlen1, -⟩ := (hcm _).mp hcc
    -- the shapes of the candidate
    obtain ⟨ss, hss⟩ : ∃ ss, List.Forall₂ (fun (i : ℤ) w => shapes[i.toNat]? = some w) x.candidate ss := by
      have : ∀ c : List ℤ, (∀ i ∈ c, 0 ≤ i ∧ i < shapes.length) → ∃ ss, List.Forall₂ (fun (i : ℤ) w => shapes[i.toNat]? = some w) c ss := by
        intro c
        induction c with
        | nil => intro _; exact ⟨[], .nil⟩
        | cons i c ih =>
          intro h
          obtain ⟨ss, h1⟩ := ih fun j hj => h j (by simp [hj])
          have := h i (by simp)
          exact ⟨shapes[i.toNat]'(by omega) :: ss, .cons (List.getElem?_eq_getElem (by omega)) h1⟩
      exact this _ hrange
    have hobjs : objectsAt s x.candidate = ss.map Shape.obj := by
      unfold objectsAt
      rw [hobj]
      clear hval htr hc hcc hris hlen1 hrange hmem hacc hx m1
      generalize x.candidate = cc at hss ⊢
      induction hss with
      | nil => rfl
      | cons h _ ih => rw [List.filterMap_cons, List.getElem?_map, h]; simp only [Option.map_some, List.map_cons, ih]
    have hne : x.candidate ≠ [] := by
      intro e
      rw [e] at hlen1
      simp at hlen1
      omega
    obtain ⟨j, hj⟩ : ∃ j, x.candidate.getLast? = some j := ⟨_, List.getLast?_eq_getLast_of_ne_nil hne⟩
    obtain ⟨w, hw1, hw2⟩ : ∃ w, ss.getLast? = some w ∧ shapes[j.toNat]? = some w := by
      clear hobjs hval htr hc hcc hris hlen1 hrange hmem hacc hx m1
      generalize x.candidate = cc at hss hj hne
      induction hss with
      | nil => simp at hj
      | @cons a b l1 l2 h h' ih =>
        cases l1 with
        | nil => cases h'; simp at hj; subst hj; exact ⟨b, rfl, h⟩
        | cons a' l1 =>
          cases h' with
          | @cons _ b' _ l2 h1 h2 =>
            rw [List.getLast?_cons_cons] at hj
            obtain ⟨w, e1, e2⟩ := ih hj (by simp)
            exact ⟨w, by rw [List.getLast?_cons_cons]; exact e1, e2⟩
    have hwr : isRIS w.obj = true := hris j (List.mem_of_getLast? hj) _ (by rw [hobj, List.getElem?_map, hw2]; rfl)
    obtain ⟨o, d, φ, rfl⟩ : ∃ o d φ, w = .ris o d φ := by
      cases w with
      | ris o d φ => exact ⟨o, d, φ, rfl⟩
      | wall o d => simp [isRIS, Shape.obj] at hwr
      | vertex v => simp [isRIS, Shape.obj] at hwr
    rw [hobjs] at htr hval
    have hholds : Holds x.valid := by
      rcases of_decide_eq_true hacc with ⟨-, h⟩ | ⟨h, -⟩
      · exact h
      · exact (not_hard_soft hh h).elim
    have hssne : ss.map Shape.obj ≠ [] := by
      intro e
      rw [List.map_eq_nil_iff] at e
      rw [e] at hw1
      simp at hw1
    have hvt : x.valid = .b true := by
      obtain ⟨-, -, -, hl⟩ := traced_score E' M many m hm k t (V2.fin r'.2) _ hssne x.path htr
      obtain ⟨v, hv', -⟩ := C38_hard x.path E ap hh kw (s.objects.map Obj.interact) ((ss.map Shape.obj).map Obj.interact) x.candidate (F.fin tol) (F.fin patch)
        (by rw [hl, List.length_map, hss.length_eq]) (by simp [hss.length_eq])
      have h2 := hval.symm.trans hv'
      have h3 := Except.ok.inj h2
      rw [h3] at hholds ⊢
      rw [show v = true from hholds]
    rw [hvt] at hval
    obtain ⟨b, hb, hcone⟩ := C128_served E' M many m hm k t r'.2 ss x.path htr E ap hh kw tol htol (F.fin patch) (s.objects.map Obj.interact) x.candidate hss.length_eq
      hval o d (rn o d) φ hw1 (hlen o d φ (List.mem_of_getElem? hw2)) (normal_fin o d)
    exact ⟨r'.2, o, d, rn o d, b, φ, j, by rw [← hre1]; exact hrm, hj, hw2, normal_fin o d, hb, hcone⟩

/-- **C128** (dark). A receiver that is behind the beam of every RIS of the scene gets no valid path over RISs. -/
theorem C128_dark (out : List (String × String × Path × List ℤ))
    (hout : (sceneOf tx rx shapes).allValidPaths G split m { minOrder := lo, maxOrder := hi, filter := some isRIS }
        ⟨E, F.fin tol, F.fin patch, ap, kw⟩ key = .ok out) (rname : String) (r : Pt) (hrx : (rname, r) ∈ rx)
    (hdark : ∀ o d n φ, .ris o d φ ∈ shapes → (Wall.ofPts o d).normal = V2.fin n → |Real.sin φ| ≤ 1 - tol / 2 ∧
      0 ≤ Real.cos φ * ((r.x - o.x) * n.x + (r.y - o.y) * n.y)) : ∀ tn path c, (tn, rname, path, c) ∉ out := by
  intro tn path c hmem
  obtain ⟨r', o, d, n, b, φ, j, hr', -, hj, hn, hb, hcone⟩ := C128_scene G hG tx rx ht hr shapes lo hi hlo split key E ap hh kw tol patch htol hlen E' M many m hm
    out hout tn rname path c hmem
  have hrr : r' = r := by
    have hnd : (rx.map Prod.fst).Nodup := hr
    exact congrArg Prod.snd (List.inj_on_of_nodup_map hnd hr' hrx rfl)
  subst hrr
  obtain ⟨h1, h2⟩ := hdark o d n φ (List.mem_of_getElem? hj) hn
  obtain rfl := normal_eq hn
  exact wrong_side (hlen o d φ (List.mem_of_getElem? hj)) hb φ _ h1 h2 hcone

end

/-! ## Independence of the transmitter -/

/-- The objective of `MinPath` over a chain that starts with a RIS does not look at the transmitter. -/
theorem ris_first (w : RIS) (os : List Interactable) (t t' r : V2 F) (θ : List F) : minLoss (w.interact :: os) t r θ = minLoss (w.interact :: os) t' r θ := by
  cases os <;> rfl

/-- **C128** (any transmitter). Over a chain that starts with a RIS, `MinPath` sends all transmitters to the same point of the RIS: the path and its loss are the
same for any two transmitters, apart from the first point. -/
theorem C128_independent {Key : Type} (M : Minimizer Key) (many : ℕ) (key : Key) (w : RIS) (os : List Interactable) (t t' r : V2 F) (p : Path)
    (h : MinPath.fromTxObjectsRx M t (w.interact :: os) r key many = .ok p) :
    ∃ inner, p.xys = t :: inner ∧ MinPath.fromTxObjectsRx M t' (w.interact :: os) r key many = .ok ⟨t' :: inner, p.loss⟩ := by
  unfold MinPath.fromTxObjectsRx at h ⊢
  rw [if_neg (by simp)] at h ⊢
  rw [show minLoss (w.interact :: os) t' r = minLoss (w.interact :: os) t r from funext fun θ => ris_first w os t' t r θ]
  cases hx : minimizeManyRandomUniform M (minLoss (w.interact :: os) t r) key (nUnknowns (w.interact :: os)) many with
  | error e => rw [hx] at h; cases h
  | ok x =>
    rw [hx] at h
    cases h
    exact ⟨_, rfl, rfl⟩

/-! ## The objective of one RIS -/

/-- The cosine between the beam and the step to the receiver, in the coordinates along the normal (`h`) and along the RIS (`T`). -/
noncomputable def cosTo (φ h T : ℝ) : ℝ := (-(Real.cos φ * h) - Real.sin φ * T) / Real.sqrt (T ^ 2 + h ^ 2)

theorem cosTo_deriv (φ : ℝ) {h : ℝ} (hh : h ≠ 0) (T : ℝ) :
    HasDerivAt (cosTo φ h) (h * (Real.cos φ * T - Real.sin φ * h) / Real.sqrt (T ^ 2 + h ^ 2) ^ 3) T := by
  have hp : 0 < T ^ 2 + h ^ 2 := by positivity
  have hs := Real.sqrt_pos.mpr hp
  have e := Real.sq_sqrt hp.le
  have h1 : HasDerivAt (fun T : ℝ => -(Real.cos φ * h) - Real.sin φ * T) (-Real.sin φ) T := by
    have := ((hasDerivAt_id T).const_mul (Real.sin φ)).const_sub (-(Real.cos φ * h))
    simpa using this
  have h2 : HasDerivAt (fun T : ℝ => T ^ 2 + h ^ 2) (2 * T) T := by
    have := (hasDerivAt_pow 2 T).add_const (h ^ 2)
    simpa using this
  have h3 := h2.sqrt hp.ne'
  have h4 := h1.div h3 hs.ne'
  refine h4.congr_deriv ?_
  set q := Real.sqrt (T ^ 2 + h ^ 2)
  field_simp
  rw [e]
  ring

/-- The same cosine at a point of the RIS. -/
theorem advance_cosTo {o d r : Pt} (hod : o ≠ d) (φ : ℝ) : ∃ T₀ l : ℝ, 0 < l ∧ ∀ s, advance (beam (rn o d) φ) (pointAt o d s) r / eucl (pointAt o d s) r =
    cosTo φ ((r.x - o.x) * (rn o d).x + (r.y - o.y) * (rn o d).y) (T₀ + s * l) := by
  obtain ⟨l, hl, h1, h2⟩ := rn_scaled o d
  have hn := rn_sq hod
  set n := rn o d
  simp only [dp] at hn
  have h3 : d.x - o.x = -(l * n.y) := by linarith
  refine ⟨(r.x - o.x) * n.y - (r.y - o.y) * n.x, l, hl, fun s => ?_⟩
  unfold cosTo
  congr 1
  · simp only [advance, beam, pointAt, h1, h3]
    linear_combination (-s * l * Real.sin φ) * hn
  · simp only [eucl, pointAt, h1, h3]
    congr 1
    linear_combination (-((r.x - o.x) ^ 2 + (r.y - o.y) ^ 2) + s ^ 2 * l ^ 2) * hn

/-- **C128** (objective). For a receiver on the side of the beam, the objective of `MinPath` over one RIS has one minimizer, the point from which the beam hits the
receiver; it decreases strictly before it and increases strictly after it, and its gradient (as `jax.grad` computes it) is never zero anywhere else. -/
theorem C128_objective (t r o d n : Pt) (hod : o ≠ d) (hn : (Wall.ofPts o d).normal = V2.fin n) (φ : ℝ)
    (hside : Real.cos φ * ((r.x - o.x) * n.x + (r.y - o.y) * n.y) < 0)
    (os : List (Rev.RObj ℕ)) (hos : [(Shape.ris o d φ).obj].mapM Rev.constObj = some os) :
    ∃ (s₀ : ℝ) (L : ℝ → ℝ), (∀ s, minLoss [(Shape.ris o d φ).obj.interact] (V2.fin t) (V2.fin r) [F.fin s] = F.fin (L s)) ∧ L s₀ = 0 ∧
      StrictAntiOn L (Set.Iic s₀) ∧ StrictMonoOn L (Set.Ici s₀) ∧ advance (beam n φ) (pointAt o d s₀) r = eucl (pointAt o d s₀) r ∧
      ∀ s, ∃ g, Rev.gradient (Rev.minLoss os (Rev.constV (V2.fin t)) (Rev.constV (V2.fin r))) [F.fin s] = [F.fin g] ∧ HasDerivAt L g s ∧
        (s < s₀ → g < 0) ∧ (s₀ < s → 0 < g) := by
  obtain rfl := normal_eq hn
  obtain ⟨T₀, l, hl, hcos⟩ := advance_cosTo (r := r) hod φ
  set h : ℝ := (r.x - o.x) * (rn o d).x + (r.y - o.y) * (rn o d).y with hh
  have h0 : h ≠ 0 := by intro e; rw [e] at hside; simp at hside
  have hc0 : Real.cos φ ≠ 0 := by intro e; rw [e] at hside; simp at hside
  have hne : ∀ s, pointAt o d s ≠ r := by
    intro s e
    have := on_line_height (o := o) (d := d) ⟨s, rfl⟩ r
    rw [← hh, e] at this
    simp at this
    exact h0 this.symm
  set L : ℝ → ℝ := fun s => 2 - 2 * cosTo φ h (T₀ + s * l) with hL
  set s₀ : ℝ := (h * Real.sin φ / Real.cos φ - T₀) / l with hs₀
  have hloss : ∀ s, minLoss [(Shape.ris o d φ).obj.interact] (V2.fin t) (V2.fin r) [F.fin s] = F.fin (L s) := by
    intro s
    have : minLoss [(Shape.ris o d φ).obj.interact] (V2.fin t) (V2.fin r) [F.fin s] =
        0 + (RIS.mk (Wall.ofPts o d) (F.fin φ)).evaluate (V2.fin t) ((Wall.ofPts o d).toCart (F.fin s)) (V2.fin r) := rfl
    rw [this, toCart_fin, ris_score hod φ _ (hne s), F.zero_eq, F.zero_add', hcos s]
  have hq : ∀ s, 0 < Real.sqrt ((T₀ + s * l) ^ 2 + h ^ 2) := fun s => Real.sqrt_pos.mpr (by positivity)
  have hder : ∀ s, HasDerivAt L (-2 * l * (h * (Real.cos φ * (T₀ + s * l) - Real.sin φ * h) / Real.sqrt ((T₀ + s * l) ^ 2 + h ^ 2) ^ 3)) s := by
    intro s
    have h1 : HasDerivAt (fun s : ℝ => T₀ + s * l) l s := by
      have := ((hasDerivAt_id s).mul_const l).const_add T₀
      simpa using this
    have h2 := (cosTo_deriv φ h0 (T₀ + s * l)).comp s h1
    have h3 := (h2.const_mul 2).const_sub 2
    refine h3.congr_deriv ?_
    ring
  -- the sign
  have hfac : ∀ s, h * (Real.cos φ * (T₀ + s * l) - Real.sin φ * h) = (Real.cos φ * h * l) * (s - s₀) := by
    intro s
    rw [hs₀]
    field_simp
    ring
  have hneg : Real.cos φ * h * l < 0 := mul_neg_of_neg_of_pos hside hl
  have hsign : ∀ s, ∃ g, HasDerivAt L g s ∧ (s < s₀ → g < 0) ∧ (s₀ < s → 0 < g) := by
    intro s
    refine ⟨_, hder s, ?_, ?_⟩ <;> intro hs
    · rw [hfac]
      have h1 : 0 < Real.cos φ * h * l * (s - s₀) / Real.sqrt ((T₀ + s * l) ^ 2 + h ^ 2) ^ 3 :=
        div_pos (mul_pos_of_neg_of_neg hneg (by linarith)) (pow_pos (hq s) 3)
      nlinarith
    · rw [hfac]
      have h1 : Real.cos φ * h * l * (s - s₀) / Real.sqrt ((T₀ + s * l) ^ 2 + h ^ 2) ^ 3 < 0 :=
        div_neg_of_neg_of_pos (mul_neg_of_neg_of_pos hneg (by linarith)) (pow_pos (hq s) 3)
      nlinarith
  have hcont : Continuous L := continuous_iff_continuousAt.mpr fun s => (hder s).continuousAt
  have hT : T₀ + s₀ * l = h * Real.sin φ / Real.cos φ := by rw [hs₀]; field_simp; ring
  have hcos1 : cosTo φ h (T₀ + s₀ * l) = 1 := by
    rw [hT]
    unfold cosTo
    have hsc := Real.sin_sq_add_cos_sq φ
    have e1 : (h * Real.sin φ / Real.cos φ) ^ 2 + h ^ 2 = (h / Real.cos φ) ^ 2 := by
      field_simp
      linear_combination hsc
    have hpos : h / Real.cos φ < 0 := by
      have : h / Real.cos φ = Real.cos φ * h / Real.cos φ ^ 2 := by field_simp
      rw [this]
      exact div_neg_of_neg_of_pos hside (by positivity)
    rw [e1, Real.sqrt_sq_eq_abs, abs_of_neg hpos, div_eq_one_iff_eq (by linarith)]
    field_simp
    linear_combination (-1) * hsc
  refine ⟨s₀, L, hloss, by simp only [hL, hcos1]; norm_num, ?_, ?_, ?_, ?_⟩
  · refine strictAntiOn_of_deriv_neg (convex_Iic s₀) hcont.continuousOn fun s hs => ?_
    rw [interior_Iic] at hs
    obtain ⟨g, hg, h1, -⟩ := hsign s
    rw [hg.deriv]; exact h1 hs
  · refine strictMonoOn_of_deriv_pos (convex_Ici s₀) hcont.continuousOn fun s hs => ?_
    rw [interior_Ici] at hs
    obtain ⟨g, hg, -, h1⟩ := hsign s
    rw [hg.deriv]; exact h1 hs
  · have := hcos s₀
    rw [hcos1] at this
    exact (div_eq_one_iff_eq (eucl_pos' (hne s₀)).ne').mp this
  · intro s
    obtain ⟨g, hg, h1, h2⟩ := hsign s
    refine ⟨g, ?_, hg, h1, h2⟩
    have hp : PathAt [.ris o d φ] t r [s] [t, pointAt o d s, r] := by
      refine ⟨rfl, rfl, rfl, ?_, ?_⟩
      · intro k p hk
        cases k <;> simp at hk
      · rintro k j s' o' d' ⟨w, hw, -, rfl⟩ hj hk
        cases k with
        | zero =>
          simp at hj hk
          obtain ⟨rfl, rfl, -⟩ := hk
          subst hj; rfl
        | succ k => simp at hw
    obtain ⟨-, h3⟩ := C107_min [.ris o d φ] t r [s] rfl os hos _ hp (fun θ => L (θ.headD 0)) (by
      intro θ hθ
      obtain ⟨x, rfl⟩ := List.length_eq_one_iff.mp hθ
      exact hloss x) 0 0 ⟨_, rfl, rfl, rfl⟩
    obtain ⟨g', hg', x, hx, hp'⟩ := h3 (by
      rintro m (rfl | rfl) hsc
      · rcases hsc with ⟨_, _, h⟩ | ⟨m, hm, -⟩
        · simp at h
        · omega
      · rintro ⟨a, ha1, ha2⟩
        simp at ha1 ha2
        exact hne s (ha1.trans ha2.symm))
    simp only [List.getElem?_cons_zero, Option.some.injEq] at hx
    subst hx
    have hp2 : HasDerivAt L g' s := by simpa using hp'
    have := hp2.unique hg
    subst this
    have hlen : (Rev.gradient (Rev.minLoss os (Rev.constV (V2.fin t)) (Rev.constV (V2.fin r))) ([s].map F.fin)).length = 1 := by simp [Rev.gradient]
    obtain ⟨y, hy⟩ := List.length_eq_one_iff.mp hlen
    rw [hy] at hg'
    simp only [List.getElem?_cons_zero, Option.some.injEq] at hg'
    rw [← hg', ← hy]
    rfl

/-- **C128** (strip). The objective of `MinPath` over one RIS is zero somewhere on the RIS exactly for the receivers that the RIS reaches by moving along its beam. -/
theorem C128_strip (t r o d n : Pt) (hod : o ≠ d) (hn : (Wall.ofPts o d).normal = V2.fin n) (φ : ℝ) (s : ℝ) :
    minLoss [(Shape.ris o d φ).obj.interact] (V2.fin t) (V2.fin r) [F.fin s] = F.fin 0 ↔
      ∃ u : ℝ, 0 < u ∧ r = ⟨(pointAt o d s).x + u * (beam n φ).x, (pointAt o d s).y + u * (beam n φ).y⟩ := by
  obtain rfl := normal_eq hn
  have hb := along_sq (rn_sq hod) φ
  have e : minLoss [(Shape.ris o d φ).obj.interact] (V2.fin t) (V2.fin r) [F.fin s] =
      0 + (RIS.mk (Wall.ofPts o d) (F.fin φ)).evaluate (V2.fin t) ((Wall.ofPts o d).toCart (F.fin s)) (V2.fin r) := rfl
  rw [e, toCart_fin, ris_beam hod, F.zero_eq, F.zero_add', F.fin_inj]
  set b := pointAt o d s
  set e := beam (rn o d) φ
  constructor
  · intro h
    have h1 : (unit (r - b)).x = e.x := by nlinarith [sq_nonneg ((unit (r - b)).x - e.x), sq_nonneg ((unit (r - b)).y - e.y)]
    have h2 : (unit (r - b)).y = e.y := by nlinarith [sq_nonneg ((unit (r - b)).x - e.x), sq_nonneg ((unit (r - b)).y - e.y)]
    refine ⟨len1 (r - b), len1_pos _, ?_⟩
    have e1 := congrArg V2.x (unit_mul (r - b))
    have e2 := congrArg V2.y (unit_mul (r - b))
    simp only [V2.smul_x, V2.smul_y, V2.sub_x, V2.sub_y] at e1 e2
    rw [h1] at e1
    rw [h2] at e2
    ext <;> simp only <;> linarith
  · rintro ⟨u, hu, hr⟩
    have hd : IsDirection (r - b) e := by
      right
      refine ⟨hb, u, hu, ?_⟩
      rw [hr]; ext <;> simp
    have : unit (r - b) = e := (IsDirection.eq_unit hd).symm
    rw [this]; ring

/-! ## Examples -/

/-- The normal of the RIS of `plot_ris_power_map.py`. -/
theorem example_normal : (Wall.ofPts ⟨0.5, 0.3⟩ ⟨0.5, 0.7⟩).normal = V2.fin ⟨1, 0⟩ := by
  rw [normal_fin, V2.fin_inj]
  refine (IsDirection.eq_unit (v := ⟨0.7 - 0.3, -(0.5 - 0.5)⟩) (.inr ⟨by norm_num, 0.4, by norm_num, by ext <;> norm_num⟩)).symm

theorem example_ends : (⟨0.5, 0.3⟩ : Pt) ≠ ⟨0.5, 0.7⟩ := by
  intro e; have := congrArg V2.y e; norm_num at this

theorem example_sin : |Real.sin (Real.pi / 4)| ≤ 1 - (1 / 100) / 2 := by
  rw [Real.sin_pi_div_four, abs_of_nonneg (by positivity)]
  nlinarith [Real.sqrt_nonneg 2, Real.sq_sqrt (show (0 : ℝ) ≤ 2 by norm_num)]

/-- The RIS of `plot_ris_power_map.py` serves no receiver of the right half of the scene. -/
theorem C128_example {Key : Type} (E' : Env) (M : Minimizer Key) (many : ℕ) (key : Option Key) (t : V2 F) (r : Pt) (hr : 0.5 ≤ r.x) (p : Path)
    (hp : (minMethod M many).trace key t [(Shape.ris ⟨0.5, 0.3⟩ ⟨0.5, 0.7⟩ (Real.pi / 4)).obj] (V2.fin r) = .ok p) (E : Env) (kw : ActKw) (patch : F)
    (objects : List Interactable) (j : ℤ) :
    p.isValid E objects [j] [(Shape.ris ⟨0.5, 0.3⟩ ⟨0.5, 0.7⟩ (Real.pi / 4)).obj.interact] (F.fin (1 / 100)) patch (some false) kw ≠ .ok (.b true) :=
  C128_wrong_side E' M many _ (.inr rfl) key t r [.ris ⟨0.5, 0.3⟩ ⟨0.5, 0.7⟩ (Real.pi / 4)] p hp E (some false) (.inl rfl) kw (1 / 100) (by norm_num) patch objects [j] rfl
    ⟨0.5, 0.3⟩ ⟨0.5, 0.7⟩ ⟨1, 0⟩ (Real.pi / 4) rfl example_ends example_normal example_sin (by
      rw [Real.cos_pi_div_four]
      have : 0 ≤ Real.sqrt 2 := Real.sqrt_nonneg 2
      have h2 : 0 ≤ r.x - 0.5 := by linarith
      simp only [mul_one, mul_zero, add_zero]
      positivity)

/-- Its beam goes up and to the left, at 45 degrees. -/
example : beam ⟨1, 0⟩ (Real.pi / 4) = ⟨-(Real.sqrt 2 / 2), Real.sqrt 2 / 2⟩ := by
  ext <;> simp [beam, Real.cos_pi_div_four, Real.sin_pi_div_four]

/-- The receiver `(0.3, 0.7)` is hit by the beam that leaves the middle of the RIS. -/
example (t : Pt) : minLoss [(Shape.ris ⟨0.5, 0.3⟩ ⟨0.5, 0.7⟩ (Real.pi / 4)).obj.interact] (V2.fin t) (V2.fin ⟨0.3, 0.7⟩) [F.fin 0.5] = F.fin 0 := by
  refine (C128_strip t _ _ _ ⟨1, 0⟩ example_ends example_normal _ _).mpr ⟨0.2 * Real.sqrt 2, by positivity, ?_⟩
  have h2 := Real.mul_self_sqrt (show (0 : ℝ) ≤ 2 by norm_num)
  ext
  · simp [beam, pointAt, Real.cos_pi_div_four]; norm_num; linarith
  · simp [beam, pointAt, Real.sin_pi_div_four]; norm_num; linarith

/-- A receiver on the side of the beam. -/
example (t : Pt) (os : List (Rev.RObj ℕ)) (hos : [(Shape.ris ⟨0.5, 0.3⟩ ⟨0.5, 0.7⟩ (Real.pi / 4)).obj].mapM Rev.constObj = some os) :=
  C128_objective t ⟨0.3, 0.7⟩ _ _ ⟨1, 0⟩ example_ends example_normal (Real.pi / 4) (by
    rw [Real.cos_pi_div_four]
    have : 0 < Real.sqrt 2 := Real.sqrt_pos.mpr (by norm_num)
    norm_num) os hos

/-- An optimizer that stays where it starts. -/
noncomputable def stillMin : Minimizer Unit :=
  ⟨⟨Unit, fun _ => (), fun g st => (g.map fun _ => F.fin 0, st)⟩, 1, fun _ x => x, fun _ n => List.replicate n (F.fin (1 / 2)), fun _ n => List.replicate n ()⟩

theorem still_normal : (Wall.ofPts ⟨0, -1⟩ ⟨0, 1⟩).normal = V2.fin ⟨1, 0⟩ := by
  rw [normal_fin, V2.fin_inj]
  refine (IsDirection.eq_unit (v := ⟨1 - (-1), -(0 - 0)⟩) (.inr ⟨by norm_num, 2, by norm_num, by ext <;> norm_num⟩)).symm

theorem still_ends : (⟨0, -1⟩ : Pt) ≠ ⟨0, 1⟩ := by
  intro e; have := congrArg V2.y e; norm_num at this

theorem still_loss (t : Pt) : minLoss [(Shape.ris ⟨0, -1⟩ ⟨0, 1⟩ 0).obj.interact] (V2.fin t) (V2.fin ⟨-1, 0⟩) [F.fin (1 / 2)] = F.fin 0 := by
  refine (C128_strip t _ _ _ ⟨1, 0⟩ still_ends still_normal _ _).mpr ⟨1, one_pos, ?_⟩
  ext <;> simp [beam, pointAt]
  norm_num

/-- A RIS that sends everything back along its normal, and a receiver in front of it: the path that `MinPath` finds from any transmitter. -/
theorem still_path (t : Pt) : (minMethod stillMin).trace (some ()) (V2.fin t) ([.ris ⟨0, -1⟩ ⟨0, 1⟩ 0].map Shape.obj) (V2.fin ⟨-1, 0⟩) =
    .ok (finitePath [t, ⟨0, 0⟩, ⟨-1, 0⟩] 0) := by
  show MinPath.fromTxObjectsRx stillMin (V2.fin t) [(Shape.ris ⟨0, -1⟩ ⟨0, 1⟩ 0).obj.interact] (V2.fin ⟨-1, 0⟩) () 1 = _
  have hn : nUnknowns [(Shape.ris ⟨0, -1⟩ ⟨0, 1⟩ 0).obj.interact] = 1 := rfl
  unfold MinPath.fromTxObjectsRx
  rw [if_neg (by simp), C45_single, hn]
  simp only [minimize, stillMin, minimizeScan, vadd, List.replicate_one, List.map_cons, List.map_nil, List.zipWith_cons_cons, List.zipWith_nil_right, F.fin_add,
    List.getLast?_singleton, bind, Except.bind, pure, Except.pure, still_loss]
  have : parametricToCartesian [(Shape.ris ⟨0, -1⟩ ⟨0, 1⟩ 0).obj.interact] [F.fin (1 / 2 + 0)] (V2.fin t) (V2.fin ⟨-1, 0⟩) =
    [V2.fin t, (Wall.ofPts ⟨0, -1⟩ ⟨0, 1⟩).toCart (F.fin (1 / 2 + 0)), V2.fin ⟨-1, 0⟩] := rfl
  rw [this, toCart_fin]
  simp only [finitePath, List.map_cons, List.map_nil]
  congr 4
  rw [V2.fin_inj]
  ext <;> norm_num [pointAt]

/-- It is valid, from any transmitter. -/
theorem still_valid (E : Env) (kw : ActKw) (t : Pt) (patch : ℝ) :
    (finitePath [t, ⟨0, 0⟩, ⟨-1, 0⟩] 0).isValid E [(Shape.ris ⟨0, -1⟩ ⟨0, 1⟩ 0).obj.interact] [0] ([Shape.ris ⟨0, -1⟩ ⟨0, 1⟩ 0].map Shape.obj |>.map Obj.interact)
      (F.fin (1 / 100)) (F.fin patch) (some false) kw = .ok (.b true) := by
  obtain ⟨v, hv, hiff⟩ := C38_hard (finitePath [t, ⟨0, 0⟩, ⟨-1, 0⟩] 0) E (some false) (.inl rfl) kw [(Shape.ris ⟨0, -1⟩ ⟨0, 1⟩ 0).obj.interact]
    ([Shape.ris ⟨0, -1⟩ ⟨0, 1⟩ 0].map Shape.obj |>.map Obj.interact) [0] (F.fin (1 / 100)) (F.fin patch) rfl rfl
  rw [hv]
  congr 2
  refine hiff.mpr ⟨?_, ?_, ?_⟩
  · intro i o q ho hq
    match i with
    | 0 =>
      simp [finitePath] at ho hq
      subst ho hq
      show Holds ((Wall.ofPts ⟨0, -1⟩ ⟨0, 1⟩).contains E (some false) kw ((Wall.ofPts ⟨0, -1⟩ ⟨0, 1⟩).toParam (V2.fin ⟨0, 0⟩)))
      have e : (⟨0, 0⟩ : Pt) = pointAt ⟨0, -1⟩ ⟨0, 1⟩ (1 / 2) := by ext <;> norm_num [pointAt]
      rw [toParam_fin, e, rpar_pointAt still_ends, contains_hard (.inl rfl)]
      norm_num [Holds]
    | i + 1 => simp at ho
  · rintro ⟨i, j, o, a, b, ha, hb, ho, hadj, -⟩
    match j with
    | 0 =>
      apply hadj
      match i with
      | 0 => exact .inl rfl
      | 1 => exact .inr ⟨0, rfl, rfl⟩
      | i + 2 => simp [finitePath] at hb
    | j + 1 => simp at ho
  · rw [← F.lt_iff]; simp [finitePath]

/-- Non-vacuity of the theorems on served receivers. -/
example (E : Env) (kw : ActKw) (t : Pt) : ∃ b : Pt, OnLine ⟨0, -1⟩ ⟨0, 1⟩ b ∧ InCone (beam ⟨1, 0⟩ 0) (1 - (1 / 100) / 2) b ⟨-1, 0⟩ :=
  C128_served E stillMin 1 _ (.inr rfl) (some ()) (V2.fin t) ⟨-1, 0⟩ [.ris ⟨0, -1⟩ ⟨0, 1⟩ 0] _ (still_path t) E (some false) (.inl rfl) kw (1 / 100) (by norm_num) (F.fin 0) _ [0] rfl
    (still_valid E kw t 0) ⟨0, -1⟩ ⟨0, 1⟩ ⟨1, 0⟩ 0 rfl still_ends still_normal

/-- A RIS is not reciprocal: with the transmitter behind the RIS the path above is valid, and with the two ends exchanged no path is. -/
theorem C128_not_reciprocal (E : Env) (kw : ActKw) :
    (∃ p, (minMethod stillMin).trace (some ()) (V2.fin ⟨1, 0⟩) ([.ris ⟨0, -1⟩ ⟨0, 1⟩ 0].map Shape.obj) (V2.fin ⟨-1, 0⟩) = .ok p ∧
      p.isValid E [(Shape.ris ⟨0, -1⟩ ⟨0, 1⟩ 0).obj.interact] [0] ([Shape.ris ⟨0, -1⟩ ⟨0, 1⟩ 0].map Shape.obj |>.map Obj.interact)
        (F.fin (1 / 100)) (F.fin 0) (some false) kw = .ok (.b true)) ∧
    ∀ (Key : Type) (M : Minimizer Key) (many : ℕ) (key : Option Key) (p : Path),
      (minMethod M many).trace key (V2.fin ⟨-1, 0⟩) ([.ris ⟨0, -1⟩ ⟨0, 1⟩ 0].map Shape.obj) (V2.fin ⟨1, 0⟩) = .ok p →
      p.isValid E [(Shape.ris ⟨0, -1⟩ ⟨0, 1⟩ 0).obj.interact] [0] ([Shape.ris ⟨0, -1⟩ ⟨0, 1⟩ 0].map Shape.obj |>.map Obj.interact)
        (F.fin (1 / 100)) (F.fin 0) (some false) kw ≠ .ok (.b true) := by
  refine ⟨⟨_, still_path _, still_valid E kw _ 0⟩, fun Key M many key p hp => ?_⟩
  exact C128_wrong_side E M many _ (.inr rfl) key _ ⟨1, 0⟩ [.ris ⟨0, -1⟩ ⟨0, 1⟩ 0] p hp E (some false) (.inl rfl) kw (1 / 100) (by norm_num) (F.fin 0) _ [0] rfl
    ⟨0, -1⟩ ⟨0, 1⟩ ⟨1, 0⟩ 0 rfl still_ends still_normal (by simp; norm_num) (by simp)

/-- The same with `FermatPath`. -/
theorem still_fermat (E : Env) (t : Pt) : (fermatMethod E stillMin).trace (some ()) (V2.fin t) ([.ris ⟨0, -1⟩ ⟨0, 1⟩ 0].map Shape.obj) (V2.fin ⟨-1, 0⟩) =
    .ok (finitePath [t, ⟨0, 0⟩, ⟨-1, 0⟩] 0) := by
  show FermatPath.fromTxObjectsRx E stillMin (V2.fin t) [(Shape.ris ⟨0, -1⟩ ⟨0, 1⟩ 0).obj.interact] (V2.fin ⟨-1, 0⟩) () 1 = _
  have hn : nUnknowns [(Shape.ris ⟨0, -1⟩ ⟨0, 1⟩ 0).obj.interact] = 1 := rfl
  unfold FermatPath.fromTxObjectsRx
  rw [if_neg (by simp), C45_single, hn]
  simp only [minimize, stillMin, minimizeScan, vadd, List.replicate_one, List.map_cons, List.map_nil, List.zipWith_cons_cons, List.zipWith_nil_right, F.fin_add,
    List.getLast?_singleton, bind, Except.bind, pure, Except.pure]
  have e : pathLoss 0 [(Shape.ris ⟨0, -1⟩ ⟨0, 1⟩ 0).obj.interact] (parametricToCartesian [(Shape.ris ⟨0, -1⟩ ⟨0, 1⟩ 0).obj.interact] [F.fin (1 / 2 + 0)] (V2.fin t) (V2.fin ⟨-1, 0⟩)) =
      F.fin 0 := by rw [add_zero]; exact still_loss t
  rw [e]
  have : parametricToCartesian [(Shape.ris ⟨0, -1⟩ ⟨0, 1⟩ 0).obj.interact] [F.fin (1 / 2 + 0)] (V2.fin t) (V2.fin ⟨-1, 0⟩) =
    [V2.fin t, (Wall.ofPts ⟨0, -1⟩ ⟨0, 1⟩).toCart (F.fin (1 / 2 + 0)), V2.fin ⟨-1, 0⟩] := rfl
  rw [this, toCart_fin]
  simp only [finitePath, List.map_cons, List.map_nil]
  congr 4
  rw [V2.fin_inj]
  ext <;> norm_num [pointAt]

example (E : Env) (kw : ActKw) (t : Pt) :=
  C128_fermat E stillMin 1 (some ()) (V2.fin t) (V2.fin ⟨-1, 0⟩) [.ris ⟨0, -1⟩ ⟨0, 1⟩ 0] _ (still_fermat E t) E (some false) (.inl rfl) kw (1 / 100) (by norm_num) (F.fin 0) _ [0] rfl
    (still_valid E kw t 0) 0 ⟨0, -1⟩ ⟨0, 1⟩ ⟨1, 0⟩ 0 rfl still_ends still_normal

/-- The same with `ImagePath`, when the RIS also mirrors the transmitter to the receiver. -/
theorem still_image : ImagePath.fromTxObjectsRx (V2.fin ⟨-1, 0⟩) ([.ris ⟨0, -1⟩ ⟨0, 1⟩ 0].map Shape.obj) (V2.fin ⟨-1, 0⟩) =
    .ok (finitePath [⟨-1, 0⟩, ⟨0, 0⟩, ⟨-1, 0⟩] 0) := by
  obtain ⟨inner, loss, hlen, h⟩ := C33_finite ⟨-1, 0⟩ ⟨-1, 0⟩ [(⟨0, -1⟩, ⟨0, 1⟩)]
  obtain ⟨b, rfl⟩ : ∃ b, inner = [b] := List.length_eq_one_iff.mp hlen
  have hm : MirrorChain ⟨-1, 0⟩ [(⟨0, -1⟩, ⟨0, 1⟩)] [⟨1, 0⟩] :=
    ⟨⟨by norm_num [Orthogonal], 1 / 2, by ext <;> norm_num [Spec.midpoint, pointAt]⟩, trivial⟩
  have hp := (C30_points _ _ _ _ _ _ h (by simpa using still_ends) hm 0 _ _ b ⟨-1, 0⟩ rfl rfl rfl rfl).1 (by norm_num [Parallel])
  have hb : b = ⟨0, 0⟩ := by
    obtain ⟨⟨s, hs⟩, ⟨t, ht⟩⟩ := hp
    have h1 := congrArg V2.x hs
    have h3 := congrArg V2.y ht
    simp [pointAt] at h1 h3
    ext <;> simp <;> linarith
  subst hb
  have e1 : ImagePath.fromTxObjectsRx (V2.fin ⟨-1, 0⟩) ([.ris ⟨0, -1⟩ ⟨0, 1⟩ 0].map Shape.obj) (V2.fin ⟨-1, 0⟩) =
      .ok (imagePathCore (V2.fin ⟨-1, 0⟩) [Wall.ofPts ⟨0, -1⟩ ⟨0, 1⟩] [(Shape.ris ⟨0, -1⟩ ⟨0, 1⟩ 0).obj.interact] (V2.fin ⟨-1, 0⟩)) := rfl
  have e2 : traceImage ⟨-1, 0⟩ [(⟨0, -1⟩, ⟨0, 1⟩)] ⟨-1, 0⟩ =
      .ok (imagePathCore (V2.fin ⟨-1, 0⟩) [Wall.ofPts ⟨0, -1⟩ ⟨0, 1⟩] [(Wall.ofPts ⟨0, -1⟩ ⟨0, 1⟩).interact] (V2.fin ⟨-1, 0⟩)) := rfl
  rw [e2] at h
  have h2 := congrArg Path.xys (Except.ok.inj h)
  have h3 : (imagePathCore (V2.fin ⟨-1, 0⟩) [Wall.ofPts ⟨0, -1⟩ ⟨0, 1⟩] [(Shape.ris ⟨0, -1⟩ ⟨0, 1⟩ 0).obj.interact] (V2.fin ⟨-1, 0⟩)).xys =
      (finitePath [⟨-1, 0⟩, ⟨0, 0⟩, ⟨-1, 0⟩] loss).xys := h2
  rw [e1]
  congr 1
  have h4 : (imagePathCore (V2.fin ⟨-1, 0⟩) [Wall.ofPts ⟨0, -1⟩ ⟨0, 1⟩] [(Shape.ris ⟨0, -1⟩ ⟨0, 1⟩ 0).obj.interact] (V2.fin ⟨-1, 0⟩)).loss =
      pathLoss 0 [(Shape.ris ⟨0, -1⟩ ⟨0, 1⟩ 0).obj.interact] (imagePathCore (V2.fin ⟨-1, 0⟩) [Wall.ofPts ⟨0, -1⟩ ⟨0, 1⟩]
        [(Shape.ris ⟨0, -1⟩ ⟨0, 1⟩ 0).obj.interact] (V2.fin ⟨-1, 0⟩)).xys := rfl
  rw [h3] at h4
  have h5 : pathLoss 0 [(Shape.ris ⟨0, -1⟩ ⟨0, 1⟩ 0).obj.interact] (finitePath [⟨-1, 0⟩, ⟨0, 0⟩, ⟨-1, 0⟩] loss).xys = F.fin 0 := by
    have := still_loss ⟨-1, 0⟩
    have e3 : minLoss [(Shape.ris ⟨0, -1⟩ ⟨0, 1⟩ 0).obj.interact] (V2.fin ⟨-1, 0⟩) (V2.fin ⟨-1, 0⟩) [F.fin (1 / 2)] =
        pathLoss 0 [(Shape.ris ⟨0, -1⟩ ⟨0, 1⟩ 0).obj.interact] [V2.fin ⟨-1, 0⟩, (Wall.ofPts ⟨0, -1⟩ ⟨0, 1⟩).toCart (F.fin (1 / 2)), V2.fin ⟨-1, 0⟩] := rfl
    rw [e3, toCart_fin] at this
    have e4 : pointAt ⟨0, -1⟩ ⟨0, 1⟩ (1 / 2) = ⟨0, 0⟩ := by ext <;> norm_num [pointAt]
    rw [e4] at this
    exact this
  rw [h5] at h4
  have ext' : ∀ p q : Path, p.xys = q.xys → p.loss = q.loss → p = q := by
    rintro ⟨_, _⟩ ⟨_, _⟩ h h'
    simp only at h h'
    rw [h, h']
  exact ext' _ _ h3 h4

example (E : Env) (kw : ActKw) :=
  C128_image (V2.fin ⟨-1, 0⟩) (V2.fin ⟨-1, 0⟩) [.ris ⟨0, -1⟩ ⟨0, 1⟩ 0] _ still_image E (some false) (.inl rfl) kw (1 / 100) (by norm_num) (F.fin 0) _ [0] rfl
    (still_valid E kw _ 0) 0 ⟨0, -1⟩ ⟨0, 1⟩ ⟨1, 0⟩ 0 rfl still_ends still_normal

/-- A RIS that mirrors the ray that comes along its normal. -/
example (c : Pt) := C128_mirror ⟨0, -1⟩ ⟨0, 1⟩ ⟨1, 0⟩ still_ends still_normal 0 ⟨-1, 0⟩ ⟨0, 0⟩ c ⟨1, 0⟩ (.inr ⟨by norm_num, 1, one_pos, by ext <;> norm_num⟩)
  (by ext <;> simp [beam]; norm_num)

/-- A RIS in a scene, with a receiver behind its beam. -/
example (E : Env) (kw : ActKw) (out : List (String × String × Path × List ℤ))
    (hout : (sceneOf [("tx", ⟨-1, 0⟩)] [("rx", ⟨1, 0⟩)] [.ris ⟨0, -1⟩ ⟨0, 1⟩ 0]).allValidPaths refLib (fun _ n => List.replicate n ()) (minMethod exMin)
      { minOrder := 1, maxOrder := 1, filter := some isRIS } ⟨E, F.fin (1 / 100), F.fin 0, some false, kw⟩ (some ()) = .ok out) : out = [] := by
  have h := C128_dark refLib refLib_contract [("tx", ⟨-1, 0⟩)] [("rx", ⟨1, 0⟩)] (by simp [Distinct]) (by simp [Distinct]) [.ris ⟨0, -1⟩ ⟨0, 1⟩ 0] 1 1 le_rfl
    (fun _ n => List.replicate n ()) (some ()) E (some false) (.inl rfl) kw (1 / 100) 0 (by norm_num)
    (by intro o d φ h; simp at h; obtain ⟨rfl, rfl, rfl⟩ := h; exact still_ends) E exMin 1 _ (.inr rfl) out hout "rx" ⟨1, 0⟩ (by simp) (by
      intro o d n φ h hn
      simp at h
      obtain ⟨rfl, rfl, rfl⟩ := h
      rw [still_normal, V2.fin_inj] at hn
      subst hn
      constructor
      · simp; norm_num
      · simp)
  rw [List.eq_nil_iff_forall_not_mem]
  rintro ⟨tn, rname, path, c⟩ hmem
  obtain ⟨r, -, -, -, -, -, -, hr, -⟩ := C128_scene refLib refLib_contract [("tx", ⟨-1, 0⟩)] [("rx", ⟨1, 0⟩)] (by simp [Distinct]) (by simp [Distinct]) [.ris ⟨0, -1⟩ ⟨0, 1⟩ 0] 1 1 le_rfl
    (fun _ n => List.replicate n ()) (some ()) E (some false) (.inl rfl) kw (1 / 100) 0 (by norm_num)
    (by intro o d φ h; simp at h; obtain ⟨rfl, rfl, rfl⟩ := h; exact still_ends) E exMin 1 _ (.inr rfl) out hout tn rname path c hmem
  simp at hr
  rw [hr.1] at hmem
  exact h tn path c hmem

end DiffeRT2d.Props
