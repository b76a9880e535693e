import Verif.Props.Rounded
import Verif.Props.Validity

/-! # Property C91 (the image method in floating point), and the rounded model against the exact one -/

namespace DiffeRT2d.Props
open Classical Spec

variable {A : FloatOps} {E : Env} {ap : Option Bool} {kw : ActKw}

/-! ## C87 — without rounding, the rounded model is the exact model -/

@[simp] theorem exact_round (x : F) : FloatOps.exact.round x = x := by cases x <;> rfl
@[simp] theorem exact_add : FloatOps.exact.add = (· + ·) := by funext a b; simp [FloatOps.add]
@[simp] theorem exact_sub : FloatOps.exact.sub = (· - ·) := by funext a b; simp [FloatOps.sub]
@[simp] theorem exact_mul : FloatOps.exact.mul = (· * ·) := by funext a b; simp [FloatOps.mul]
@[simp] theorem exact_div : FloatOps.exact.div = (· / ·) := by funext a b; simp [FloatOps.div]
@[simp] theorem exact_sqrt : FloatOps.exact.sqrt = F.sqrt := by funext a; simp [FloatOps.sqrt]
@[simp] theorem exact_vadd : FloatOps.exact.vadd = (· + ·) := by funext a b; simp [FloatOps.vadd]; rfl
@[simp] theorem exact_vsub : FloatOps.exact.vsub = (· - ·) := by funext a b; simp [FloatOps.vsub]; rfl
@[simp] theorem exact_vsmul : FloatOps.exact.vsmul = V2.smul := by funext a b; simp [FloatOps.vsmul, V2.smul]
@[simp] theorem exact_vsdiv : FloatOps.exact.vsdiv = V2.sdiv := by funext a b; simp [FloatOps.vsdiv, V2.sdiv]
@[simp] theorem exact_vdot : FloatOps.exact.vdot = V2.dot := by funext a b; simp [FloatOps.vdot, V2.dot]
@[simp] theorem exact_vcross : FloatOps.exact.vcross = V2.cross := by funext a b; simp [FloatOps.vcross, V2.cross]
@[simp] theorem exact_vnorm : FloatOps.exact.vnorm = V2.norm := by funext a; simp [FloatOps.vnorm, V2.norm]

theorem exact_segmentsIntersect : FloatOps.exact.segmentsIntersect = segmentsIntersect := by
  funext E P1 P2 P3 P4 tol ap kw
  simp only [FloatOps.segmentsIntersect, segmentsIntersect, FloatOps.segTest, segTest, FloatOps.greaterEqual, FloatOps.lessEqual,
    greaterEqual, lessEqual, exact_add, exact_sub, exact_mul, exact_div, exact_vsub]

theorem exact_normalize : FloatOps.exact.normalize = normalize := by
  funext v; simp [FloatOps.normalize, normalize]
theorem exact_wallT : FloatOps.exact.wallT = Wall.t := by funext w; simp [FloatOps.wallT, Wall.t]
theorem exact_wallNormal : FloatOps.exact.wallNormal = Wall.normal := by
  funext w; simp [FloatOps.wallNormal, Wall.normal, exact_wallT, exact_normalize]
theorem exact_evaluate : FloatOps.exact.wallEvaluate = Wall.evaluate := by
  funext w a b c; simp [FloatOps.wallEvaluate, Wall.evaluate, exact_normalize, exact_wallNormal]
theorem exact_imageOf : FloatOps.exact.wallImageOf = Wall.imageOf := by
  funext w p
  simp only [FloatOps.wallImageOf, Wall.imageOf, exact_vsub, exact_vsmul, exact_vdot, exact_mul, exact_wallNormal]
  rw [show (2 : F) = 2.0 by rw [F.ofNat_eq, F.ofScientific_eq]; norm_num]

theorem exact_segTol : FloatOps.exact.SEG_TOL = SEG_TOL := by
  simp only [FloatOps.SEG_TOL, SEG_TOL, FloatOps.exact, F.ofScientific_eq]; norm_num

theorem exact_wallInteract : FloatOps.exact.wallInteract = Wall.interact := by
  funext w
  simp only [FloatOps.wallInteract, Wall.interact, exact_evaluate]
  congr 1
  · funext ps; simp [FloatOps.wallToCart, Wall.toCart, exact_wallT]
  · funext p; simp [FloatOps.wallToParam, Wall.toParam, exact_wallT]
  · funext E ap kw ps; simp [FloatOps.wallContains, Wall.contains, FloatOps.greaterEqual, FloatOps.lessEqual, greaterEqual, lessEqual]
  · funext E ap kw patch a b
    simp only [FloatOps.wallIntersects, Wall.intersects, exact_segmentsIntersect, exact_vsub, exact_vadd, exact_vsmul, exact_wallT, exact_segTol]

theorem exact_interact : FloatOps.exact.interact = Obj.interact := by
  funext o
  cases o with
  | wall w => simp only [FloatOps.interact, Obj.interact, exact_wallInteract]
  | ris r =>
    simp only [FloatOps.interact, Obj.interact, FloatOps.risInteract, RIS.interact, exact_wallInteract]
    congr 1
    funext a b c
    simp [FloatOps.risEvaluate, RIS.evaluate, RIS.sq, exact_normalize, exact_wallNormal]
  | vertex v => rfl
  | user _ i _ => rfl

theorem exact_pathLoss (os : List Interactable) : ∀ (l : F) (pts : List (V2 F)), FloatOps.exact.pathLoss l os pts = pathLoss l os pts := by
  induction os with
  | nil => intro l pts; simp [FloatOps.pathLoss, pathLoss]
  | cons o os ih =>
    intro l pts
    match pts with
    | [] | [_] | [_, _] => simp [FloatOps.pathLoss, pathLoss]
    | a :: b :: c :: pts => simp [FloatOps.pathLoss, pathLoss, ih]

theorem exact_images (ws : List Wall) : ∀ p, FloatOps.exact.images p ws = images p ws := by
  induction ws with
  | nil => intro p; rfl
  | cons w ws ih => intro p; simp [FloatOps.images, images, ih, exact_imageOf]

theorem exact_backward (rx : V2 F) (ws : List (Wall × V2 F)) : FloatOps.exact.backward rx ws = backward rx ws := by
  induction ws with
  | nil => rfl
  | cons w ws ih =>
    simp [FloatOps.backward, backward, ih, FloatOps.backStep, backStep, exact_wallNormal]

theorem exact_pathLength (E : Env) (pts : List (V2 F)) : FloatOps.exact.pathLength E pts = pathLength E pts := by
  simp only [FloatOps.pathLength, pathLength, F.sum, exact_add, exact_vnorm, exact_vadd, exact_vsub]
  rw [F.zero_eq]
  congr 1
  induction pts with
  | nil => rfl
  | cons a l ih => cases l with
    | nil => rfl
    | cons b l => simpa [diffs] using ih

/-- With an arithmetic that does not round, the functions modelled in floating point are those of the rest of the model. -/
theorem C87_exact_model (E : Env) (ap : Option Bool) (kw : ActKw) :
    FloatOps.exact.greater E ap kw = greater E ap kw ∧ FloatOps.exact.greaterEqual E ap kw = greaterEqual E ap kw ∧
    FloatOps.exact.less E ap kw = less E ap kw ∧ FloatOps.exact.lessEqual E ap kw = lessEqual E ap kw ∧
    FloatOps.exact.logicalNot E ap = logicalNot E ap ∧ (∀ x tol, FloatOps.exact.isTrue E ap x tol = isTrue E ap x tol) ∧
    FloatOps.exact.sigmoid = sigmoid ∧ FloatOps.exact.hardSigmoid = hardSigmoid ∧
    FloatOps.exact.segmentsIntersect = segmentsIntersect ∧ FloatOps.exact.pathLength E = pathLength E ∧
    FloatOps.exact.interact = Obj.interact ∧
    (∀ (p : Path) objects candidate inter tol patch, FloatOps.exact.isValid p E objects candidate inter tol patch ap kw =
      p.isValid E objects candidate inter tol patch ap kw) ∧
    ∀ tx (ws : List Wall) rx, ImagePath.fromTxObjectsRx tx (ws.map .wall) rx = .ok (FloatOps.exact.imagePath tx ws rx) := by
  refine ⟨?_, ?_, ?_, ?_, ?_, ?_, ?_, ?_, exact_segmentsIntersect, funext (exact_pathLength E), exact_interact, ?_, ?_⟩
  · funext x y; simp [FloatOps.greater, greater]
  · funext x y; simp [FloatOps.greaterEqual, greaterEqual]
  · funext x y; simp [FloatOps.less, less]
  · funext x y; simp [FloatOps.lessEqual, lessEqual]
  · funext x; simp [FloatOps.logicalNot, logicalNot]
  · intro x tol; simp only [FloatOps.isTrue, isTrue, exact_sub]; rfl
  · funext x a; simp [FloatOps.sigmoid, sigmoid]; rfl
  · funext x a; simp [FloatOps.hardSigmoid, hardSigmoid, nnHardSigmoid]
  · intro p objects candidate inter tol patch
    simp [FloatOps.isValid, Path.isValid, FloatOps.logicalNot, logicalNot, FloatOps.less, less]
  · intro tx ws rx
    cases ws with
    | nil => rfl
    | cons w ws =>
      have h2 : ∀ l : List Wall, (l.map Obj.wall).mapM Obj.asWall = some l := by
        intro l; induction l with
        | nil => rfl
        | cons a l ih => rw [List.map_cons, List.mapM_cons, ih]; rfl
      have h3 : (w :: ws).map (Obj.interact ∘ Obj.wall) = (w :: ws).map Wall.interact := rfl
      simp only [ImagePath.fromTxObjectsRx, List.map_cons]
      rw [if_pos (by simp [Obj.cls]), ← List.map_cons (f := Obj.wall), h2]
      simp only [imagePathCore, FloatOps.imagePath, exact_images, exact_backward, exact_pathLoss, exact_wallInteract, List.map_map, h3]
      rfl

/-! ## C91 — finite results, and NaN losses -/

variable (hA : FloatContract A) (hN : NoOverflow A)

/-- A finite float. -/
def Fin' (x : F) : Prop := ∃ r, x = F.fin r
/-- Finite coordinates. -/
def FinV (v : V2 F) : Prop := Fin' v.x ∧ Fin' v.y

include hN
theorem fin_round {x : F} (h : Fin' x) : Fin' (A.round x) := by obtain ⟨r, rfl⟩ := h; exact hN r
theorem fin_add {a b : F} (ha : Fin' a) (hb : Fin' b) : Fin' (A.add a b) := by
  obtain ⟨r, rfl⟩ := ha; obtain ⟨s, rfl⟩ := hb; exact fin_round hN ⟨r + s, rfl⟩
theorem fin_sub {a b : F} (ha : Fin' a) (hb : Fin' b) : Fin' (A.sub a b) := by
  obtain ⟨r, rfl⟩ := ha; obtain ⟨s, rfl⟩ := hb; exact fin_round hN ⟨r - s, by simp⟩
theorem fin_mul {a b : F} (ha : Fin' a) (hb : Fin' b) : Fin' (A.mul a b) := by
  obtain ⟨r, rfl⟩ := ha; obtain ⟨s, rfl⟩ := hb; exact fin_round hN ⟨r * s, rfl⟩
theorem fin_div {a b : F} (ha : Fin' a) (hb : Fin' b) (h0 : F.eq b 0 = false) : Fin' (A.div a b) := by
  obtain ⟨r, rfl⟩ := ha; obtain ⟨s, rfl⟩ := hb
  have : s ≠ 0 := by simpa using h0
  refine fin_round hN ⟨r / s, ?_⟩
  show F.div _ _ = _
  simp [F.div, this]
theorem fin_vadd {a b : V2 F} (ha : FinV a) (hb : FinV b) : FinV (A.vadd a b) := ⟨fin_add hN ha.1 hb.1, fin_add hN ha.2 hb.2⟩
theorem fin_vsub {a b : V2 F} (ha : FinV a) (hb : FinV b) : FinV (A.vsub a b) := ⟨fin_sub hN ha.1 hb.1, fin_sub hN ha.2 hb.2⟩
theorem fin_vsmul {a : F} {b : V2 F} (ha : Fin' a) (hb : FinV b) : FinV (A.vsmul a b) := ⟨fin_mul hN ha hb.1, fin_mul hN ha hb.2⟩
theorem fin_vsdiv {a : F} {b : V2 F} (ha : Fin' a) (hb : FinV b) (h0 : F.eq a 0 = false) : FinV (A.vsdiv b a) :=
  ⟨fin_div hN hb.1 ha h0, fin_div hN hb.2 ha h0⟩
theorem fin_vdot {a b : V2 F} (ha : FinV a) (hb : FinV b) : Fin' (A.vdot a b) := fin_add hN (fin_mul hN ha.1 hb.1) (fin_mul hN ha.2 hb.2)
omit hN

include hA
theorem rnd_nonneg {x : ℝ} (h : 0 ≤ x) : Le (F.fin 0) (A.rnd x) := by
  have h0 : A.rnd 0 = F.fin 0 := by simpa using hA.halves 0 (by norm_num)
  rw [← h0]; exact hA.mono _ _ h
theorem round_nonneg {x : F} (h : Le (F.fin 0) x) : Le (F.fin 0) (A.round x) := by
  cases x with
  | fin x => exact rnd_nonneg hA (Spec.Le.fin.mp h)
  | nan => simpa using h
  | pinf => simpa using h
  | ninf => simpa using h
theorem sq_nonneg' {x : F} (h : x ≠ F.nan) : Le (F.fin 0) (A.mul x x) := by
  refine round_nonneg hA ?_
  cases x with
  | fin x => rw [show F.fin x * F.fin x = F.fin (x * x) from rfl, Spec.Le.fin]; exact mul_self_nonneg x
  | nan => exact absurd rfl h
  | pinf => exact ⟨_, _, rfl, rfl, by simp⟩
  | ninf => exact ⟨_, _, rfl, rfl, by simp⟩
theorem add_nonneg' {a b : F} (ha : Le (F.fin 0) a) (hb : Le (F.fin 0) b) : Le (F.fin 0) (A.add a b) := by
  refine round_nonneg hA ?_
  rw [← F.le_iff] at *
  change F.le _ (F.add a b) = true
  cases a <;> cases b <;> simp_all [F.le, F.lt, F.eq, F.add]
  rename_i x y
  have : 0 ≤ x + y := add_nonneg (by rcases ha with h | h <;> linarith) (by rcases hb with h | h <;> linarith)
  rcases this.lt_or_eq with h | h <;> simp [h]
theorem sqrt_nonneg' {a : F} (ha : Le (F.fin 0) a) : Le (F.fin 0) (A.sqrt a) := by
  refine round_nonneg hA ?_
  cases a with
  | fin x =>
    have := Spec.Le.fin.mp ha
    simp only [F.sqrt, this.not_gt, if_false]
    exact Spec.Le.fin.mpr (Real.sqrt_nonneg _)
  | nan => exact absurd rfl ha.right
  | pinf => exact ha
  | ninf => rw [← F.le_iff] at ha; simp [F.le, F.lt, F.eq] at ha
theorem vnorm_nonneg {v : V2 F} (hx : v.x ≠ F.nan) (hy : v.y ≠ F.nan) : Le (F.fin 0) (A.vnorm v) :=
  sqrt_nonneg' hA (add_nonneg' hA (sq_nonneg' hA hx) (sq_nonneg' hA hy))
theorem rsub_ne_nan {a b : F} (ha : Fin' a) (hb : Fin' b) : A.sub a b ≠ F.nan := by
  obtain ⟨r, rfl⟩ := ha; obtain ⟨s, rfl⟩ := hb
  rw [FloatOps.sub, Ne, round_eq_nan hA]; simp
theorem radd_ne_nan {a b : F} (ha : a ≠ F.nan) (hb : Fin' b) : A.add a b ≠ F.nan := by
  obtain ⟨s, rfl⟩ := hb
  rw [FloatOps.add, Ne, round_eq_nan hA]
  change ¬ F.add a _ = _
  cases a <;> simp_all [F.add]

/-- The length of a path through finite points is never NaN and never negative, overflow or not. -/
theorem C91_length (E : Env) (pts : List Pt) : ∃ r : EReal, toEReal (A.pathLength E (pts.map V2.fin)) = some r ∧ 0 ≤ r := by
  have key : ∀ (ls : List F) (x : F), (∀ l ∈ ls, Le (F.fin 0) l) → Le (F.fin 0) x → Le (F.fin 0) (ls.foldl A.add x) := by
    intro ls
    induction ls with
    | nil => intro x _ h; exact h
    | cons l ls ih => intro x h hx; exact ih _ (fun l' h' => h l' (List.mem_cons_of_mem _ h')) (add_nonneg' hA hx (h l List.mem_cons_self))
  have : Le (F.fin 0) (A.pathLength E (pts.map V2.fin)) := by
    unfold FloatOps.pathLength
    refine key _ _ ?_ (by rw [F.zero_eq]; exact Spec.Le.fin.mpr le_rfl)
    intro l hl
    rw [← List.map_tail, List.zipWith_map, List.mem_iff_getElem?] at hl
    obtain ⟨i, hi⟩ := hl
    rw [List.getElem?_zipWith_eq_some] at hi
    obtain ⟨q, p, -, -, rfl⟩ := hi
    exact vnorm_nonneg hA (radd_ne_nan hA (rsub_ne_nan hA ⟨_, rfl⟩ ⟨_, rfl⟩) ⟨_, rfl⟩) (radd_ne_nan hA (rsub_ne_nan hA ⟨_, rfl⟩ ⟨_, rfl⟩) ⟨_, rfl⟩)
  obtain ⟨x, y, h1, h2, h3⟩ := this
  refine ⟨y, h2, ?_⟩
  simp only [toEReal, Option.some.injEq] at h1
  rw [← h1] at h3; simpa using h3

theorem eq_one_zero : F.eq 1 0 = false := by rw [F.one_eq, F.zero_eq]; simp

include hN
theorem fin_vnorm {v : V2 F} (hv : FinV v) : Fin' (A.vnorm v) := by
  obtain ⟨r, hr⟩ := fin_add hN (fin_mul hN hv.1 hv.1) (fin_mul hN hv.2 hv.2)
  have := add_nonneg' hA (sq_nonneg' hA (x := v.x) (by obtain ⟨r, h⟩ := hv.1; rw [h]; simp)) (sq_nonneg' hA (x := v.y) (by obtain ⟨r, h⟩ := hv.2; rw [h]; simp))
  rw [hr, Spec.Le.fin] at this
  rw [FloatOps.vnorm, hr, FloatOps.sqrt, F.sqrt, if_neg this.not_gt]
  exact hN _
theorem fin_normalize {v : V2 F} (hv : FinV v) : FinV (A.normalize v).1 ∧ Fin' (A.normalize v).2 := by
  have := fin_vnorm hA hN hv
  simp only [FloatOps.normalize]
  cases h : F.eq (A.vnorm v) 0 with
  | true =>
    rw [F.where_true]
    exact ⟨fin_vsdiv hN ⟨1, F.one_eq⟩ hv (by rw [F.one_eq, F.zero_eq]; simp), ⟨1, F.one_eq⟩⟩
  | false => rw [F.where_false]; exact ⟨fin_vsdiv hN this hv h, this⟩

/-- A wall with finite end points. -/
def FinW (w : Wall) : Prop := FinV w.origin ∧ FinV w.dest

theorem fin_wallNormal {w : Wall} (hw : FinW w) : FinV (A.wallNormal w) := by
  refine (fin_normalize hA hN ⟨?_, ?_⟩).1
  · exact fin_sub hN hw.2.2 hw.1.2
  · obtain ⟨r, hr⟩ := fin_sub hN hw.2.1 hw.1.1
    exact ⟨-r, by simp only [FloatOps.wallT, FloatOps.vsub, hr]; rfl⟩
theorem fin_imageOf {w : Wall} (hw : FinW w) {p : V2 F} (hp : FinV p) : FinV (A.wallImageOf w p) := by
  have hn := fin_wallNormal hA hN hw
  exact fin_vsub hN hp (fin_vsmul hN (fin_mul hN ⟨2, rfl⟩ (fin_vdot hN (fin_vsub hN hp hw.1) hn)) hn)
theorem fin_evaluate {w : Wall} (hw : FinW w) {a b c : V2 F} (ha : FinV a) (hb : FinV b) (hc : FinV c) :
    ∃ r, A.wallEvaluate w a b c = F.fin r ∧ 0 ≤ r := by
  have hn := fin_wallNormal hA hN hw
  have hi := (fin_normalize hA hN (fin_vsub hN hb ha)).1
  have hr := (fin_normalize hA hN (fin_vsub hN hc hb)).1
  have he := fin_vsub hN hr (fin_vsub hN hi (fin_vsmul hN (fin_mul hN ⟨2, rfl⟩ (fin_vdot hN hi hn)) hn))
  obtain ⟨r, h⟩ := fin_vdot hN he he
  refine ⟨r, h, ?_⟩
  have h0 : Le (F.fin 0) (A.vdot _ _) := add_nonneg' hA (sq_nonneg' hA (by obtain ⟨r, h⟩ := he.1; rw [h]; simp)) (sq_nonneg' hA (by obtain ⟨r, h⟩ := he.2; rw [h]; simp))
  rw [h] at h0
  exact Spec.Le.fin.mp h0
theorem fin_backStep {w : Wall} (hw : FinW w) {im p : V2 F} (hi : FinV im) (hp : FinV p) : FinV (A.backStep w im p) := by
  have hn := fin_wallNormal hA hN hw
  have hu := fin_vdot hN (fin_vsub hN hp hi) hn
  have hv := fin_vdot hN (fin_vsub hN hw.1 hp) hn
  simp only [FloatOps.backStep]
  refine fin_vadd hN hp ?_
  cases h : F.eq (A.vdot (A.vsub p im) (A.wallNormal w)) 0 with
  | true => rw [F.where_true]; exact ⟨⟨0, F.zero_eq⟩, ⟨0, F.zero_eq⟩⟩
  | false => rw [F.where_false]; exact fin_vsdiv hN hu (fin_vsmul hN hv (fin_vsub hN hp hi)) h

theorem fin_images {ws : List Wall} (hw : ∀ w ∈ ws, FinW w) : ∀ {p : V2 F}, FinV p → ∀ q ∈ A.images p ws, FinV q := by
  induction ws with
  | nil => intro p _ q hq; simp [FloatOps.images] at hq
  | cons w ws ih =>
    intro p hp q hq
    have h1 := fin_imageOf hA hN (hw w List.mem_cons_self) hp
    simp only [FloatOps.images, List.mem_cons] at hq
    rcases hq with rfl | hq
    · exact h1
    · exact ih (fun w h => hw w (List.mem_cons_of_mem _ h)) h1 q hq
theorem fin_backward {rx : V2 F} (hr : FinV rx) {l : List (Wall × V2 F)} (hl : ∀ x ∈ l, FinW x.1 ∧ FinV x.2) :
    ∀ q ∈ A.backward rx l, FinV q := by
  induction l with
  | nil => intro q hq; simp [FloatOps.backward] at hq
  | cons x l ih =>
    obtain ⟨w, im⟩ := x
    have ih := ih (fun x h => hl x (List.mem_cons_of_mem _ h))
    intro q hq
    simp only [FloatOps.backward, List.mem_cons] at hq
    rcases hq with rfl | hq
    · refine fin_backStep hA hN (hl (w, im) List.mem_cons_self).1 (hl (w, im) List.mem_cons_self).2 ?_
      cases hb : A.backward rx l with
      | nil => exact hr
      | cons b bs => exact ih b (by rw [hb]; exact List.mem_cons_self)
    · exact ih q hq
theorem fin_pathLoss {ws : List Wall} (hw : ∀ w ∈ ws, FinW w) : ∀ {l : ℝ} {pts : List (V2 F)}, 0 ≤ l → (∀ q ∈ pts, FinV q) → ws.length + 2 ≤ pts.length →
    ∃ r, A.pathLoss (F.fin l) (ws.map A.wallInteract) pts = F.fin r ∧ 0 ≤ r := by
  induction ws with
  | nil => intro l pts h0 _ _; exact ⟨l, by simp [FloatOps.pathLoss], h0⟩
  | cons w ws ih =>
    intro l pts h0 hp hl
    match pts, hl with
    | a :: b :: c :: pts, hl =>
      simp only [List.mem_cons, forall_eq_or_imp] at hp
      obtain ⟨ha, hb, hc, hp⟩ := hp
      obtain ⟨r, he, hr⟩ := fin_evaluate hA hN (hw w List.mem_cons_self) ha hb hc
      simp only [List.map_cons, FloatOps.pathLoss]
      rw [show (A.wallInteract w).evaluate a b c = F.fin r from he]
      obtain ⟨s, hs⟩ := fin_add hN ⟨l, rfl⟩ ⟨r, rfl⟩
      have : Le (F.fin 0) (A.add (F.fin l) (F.fin r)) := add_nonneg' hA (Spec.Le.fin.mpr h0) (Spec.Le.fin.mpr hr)
      rw [hs, Spec.Le.fin] at this
      rw [hs]
      refine ih (fun w h => hw w (List.mem_cons_of_mem _ h)) this ?_ (by simp at hl ⊢; omega)
      intro q hq
      simp only [List.mem_cons] at hq
      rcases hq with rfl | rfl | hq
      · exact hb
      · exact hc
      · exact hp q hq
omit hA in omit hN in
theorem length_images (ws : List Wall) : ∀ p, (A.images p ws).length = ws.length := by
  induction ws with
  | nil => intro p; rfl
  | cons w ws ih => intro p; simp [FloatOps.images, ih]
omit hA in omit hN in
theorem length_backward (rx : V2 F) (l : List (Wall × V2 F)) : (A.backward rx l).length = l.length := by
  induction l with
  | nil => rfl
  | cons x l ih => simp [FloatOps.backward, ih]
omit hA in omit hN in
theorem exists_pts {l : List (V2 F)} (h : ∀ q ∈ l, FinV q) : ∃ pts : List Pt, l = pts.map V2.fin := by
  induction l with
  | nil => exact ⟨[], rfl⟩
  | cons q l ih =>
    obtain ⟨⟨x, hx⟩, ⟨y, hy⟩⟩ := h q List.mem_cons_self
    obtain ⟨pts, rfl⟩ := ih (fun q h' => h q (List.mem_cons_of_mem _ h'))
    exact ⟨⟨x, y⟩ :: pts, by rw [List.map_cons]; congr 1; ext <;> assumption⟩

/-- **C91.** The image method in rounded arithmetic, for any transmitter, receiver and walls (degenerate walls, parallel walls and
points on walls included): as long as nothing overflows, every interaction point is finite, there is one per wall, and the loss is
finite and not negative. No operation divides by zero or takes the root of a negative number. -/
theorem C91_finite (tx rx : Pt) (ws : List (Pt × Pt)) : ∃ (pts : List Pt) (l : ℝ), pts.length = ws.length ∧ 0 ≤ l ∧
    A.imagePath (V2.fin tx) (ws.map fun w => ⟨V2.fin w.1, V2.fin w.2⟩) (V2.fin rx) =
      ⟨V2.fin tx :: pts.map V2.fin ++ [V2.fin rx], F.fin l⟩ := by
  have hF : ∀ p : Pt, FinV (V2.fin p) := fun p => ⟨⟨_, rfl⟩, ⟨_, rfl⟩⟩
  have hW : ∀ w ∈ ws.map (fun w => (⟨V2.fin w.1, V2.fin w.2⟩ : Wall)), FinW w := by
    intro w hw
    obtain ⟨v, -, rfl⟩ := List.mem_map.mp hw
    exact ⟨hF _, hF _⟩
  have hlen : (ws.map (fun w => (⟨V2.fin w.1, V2.fin w.2⟩ : Wall))).length = ws.length := by simp
  generalize ws.map (fun w => (⟨V2.fin w.1, V2.fin w.2⟩ : Wall)) = W at *
  have him := fin_images hA hN hW (hF tx)
  have hb := fin_backward hA hN (hF rx) (l := W.zip (A.images (V2.fin tx) W)) (fun x hx => ⟨hW _ (List.of_mem_zip hx).1, him _ (List.of_mem_zip hx).2⟩)
  obtain ⟨pts, hp⟩ := exists_pts hb
  have hl : pts.length = W.length := by
    have := congrArg List.length hp
    rw [length_backward, List.length_zip, length_images] at this
    simpa using this.symm
  have hall : ∀ q ∈ V2.fin tx :: pts.map V2.fin ++ [V2.fin rx], FinV q := by
    intro q hq
    simp only [List.cons_append, List.mem_cons, List.mem_append, List.mem_map, List.not_mem_nil, or_false] at hq
    rcases hq with rfl | ⟨p, -, rfl⟩ | rfl <;> exact hF _
  obtain ⟨l, h1, h2⟩ := fin_pathLoss hA hN hW (l := 0) le_rfl hall (by simp [hl])
  refine ⟨pts, l, by omega, h2, ?_⟩
  cases W with
  | nil =>
    have : pts = [] := List.eq_nil_of_length_eq_zero (by simpa using hl)
    subst this
    simp only [List.map_nil, FloatOps.pathLoss, F.fin.injEq] at h1
    subst h1
    simp [FloatOps.imagePath]
  | cons w W =>
    simp only [FloatOps.imagePath]
    rw [hp, F.zero_eq, h1]
omit hA hN

/-- A path whose loss is NaN is never valid in floating point, in either mode. -/
theorem C91_nan_loss (p : Path) (hk : FloatStep kw) (objects inter : List Interactable) (candidate : List ℤ) (tol patch : F)
    (hlen : p.xys.length ≤ candidate.length + 2) (hn : p.loss = F.nan) :
    (Hard E ap → A.isValid p E objects candidate inter tol patch ap kw = .ok (.b false)) ∧
    (Soft E ap → A.isValid p E objects candidate inter tol patch ap kw = .ok (.f (F.fin 0))) := by
  refine ⟨fun h => ?_, fun h => ?_⟩
  · rw [rounded_isValid_hard p h _ _ _ _ _ _ hlen, hn]
    have : F.lt F.nan tol = false := by cases tol <;> rfl
    rw [this]; simp
  · rw [rounded_isValid_soft p h _ _ _ _ _ _ hlen, hn]
    have : A.sub tol F.nan = F.nan := by cases tol <;> rfl
    rw [this, hk.nan, F.minOf_nan (.inr (by simp))]; rfl

/-- Non-vacuity: `float32` without an upper bound on the exponent satisfies the contract and never overflows; a finite result of
`float32` is the same number there. -/
example : FloatContract (unbounded 24 (-126)) ∧ NoOverflow (unbounded 24 (-126)) ∧
    ∀ x r, float32.rnd x = F.fin r → (unbounded 24 (-126)).rnd x = F.fin r :=
  ⟨unbounded_contract (by norm_num) (by norm_num), unbounded_noOverflow, fun _ _ h => ieee_rnd_fin h⟩

/-- Non-vacuity of `C91_nan_loss`: a path of NaN loss, with the sigmoid in `float32`. -/
example : FloatStep ⟨F.fin 100, float32.sigmoid⟩ ∧ (⟨[V2.fin ⟨0, 0⟩, V2.fin ⟨1, 0⟩], F.nan⟩ : Path).loss = F.nan :=
  ⟨(C87_steps C87_formats.1 100 (by norm_num)).1, rfl⟩

end DiffeRT2d.Props
