import Verif.Spec.Grad
import Verif.Lemmas.Float

/-! The value part of the differentiated program. -/

namespace DiffeRT2d
open Classical Spec
namespace Rev
variable {ι : Type}

@[simp] theorem val_const (x : F) : (const x : Rev ι).val = x := rfl
@[simp] theorem val_add (a b : Rev ι) : (a + b).val = a.val + b.val := rfl
@[simp] theorem val_sub (a b : Rev ι) : (a - b).val = a.val - b.val := rfl
@[simp] theorem val_neg (a : Rev ι) : (-a).val = -a.val := rfl
@[simp] theorem val_mul (a b : Rev ι) : (a * b).val = a.val * b.val := rfl
@[simp] theorem val_div (a b : Rev ι) : (a / b).val = a.val / b.val := rfl
@[simp] theorem val_where (c : Bool) (a b : Rev ι) : (where_ c a b).val = F.where_ c a.val b.val := rfl
@[simp] theorem val_max (a b : Rev ι) : (max a b).val = F.max a.val b.val := rfl
@[simp] theorem val_min (a b : Rev ι) : (min a b).val = F.min a.val b.val := rfl

theorem val_nanToNum (a : Rev ι) : a.nanToNum.val = a.val.nanToNum := by
  rcases h : a.val with _ | _ | _ | x <;> simp [nanToNum, h, F.isNan, F.where_, F.eq, F.nanToNum, F.zero_eq]

theorem val_foldl (xs : List (Rev ι)) (a : Rev ι) : (xs.foldl (· + ·) a).val = (xs.map Rev.val).foldl (· + ·) a.val := by
  induction xs generalizing a with
  | nil => rfl
  | cons x xs ih => simp [ih]

theorem val_toF (t : RevTruthy ι) : t.toF.val = t.val.toF := by
  rcases t with (_ | _) | x <;> rfl

theorem val_maximum (x y : RevTruthy ι) : (x.maximum y).val = x.val.maximum y.val := by
  rcases x with x | x <;> rcases y with y | y <;> simp [RevTruthy.maximum, RevTruthy.val, Truthy.maximum, val_toF] <;> rfl

theorem val_minimum (x y : RevTruthy ι) : (x.minimum y).val = x.val.minimum y.val := by
  rcases x with x | x <;> rcases y with y | y <;> simp [RevTruthy.minimum, RevTruthy.val, Truthy.minimum, val_toF] <;> rfl

variable {E : Env} {ap : Option Bool}

theorem val_logicalOr (x y : RevTruthy ι) : (logicalOr E ap x y).val = DiffeRT2d.logicalOr E ap x.val y.val := by
  unfold logicalOr DiffeRT2d.logicalOr; split
  · exact val_maximum x y
  · rfl
theorem val_logicalAnd (x y : RevTruthy ι) : (logicalAnd E ap x y).val = DiffeRT2d.logicalAnd E ap x.val y.val := by
  unfold logicalAnd DiffeRT2d.logicalAnd; split
  · exact val_minimum x y
  · rfl
theorem val_logicalNot (x : RevTruthy ι) : (logicalNot E ap x).val = DiffeRT2d.logicalNot E ap x.val := by
  unfold logicalNot DiffeRT2d.logicalNot; split
  · simp [RevTruthy.val, val_toF]
  · rfl
theorem val_trueValue : (trueValue E ap : RevTruthy ι).val = DiffeRT2d.trueValue E ap := by
  unfold trueValue DiffeRT2d.trueValue; split <;> rfl
theorem val_falseValue : (falseValue E ap : RevTruthy ι).val = DiffeRT2d.falseValue E ap := by
  unfold falseValue DiffeRT2d.falseValue; split <;> rfl

theorem val_minOf (x : Rev ι) (xs : List (Rev ι)) : (minOf x xs).val = F.minOf x.val (xs.map Rev.val) := rfl

theorem val_logicalAll (xs : List (RevTruthy ι)) : (logicalAll E ap xs).map RevTruthy.val = DiffeRT2d.logicalAll E ap (xs.map RevTruthy.val) := by
  unfold logicalAll DiffeRT2d.logicalAll; split
  · cases xs with
    | nil => rfl
    | cons x xs =>
      simp only [jnpMin, List.map_cons]
      have h1 : (x.val :: xs.map RevTruthy.val).all Truthy.isB = (x :: xs).all fun y => y.val.isB := by simp [List.all_map]; rfl
      have h2 : (x.val :: xs.map RevTruthy.val).all Truthy.toBool = (x :: xs).all fun y => y.val.toBool := by simp [List.all_map]; rfl
      rw [h1, h2]
      split
      · rfl
      · simp only [Except.map, RevTruthy.val, val_minOf, List.map_map, val_toF]
        congr 3
        exact List.map_congr_left fun y _ => val_toF y
  · simp [Except.map, RevTruthy.val, List.all_map]; rfl

variable {kw : ActKw ι} {kw' : DiffeRT2d.ActKw} (hk : SameKw kw kw')

include hk in
theorem val_greaterEqual (x y : Rev ι) : (greaterEqual E ap kw x y).val = DiffeRT2d.greaterEqual E ap kw' x.val y.val := by
  unfold greaterEqual DiffeRT2d.greaterEqual; split
  · simp [RevTruthy.val, hk _]
  · rfl
include hk in
theorem val_less (x y : Rev ι) : (less E ap kw x y).val = DiffeRT2d.less E ap kw' x.val y.val := by
  unfold less DiffeRT2d.less; split
  · simp [RevTruthy.val, hk _]
  · rfl
include hk in
theorem val_lessEqual (x y : Rev ι) : (lessEqual E ap kw x y).val = DiffeRT2d.lessEqual E ap kw' x.val y.val := by
  unfold lessEqual DiffeRT2d.lessEqual; split
  · simp [RevTruthy.val, hk _]
  · rfl
include hk in
theorem val_segTest (tol : F) (a b : Rev ι) : (segTest E tol ap kw a b).val = DiffeRT2d.segTest E tol ap kw' a.val b.val := by
  simp [segTest, DiffeRT2d.segTest, val_logicalAnd, val_greaterEqual hk, val_lessEqual hk]
include hk in
theorem val_segmentsIntersect (p1 p2 p3 p4 : V2 (Rev ι)) (tol : F) :
    (segmentsIntersect E p1 p2 p3 p4 tol ap kw).val = DiffeRT2d.segmentsIntersect E (valV p1) (valV p2) (valV p3) (valV p4) tol ap kw' := by
  simp only [segmentsIntersect, val_logicalAnd, val_segTest hk]
  rfl

theorem val_diffs (ps : List (V2 (Rev ι))) : (diffs ps).map valV = DiffeRT2d.diffs (ps.map valV) := by
  match ps with
  | [] => rfl
  | [_] => rfl
  | p :: q :: ps =>
    have := val_diffs (q :: ps)
    simp only [diffs, List.map_cons, DiffeRT2d.diffs] at this ⊢
    rw [this]; rfl

theorem val_pathLength (ps : List (V2 (Rev ι))) : (pathLength E ps).val = DiffeRT2d.pathLength E (ps.map valV) := by
  simp only [pathLength, sum, val_foldl, DiffeRT2d.pathLength, F.sum, ← val_diffs, List.map_map, val_const]
  rw [F.zero_eq]
  congr 1

theorem val_normalize (v : V2 (Rev ι)) : valV (normalize v).1 = (DiffeRT2d.normalize (valV v)).1 := rfl
theorem val_normal (w : RWall ι) : valV w.normal = w.val.normal := rfl
theorem val_toParam (w : RWall ι) (p : V2 (Rev ι)) : (w.toParam p).val = w.val.toParam (valV p) := rfl
theorem val_imageOf (w : RWall ι) (p : V2 (Rev ι)) : valV (w.imageOf p) = w.val.imageOf (valV p) := rfl
theorem val_evaluate (w : RWall ι) (a b c : V2 (Rev ι)) : (w.evaluate a b c).val = w.val.evaluate (valV a) (valV b) (valV c) := rfl
theorem val_backStep (w : RWall ι) (im p : V2 (Rev ι)) : valV (backStep w im p) = DiffeRT2d.backStep w.val (valV im) (valV p) := by
  simp only [backStep, DiffeRT2d.backStep]
  have hn := val_normal w
  rw [← hn]
  have : (V2.dot (p - im) w.normal).val = V2.dot (valV p - valV im) (valV w.normal) := rfl
  rw [this]
  cases F.eq (V2.dot (valV p - valV im) (valV w.normal)) 0 <;> rfl

include hk in
theorem val_contains (w : Wall) (s : Rev ι) : (RWall.contains E ap kw s).val = w.contains E ap kw' s.val := by
  simp [RWall.contains, Wall.contains, val_logicalAnd, val_greaterEqual hk, val_lessEqual hk]
include hk in
theorem val_intersects (w : RWall ι) (patch : F) (a b : V2 (Rev ι)) :
    (w.intersects E ap kw patch a b).val = w.val.intersects E ap kw' patch (valV a) (valV b) := by
  simp only [RWall.intersects, val_segmentsIntersect hk]
  rfl

theorem val_images (im : V2 (Rev ι)) (ws : List (RWall ι)) : (images im ws).map valV = DiffeRT2d.images (valV im) (ws.map RWall.val) := by
  induction ws generalizing im with
  | nil => rfl
  | cons w ws ih => simp [images, DiffeRT2d.images, ih, val_imageOf]

theorem val_headD (ps : List (V2 (Rev ι))) (p : V2 (Rev ι)) : valV (ps.headD p) = (ps.map valV).headD (valV p) := by cases ps <;> rfl

theorem val_backward (rx : V2 (Rev ι)) (l : List (RWall ι × V2 (Rev ι))) :
    (backward rx l).map valV = DiffeRT2d.backward (valV rx) (l.map fun p => (p.1.val, valV p.2)) := by
  induction l with
  | nil => rfl
  | cons p l ih =>
    simp only [backward, List.map_cons, DiffeRT2d.backward, ← ih, val_backStep, val_headD]

theorem val_pathLoss (l : Rev ι) (ws : List (RWall ι)) (ps : List (V2 (Rev ι))) :
    (pathLoss l ws ps).val = DiffeRT2d.pathLoss l.val ((ws.map RWall.val).map Wall.interact) (ps.map valV) := by
  induction ws generalizing l ps with
  | nil => simp [pathLoss, DiffeRT2d.pathLoss]
  | cons w ws ih =>
    match ps with
    | [] => rfl
    | [_] => rfl
    | [_, _] => rfl
    | a :: b :: c :: ps =>
      simp only [pathLoss, ih, List.map_cons, DiffeRT2d.pathLoss, val_add, val_evaluate]
      rfl

theorem map_zip_val (ws : List (RWall ι)) (ims : List (V2 (Rev ι))) :
    (ws.zip ims).map (fun p => (p.1.val, valV p.2)) = (ws.map RWall.val).zip (ims.map valV) := by
  rw [List.zip_map]; rfl

theorem val_imagePath (tx : V2 (Rev ι)) (ws : List (RWall ι)) (rx : V2 (Rev ι)) :
    ImagePath.fromTxObjectsRx (valV tx) (ws.map fun w => .wall w.val) (valV rx) = .ok (imagePath tx ws rx).val := by
  cases ws with
  | nil => rfl
  | cons w ws =>
    have hm : ∀ l : List (RWall ι), (l.map fun w => Obj.wall w.val).mapM Obj.asWall = some (l.map RWall.val) := by
      intro l
      induction l with
      | nil => rfl
      | cons a l ih => simp [List.mapM_cons, ih, Obj.asWall]
    have hm' := hm (w :: ws)
    simp only [List.map_cons] at hm'
    simp only [ImagePath.fromTxObjectsRx, List.map_cons]
    rw [if_pos (by simp [Obj.cls]), hm']
    simp only [imagePath, imagePathCore, RPath.val, Except.ok.injEq]
    have hx : (tx :: backward rx ((w :: ws).zip (images tx (w :: ws))) ++ [rx]).map valV =
        valV tx :: DiffeRT2d.backward (valV rx) ((w.val :: ws.map RWall.val).zip (DiffeRT2d.images (valV tx) (w.val :: ws.map RWall.val))) ++ [valV rx] := by
      simp only [List.map_append, List.map_cons, List.map_nil, val_backward, map_zip_val, val_images, List.cons_append]
    rw [← hx, val_pathLoss]
    simp only [List.map_cons, List.map_map, val_const]
    rfl

theorem getD_map' {α β : Type} (f : α → β) (l : List α) (i : ℕ) (d : α) : (l.map f).getD i (f d) = f (l.getD i d) := by
  simp only [List.getD_eq_getElem?_getD, List.getElem?_map]
  cases l[i]? <;> rfl

theorem val_nth (ps : List (V2 (Rev ι))) (i : ℕ) : valV (nth ps i) = DiffeRT2d.nth (ps.map valV) i := by
  have : valV (constV V2.nan : V2 (Rev ι)) = V2.nan := rfl
  unfold nth DiffeRT2d.nth
  rw [List.length_map, ← this, getD_map']
  rfl

theorem val_foldlT {α : Type} (l : List α) (f : RevTruthy ι → α → RevTruthy ι) (g : Truthy → α → Truthy) (h : ∀ t a, (f t a).val = g t.val a) (z : RevTruthy ι) :
    (l.foldl f z).val = l.foldl g z.val := by
  induction l generalizing z with
  | nil => rfl
  | cons a l ih => simp [ih, h]

theorem zipIdx_map' {α β : Type} (f : α → β) (l : List α) (k : ℕ) : (l.map f).zipIdx k = (l.zipIdx k).map fun p => (f p.1, p.2) := by
  induction l generalizing k with
  | nil => rfl
  | cons a l ih => simp [List.zipIdx_cons, ih]

include hk in
theorem val_onObjects (p : RPath ι) (ws : List (RWall ι)) :
    (p.onObjects E ws ap kw).val = p.val.onObjects E (ws.map fun w => w.val.interact) ap kw' := by
  simp only [RPath.onObjects, Path.onObjects, zipIdx_map', List.foldl_map, ← val_trueValue (ι := ι)]
  apply val_foldlT
  intro t a
  rw [val_logicalAnd, val_contains hk a.1.val, val_toParam, val_nth]
  rfl

/-- Both truth values have the kind of the mode. -/
def Kind (E : Env) (ap : Option Bool) (t : RevTruthy ι) : Prop := t.val.isB = !resolveApprox E ap

theorem val_whereTruthy (c : Bool) (a b : RevTruthy ι) : (whereTruthy c a b).val = F.where_ c a.val b.val := by
  rcases a with a | a <;> rcases b with b | b <;> cases c <;> rfl

include hk in
theorem val_intersectsWithObjects (p : RPath ι) (ws : List (RWall ι)) (c : List ℤ) (patch : F) :
    (p.intersectsWithObjects E ws c patch ap kw).map RevTruthy.val =
      p.val.intersectsWithObjects E (ws.map fun w => w.val.interact) c patch ap kw' := by
  simp only [RPath.intersectsWithObjects, Path.intersectsWithObjects, RPath.val, List.length_map, ne_eq, List.map_eq_nil_iff]
  split
  · rfl
  · simp only [Except.map, Except.ok.injEq, zipIdx_map', List.foldl_map, ← val_falseValue (ι := ι)]
    apply val_foldlT
    intro t i
    apply val_foldlT
    intro t a
    rw [val_whereTruthy, val_logicalOr, val_intersects hk, val_nth, val_nth]
    rfl

theorem val_nanToNumT (t : RevTruthy ι) : t.nanToNum.val = t.val.nanToNum := by
  rcases t with t | t
  · rfl
  · simp [RevTruthy.nanToNum, RevTruthy.val, Truthy.nanToNum, val_nanToNum]

include hk in
theorem val_isValid (p : RPath ι) (ws : List (RWall ι)) (c : List ℤ) (ins : List (RWall ι)) (tol patch : F) :
    (p.isValid E ws c ins tol patch ap kw).map RevTruthy.val =
      p.val.isValid E (ws.map fun w => w.val.interact) c (ins.map fun w => w.val.interact) tol patch ap kw' := by
  have h := val_intersectsWithObjects (E := E) (ap := ap) hk p ws c patch
  simp only [RPath.isValid, Path.isValid]
  rw [← h, ← val_onObjects hk]
  cases p.intersectsWithObjects E ws c patch ap kw with
  | error e => rfl
  | ok t =>
    have h2 := val_logicalAll (E := E) (ap := ap) [p.onObjects E ins ap kw, logicalNot E ap t, less E ap kw p.loss (const tol)]
    simp only [List.map_cons, List.map_nil, val_logicalNot, val_less hk, val_const] at h2
    simp only [Except.map, bind, Except.bind, pure, Except.pure]
    have h3 : p.val.loss = p.loss.val := rfl
    rw [h3, ← h2]
    cases logicalAll E ap [p.onObjects E ins ap kw, logicalNot E ap t, less E ap kw p.loss (const tol)] with
    | error e => rfl
    | ok r => simp [Except.map, val_nanToNumT]

theorem val_receivedPower (rCoef height : F) (xys : List (V2 (Rev ι))) (loss : F) (t r : V2 F) (os : List Interactable) :
    (receivedPower E rCoef height xys).val = DiffeRT2d.receivedPower E t r ⟨xys.map valV, loss⟩ os rCoef height := by
  simp [receivedPower, DiffeRT2d.receivedPower, Path.length, val_pathLength]

theorem val_getObject (s : Scene) (ws : List (RWall ι)) (h : s.objects = ws.map fun w => .wall w.val) (i : ℤ) :
    (getObject ws i).map (fun w => Obj.wall w.val) = s.getObject i := by
  cases ws with
  | nil => simp [getObject, Scene.getObject, h, Except.map]
  | cons w ws =>
    have h' : s.objects = Obj.wall w.val :: ws.map fun w => .wall w.val := by simpa using h
    simp only [getObject, Scene.getObject, h', Except.map]
    rw [if_pos (by simp [Obj.cls]), List.length_map]
    have : (Obj.wall w.val :: ws.map fun w => Obj.wall w.val) = (w :: ws).map fun w => Obj.wall w.val := rfl
    rw [this, getD_map' (fun w : RWall ι => Obj.wall w.val)]

theorem val_mapM_getObject (s : Scene) (ws : List (RWall ι)) (h : s.objects = ws.map fun w => .wall w.val) (c : List ℤ) :
    (c.mapM (getObject ws)).map (fun l => l.map fun w => Obj.wall w.val) = c.mapM s.getObject := by
  induction c with
  | nil => rfl
  | cons i c ih =>
    rw [List.mapM_cons, List.mapM_cons, ← ih, ← val_getObject s ws h i]
    cases getObject ws i with
    | error e => rfl
    | ok w =>
      cases c.mapM (getObject ws) with
      | error e => rfl
      | ok l => rfl

theorem val_interacting (s : Scene) (ws : List (RWall ι)) (h : s.objects = ws.map fun w => .wall w.val) (c : List ℤ) :
    s.getInteractingObjects c = (c.mapM (getObject ws)).map (fun l => l.map fun w => Obj.wall w.val) := by
  rw [val_mapM_getObject s ws h]
  unfold Scene.getInteractingObjects
  rw [if_pos]
  right
  rw [h]
  cases ws with
  | nil => rfl
  | cons w ws => simp [Obj.cls]

include hk in
theorem val_facc {Key : Type} (s : Scene) (ws : List (RWall ι)) (h : s.objects = ws.map fun w => .wall w.val) {f : List (V2 (Rev ι)) → Rev ι}
    {g : Scene.PathFun} (hf : SameFun f g) (tol patch : F) (tx rx : V2 (Rev ι)) (acc : Rev ι) (l : List (List ℤ × Option Key)) :
    (facc ⟨E, tol, patch, ap, kw⟩ ws f tx rx acc (l.map Prod.fst)).map Rev.val =
      s.facc (imageMethod Key) ⟨E, tol, patch, ap, kw'⟩ g (valV tx) (valV rx) acc.val l := by
  induction l generalizing acc with
  | nil => rfl
  | cons ck l ih =>
    obtain ⟨c, k⟩ := ck
    simp only [List.map_cons, facc, Scene.facc, val_interacting s ws h]
    cases c.mapM (getObject ws) with
    | error e => rfl
    | ok ins =>
      simp only [Except.map, bind, Except.bind, imageMethod, val_imagePath, Scene.validity, h, List.map_map]
      have hv := val_isValid (E := E) (ap := ap) hk (imagePath tx ins rx) ws c ins tol patch
      have e1 : (Obj.interact ∘ fun w : RWall ι => Obj.wall w.val) = fun w => w.val.interact := rfl
      rw [e1, ← hv]
      cases (imagePath tx ins rx).isValid E ws c ins tol patch ap kw with
      | error e => rfl
      | ok t =>
        simp only [Except.map]
        have := ih (acc + t.toF * f (imagePath tx ins rx).xys)
        simp only [val_add, val_mul, val_toF, hf (imagePath tx ins rx).xys (imagePath tx ins rx).loss.val (valV tx) (valV rx) (ins.map fun w => Obj.wall w.val)] at this
        simp only [imageMethod] at this
        exact this

end Rev
end DiffeRT2d
