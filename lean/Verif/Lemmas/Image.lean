import Verif.Lemmas.Similarity
import Verif.Lemmas.BBox

/-! The image method over the reals. -/

namespace DiffeRT2d
open Classical Spec

/-- Walls given by their finite end points. -/
abbrev RWall := Pt × Pt
/-- The model walls. -/
def mkWalls (ws : List RWall) : List Wall := ws.map fun w => Wall.ofPts w.1 w.2

/-- Guarded denominator of a backward step. -/
noncomputable def un (o d im pt : Pt) : ℝ := dp (pt - im) (rn o d)

/-- Real form of `backStep`. -/
noncomputable def rback (o d im pt : Pt) : Pt :=
  if un o d im pt = 0 then pt
  else ⟨pt.x + dp (o - pt) (rn o d) * (pt - im).x / un o d im pt,
        pt.y + dp (o - pt) (rn o d) * (pt - im).y / un o d im pt⟩

theorem backStep_fin (o d im pt : Pt) :
    backStep (Wall.ofPts o d) (V2.fin im) (V2.fin pt) = V2.fin (rback o d im pt) := by
  simp only [backStep, normal_fin]
  simp only [Wall.ofPts, V2.fin_sub, V2.fin_dot']
  unfold rback un
  by_cases h : dp (pt - im) (rn o d) = 0
  · rw [if_pos h]
    simp only [h, F.zero_eq, F.eq_fin, decide_true, F.where_true]
    ext <;> simp
  · rw [if_neg h]
    simp only [F.zero_eq, F.eq_fin, h, decide_false, F.where_false, V2.fin_smul, V2.fin_sdiv _ h, V2.fin_add]
    rfl

/-- Real form of the two scans, fused. -/
noncomputable def rpts (img rx : Pt) : List RWall → List Pt
  | [] => []
  | w :: ws =>
    let im := rimg w.1 w.2 img
    let rest := rpts im rx ws
    rback w.1 w.2 im (rest.headD rx) :: rest

theorem rpts_length (img rx : Pt) (ws : List RWall) : (rpts img rx ws).length = ws.length := by
  induction ws generalizing img with
  | nil => rfl
  | cons w ws ih => simp [rpts, ih]

theorem headD_map {α β} (f : α → β) (xs : List α) (a : α) : (xs.map f).headD (f a) = f (xs.headD a) := by
  cases xs <;> rfl

theorem backward_fin (img rx : Pt) (ws : List RWall) :
    backward (V2.fin rx) ((mkWalls ws).zip (images (V2.fin img) (mkWalls ws))) =
      (rpts img rx ws).map V2.fin := by
  induction ws generalizing img with
  | nil => rfl
  | cons w ws ih =>
    simp only [mkWalls, List.map_cons, images, List.zip_cons_cons, backward, rpts]
    rw [imageOf_fin]
    have := ih (rimg w.1 w.2 img)
    simp only [mkWalls] at this
    rw [this, headD_map, backStep_fin]

/-- Points of the image path. -/
noncomputable def rpath (tx rx : Pt) (ws : List RWall) : List Pt := tx :: rpts tx rx ws ++ [rx]

/-- Real form of `pathLoss` for walls: the list of the individual scores. -/
noncomputable def scores : List RWall → List Pt → List ℝ
  | w :: ws, a :: b :: c :: pts => reval w.1 w.2 a b c :: scores ws (b :: c :: pts)
  | _, _ => []

theorem pathLoss_fin (l : ℝ) (ws : List RWall) (pts : List Pt) (h : ws.length + 2 ≤ pts.length) :
    pathLoss (F.fin l) ((mkWalls ws).map Wall.interact) (pts.map V2.fin) =
      F.fin (l + (scores ws pts).sum) := by
  induction ws generalizing l pts with
  | nil => simp [mkWalls, pathLoss, scores]
  | cons w ws ih =>
    match pts, h with
    | a :: b :: c :: pts, h =>
      simp only [mkWalls, List.map_cons, pathLoss, Wall.interact, scores]
      rw [evaluate_fin, F.fin_add]
      have := ih (l + reval w.1 w.2 a b c) (b :: c :: pts) (by simp at h ⊢; omega)
      simp only [mkWalls, List.map_cons] at this
      rw [this, List.sum_cons, add_assoc]
    | [], h => simp at h
    | [_], h => simp at h
    | [_, _], h => simp at h

theorem rpath_length (tx rx : Pt) (ws : List RWall) : (rpath tx rx ws).length = ws.length + 2 := by
  simp [rpath, rpts_length]

theorem imagePathCore_fin (tx rx : Pt) (ws : List RWall) :
    imagePathCore (V2.fin tx) (mkWalls ws) ((mkWalls ws).map Wall.interact) (V2.fin rx) =
      ⟨(rpath tx rx ws).map V2.fin, F.fin (scores ws (rpath tx rx ws)).sum⟩ := by
  have h1 : V2.fin tx :: backward (V2.fin rx) ((mkWalls ws).zip (images (V2.fin tx) (mkWalls ws))) ++
      [V2.fin rx] = (rpath tx rx ws).map V2.fin := by
    rw [backward_fin]; simp [rpath]
  simp only [imagePathCore, h1]
  rw [F.zero_eq, pathLoss_fin _ _ _ (by rw [rpath_length]), zero_add]

theorem imagePath_fin (tx rx : Pt) (ws : List RWall) :
    ImagePath.fromTxObjectsRx (V2.fin tx) ((mkWalls ws).map Obj.wall) (V2.fin rx) =
      .ok ⟨(rpath tx rx ws).map V2.fin, F.fin (scores ws (rpath tx rx ws)).sum⟩ := by
  cases ws with
  | nil =>
    simp [mkWalls, ImagePath.fromTxObjectsRx, rpath, rpts, scores]
  | cons w ws =>
    have hm : ∀ l : List Wall, (l.map Obj.wall).mapM Obj.asWall = some l := by
      intro l
      induction l with
      | nil => rfl
      | cons a l ih => simp [List.mapM_cons, Obj.asWall, ih]
    have hi : ∀ l : List Wall, (l.map Obj.wall).map Obj.interact = l.map Wall.interact := by
      intro l; rw [List.map_map]; rfl
    have hc : ((mkWalls ws).map Obj.wall).all (fun o' => o'.cls == (Obj.wall (Wall.ofPts w.1 w.2)).cls) = true := by
      simp [mkWalls, Obj.cls]
    have h := imagePathCore_fin tx rx (w :: ws)
    have hm' := hm (mkWalls (w :: ws))
    have hi' := hi (mkWalls (w :: ws))
    simp only [mkWalls, List.map_cons] at h hm' hi' hc ⊢
    simp only [ImagePath.fromTxObjectsRx, hc, if_true, hm', List.map_cons, hi', h]

end DiffeRT2d
