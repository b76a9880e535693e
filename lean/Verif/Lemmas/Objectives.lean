import Verif.Lemmas.Tracing
import Verif.Lemmas.ImagePath

/-! # The objectives of the minimizing tracers over finite data -/

namespace DiffeRT2d
open Classical Spec

/-- The inner points of a path with parameters `θ`. -/
def place : List Shape → List ℝ → List Pt
  | [], _ => []
  | .wall o d :: ss, θ => pointAt o d (θ.headD 0) :: place ss θ.tail
  | .ris o d _ :: ss, θ => pointAt o d (θ.headD 0) :: place ss θ.tail
  | .vertex p :: ss, θ => p :: place ss θ

theorem place_length (ss : List Shape) (θ : List ℝ) : (place ss θ).length = ss.length := by
  induction ss generalizing θ with
  | nil => rfl
  | cons s ss ih => cases s <;> simp [place, ih]

theorem shape_count (s : Shape) : s.obj.interact.paramCount = s.count := by cases s <;> rfl

theorem shapes_count (ss : List Shape) :
    nUnknowns (ss.map fun s => s.obj.interact) = (ss.map Shape.count).sum := by
  unfold nUnknowns
  rw [List.map_map]
  congr 1
  exact List.map_congr_left fun s _ => shape_count s

theorem place_fin (ss : List Shape) (θ : List ℝ) (h : θ.length = (ss.map Shape.count).sum) :
    List.zipWith (fun o s => o.toCart s) (ss.map fun s => s.obj.interact)
      (blocks ((ss.map fun s => s.obj.interact).map Interactable.paramCount) (θ.map F.fin)) =
    (place ss θ).map V2.fin := by
  induction ss generalizing θ with
  | nil => rfl
  | cons s ss ih =>
    simp only [List.map_cons, List.sum_cons] at h
    have wall : ∀ (o d : Pt), s.count = 1 → s.obj.interact.toCart = (fun ps => (Wall.ofPts o d).toCart (ps.headD F.nan)) →
        s.obj.interact.paramCount = 1 → place (s :: ss) θ = pointAt o d (θ.headD 0) :: place ss θ.tail →
        List.zipWith (fun o s => o.toCart s) ((s :: ss).map fun s => s.obj.interact)
          (blocks (((s :: ss).map fun s => s.obj.interact).map Interactable.paramCount) (θ.map F.fin)) =
        (place (s :: ss) θ).map V2.fin := by
      intro o d hc ht hp hpl
      rw [hc] at h
      cases θ with
      | nil => simp at h; omega
      | cons a θ =>
        simp only [List.length_cons] at h
        have := ih θ (by omega)
        rw [hpl]
        simp only [List.map_cons, hp, blocks, List.zipWith_cons_cons, ht, List.take_succ_cons,
          List.drop_succ_cons, List.drop_zero, List.headD_cons, List.tail_cons, toCart_fin, this]
    cases s with
    | wall o d => exact wall o d rfl rfl rfl rfl
    | ris o d φ => exact wall o d rfl rfl rfl rfl
    | vertex p =>
      have := ih θ (by simpa [Shape.count] using h)
      simp only [List.map_cons, place]
      rw [← this]
      rfl

theorem cartesian_fin (ss : List Shape) (θ : List ℝ) (tx rx : Pt) (h : θ.length = (ss.map Shape.count).sum) :
    parametricToCartesian (ss.map fun s => s.obj.interact) (θ.map F.fin) (V2.fin tx) (V2.fin rx) =
      (tx :: place ss θ ++ [rx]).map V2.fin := by
  rw [parametricToCartesian, toCartesianFrom_eq _ _ _ (by rw [shapes_count]; simpa using h), List.drop_zero,
    place_fin _ _ h]
  simp

/-! ## Convexity -/

/-- Convex combination of two points. -/
def mixPt (t : ℝ) (p q : Pt) : Pt := ⟨(1 - t) * p.x + t * q.x, (1 - t) * p.y + t * q.y⟩

theorem place_mixture (t : ℝ) (ss : List Shape) (θ₁ θ₂ : List ℝ) (h₁ : θ₁.length = (ss.map Shape.count).sum)
    (h₂ : θ₂.length = (ss.map Shape.count).sum) :
    place ss (mixture t θ₁ θ₂) = List.zipWith (mixPt t) (place ss θ₁) (place ss θ₂) := by
  induction ss generalizing θ₁ θ₂ with
  | nil => rfl
  | cons s ss ih =>
    simp only [List.map_cons, List.sum_cons] at h₁ h₂
    have wall : ∀ (o d : Pt) (a b : ℝ),
        pointAt o d ((1 - t) * a + t * b) = mixPt t (pointAt o d a) (pointAt o d b) := by
      intro o d a b
      ext <;> simp only [pointAt, mixPt] <;> ring
    cases s with
    | wall o d =>
      simp only [Shape.count] at h₁ h₂
      match θ₁, θ₂, h₁, h₂ with
      | a :: θ₁, b :: θ₂, h₁, h₂ =>
        simp only [List.length_cons] at h₁ h₂
        have := ih θ₁ θ₂ (by omega) (by omega)
        unfold mixture at this ⊢
        simp only [List.zipWith_cons_cons, place, List.headD_cons, List.tail_cons, this, wall]
      | [], _, h₁, _ => simp at h₁; omega
      | _, [], _, h₂ => simp at h₂; omega
    | ris o d φ =>
      simp only [Shape.count] at h₁ h₂
      match θ₁, θ₂, h₁, h₂ with
      | a :: θ₁, b :: θ₂, h₁, h₂ =>
        simp only [List.length_cons] at h₁ h₂
        have := ih θ₁ θ₂ (by omega) (by omega)
        unfold mixture at this ⊢
        simp only [List.zipWith_cons_cons, place, List.headD_cons, List.tail_cons, this, wall]
      | [], _, h₁, _ => simp at h₁; omega
      | _, [], _, h₂ => simp at h₂; omega
    | vertex p =>
      have := ih θ₁ θ₂ (by simpa [Shape.count] using h₁) (by simpa [Shape.count] using h₂)
      simp only [place, this, List.zipWith_cons_cons]
      congr 1
      ext <;> simp only [mixPt] <;> ring

theorem nrm_convex {t : ℝ} (h0 : 0 ≤ t) (h1 : t ≤ 1) (u v : Pt) :
    nrm (mixPt t u v) ≤ (1 - t) * nrm u + t * nrm v := by
  have e : mixPt t u v = V2.smul (1 - t) u + V2.smul t v := by ext <;> simp [mixPt]
  rw [e]
  have := nrm_add_le (V2.smul (1 - t) u) (V2.smul t v)
  rwa [nrm_smul, nrm_smul, abs_of_nonneg h0, abs_of_nonneg (by linarith : (0:ℝ) ≤ 1 - t)] at this

theorem plen_convex (e : ℝ) {t : ℝ} (h0 : 0 ≤ t) (h1 : t ≤ 1) (ps qs : List Pt) (h : ps.length = qs.length) :
    plen e (List.zipWith (mixPt t) ps qs) ≤ (1 - t) * plen e ps + t * plen e qs := by
  match ps, qs, h with
  | [], [], _ => simp [plen]
  | [p], [q], _ => simp [plen]
  | p :: p' :: ps, q :: q' :: qs, h =>
    have ih := plen_convex e h0 h1 (p' :: ps) (q' :: qs) (by simpa using h)
    simp only [List.zipWith_cons_cons, plen] at ih ⊢
    have hn := nrm_convex h0 h1 (p' - p + ⟨e, e⟩) (q' - q + ⟨e, e⟩)
    have e1 : mixPt t (p' - p + ⟨e, e⟩) (q' - q + ⟨e, e⟩) = mixPt t p' q' - mixPt t p q + ⟨e, e⟩ := by
      ext <;> simp only [mixPt, V2.add_x, V2.add_y, V2.sub_x, V2.sub_y] <;> ring
    rw [e1] at hn
    nlinarith

/-! ## Total scores -/

/-- The scores along a path. -/
noncomputable def evals : List Interactable → List (V2 F) → List F
  | o :: os, a :: b :: c :: pts => o.evaluate a b c :: evals os (b :: c :: pts)
  | _, _ => []

theorem pathLoss_eq (l : F) (os : List Interactable) (pts : List (V2 F)) (h : os.length + 2 ≤ pts.length) :
    pathLoss l os pts = l + F.sum (evals os pts) := by
  induction os generalizing l pts with
  | nil => simp [pathLoss, evals, F.sum_nil, F.add_zero']
  | cons o os ih =>
    match pts, h with
    | a :: b :: c :: pts, h =>
      simp only [pathLoss, evals]
      rw [ih _ _ (by simp at h ⊢; omega), F.sum_cons, F.add_assoc']
    | [], h => simp at h
    | [_], h => simp at h
    | [_, _], h => simp at h

theorem evals_spec (os : List Interactable) (pts : List (V2 F)) (h : os.length + 2 ≤ pts.length) :
    (evals os pts).length = os.length ∧
    ∀ i o a b c, os[i]? = some o → pts[i]? = some a → pts[i + 1]? = some b → pts[i + 2]? = some c →
      (evals os pts)[i]? = some (o.evaluate a b c) := by
  induction os generalizing pts with
  | nil => exact ⟨by simp [evals], by simp⟩
  | cons o os ih =>
    match pts, h with
    | a :: b :: c :: pts, h =>
      obtain ⟨h1, h2⟩ := ih (b :: c :: pts) (by simp at h ⊢; omega)
      refine ⟨by simp [evals, h1], ?_⟩
      intro i o' a' b' c' ho ha hb hc
      cases i with
      | zero =>
        simp at ho ha hb hc
        subst ho ha hb hc; rfl
      | succ i =>
        simp only [evals, List.getElem?_cons_succ] at ho ha hb hc ⊢
        exact h2 i o' a' b' c' ho ha hb hc
    | [], h => simp at h
    | [_], h => simp at h
    | [_, _], h => simp at h

theorem totalScore_pathLoss (os : List Interactable) (pts : List (V2 F)) (h : os.length + 2 ≤ pts.length) :
    TotalScore os pts (pathLoss 0 os pts) := by
  obtain ⟨h1, h2⟩ := evals_spec os pts h
  exact ⟨_, h1, by rw [pathLoss_eq _ _ _ h, F.zero_eq, F.zero_add'], h2⟩

theorem totalScore_unique {os : List Interactable} {pts : List (V2 F)} {l l' : F}
    (h : os.length + 2 ≤ pts.length) (h1 : TotalScore os pts l) (h2 : TotalScore os pts l') : l = l' := by
  obtain ⟨s, a1, rfl, a3⟩ := h1
  obtain ⟨s', b1, rfl, b3⟩ := h2
  congr 1
  apply List.ext_getElem?
  intro i
  by_cases hi : i < os.length
  · have ho : os[i]? = some os[i] := List.getElem?_eq_getElem hi
    have ha : pts[i]? = some pts[i] := List.getElem?_eq_getElem (by omega)
    have hb : pts[i + 1]? = some pts[i + 1] := List.getElem?_eq_getElem (by omega)
    have hc : pts[i + 2]? = some pts[i + 2] := List.getElem?_eq_getElem (by omega)
    rw [a3 i _ _ _ _ ho ha hb hc, b3 i _ _ _ _ ho ha hb hc]
  · rw [List.getElem?_eq_none (by omega), List.getElem?_eq_none (by omega)]

end DiffeRT2d
