import Verif.Props.GenericShapes
import Verif.Props.Logic
import Verif.Props.Validity
import Verif.Props.Geometry

/-! # C05, C12, C38 and C39 for the two activation functions of the library

The theorems of these claims range over all soft steps (`SoftStep`); here they are stated for `sigmoid` and `hard_sigmoid` themselves. -/

namespace DiffeRT2d.Props
open Classical Spec Filter

/-- Both activation functions, with a positive slope, are good. -/
theorem library_good {f : F → F → F} (hf : f = sigmoid ∨ f = hardSigmoid) {a : ℝ} (ha : 0 < a) : GoodKw ⟨F.fin a, f⟩ := by
  rcases hf with rfl | rfl
  · exact ⟨C04_soft_steps.1, a, ha, rfl⟩
  · exact ⟨C04_soft_steps.2, a, ha, rfl⟩

/-- **C05.** With `sigmoid` and with `hard_sigmoid`, and any positive slope. -/
theorem C05_library (E : Env) (f : F → F → F) (hf : f = sigmoid ∨ f = hardSigmoid) (a : ℝ) (ha : 0 < a) (x y : ℝ) :
    (∃ r, isTrue E (some true) (greater E (some true) ⟨F.fin a, f⟩ (.fin x) (.fin y)) = .ok r ∧ (r = true ↔ x > y)) ∧
    (∃ r, isTrue E (some true) (less E (some true) ⟨F.fin a, f⟩ (.fin x) (.fin y)) = .ok r ∧ (r = true ↔ x < y)) ∧
    (∃ r, isTrue E (some true) (greaterEqual E (some true) ⟨F.fin a, f⟩ (.fin x) (.fin y)) = .ok r ∧ (r = true ↔ x > y)) ∧
    (∃ r, isTrue E (some true) (lessEqual E (some true) ⟨F.fin a, f⟩ (.fin x) (.fin y)) = .ok r ∧ (r = true ↔ x < y)) := by
  obtain ⟨h1, h2, h3, h4⟩ := C05_threshold E _ (library_good hf ha) x y
  exact ⟨h1, h2, h3 ▸ h1, h4 ▸ h2⟩

/-- **C12.** With `sigmoid` and with `hard_sigmoid`, and any positive slope. -/
theorem C12_library (E : Env) (ap : Option Bool) (h : Soft E ap) (f : F → F → F) (hf : f = sigmoid ∨ f = hardSigmoid) (a : ℝ) (ha : 0 < a)
    (p1 p2 p3 p4 : Pt) (tol : ℝ) :
    ∃ r : ℝ, segmentsIntersect E (V2.fin p1) (V2.fin p2) (V2.fin p3) (V2.fin p4) (F.fin tol) ap ⟨F.fin a, f⟩ = .f (F.fin r) ∧ 0 ≤ r ∧ r ≤ 1 ∧
      (Parallel p1 p2 p3 p4 → r = 0) ∧
      (1 / 2 < r ↔ ¬ Parallel p1 p2 p3 p4 ∧ ∃ s t, pointAt p1 p2 s = pointAt p3 p4 t ∧ (-tol < s ∧ s < 1 + tol) ∧ (-tol < t ∧ t < 1 + tol)) :=
  C12_soft E ap h _ (library_good hf ha) p1 p2 p3 p4 tol

/-- **C38.** With `sigmoid` and with `hard_sigmoid`, any positive slope, and a scene of walls, RIS and vertices. -/
theorem C38_library (p : Path) (E : Env) (ap : Option Bool) (h : Soft E ap) (f : F → F → F) (hf : f = sigmoid ∨ f = hardSigmoid) (a : ℝ) (ha : 0 < a)
    (objects inter : List Shape) (candidate : List ℤ) (tol patch : F) (hlen : p.xys.length ≤ candidate.length + 2) :
    ∃ r, p.isValid E (objects.map fun s => s.obj.interact) candidate (inter.map fun s => s.obj.interact) tol patch ap ⟨F.fin a, f⟩ = .ok (.f (F.fin r)) ∧
      0 ≤ r ∧ r ≤ 1 := by
  obtain ⟨b1, b2, b3⟩ := C38_builtin E ap h _ (library_good hf ha)
  have fz : ∀ l : List Shape, ∀ o ∈ l.map (fun s => s.obj.interact), FuzzyObject E ap ⟨F.fin a, f⟩ o := by
    intro l o ho
    obtain ⟨s, -, rfl⟩ := List.mem_map.mp ho
    cases s with
    | wall o d => exact b1 _
    | ris o d φ => exact b2 _
    | vertex q => exact b3 _
  obtain ⟨r, h1, h2, h3, -⟩ := C38_soft p E ap h _ (library_good hf ha) _ _ candidate tol patch hlen (fz objects) (fz inter)
  exact ⟨r, h1, h2, h3⟩

/-- **C39.** With `sigmoid` and with `hard_sigmoid`: at every positive slope the degree of validity, thresholded, is the validity, and the degree
tends to it (0 or 1) as the slope grows. -/
theorem C39_library (E E' : Env) (ap ap' : Option Bool) (hh : Hard E ap) (hs : Soft E' ap') (kw : ActKw) (f : F → F → F) (hf : f = sigmoid ∨ f = hardSigmoid)
    (ws scene : List Shape) (candidate : List ℤ) (pts : List Pt) (loss tol patch : ℝ) (hlen : pts.length = candidate.length + 2) (hws : ws.length = candidate.length)
    (hg : GenericShapes ws scene candidate pts loss tol patch) :
    ∃ (v : Bool) (r : ℝ → ℝ),
      (finitePath pts loss).isValid E (scene.map fun s => s.obj.interact) candidate (ws.map fun s => s.obj.interact) (F.fin tol) (F.fin patch) ap kw = .ok (.b v) ∧
      (∀ a : ℝ, 0 < a → (finitePath pts loss).isValid E' (scene.map fun s => s.obj.interact) candidate (ws.map fun s => s.obj.interact) (F.fin tol) (F.fin patch)
          ap' ⟨F.fin a, f⟩ = .ok (.f (F.fin (r a))) ∧ isTrue E' ap' (.f (F.fin (r a))) = .ok v) ∧
      Tendsto r atTop (nhds (if v = true then 1 else 0)) := by
  have hst : SoftStep f := by rcases hf with rfl | rfl; exacts [C04_soft_steps.1, C04_soft_steps.2]
  obtain ⟨v, r, h1, h2, h3⟩ := C39_limit_shapes E E' ap ap' hh hs kw f hst ws scene candidate pts loss tol patch hlen hws hg
  refine ⟨v, r, h1, fun a ha => ⟨h2 a ha, ?_⟩, h3⟩
  obtain ⟨v', r', g1, g2, g3, -⟩ := C39_agree_shapes E E' ap ap' hh hs kw _ (library_good hf ha) ws scene candidate pts loss tol patch hlen hws hg
  rw [h1] at g1
  rw [h2 a ha] at g2
  cases g1; cases g2
  exact g3

/-- Non-vacuity: the mixed scene of `mixed_generic`, with both functions. -/
example (E : Env) (kw : ActKw) := And.intro
  (C39_library E E (some false) (some true) (.inl rfl) (.inl rfl) kw sigmoid (.inl rfl) _ _ _ _ _ _ _ rfl rfl mixed_generic)
  (C39_library E E (some false) (some true) (.inl rfl) (.inl rfl) kw hardSigmoid (.inr rfl) _ _ _ _ _ _ _ rfl rfl mixed_generic)

end DiffeRT2d.Props
