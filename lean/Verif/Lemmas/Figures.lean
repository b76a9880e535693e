import Verif.Lemmas.Grid
import Verif.Model.Figures

/-! The objective function of the examples, on numbers and on maps. -/

namespace DiffeRT2d
open Spec Classical
namespace Figures

/-- One step of `objective_function`. -/
noncomputable def worse (a p : F) : F := F.min a (p / P0)

theorem objective_scalars (ws : List F) : objectiveFunction (ws.map .scalar) = .scalar (ws.foldl worse F.pinf) := by
  unfold objectiveFunction
  generalize F.pinf = a
  induction ws generalizing a with
  | nil => rfl
  | cons w ws ih =>
    rw [List.map_cons, List.foldl_cons, List.foldl_cons]
    exact ih _

theorem minimum_grid (Z z : Scene.Grid F) : (Arr.grid Z).minimum (Arr.grid z).normalized = .grid (List.zipWith (List.zipWith worse) Z z) := by
  simp only [Arr.normalized, Arr.minimum, Arr.grid.injEq, List.zipWith_map_right]
  rfl

theorem foldl_grid (zs : List (Scene.Grid F)) (Z : Scene.Grid F) :
    ∃ Z', (zs.map Arr.grid).foldl (fun (acc p : Arr) => acc.minimum p.normalized) (Arr.grid Z) = Arr.grid Z' ∧ zs.foldl (Scene.addGrid worse F.pinf) (some Z) = some Z' := by
  induction zs generalizing Z with
  | nil => exact ⟨Z, rfl, rfl⟩
  | cons z zs ih =>
    rw [List.map_cons, List.foldl_cons, List.foldl_cons, minimum_grid]
    exact ih _

theorem objective_grids {zs : List (Scene.Grid F)} {sh : List ℕ} (hz : ∀ z ∈ zs, gridShape z = sh) (hne : zs ≠ []) :
    ∃ Z, objectiveFunction (zs.map .grid) = .grid Z ∧ gridShape Z = sh ∧
      ∀ a b ws, List.Forall₂ (fun z w => gridAt z a b = some w) zs ws → gridAt Z a b = some (ws.foldl worse F.pinf) := by
  obtain ⟨Z, h1, h2, h3⟩ := (sumGrids_spec worse F.pinf zs sh hz).2 hne
  refine ⟨Z, ?_, h2, h3⟩
  match zs, hne with
  | z :: zs, _ =>
    have e : (Arr.scalar F.pinf).minimum (Arr.grid z).normalized = .grid (z.map fun row => row.map (worse F.pinf)) := by
      simp only [Arr.normalized, Arr.minimum, List.map_map, Arr.grid.injEq]
      refine List.map_congr_left fun row _ => ?_
      simp only [Function.comp_def, List.map_map]
      rfl
    unfold objectiveFunction
    rw [List.map_cons, List.foldl_cons, e]
    obtain ⟨Z', k1, k2⟩ := foldl_grid zs (z.map fun row => row.map (worse F.pinf))
    rw [k1]
    have : some Z' = some Z := k2.symm.trans h1
    rw [Option.some.inj this]

theorem worse_fin (x p : ℝ) : worse (F.fin x) (F.fin p) = F.fin (min x (p / 100)) := by
  have h : (F.fin p / P0 : F) = F.fin (p / 100) := by
    rw [show P0 = F.fin 100 from by simp [P0, F.ofNat_eq]; norm_num]
    exact F.fin_div _ (by norm_num)
  unfold worse
  rw [h]
  simp only [F.min, F.isNan, F.lt, Bool.or_self, Bool.false_eq_true, if_false]
  by_cases hx : p / 100 < x
  · simp [hx, min_eq_right hx.le]
  · simp [hx, min_eq_left (not_lt.mp hx)]

theorem worse_pinf (p : ℝ) : worse F.pinf (F.fin p) = F.fin (p / 100) := by
  have h : (F.fin p / P0 : F) = F.fin (p / 100) := by
    rw [show P0 = F.fin 100 from by simp [P0, F.ofNat_eq]; norm_num]
    exact F.fin_div _ (by norm_num)
  unfold worse
  rw [h]
  simp [F.min, F.isNan, F.lt]

theorem foldl_worse (ps : List ℝ) (x : ℝ) : ∃ y, (ps.map F.fin).foldl worse (F.fin x) = F.fin y ∧ (y = x ∨ ∃ p ∈ ps, y = p / 100) ∧ y ≤ x ∧ ∀ p ∈ ps, y ≤ p / 100 := by
  induction ps generalizing x with
  | nil => exact ⟨x, rfl, .inl rfl, le_rfl, by simp⟩
  | cons p ps ih =>
    rw [List.map_cons, List.foldl_cons, worse_fin]
    obtain ⟨y, h1, h2, h3, h4⟩ := ih (min x (p / 100))
    refine ⟨y, h1, ?_, h3.trans (min_le_left _ _), ?_⟩
    · rcases h2 with h2 | ⟨q, hq, h2⟩
      · rcases min_choice x (p / 100) with h | h
        · exact .inl (h2.trans h)
        · exact .inr ⟨p, by simp, h2.trans h⟩
      · exact .inr ⟨q, by simp [hq], h2⟩
    · intro q hq
      rcases List.mem_cons.mp hq with rfl | hq
      · exact h3.trans (min_le_right _ _)
      · exact h4 q hq

theorem worse_nan (a : F) : worse a F.nan = F.nan := by
  have : (F.nan / P0 : F) = F.nan := by cases h : P0 <;> rfl
  unfold worse
  rw [this]
  simp [F.min, F.isNan]

theorem foldl_worse_nan (ws : List F) : ws.foldl worse F.nan = F.nan := by
  induction ws with
  | nil => rfl
  | cons w ws ih =>
    rw [List.foldl_cons]
    have : worse F.nan w = F.nan := by simp [worse, F.min, F.isNan]
    rw [this, ih]

end Figures
end DiffeRT2d
