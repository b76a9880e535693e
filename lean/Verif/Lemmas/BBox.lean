import Verif.Lemmas.Wall
import Verif.Model.Paths

/-! Bounding boxes and evenly spaced points. -/

namespace DiffeRT2d
open Classical Spec

theorem bboxOf_tight (p : Pt) (ps : List Pt) :
    TightBox (bboxOf (V2.fin p) (ps.map V2.fin)) (p :: ps) := by
  have hx : (ps.map V2.fin).map V2.x = (ps.map V2.x).map F.fin := by simp
  have hy : (ps.map V2.fin).map V2.y = (ps.map V2.y).map F.fin := by simp
  obtain ⟨hx1, hx2⟩ := foldl_min_spec p.x (ps.map V2.x)
  obtain ⟨hx3, hx4⟩ := foldl_max_spec p.x (ps.map V2.x)
  obtain ⟨hy1, hy2⟩ := foldl_min_spec p.y (ps.map V2.y)
  obtain ⟨hy3, hy4⟩ := foldl_max_spec p.y (ps.map V2.y)
  rw [← List.map_cons] at hx1 hx2 hx3 hx4 hy1 hy2 hy3 hy4
  have hex : ∀ {g : Pt → ℝ} {v : ℝ}, v ∈ (p :: ps).map g → ∃ q ∈ p :: ps, g q = v := by
    intro g v h; exact List.mem_map.mp h
  refine ⟨⟨(ps.map V2.x).foldl min p.x, (ps.map V2.y).foldl min p.y⟩,
    ⟨(ps.map V2.x).foldl max p.x, (ps.map V2.y).foldl max p.y⟩, ?_, ?_,
    hex hx1, hex hx3, hex hy1, hex hy3⟩
  · simp only [bboxOf, hx, hy, V2.fin_x, V2.fin_y, F.minOf_fin, F.maxOf_fin]
    rfl
  · intro q hq
    exact ⟨hx2 _ (List.mem_map_of_mem hq), hx4 _ (List.mem_map_of_mem hq),
      hy2 _ (List.mem_map_of_mem hq), hy4 _ (List.mem_map_of_mem hq)⟩

/-- The `i`-th of `num` evenly spaced numbers from `a` to `b`. -/
noncomputable def evenly (a b : ℝ) (num i : ℕ) : ℝ := a + i * ((b - a) / (num - 1 : ℕ))

theorem linspace_fin (a b : ℝ) (num : ℕ) :
    linspace (F.fin a) (F.fin b) num = (List.range num).map fun i => F.fin (evenly a b num i) := by
  unfold linspace
  by_cases h1 : num = 1
  · subst h1; simp [evenly]
  · rw [if_neg h1]
    apply List.map_congr_left
    intro i hi
    have hi' : i < num := List.mem_range.mp hi
    have hn : ((num - 1 : ℕ) : ℝ) ≠ 0 := by
      have : num - 1 ≠ 0 := by omega
      exact_mod_cast this
    split
    · rename_i e
      simp only [evenly]
      congr 1
      rw [e]; field_simp; ring
    · simp only [F.fin_div _ hn, F.one_eq, F.fin_sub, F.fin_mul, F.fin_add]
      simp only [evenly]
      congr 1; field_simp; ring

theorem evenly_mem {a b : ℝ} (h : a ≤ b) {num i : ℕ} (hi : i < num) :
    a ≤ evenly a b num i ∧ evenly a b num i ≤ b := by
  unfold evenly
  by_cases h1 : num = 1
  · subst h1; simp at hi; subst hi; simp [h]
  · have hn : (0 : ℝ) < ((num - 1 : ℕ) : ℝ) := by
      have : 0 < num - 1 := by omega
      exact_mod_cast this
    have hi' : (i : ℝ) ≤ ((num - 1 : ℕ) : ℝ) := by
      have : i ≤ num - 1 := by omega
      exact_mod_cast this
    have h0 : 0 ≤ (b - a) / ((num - 1 : ℕ) : ℝ) := div_nonneg (by linarith) hn.le
    have h2 : ((num - 1 : ℕ) : ℝ) * ((b - a) / ((num - 1 : ℕ) : ℝ)) = b - a := by field_simp
    constructor
    · have := mul_nonneg (Nat.cast_nonneg (α := ℝ) i) h0; linarith
    · have := mul_le_mul_of_nonneg_right hi' h0; linarith

end DiffeRT2d
