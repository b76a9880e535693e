import Verif.Lemmas.NonFlat
import Verif.Lemmas.Stability
import Verif.Spec.Grad

/-! The approximate validity of a line of sight. -/

namespace DiffeRT2d
open MeasureTheory Filter Topology Set Spec

theorem foldl_max_cases (l : List ℝ) (z : ℝ) : l.foldl max z = z ∨ l.foldl max z ∈ l := by
  induction l generalizing z with
  | nil => exact .inl rfl
  | cons a l ih =>
    rw [List.foldl_cons]
    rcases ih (max z a) with h | h
    · rw [h]
      rcases max_choice z a with e | e
      · exact .inl e
      · exact .inr (by rw [e]; simp)
    · exact .inr (by simp [h])

theorem le_foldl_max (l : List ℝ) (z : ℝ) : z ≤ l.foldl max z ∧ ∀ x ∈ l, x ≤ l.foldl max z := by
  induction l generalizing z with
  | nil => simp
  | cons a l ih =>
    rw [List.foldl_cons]
    refine ⟨le_trans (le_max_left z a) (ih _).1, ?_⟩
    intro x hx
    rcases List.mem_cons.mp hx with rfl | hx
    · exact le_trans (le_max_right z x) (ih _).1
    · exact (ih _).2 x hx

/-- The degree of a crossing of the wall `w`, from `t` to `r`. -/
noncomputable def crossing (s : ℝ → ℝ) (patch : ℝ) (t r : Pt) (w : Pt × Pt) : ℝ := (fmSeg (pointAt w.1 w.2 (-patch)) (pointAt w.1 w.2 (1 + patch)) t r (1 / 200)).eval s

theorem sight_eval (s : ℝ → ℝ) (walls : List (Pt × Pt)) (t r : Pt) (tol patch : ℝ) :
    (fmValid [] walls [] [t, r] 0 tol patch).eval s = min (min 1 (1 - (walls.map (crossing s patch t r)).foldl max 0)) (s tol) := by
  have e : (hitPairs 2 walls []).map (fun x => fmSeg (pointAt x.2.1.1 x.2.1.2 (-patch)) (pointAt x.2.1.1 x.2.1.2 (1 + patch)) (rnth [t, r] x.1) (rnth [t, r] (x.1 + 1)) (1 / 200)) =
      walls.map fun w => fmSeg (pointAt w.1 w.2 (-patch)) (pointAt w.1 w.2 (1 + patch)) t r (1 / 200) := by
    have h1 : hitPairs 2 walls [] = walls.zipIdx.map fun oj => (0, oj) := by
      unfold hitPairs
      rw [show List.range (2 - 1) = [0] from rfl, List.flatMap_singleton]
      congr 1
      rw [List.filter_eq_self]
      rintro ⟨w, j⟩ -
      simp
    rw [h1, List.map_map]
    have h2 : walls = walls.zipIdx.map Prod.fst := by simp
    conv_rhs => rw [h2, List.map_map]
    rfl
  unfold fmValid
  rw [show ([t, r] : List Pt).length = 2 from rfl, e]
  simp only [Fm.eval, Fm.conj, Fm.disj, Fm.eval_foldl_and, Fm.eval_foldl_or, List.map_map, List.zipIdx_nil, List.map_nil, List.foldl_nil, sub_zero]
  rfl

theorem lgs_neg_eq (x y : ℝ) (h : x + y = 0) : 1 - lgs x = lgs y := by rw [one_sub_lgs, show y = -x by linarith]

/-- The pieces of the approximate power of a line of sight. -/
theorem sight_nonFlat {a : ℝ} (walls : List (Pt × Pt)) (tol patch : ℝ) {h : ℝ} (hh : 0 < h) (t r : ℝ × ℝ → Pt) (A B : ℝ)
    (hD : ∀ w ∈ walls, ∃ u v k : ℝ, ¬(u = 0 ∧ v = 0) ∧ ∀ x, segD (pointAt w.1 w.2 (-patch)) (pointAt w.1 w.2 (1 + patch)) (t x) (r x) = u * x.1 + v * x.2 + k)
    (hA : ∀ w ∈ walls, ∀ x, AnalyticAt ℝ (fun x => segA (pointAt w.1 w.2 (-patch)) (pointAt w.1 w.2 (1 + patch)) (t x) (r x)) x)
    (hB : ∀ w ∈ walls, ∀ x, AnalyticAt ℝ (fun x => segB (pointAt w.1 w.2 (-patch)) (pointAt w.1 w.2 (1 + patch)) (t x) (r x)) x)
    (hc : ∀ᵐ x : ℝ × ℝ, ContinuousAt (fun x => (fmValid [] walls [] [t x, r x] 0 tol patch).eval (fun y => lgs (a * y)) * los h A B x) x) :
    NonFlat fun x => (fmValid [] walls [] [t x, r x] 0 tol patch).eval (fun y => lgs (a * y)) * los h A B x := by
  choose! u v k huv hD using hD
  let N : Bool → Pt × Pt → ℝ × ℝ → ℝ := fun b w x => if b then segA (pointAt w.1 w.2 (-patch)) (pointAt w.1 w.2 (1 + patch)) (t x) (r x) else
    segB (pointAt w.1 w.2 (-patch)) (pointAt w.1 w.2 (1 + patch)) (t x) (r x)
  let Q : Bool → Pt × Pt → ℝ → ℝ → ℝ × ℝ → ℝ := fun b w p q x => lgs (p * (N b w x / (u w * x.1 + v w * x.2 + k w)) + q) * los h A B x
  let L : List (ℝ × ℝ → ℝ) := (fun x => lgs (a * tol) * los h A B x) ::
    walls.flatMap fun w => [Q true w (-a) (-(a * (1 / 200))), Q true w a (-(a * (1 + 1 / 200))), Q false w (-a) (-(a * (1 / 200))), Q false w a (-(a * (1 + 1 / 200)))]
  have hN : ∀ b, ∀ w ∈ walls, ∀ x, AnalyticAt ℝ (N b w) x := by
    intro b w hw x
    cases b
    · simpa [N] using hB w hw x
    · simpa [N] using hA w hw x
  refine nonFlat_of_pieces L ?_ ?_ hc
  · intro g hg
    rcases List.mem_cons.mp hg with rfl | hg
    · exact nonFlat_const hh A B (lgs_pos _) (lgs_lt_one _)
    · obtain ⟨w, hw, hg⟩ := List.mem_flatMap.mp hg
      simp only [List.mem_cons, List.not_mem_nil, or_false] at hg
      rcases hg with rfl | rfl | rfl | rfl <;> exact nonFlat_quotient hh A B (hN _ w hw) _ _ _ (huv w hw) _ _
  · have hz : ∀ᵐ x : ℝ × ℝ, ∀ w ∈ {w | w ∈ walls}, u w * x.1 + v w * x.2 + k w ≠ 0 :=
      (ae_ball_iff (List.finite_toSet walls).countable).mpr fun w hw => affine_ae _ _ _ (huv w hw)
    filter_upwards [hz] with x hx
    have hx' : ∀ᶠ y in 𝓝 x, ∀ w ∈ {w | w ∈ walls}, u w * y.1 + v w * y.2 + k w ≠ 0 :=
      (Set.Finite.eventually_all (List.finite_toSet walls)).mpr fun w hw => (affine_analytic (u w) (v w) (k w) x).continuousAt.eventually_ne (hx w hw)
    filter_upwards [hx'] with y hy
    rw [sight_eval]
    set M := (walls.map (crossing (fun y => lgs (a * y)) patch (t y) (r y))).foldl max 0 with hM
    have hM0 : 0 ≤ M := (le_foldl_max _ _).1
    rw [min_eq_right (by linarith : (1 : ℝ) - M ≤ 1)]
    rcases min_choice (1 - M) (lgs (a * tol)) with e | e
    · rw [e]
      rcases foldl_max_cases (walls.map (crossing (fun y => lgs (a * y)) patch (t y) (r y))) 0 with hm | hm
      · exfalso
        rw [← hM] at hm
        rw [hm, sub_zero] at e
        have := min_le_right (1 : ℝ) (lgs (a * tol))
        rw [e] at this
        linarith [lgs_lt_one (a * tol)]
      · rw [← hM] at hm
        obtain ⟨w, hw, ew⟩ := List.mem_map.mp hm
        have hne : segD (pointAt w.1 w.2 (-patch)) (pointAt w.1 w.2 (1 + patch)) (t y) (r y) ≠ 0 := by rw [hD w hw]; exact hy w hw
        rw [crossing, fmSeg_eval_of_ne _ _ hne, hD w hw] at ew
        have hin : ∀ b p q, Q b w p q ∈ [Q true w (-a) (-(a * (1 / 200))), Q true w a (-(a * (1 + 1 / 200))), Q false w (-a) (-(a * (1 / 200))), Q false w a (-(a * (1 + 1 / 200)))] → Q b w p q ∈ L :=
          fun b p q h => List.mem_cons_of_mem _ (List.mem_flatMap.mpr ⟨w, hw, h⟩)
        have fin : ∀ b p q, Q b w p q ∈ [Q true w (-a) (-(a * (1 / 200))), Q true w a (-(a * (1 + 1 / 200))), Q false w (-a) (-(a * (1 / 200))), Q false w a (-(a * (1 + 1 / 200)))] →
            1 - M = lgs (p * (N b w y / (u w * y.1 + v w * y.2 + k w)) + q) → ∃ g ∈ L, (1 - M) * los h A B y = g y :=
          fun b p q h e' => ⟨_, hin b p q h, by rw [e']⟩
        rcases min_choice (min (lgs (a * (N true w y / (u w * y.1 + v w * y.2 + k w) + 1 / 200))) (lgs (a * (1 + 1 / 200 - N true w y / (u w * y.1 + v w * y.2 + k w)))))
          (min (lgs (a * (N false w y / (u w * y.1 + v w * y.2 + k w) + 1 / 200))) (lgs (a * (1 + 1 / 200 - N false w y / (u w * y.1 + v w * y.2 + k w))))) with e1 | e1
        · rcases min_choice (lgs (a * (N true w y / (u w * y.1 + v w * y.2 + k w) + 1 / 200))) (lgs (a * (1 + 1 / 200 - N true w y / (u w * y.1 + v w * y.2 + k w)))) with e2 | e2
          · refine fin true (-a) (-(a * (1 / 200))) (by simp) ?_
            rw [← ew]; exact (congrArg (1 - ·) (e1.trans e2)).trans (lgs_neg_eq _ _ (by ring))
          · refine fin true a (-(a * (1 + 1 / 200))) (by simp) ?_
            rw [← ew]; exact (congrArg (1 - ·) (e1.trans e2)).trans (lgs_neg_eq _ _ (by ring))
        · rcases min_choice (lgs (a * (N false w y / (u w * y.1 + v w * y.2 + k w) + 1 / 200))) (lgs (a * (1 + 1 / 200 - N false w y / (u w * y.1 + v w * y.2 + k w)))) with e2 | e2
          · refine fin false (-a) (-(a * (1 / 200))) (by simp) ?_
            rw [← ew]; exact (congrArg (1 - ·) (e1.trans e2)).trans (lgs_neg_eq _ _ (by ring))
          · refine fin false a (-(a * (1 + 1 / 200))) (by simp) ?_
            rw [← ew]; exact (congrArg (1 - ·) (e1.trans e2)).trans (lgs_neg_eq _ _ (by ring))
    · rw [e]
      exact ⟨_, List.mem_cons_self, rfl⟩

end DiffeRT2d
