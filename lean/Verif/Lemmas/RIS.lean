import Verif.Spec.RIS
import Verif.Props.Wall
import Verif.Props.Objectives

/-! # Scores of a RIS -/

namespace DiffeRT2d
open Classical Spec

theorem along_sq {n : Pt} (hn : dp n n = 1) (φ : ℝ) : (beam n φ).x ^ 2 + (beam n φ).y ^ 2 = 1 := by
  have h := Real.sin_sq_add_cos_sq φ
  simp only [dp] at hn
  simp only [beam]
  linear_combination (n.x * n.x + n.y * n.y) * h + hn

/-- The score in terms of the beam. -/
theorem ris_beam {o d : Pt} (hod : o ≠ d) (φ : ℝ) (a : V2 F) (b c : Pt) :
    (RIS.mk (Wall.ofPts o d) (F.fin φ)).evaluate a (V2.fin b) (V2.fin c) =
      F.fin (((unit (c - b)).x - (beam (rn o d) φ).x) ^ 2 + ((unit (c - b)).y - (beam (rn o d) φ).y) ^ 2) := by
  rw [Props.ris_fin, F.fin_inj]
  have hn := rn_sq hod
  have h := Real.sin_sq_add_cos_sq φ
  set n := rn o d
  set r := unit (c - b)
  simp only [dp] at hn ⊢
  simp only [beam]
  linear_combination (r.x ^ 2 + r.y ^ 2) * hn + (1 - (n.x * n.x + n.y * n.y)) * h - hn

theorem eucl_sub (b c : Pt) : nrm (c - b) = eucl b c := by
  simp only [nrm, eucl, V2.sub_x, V2.sub_y]; congr 1; ring

theorem sub_ne {b c : Pt} (h : b ≠ c) : c - b ≠ ⟨0, 0⟩ := by
  intro e
  apply h
  have h1 := congrArg V2.x e
  have h2 := congrArg V2.y e
  simp only [V2.sub_x, V2.sub_y] at h1 h2
  exact V2.ext (by linarith) (by linarith)

theorem eucl_pos' {b c : Pt} (h : b ≠ c) : 0 < eucl b c := by
  rw [← eucl_sub]
  exact lt_of_le_of_ne (nrm_nonneg _) fun e => sub_ne h ((nrm_eq_zero _).mp e.symm)

theorem unit_along {b c : Pt} (h : b ≠ c) (e : Pt) : (unit (c - b)).x * e.x + (unit (c - b)).y * e.y = advance e b c / eucl b c := by
  have h0 : nrm (c - b) ≠ 0 := fun e => sub_ne h ((nrm_eq_zero _).mp e)
  simp only [unit, len1, h0, if_false, V2.sub_x, V2.sub_y, advance]
  rw [eucl_sub]
  ring

/-- The score away from the RIS. -/
theorem ris_score {o d : Pt} (hod : o ≠ d) (φ : ℝ) (a : V2 F) {b c : Pt} (hbc : b ≠ c) :
    (RIS.mk (Wall.ofPts o d) (F.fin φ)).evaluate a (V2.fin b) (V2.fin c) = F.fin (2 - 2 * (advance (beam (rn o d) φ) b c / eucl b c)) := by
  rw [ris_beam hod, F.fin_inj, ← unit_along hbc]
  have h1 := unit_sq (sub_ne hbc)
  have h2 := along_sq (rn_sq hod) φ
  linear_combination h1 + h2

/-- The score at a receiver that is on the RIS. -/
theorem ris_score_self {o d : Pt} (hod : o ≠ d) (φ : ℝ) (a : V2 F) (b : Pt) :
    (RIS.mk (Wall.ofPts o d) (F.fin φ)).evaluate a (V2.fin b) (V2.fin b) = F.fin 1 := by
  rw [ris_beam hod, F.fin_inj]
  have e : unit (b - b) = ⟨0, 0⟩ := by
    have : b - b = ⟨0, 0⟩ := by ext <;> simp
    rw [this, unit_zero]
  rw [e]
  have h2 := along_sq (rn_sq hod) φ
  simp only
  linear_combination h2

/-! ### Scores that are not finite -/

/-- Not negative, or NaN. -/
def NonNeg (x : F) : Prop := x = F.nan ∨ x = F.pinf ∨ ∃ r : ℝ, 0 ≤ r ∧ x = F.fin r

theorem NonNeg.add {x y : F} (hx : NonNeg x) (hy : NonNeg y) : NonNeg (x + y) := by
  rcases hx with rfl | rfl | ⟨r, hr, rfl⟩ <;> rcases hy with rfl | rfl | ⟨s, hs, rfl⟩
  any_goals exact .inl rfl
  any_goals exact .inr (.inl rfl)
  exact .inr (.inr ⟨r + s, by linarith, by rw [F.fin_add]⟩)

theorem NonNeg.sq (x : F) : NonNeg (x * x) := by
  cases x with
  | nan => exact .inl rfl
  | pinf => exact .inr (.inl rfl)
  | ninf => exact .inr (.inl rfl)
  | fin r => exact .inr (.inr ⟨r * r, mul_self_nonneg r, by rw [F.fin_mul]⟩)

theorem shape_nonNeg (s : Shape) (a b c : V2 F) : NonNeg (s.obj.interact.evaluate a b c) := by
  cases s with
  | wall o d => exact (NonNeg.sq _).add (NonNeg.sq _)
  | ris o d φ => exact (NonNeg.sq _).add (NonNeg.sq _)
  | vertex p => exact .inr (.inr ⟨0, le_rfl, F.zero_eq⟩)

theorem NonNeg.add_lt {x y : F} (hx : NonNeg x) (hy : NonNeg y) {tol : ℝ} (h : Lt (x + y) (F.fin tol)) :
    ∃ r s : ℝ, x = F.fin r ∧ y = F.fin s ∧ 0 ≤ r ∧ 0 ≤ s ∧ r + s < tol := by
  have key : ∃ r, x + y = F.fin r ∧ r < tol := by
    rcases hx.add hy with e | e | ⟨r, -, e⟩
    · rw [e] at h; obtain ⟨_, _, h1, -⟩ := h; cases h1
    · rw [e] at h
      obtain ⟨a, b, h1, h2, h3⟩ := h
      simp only [toEReal, Option.some.injEq] at h1 h2
      rw [← h1] at h3
      exact absurd h3 (not_lt.mpr le_top)
    · refine ⟨r, e, ?_⟩
      rw [e] at h
      simpa [← F.lt_iff] using h
  obtain ⟨t, e, ht⟩ := key
  rcases hx with rfl | rfl | ⟨r, hr, rfl⟩ <;> rcases hy with rfl | rfl | ⟨s, hs, rfl⟩
  any_goals cases e
  exact ⟨r, s, rfl, rfl, hr, hs, ht⟩

theorem foldl_nonNeg (xs : List F) (hx : ∀ x ∈ xs, NonNeg x) (z : F) (hz : NonNeg z) {tol : ℝ} (h : Lt (xs.foldl (· + ·) z) (F.fin tol)) :
    (∃ r : ℝ, 0 ≤ r ∧ r < tol ∧ z = F.fin r) ∧ ∀ x ∈ xs, ∃ r : ℝ, 0 ≤ r ∧ r < tol ∧ x = F.fin r := by
  induction xs generalizing z with
  | nil =>
    refine ⟨?_, by simp⟩
    obtain ⟨r, s, h1, h2, h3, h4, h5⟩ := hz.add_lt (y := F.fin 0) (.inr (.inr ⟨0, le_rfl, rfl⟩)) (tol := tol) (by
      rw [F.add_zero']; exact h)
    exact ⟨r, h3, by linarith, h1⟩
  | cons x xs ih =>
    obtain ⟨⟨t, h1, h2, h3⟩, h4⟩ := ih (fun y hy => hx y (by simp [hy])) (z + x) (hz.add (hx x (by simp))) h
    obtain ⟨r, s, e1, e2, e3, e4, e5⟩ := hz.add_lt (hx x (by simp)) (tol := tol) (by rw [h3, ← F.lt_iff]; simpa using h2)
    refine ⟨⟨r, e3, by linarith, e1⟩, fun y hy => ?_⟩
    rcases List.mem_cons.mp hy with rfl | hy
    · exact ⟨s, e4, by linarith, e2⟩
    · exact h4 y hy

/-- If the total score is below the tolerance, all scores are real and below the tolerance. -/
theorem score_lt {shapes : List Shape} {xys : List (V2 F)} {loss : F} {tol : ℝ} (h : TotalScore (shapes.map fun s => s.obj.interact) xys loss)
    (hl : xys.length = shapes.length + 2) (hlt : Lt loss (F.fin tol)) (i : ℕ) (s : Shape) (a b c : V2 F) (hs : shapes[i]? = some s) (ha : xys[i]? = some a)
    (hb : xys[i + 1]? = some b) (hc : xys[i + 2]? = some c) : ∃ r : ℝ, 0 ≤ r ∧ r < tol ∧ s.obj.interact.evaluate a b c = F.fin r := by
  obtain ⟨scores, h1, rfl, h3⟩ := h
  have hall : ∀ x ∈ scores, NonNeg x := by
    intro x hx
    obtain ⟨j, hj, rfl⟩ := List.mem_iff_getElem.mp hx
    rw [List.length_map] at h1
    have hj' : j < shapes.length := by omega
    have := h3 j _ _ _ _ (by rw [List.getElem?_map, List.getElem?_eq_getElem hj']; rfl) (List.getElem?_eq_getElem (by omega)) (List.getElem?_eq_getElem (by omega))
      (List.getElem?_eq_getElem (by omega))
    rw [List.getElem?_eq_getElem hj] at this
    rw [Option.some.inj this]
    exact shape_nonNeg _ _ _ _
  exact (foldl_nonNeg scores hall _ (.inr (.inr ⟨0, le_rfl, rfl⟩)) hlt).2 _ (List.mem_of_getElem? (h3 i _ a b c (by rw [List.getElem?_map, hs]; rfl) ha hb hc))

/-! ### Scores that are real come from points that are real -/

/-- Not a real number. -/
def Unreal (x : F) : Prop := ∀ r : ℝ, x ≠ F.fin r

theorem real_or_unreal (x : F) : (∃ r : ℝ, x = F.fin r) ∨ Unreal x := by
  by_cases h : ∃ r : ℝ, x = F.fin r
  · exact .inl h
  · exact .inr fun r e => h ⟨r, e⟩

theorem add_real {x y : F} {r : ℝ} (h : x + y = F.fin r) : (∃ s : ℝ, x = F.fin s) ∧ ∃ s : ℝ, y = F.fin s := by
  cases x <;> cases y <;> first | exact ⟨⟨_, rfl⟩, ⟨_, rfl⟩⟩ | cases h

theorem sub_real {x y : F} {r : ℝ} (h : x - y = F.fin r) : (∃ s : ℝ, x = F.fin s) ∧ ∃ s : ℝ, y = F.fin s := by
  cases x <;> cases y <;> first | exact ⟨⟨_, rfl⟩, ⟨_, rfl⟩⟩ | cases h

theorem mul_real {x y : F} {r : ℝ} (h : x * y = F.fin r) : (∃ s : ℝ, x = F.fin s) ∧ ∃ s : ℝ, y = F.fin s := by
  cases x <;> cases y
  case fin.fin => exact ⟨⟨_, rfl⟩, ⟨_, rfl⟩⟩
  all_goals
    exfalso
    revert h
    simp only [HMul.hMul, Mul.mul, F.mul]
    repeat' split
    all_goals simp

theorem neg_real {x : F} {r : ℝ} (h : -x = F.fin r) : ∃ s : ℝ, x = F.fin s := by
  cases x <;> first | exact ⟨_, rfl⟩ | cases h

/-- The quotient of a number that is not real by one that is not real is NaN. -/
theorem unreal_div {x y : F} (hx : Unreal x) (hy : Unreal y) : x / y = F.nan := by
  cases x with
  | fin a => exact absurd rfl (hx a)
  | nan => rfl
  | pinf => cases y with
    | fin a => exact absurd rfl (hy a)
    | _ => rfl
  | ninf => cases y with
    | fin a => exact absurd rfl (hy a)
    | _ => rfl

theorem sqrt_real {x : F} {r : ℝ} (h : F.sqrt x = F.fin r) : ∃ s : ℝ, x = F.fin s := by
  cases x <;> first | exact ⟨_, rfl⟩ | cases h

/-- A direction that is real is the direction of a real vector. -/
theorem normalize_real {v : V2 F} {a b : ℝ} (hx : (normalize v).1.x = F.fin a) (hy : (normalize v).1.y = F.fin b) : ∃ p : Pt, v = V2.fin p := by
  by_contra hv
  have hun : Unreal (V2.norm v) := by
    intro r h
    obtain ⟨s, hs⟩ := sqrt_real h
    obtain ⟨⟨_, h1⟩, ⟨_, h2⟩⟩ := add_real hs
    obtain ⟨⟨p, h1⟩, -⟩ := mul_real h1
    obtain ⟨⟨q, h2⟩, -⟩ := mul_real h2
    exact hv ⟨⟨p, q⟩, V2.ext h1 h2⟩
  have hl : F.where_ (F.eq (V2.norm v) 0) (1 : F) (V2.norm v) = V2.norm v := by
    cases h : V2.norm v with
    | fin r => exact absurd h (hun r)
    | _ => rfl
  simp only [normalize, hl, V2.sdiv] at hx hy
  rcases real_or_unreal v.x with ⟨p, h1⟩ | h1
  · rcases real_or_unreal v.y with ⟨q, h2⟩ | h2
    · exact hv ⟨⟨p, q⟩, V2.ext h1 h2⟩
    · rw [unreal_div h2 hun] at hy; cases hy
  · rw [unreal_div h1 hun] at hx; cases hx

/-- A RIS has a real score only between two real points. -/
theorem ris_real {w : RIS} {a b c : V2 F} {r : ℝ} (h : w.evaluate a b c = F.fin r) : ∃ p q : Pt, b = V2.fin p ∧ c = V2.fin q := by
  obtain ⟨-, ⟨_, h1⟩⟩ := add_real h
  obtain ⟨⟨_, h1⟩, -⟩ := mul_real h1
  obtain ⟨⟨_, h1⟩, -⟩ := sub_real h1
  obtain ⟨⟨_, h1⟩, ⟨_, h2⟩⟩ := add_real h1
  obtain ⟨⟨_, h1⟩, -⟩ := mul_real h1
  obtain ⟨⟨_, h2⟩, -⟩ := mul_real h2
  obtain ⟨_, h1⟩ := neg_real h1
  obtain ⟨_, h2⟩ := neg_real h2
  obtain ⟨v, hv⟩ := normalize_real h1 h2
  obtain ⟨⟨p, h1⟩, ⟨q, h2⟩⟩ := sub_real (congrArg V2.x hv)
  obtain ⟨⟨s, h3⟩, ⟨t, h4⟩⟩ := sub_real (congrArg V2.y hv)
  exact ⟨⟨q, t⟩, ⟨p, s⟩, V2.ext h2 h4, V2.ext h1 h3⟩

/-- A real point of a wall has a real parameter. -/
theorem toCart_real {o d p : Pt} {x : F} (h : (Wall.ofPts o d).toCart x = V2.fin p) : ∃ s : ℝ, x = F.fin s := by
  obtain ⟨-, ⟨_, h1⟩⟩ := add_real (congrArg V2.x h)
  exact (mul_real h1).1

end DiffeRT2d
