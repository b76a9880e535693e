import Verif.Lemmas.Logic

/-! `jnp.argmin`: first minimum, or first NaN. -/

namespace DiffeRT2d
open Spec Classical

namespace F

theorem lt_trans' {a b c : F} (h1 : lt a b = true) (h2 : lt b c = true) : lt a c = true := by
  cases a <;> cases b <;> cases c <;> simp_all [lt]
  exact h1.trans h2

theorem lt_of_not_lt {a b c : F} (hb : b ≠ nan) (h1 : lt b a = false) (h2 : lt b c = true) :
    a ≠ nan → lt a c = true := by
  cases a <;> cases b <;> cases c <;> simp_all [lt]
  exact lt_of_le_of_lt h1 h2

theorem lt_of_lt_of_not_lt {x b y : F} (hy : y ≠ nan) (h1 : lt x b = true) (h2 : lt y b = false) :
    lt x y = true := by
  cases x <;> cases b <;> cases y <;> simp_all [lt]
  exact lt_of_lt_of_le h1 h2

theorem not_lt_trans {a b c : F} (hb : b ≠ nan) (ha : a ≠ nan) (h1 : lt a b = false) (h2 : lt b c = false) :
    lt a c = false := by
  cases a <;> cases b <;> cases c <;> simp_all [lt]
  exact h2.trans h1

theorem isNan_iff (a : F) : a.isNan = true ↔ a = nan := by cases a <;> simp [isNan]

/-- The scan keeps the first minimum, when nothing is NaN. -/
theorem argminGo_spec (pre : List F) (iB : ℕ) (best : F) (xs : List F)
    (hn : ∀ x ∈ pre ++ xs, x ≠ nan) (hi : pre[iB]? = some best)
    (hmin : ∀ x ∈ pre, lt x best = false)
    (hfirst : ∀ j, j < iB → ∀ x, pre[j]? = some x → lt best x = true) :
    ∃ b, (pre ++ xs)[argminGo iB best pre.length xs]? = some b ∧
      (∀ x ∈ pre ++ xs, lt x b = false) ∧
      (∀ j, j < argminGo iB best pre.length xs → ∀ x, (pre ++ xs)[j]? = some x → lt b x = true) := by
  induction xs generalizing pre iB best with
  | nil => exact ⟨best, by simpa [argminGo] using hi, by simpa using hmin, by simpa [argminGo] using hfirst⟩
  | cons x xs ih =>
    have hbn : best ≠ nan := hn best (by
      rw [List.mem_append]; left; exact List.mem_of_getElem? hi)
    have hxn : x ≠ nan := hn x (by simp)
    have hx0 : x.isNan = false := by cases x <;> simp_all [isNan]
    have e : pre ++ x :: xs = (pre ++ [x]) ++ xs := by simp
    have hlen : (pre ++ [x]).length = pre.length + 1 := by simp
    by_cases hb : lt x best = true
    · have h := ih (pre ++ [x]) pre.length x (by rw [← e]; exact hn) (by simp)
        (by
          intro y hy
          rw [List.mem_append] at hy
          rcases hy with hy | hy
          · have h1 := hmin y hy
            have hyn := hn y (by simp [hy])
            by_contra hc
            have := lt_trans' (by simpa using hc) hb
            rw [h1] at this; cases this
          · simp at hy; subst hy; cases y <;> simp [lt])
        (by
          intro j hj y hy
          rw [List.getElem?_append_left hj] at hy
          have hym := List.mem_of_getElem? hy
          have h1 := hmin y hym
          have hyn := hn y (by simp [hym])
          exact lt_of_lt_of_not_lt hyn hb h1)
      rw [hlen] at h
      simp only [argminGo, argminBetter, hb, Bool.true_or, if_true]
      rw [e]; exact h
    · have hb' : lt x best = false := by simpa using hb
      have hiB : iB < pre.length := (List.getElem?_eq_some_iff.mp hi).1
      have h := ih (pre ++ [x]) iB best (by rw [← e]; exact hn)
        (by rw [List.getElem?_append_left hiB]; exact hi)
        (by
          intro y hy
          rw [List.mem_append] at hy
          rcases hy with hy | hy
          · exact hmin y hy
          · simp at hy; subst hy; exact hb')
        (by
          intro j hj y hy
          rw [List.getElem?_append_left (hj.trans hiB)] at hy
          exact hfirst j hj y hy)
      rw [hlen] at h
      simp only [argminGo, argminBetter, hb', hx0, Bool.false_or, Bool.false_and, Bool.false_eq_true, if_false]
      rw [e]; exact h

theorem argmin_spec {xs : List F} (hne : xs ≠ []) (hn : ∀ x ∈ xs, x ≠ nan) :
    ∃ i b, argmin xs = some i ∧ xs[i]? = some b ∧ (∀ x ∈ xs, lt x b = false) ∧
      (∀ j, j < i → ∀ x, xs[j]? = some x → lt b x = true) := by
  cases xs with
  | nil => exact absurd rfl hne
  | cons x xs =>
    have h := argminGo_spec [x] 0 x xs (by simpa using hn) (by simp)
      (by intro y hy; simp at hy; subst hy; cases y <;> simp [lt]) (by simp)
    obtain ⟨b, h1, h2, h3⟩ := h
    exact ⟨_, b, rfl, by simpa using h1, by simpa using h2, by simpa using h3⟩

theorem argminGo_of_nan (iB i : ℕ) (xs : List F) : argminGo iB nan i xs = iB := by
  induction xs generalizing i with
  | nil => rfl
  | cons x xs ih => simp [argminGo, argminBetter, ih]

theorem argminGo_nan (iB : ℕ) (best : F) (i : ℕ) (pre : List F) (xs : List F)
    (hb : best ≠ nan) (hp : ∀ x ∈ pre, x ≠ nan) :
    argminGo iB best i (pre ++ nan :: xs) = i + pre.length := by
  induction pre generalizing iB best i with
  | nil =>
    have : best.isNan = false := by cases best <;> simp_all [isNan]
    simp [argminGo, argminBetter, argminGo_of_nan, this]
  | cons y pre ih =>
    have hy := hp y (by simp)
    have hp' : ∀ x ∈ pre, x ≠ nan := fun x hx => hp x (by simp [hx])
    simp only [List.cons_append, argminGo]
    split
    · rw [ih _ _ _ hy hp']; simp; omega
    · rw [ih _ _ _ hb hp']; simp; omega

/-- `argmin` returns the first NaN, if there is one. -/
theorem argmin_nan (pre xs : List F) (hp : ∀ x ∈ pre, x ≠ nan) :
    argmin (pre ++ nan :: xs) = some pre.length := by
  cases pre with
  | nil => simp [argmin, argminGo_of_nan]
  | cons y pre =>
    simp only [List.cons_append, argmin]
    rw [argminGo_nan _ _ _ _ _ (hp y (by simp)) (fun x hx => hp x (by simp [hx]))]
    simp; omega

theorem argmin_lt {xs : List F} {i : ℕ} (h : argmin xs = some i) : i < xs.length := by
  have key : ∀ (xs : List F) (iB : ℕ) (best : F) (i : ℕ), iB < i →
      argminGo iB best i xs < i + xs.length := by
    intro xs
    induction xs with
    | nil => intro iB best i h; simpa [argminGo] using h
    | cons x xs ih =>
      intro iB best i h
      simp only [argminGo, List.length_cons]
      split
      · have := ih i x (i + 1) (by omega); omega
      · have := ih iB best (i + 1) (by omega); omega
  cases xs with
  | nil => simp [argmin] at h
  | cons x xs =>
    simp only [argmin, Option.some.injEq] at h
    subst h
    have := key xs 0 x 1 (by omega)
    simp; omega

end F
end DiffeRT2d
