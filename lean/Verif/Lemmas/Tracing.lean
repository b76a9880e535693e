import Verif.Spec.Paths
import Verif.Lemmas.Argmin

/-! # Parameter routing, shapes of the minimizers' results -/

namespace DiffeRT2d
open Classical Spec

theorem dynamicSlice_eq {α : Type*} (xs : List α) (j n : ℕ) (h : j + n ≤ xs.length) :
    dynamicSlice xs j n = (xs.drop j).take n := by
  unfold dynamicSlice
  rw [Nat.min_eq_left (by omega)]

/-- Partition of a vector into consecutive blocks of the given sizes. -/
def blocks {α : Type*} : List ℕ → List α → List (List α)
  | [], _ => []
  | n :: ns, xs => xs.take n :: blocks ns (xs.drop n)

theorem blocks_flatten {α : Type*} (ns : List ℕ) (xs : List α) (h : xs.length = ns.sum) :
    (blocks ns xs).flatten = xs := by
  induction ns generalizing xs with
  | nil => simp [List.length_eq_zero_iff.mp (by simpa using h), blocks]
  | cons n ns ih =>
    simp only [blocks, List.flatten_cons]
    rw [ih _ (by simp at h ⊢; omega), List.take_append_drop]

theorem blocks_lengths {α : Type*} (ns : List ℕ) (xs : List α) (h : xs.length = ns.sum) :
    (blocks ns xs).map List.length = ns := by
  induction ns generalizing xs with
  | nil => rfl
  | cons n ns ih =>
    simp only [blocks, List.map_cons]
    rw [ih _ (by simp at h ⊢; omega)]
    simp at h ⊢; omega

theorem toCartesianFrom_eq (theta : List F) (j : ℕ) (os : List Interactable)
    (h : theta.length = j + nUnknowns os) :
    toCartesianFrom theta j os =
      List.zipWith (fun o s => o.toCart s) os (blocks (os.map Interactable.paramCount) (theta.drop j)) := by
  induction os generalizing j with
  | nil => rfl
  | cons o os ih =>
    have hn : nUnknowns (o :: os) = o.paramCount + nUnknowns os := by simp [nUnknowns]
    rw [toCartesianFrom, dynamicSlice_eq _ _ _ (by omega), ih _ (by omega)]
    simp [blocks]

theorem toCartesianFrom_length (theta : List F) (j : ℕ) (os : List Interactable) :
    (toCartesianFrom theta j os).length = os.length := by
  induction os generalizing j with
  | nil => rfl
  | cons o os ih => simp [toCartesianFrom, ih]

theorem vadd_length (x u : List F) (h : u.length = x.length) : (vadd x u).length = x.length := by
  simp [vadd, h]

section scan
variable {opt : Optimizer} {grad : List F → List F} {f : List F → F}

theorem minimizeScan_length (hg : ∀ x, (grad x).length = x.length) (P : ℕ → opt.State → Prop)
    (hu : ∀ g st, P g.length st → (opt.update g st).1.length = g.length ∧ P g.length (opt.update g st).2)
    (k : ℕ) (x : List F) (st : opt.State) (hst : P x.length st) :
    (minimizeScan opt grad f k x st).1.1.length = x.length := by
  induction k generalizing x st with
  | zero => rfl
  | succ k ih =>
    obtain ⟨h1, h2⟩ := hu (grad x) st (by rw [hg]; exact hst)
    rw [hg] at h1 h2
    have hl := vadd_length x (opt.update (grad x) st).1 h1
    simp only [minimizeScan]
    rw [ih _ _ (by rw [hl]; exact h2), hl]

theorem minimizeScan_losses (k : ℕ) (x : List F) (st : opt.State) :
    (minimizeScan opt grad f k x st).2.length = k := by
  induction k generalizing x st with
  | zero => rfl
  | succ k ih => simp [minimizeScan, ih]

end scan

variable {Key : Type} {M : Minimizer Key} {many : ℕ}

theorem minimize_ok (h : Shaped M many) (f : List F → F) (x0 : List F) :
    ∃ r, minimize M f x0 = .ok r ∧ r.1.length = x0.length := by
  unfold minimize
  have hl := minimizeScan_losses (opt := M.optimizer) (grad := M.grad f) (f := f) M.steps x0 (M.optimizer.init x0)
  have hne : (minimizeScan M.optimizer (M.grad f) f M.steps x0 (M.optimizer.init x0)).2 ≠ [] := by
    intro e; rw [e] at hl; simp at hl; have := h.steps; omega
  simp only [List.getLast?_eq_some_getLast hne]
  obtain ⟨P, hp0, hp⟩ := h.update
  exact ⟨_, rfl, minimizeScan_length (fun x => h.grad f x) P hp _ _ _ (hp0 x0)⟩

theorem mapM_ok {α β : Type*} (f : α → Except PyErr β) (P : β → Prop) (xs : List α)
    (h : ∀ x ∈ xs, ∃ y, f x = .ok y ∧ P y) :
    ∃ ys, xs.mapM f = .ok ys ∧ ys.length = xs.length ∧ ∀ y ∈ ys, P y := by
  induction xs with
  | nil => exact ⟨[], rfl, rfl, by simp⟩
  | cons x xs ih =>
    obtain ⟨y, hy, hp⟩ := h x (by simp)
    obtain ⟨ys, hys, hl, hps⟩ := ih fun z hz => h z (by simp [hz])
    refine ⟨y :: ys, ?_, by simp [hl], by simpa [hp] using hps⟩
    rw [List.mapM_cons, hy, hys]; rfl

theorem minimizeMany_ok (h : Shaped M many) (f : List F → F) (key : Key) (n : ℕ) :
    ∃ r, minimizeManyRandomUniform M f key n many = .ok r ∧ r.1.length = n := by
  unfold minimizeManyRandomUniform
  split
  · obtain ⟨r, hr, hl⟩ := minimize_ok h f (M.uniform key n)
    exact ⟨r, hr, by rw [hl, h.uniform]⟩
  · obtain ⟨ys, hys, hl, hp⟩ := mapM_ok (fun k => minimizeRandomUniform M f k n)
      (fun r => r.1.length = n) (M.split key many) (fun k _ => by
        obtain ⟨r, hr, hl⟩ := minimize_ok h f (M.uniform k n)
        exact ⟨r, hr, by rw [hl, h.uniform]⟩)
    have hne : ys ≠ [] := by
      intro e; rw [e, h.split] at hl; simp at hl; have := h.many; omega
    simp only [hys, bind, Except.bind]
    obtain ⟨i, hi⟩ : ∃ i, F.argmin (ys.map Prod.snd) = some i := by
      cases ys with
      | nil => exact absurd rfl hne
      | cons y ys => exact ⟨_, rfl⟩
    have hlt := F.argmin_lt hi
    rw [hi]
    refine ⟨_, rfl, ?_⟩
    simp only [List.length_map] at hlt
    rw [List.getD_eq_getElem?_getD, List.getElem?_eq_getElem hlt]
    exact hp _ (List.getElem_mem hlt)

end DiffeRT2d
