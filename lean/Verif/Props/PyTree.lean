import Verif.Spec.PyTree
import Verif.Lemmas.Traversal
import Mathlib.Tactic.Linarith
import Mathlib.Tactic.Ring

/-! # Property C27: stacking and unstacking -/

namespace DiffeRT2d.Props
open Classical Spec

/-! ## Lemmas -/

/-- Blocks of equal length: the `q`-th block of the concatenation. -/
theorem flatMap_block {α β : Type} (f : α → List β) (m : ℕ) (xs : List α) (h : ∀ x ∈ xs, (f x).length = m) (q : ℕ)
    (x : α) (hq : xs[q]? = some x) : ((xs.flatMap f).drop (q * m)).take m = f x := by
  induction xs generalizing q with
  | nil => simp at hq
  | cons y xs ih =>
    have hy : (f y).length = m := h y (by simp)
    cases q with
    | zero =>
      simp only [List.getElem?_cons_zero, Option.some_inj] at hq
      subst hq
      simp [List.flatMap_cons, ← hy]
    | succ q =>
      rw [List.flatMap_cons, show (q + 1) * m = m + q * m by ring, ← List.drop_drop,
        List.drop_append_of_le_length hy.ge, List.drop_eq_nil_of_le hy.le, List.nil_append]
      exact ih (fun z hz => h z (by simp [hz])) q (by simpa using hq)

theorem flatMap_block_get {α β : Type} (f : α → List β) (m : ℕ) (xs : List α) (h : ∀ x ∈ xs, (f x).length = m)
    (q r : ℕ) (x : α) (hq : xs[q]? = some x) (hr : r < m) : (xs.flatMap f)[q * m + r]? = (f x)[r]? := by
  rw [← flatMap_block f m xs h q x hq, List.getElem?_take, if_pos hr, List.getElem?_drop]

theorem flatMap_length_const {α β : Type} (f : α → List β) (m : ℕ) (xs : List α) (h : ∀ x ∈ xs, (f x).length = m) :
    (xs.flatMap f).length = xs.length * m := by
  induction xs with
  | nil => simp
  | cons y xs ih =>
    rw [List.flatMap_cons, List.length_append, h y (by simp), ih fun z hz => h z (by simp [hz]), List.length_cons]
    ring

theorem rowMajor_lt {i shape : List ℕ} (h : InShape i shape) : rowMajor shape i < shape.prod := by
  induction h with
  | nil => simp [rowMajor]
  | @cons a n is s ha _ ih =>
    simp only [rowMajor, List.prod_cons]
    have : (a + 1) * s.prod ≤ n * s.prod := Nat.mul_le_mul_right _ ha
    nlinarith

theorem rowMajor_append {i s i' s' : List ℕ} (h : InShape i s) (h' : InShape i' s') :
    rowMajor (s ++ s') (i ++ i') = rowMajor s i * s'.prod + rowMajor s' i' := by
  induction h with
  | nil => simp [rowMajor]
  | @cons a n is s ha _ ih =>
    simp only [List.cons_append, rowMajor, ih, List.prod_append]
    ring

/-! ## C27 -/

/-- What stacking means, for any axis: the entry of the result with the extra coordinate `j` along the new axis
is the entry of the `j`-th array. -/
theorem C27_stack_axis {α : Type} (xs : List (Arr α)) (shape : List ℕ) (k : ℕ) (hne : xs ≠ [])
    (hk : k ≤ shape.length) (hs : ∀ x ∈ xs, x.shape = shape) (hw : ∀ x ∈ xs, Arr.Wf x) :
    ∃ st, stackArrays xs k = .ok st ∧ st.shape = shape.take k ++ xs.length :: shape.drop k ∧ Arr.Wf st ∧
      ∀ (j : ℕ) (x : Arr α) (i i' : List ℕ), xs[j]? = some x → InShape i (shape.take k) → InShape i' (shape.drop k) →
        entry st (i ++ j :: i') = entry x (i ++ i') := by
  obtain ⟨x0, rest, rfl⟩ := List.exists_cons_of_ne_nil hne
  have h0 : x0.shape = shape := hs x0 (by simp)
  have hrest : ¬ ∃ y ∈ rest, y.shape ≠ shape := by
    rintro ⟨y, hy, hy'⟩; exact hy' (hs y (by simp [hy]))
  have hk0 : ¬ ((k : ℤ) < 0) := by omega
  have hk1 : ¬ ((k : ℤ) < 0 ∨ (shape.length : ℤ) + 1 ≤ k) := by omega
  set A := shape.take k with hA
  set B := shape.drop k with hB
  have hAB : A ++ B = shape := List.take_append_drop k shape
  have hprod : A.prod * B.prod = shape.prod := by rw [← hAB, List.prod_append]
  set xs := x0 :: rest with hxs
  set g : ℕ → List α := fun o => xs.flatMap fun y => (y.data.drop (o * B.prod)).take B.prod with hg
  have hblock : ∀ o ∈ List.range A.prod, ∀ y ∈ xs, ((y.data.drop (o * B.prod)).take B.prod).length = B.prod := by
    intro o ho y hy
    have h1 : o < A.prod := by simpa using ho
    have h2 : y.data.length = A.prod * B.prod := by rw [hprod, ← hs y hy]; exact hw y hy
    rw [List.length_take, List.length_drop, h2, Nat.min_eq_left]
    have : (o + 1) * B.prod ≤ A.prod * B.prod := Nat.mul_le_mul_right _ h1
    have h3 : o * B.prod + B.prod ≤ A.prod * B.prod := by linarith [Nat.add_one_mul o B.prod]
    omega
  have hglen : ∀ o ∈ List.range A.prod, (g o).length = xs.length * B.prod :=
    fun o ho => flatMap_length_const _ _ _ (hblock o ho)
  refine ⟨⟨A ++ xs.length :: B, (List.range A.prod).flatMap g⟩, ?_, rfl, ?_, ?_⟩
  · unfold stackArrays
    simp only [hxs, h0, hrest, hk0, if_false, Int.toNat_natCast]
    simp only [false_or]
    rw [if_neg (show ¬ ((shape.length : ℤ) + 1 ≤ (k : ℤ)) by omega)]
  · show ((List.range A.prod).flatMap g).length = (A ++ xs.length :: B).prod
    rw [flatMap_length_const g _ _ hglen, List.length_range, List.prod_append, List.prod_cons]
  · intro j x i i' hj hi hi'
    have hx : x ∈ xs := List.mem_of_getElem? hj
    have hjl : j < xs.length := (List.getElem?_eq_some_iff.1 hj).1
    have hjb : InShape (j :: i') (xs.length :: B) := .cons hjl hi'
    have hr := rowMajor_lt hi'
    have ho := rowMajor_lt hi
    show ((List.range A.prod).flatMap g)[rowMajor (A ++ xs.length :: B) (i ++ j :: i')]? = x.data[rowMajor x.shape (i ++ i')]?
    rw [hs x hx, ← hAB, rowMajor_append hi hjb, rowMajor_append hi hi', List.prod_cons]
    have hr2 : rowMajor (xs.length :: B) (j :: i') < xs.length * B.prod := by
      have := rowMajor_lt hjb
      simpa using this
    rw [flatMap_block_get g (xs.length * B.prod) (List.range A.prod) hglen (rowMajor A i) _ (rowMajor A i)
      (by simp [ho]) hr2]
    show (xs.flatMap fun y => (y.data.drop (rowMajor A i * B.prod)).take B.prod)[j * B.prod + rowMajor B i']? = _
    rw [flatMap_block_get _ B.prod xs (hblock _ (by simpa using ho)) j _ x hj hr, List.getElem?_take, if_pos hr,
      List.getElem?_drop]

/-- Non-vacuity: two vectors along a second axis. -/
example := C27_stack_axis [(⟨[2], [1, 2]⟩ : Arr ℕ), ⟨[2], [3, 4]⟩] [2] 1 (by simp) (by simp) (by simp) (by simp [Arr.Wf])

/-- Stacking along the first axis then iterating gives back the arrays. -/
theorem stack_iter {α : Type} (xs : List (Arr α)) (shape : List ℕ) (hne : xs ≠ [])
    (hs : ∀ x ∈ xs, x.shape = shape) (hw : ∀ x ∈ xs, Arr.Wf x) :
    ∃ st, stackArrays xs 0 = .ok st ∧ st.iter = .ok xs := by
  obtain ⟨x0, rest, rfl⟩ := List.exists_cons_of_ne_nil hne
  have h0 : x0.shape = shape := hs x0 (by simp)
  have hrest : ¬ ∃ y ∈ rest, y.shape ≠ shape := by
    rintro ⟨y, hy, hy'⟩; exact hy' (hs y (by simp [hy]))
  have hk1 : ¬ ((0 : ℤ) < 0 ∨ (shape.length : ℤ) + 1 ≤ 0) := by omega
  set xs := x0 :: rest with hxs
  have hlen : ∀ y ∈ xs, y.data.length = shape.prod := fun y hy => by rw [← hs y hy]; exact hw y hy
  refine ⟨⟨xs.length :: shape, xs.flatMap Arr.data⟩, ?_, ?_⟩
  · unfold stackArrays
    simp only [hxs, h0, hrest, lt_irrefl, if_false, Int.toNat_zero, List.take_zero, List.drop_zero, List.prod_nil,
      List.nil_append]
    simp only [false_or]
    rw [if_neg (show ¬ ((shape.length : ℤ) + 1 ≤ 0) by omega)]
    congr 2
    have : List.range 1 = [0] := rfl
    rw [this, List.flatMap_singleton]
    simp only [zero_mul, List.drop_zero]
    rw [List.flatMap_def, List.flatMap_def]
    congr 1
    apply List.map_congr_left
    intro y hy
    rw [List.take_of_length_le (hlen y hy).le]
  · unfold Arr.iter
    simp only
    congr 1
    apply List.ext_getElem?
    intro i
    rw [List.getElem?_map]
    by_cases hi : i < xs.length
    · rw [List.getElem?_range hi]
      have hx := List.getElem?_eq_getElem hi
      rw [Option.map_some, flatMap_block Arr.data shape.prod xs hlen i _ hx, hx]
      congr 1
      rw [← hs _ (List.getElem_mem hi)]
    · have h1 : xs.length ≤ i := by omega
      simp [List.getElem?_eq_none h1, List.getElem?_eq_none (by simpa using h1 : (List.range xs.length).length ≤ i)]

/-- All columns have the same length: transposing twice is the identity. -/
theorem zipStar_columns {α : Type} (rows : List (List α)) (w : ℕ) (hw : w ≠ 0) (hr : ∀ r ∈ rows, r.length = w) :
    zipStar ((List.range w).map fun i => rows.filterMap fun r => r[i]?) = rows := by
  have hcol : ∀ i < w, ∀ j : ℕ, (rows.filterMap fun r => r[i]?)[j]? = rows[j]?.bind fun r => r[i]? := by
    intro i hi
    clear hw
    induction rows with
    | nil => simp
    | cons r rows ih =>
      intro j
      have hrl : i < r.length := by rw [hr r (by simp)]; exact hi
      rw [List.filterMap_cons, List.getElem?_eq_getElem hrl]
      cases j with
      | zero => simp [hrl]
      | succ j => simpa using ih (fun r hr' => hr r (by simp [hr'])) j
  have hcl : ∀ i < w, (rows.filterMap fun r => r[i]?).length = rows.length := by
    intro i hi
    clear hcol hw
    induction rows with
    | nil => simp
    | cons r rows ih =>
      have hrl : i < r.length := by rw [hr r (by simp)]; exact hi
      rw [List.filterMap_cons, List.getElem?_eq_getElem hrl]
      simp [ih fun r hr' => hr r (by simp [hr'])]
  obtain ⟨w', rfl⟩ := Nat.exists_eq_succ_of_ne_zero hw
  set cols := (List.range w'.succ).map fun i => rows.filterMap fun r => r[i]? with hcols
  have hcols' : cols = (rows.filterMap fun r => r[0]?) ::
      ((List.range w').map fun i => rows.filterMap fun r => r[i + 1]?) := by
    rw [hcols, List.range_succ_eq_map, List.map_cons, List.map_map]
    rfl
  have hmin : ((List.range w').map fun i => rows.filterMap fun r => r[i + 1]?).foldl (fun m ys => min m ys.length)
      (rows.filterMap fun r => r[0]?).length = rows.length := by
    rw [hcl 0 (by omega)]
    have : ∀ cs : List (List α), (∀ c ∈ cs, c.length = rows.length) →
        cs.foldl (fun m ys => min m ys.length) rows.length = rows.length := by
      intro cs hcs
      induction cs with
      | nil => rfl
      | cons c cs ih =>
        rw [List.foldl_cons, hcs c (by simp), Nat.min_self]
        exact ih fun c hc => hcs c (by simp [hc])
    apply this
    intro c hc
    obtain ⟨i, hi, rfl⟩ := List.mem_map.1 hc
    exact hcl (i + 1) (by have := List.mem_range.1 hi; omega)
  rw [hcols']
  unfold zipStar
  simp only [hmin]
  rw [← hcols']
  apply List.ext_getElem?
  intro j
  rw [List.getElem?_map]
  by_cases hj : j < rows.length
  · rw [List.getElem?_range hj, Option.map_some, List.getElem?_eq_getElem hj]
    congr 1
    have hrl : rows[j].length = w'.succ := hr _ (List.getElem_mem hj)
    rw [hcols, List.filterMap_map]
    have : ((fun ys : List α => ys[j]?) ∘ fun i => rows.filterMap fun r => r[i]?) = fun i =>
        if i < w'.succ then rows[j][i]? else (rows.filterMap fun r => r[i]?)[j]? := by
      funext i
      simp only [Function.comp]
      split_ifs with hi
      · rw [hcol i hi, List.getElem?_eq_getElem hj]; rfl
      · rfl
    rw [this]
    have h2 : (List.range w'.succ).filterMap (fun i => if i < w'.succ then rows[j][i]? else (rows.filterMap fun r => r[i]?)[j]?) =
        (List.range w'.succ).filterMap (fun i => rows[j][i]?) := by
      apply List.filterMap_congr
      intro i hi
      rw [if_pos (List.mem_range.1 hi)]
    rw [h2, ← hrl]
    have h3 : ∀ r : List α, (List.range r.length).filterMap (fun i => r[i]?) = r := by
      intro r
      induction r using List.reverseRecOn with
      | nil => rfl
      | append_singleton r a ih =>
        rw [List.length_append, List.length_singleton, List.range_succ, List.filterMap_append]
        congr 1
        · conv_rhs => rw [← ih]
          apply List.filterMap_congr
          intro i hi
          rw [List.getElem?_append_left (List.mem_range.1 hi)]
        · simp
    exact h3 _
  · have h1 : rows.length ≤ j := by omega
    simp [List.getElem?_eq_none h1, h1]

/-- Stacking then unstacking returns the same pytrees, in order. -/
theorem C27_inverse {T α : Type} (t : PyTree T α) (ts : List (PyTree T α)) (ht : t ∈ ts)
    (ha : ∀ u ∈ ts, Alike t u) (hw : ∀ u ∈ ts, PyTree.Wf u) (hl : t.leaves ≠ []) :
    ∃ st, stackLeaves ts = .ok st ∧ st.treedef = t.treedef ∧ unstackLeaves st = .ok ts := by
  obtain ⟨t0, rest, rfl⟩ : ∃ a b, ts = a :: b := by
    cases ts with
    | nil => simp at ht
    | cons a b => exact ⟨a, b, rfl⟩
  set ts := t0 :: rest with hts
  have h0 := ha t0 (by simp [hts])
  have hlen : ∀ u ∈ ts, u.leaves.length = t0.leaves.length := by
    intro u hu
    have h1 := congrArg List.length (ha u hu).shapes
    have h2 := congrArg List.length h0.shapes
    simp only [List.length_map] at h1 h2
    omega
  have hrest : ¬ ∃ u ∈ rest, u.treedef ≠ t0.treedef := by
    rintro ⟨u, hu, hne⟩
    exact hne ((ha u (by simp [hts, hu])).treedef.trans h0.treedef.symm)
  set w := t0.leaves.length with hwdef
  have hw0 : w ≠ 0 := by
    have h2 := congrArg List.length h0.shapes
    simp only [List.length_map] at h2
    rw [hwdef, h2]
    exact fun h => hl (List.length_eq_zero_iff.1 h)
  -- the columns
  set col : ℕ → List (Arr α) := fun i => ts.filterMap fun u => u.leaves[i]? with hcol
  have hstack : ∀ i ∈ List.range w, ∃ st, stackArrays (col i) 0 = .ok st ∧ st.iter = .ok (col i) := by
    intro i hi
    have hi : i < w := List.mem_range.1 hi
    have hshape : ∃ s, t.leaves.map Arr.shape = t.leaves.map Arr.shape ∧ (t.leaves.map Arr.shape)[i]? = some s := by
      have : i < (t.leaves.map Arr.shape).length := by
        rw [← h0.shapes, List.length_map]; exact hi
      exact ⟨_, rfl, List.getElem?_eq_getElem this⟩
    obtain ⟨s, -, hs⟩ := hshape
    have hmem : ∀ x ∈ col i, x.shape = s ∧ Arr.Wf x := by
      intro x hx
      obtain ⟨u, hu, hx⟩ := List.mem_filterMap.1 hx
      refine ⟨?_, hw u hu x (List.mem_of_getElem? hx)⟩
      have h1 : (u.leaves.map Arr.shape)[i]? = some x.shape := by rw [List.getElem?_map, hx]; rfl
      rw [(ha u hu).shapes, hs] at h1
      simpa using h1.symm
    refine stack_iter (col i) s ?_ (fun x hx => (hmem x hx).1) (fun x hx => (hmem x hx).2)
    intro hnil
    have : t0.leaves[i] ∈ col i := by
      refine List.mem_filterMap.2 ⟨t0, by simp [hts], ?_⟩
      exact List.getElem?_eq_getElem hi
    rw [hnil] at this
    simp at this
  haveI : Nonempty (Arr α) := ⟨⟨[], []⟩⟩
  choose! g hg using hstack
  refine ⟨⟨t0.treedef, (List.range w).map g⟩, ?_, h0.treedef, ?_⟩
  · unfold stackLeaves
    simp only [hts, hrest, if_false]
    have : (List.range w).mapM (fun (i : ℕ) => stackArrays (col i) 0) = .ok ((List.range w).map g) := by
      rw [mapM_iff, List.forall₂_map_right_iff, List.forall₂_same]
      exact fun i hi => (hg i hi).1
    rw [show (fun (i : ℕ) => stackArrays ((t0 :: rest).filterMap fun u => u.leaves[i]?) 0) =
      fun (i : ℕ) => stackArrays (col i) 0 from rfl, this]
    rfl
  · unfold unstackLeaves
    have hit : ((List.range w).map g).mapM Arr.iter = .ok ((List.range w).map col) := by
      rw [mapM_iff, List.forall₂_map_left_iff, List.forall₂_map_right_iff, List.forall₂_same]
      exact fun i hi => (hg i hi).2
    simp only [hit, bind, Except.bind, pure, Except.pure]
    congr 1
    have hz := zipStar_columns (ts.map PyTree.leaves) w hw0 (by
      intro r hr
      obtain ⟨u, hu, rfl⟩ := List.mem_map.1 hr
      exact hlen u hu)
    have hc : ((List.range w).map fun i => (ts.map PyTree.leaves).filterMap fun r => r[i]?) = (List.range w).map col := by
      apply List.map_congr_left
      intro i _
      rw [List.filterMap_map]
      rfl
    rw [hc] at hz
    rw [hz, List.map_map]
    conv_rhs => rw [← List.map_id ts]
    apply List.map_congr_left
    intro u hu
    have : u.treedef = t0.treedef := (ha u hu).treedef.trans h0.treedef.symm
    simp [Function.comp, ← this]

/-- Non-vacuity: two walls given by their arrays. -/
example := C27_inverse (⟨"Wall", [⟨[2], [1, 2]⟩]⟩ : PyTree String ℕ) [⟨"Wall", [⟨[2], [1, 2]⟩]⟩, ⟨"Wall", [⟨[2], [3, 4]⟩]⟩] (by simp)
  (by simpa using ⟨⟨rfl, rfl⟩, ⟨rfl, rfl⟩⟩) (by simp [PyTree.Wf, Arr.Wf]) (by simp)

/-- Different structures or shapes are refused. -/
theorem C27_mismatch {T α : Type} (ts : List (PyTree T α)) (t u : PyTree T α) (hu : u ∈ ts)
    (hlen : ∀ v ∈ ts, v.treedef = t.treedef → v.leaves.length = t.leaves.length)
    (hne : u.treedef ≠ t.treedef ∨ u.leaves.map Arr.shape ≠ t.leaves.map Arr.shape) (axis : ℤ) :
    stackLeaves (t :: ts) axis = .error .valueError := by
  unfold stackLeaves
  by_cases hd : ∃ v ∈ ts, v.treedef ≠ t.treedef
  · simp only [hd, if_true]
  · simp only [hd, if_false]
    push Not at hd
    have hshape : u.leaves.map Arr.shape ≠ t.leaves.map Arr.shape := by
      rcases hne with h | h
      · exact absurd (hd u hu) h
      · exact h
    have hul := hlen u hu (hd u hu)
    -- some leaf has another shape
    obtain ⟨i, hi, hne⟩ : ∃ i, ∃ hi : i < t.leaves.length, (u.leaves[i]'(hul ▸ hi)).shape ≠ t.leaves[i].shape := by
      by_contra hcon
      push Not at hcon
      apply hshape
      apply List.ext_getElem
      · simp [hul]
      · intro i h1 h2
        simp only [List.getElem_map]
        exact hcon i (by simpa using h2)
    -- every stack that succeeds does not contain index i
    have hcolerr : stackArrays ((t :: ts).filterMap fun v => v.leaves[i]?) axis = .error .valueError := by
      have hcons : ((t :: ts).filterMap fun v => v.leaves[i]?) = t.leaves[i] :: ts.filterMap fun v => v.leaves[i]? := by
        rw [List.filterMap_cons, List.getElem?_eq_getElem hi]
      rw [hcons]
      unfold stackArrays
      have : ∃ y ∈ ts.filterMap (fun v => v.leaves[i]?), y.shape ≠ t.leaves[i].shape :=
        ⟨u.leaves[i]'(hul ▸ hi), List.mem_filterMap.2 ⟨u, hu, List.getElem?_eq_getElem _⟩, hne⟩
      simp only [this, if_true]
    have hall : ∀ (j : ℕ) (e : PyErr), stackArrays ((t :: ts).filterMap fun v => v.leaves[j]?) axis = .error e → e = .valueError := by
      intro j e h
      unfold stackArrays at h
      split at h
      · simpa using h.symm
      · dsimp only at h
        split_ifs at h <;> simpa using h.symm
    have key : ∀ js : List ℕ, i ∈ js →
        js.mapM (fun (j : ℕ) => stackArrays ((t :: ts).filterMap fun v => v.leaves[j]?) axis) = .error .valueError := by
      intro js hjs
      induction js with
      | nil => simp at hjs
      | cons j js ih =>
        rw [List.mapM_cons]
        cases hj : stackArrays ((t :: ts).filterMap fun v => v.leaves[j]?) axis with
        | error e => rw [hall j e hj]; rfl
        | ok a =>
          have : i ∈ js := by
            rcases List.mem_cons.1 hjs with rfl | h
            · rw [hcolerr] at hj; cases hj
            · exact h
          simp only [bind, Except.bind] at ih ⊢
          rw [ih this]
    rw [key _ (List.mem_range.2 hi)]
    rfl

/-- Non-vacuity: a wall and a vertex. -/
example := C27_mismatch [(⟨"Vertex", [⟨[2], [1, 2]⟩]⟩ : PyTree String ℕ)] ⟨"Wall", [⟨[2, 2], [1, 2, 3, 4]⟩]⟩ _ (List.mem_singleton.2 rfl)
  (by simp) (.inl (by simp)) 0

/-- Stacking nothing is refused. -/
theorem C27_nothing {T α : Type} (axis : ℤ) : stackLeaves ([] : List (PyTree T α)) axis = .error .typeError := rfl

/-- The hypothesis on leaves is needed: pytrees without leaves are lost. -/
theorem C27_no_leaves {T α : Type} (d : T) (n : ℕ) :
    stackLeaves (List.replicate (n + 1) (⟨d, []⟩ : PyTree T α)) = .ok ⟨d, []⟩ ∧
      unstackLeaves (⟨d, []⟩ : PyTree T α) = .ok [] := by
  refine ⟨?_, rfl⟩
  have : ¬ ∃ u ∈ List.replicate n (⟨d, []⟩ : PyTree T α), u.treedef ≠ d := by
    rintro ⟨u, hu, hne⟩
    exact hne (by rw [List.eq_of_mem_replicate hu])
  simp only [stackLeaves, List.replicate_succ, this, if_false]
  rfl

/-! ### Scenes -/

theorem tree_ofTree (o : Obj) (t : PyTree String F) (h : o.tree = some t) :
    Obj.ofTree t = some o ∧ PyTree.Wf t ∧ t.leaves ≠ [] := by
  cases o with
  | wall w =>
    simp only [Obj.tree, Option.some_inj] at h; subst h
    exact ⟨rfl, by simp [PyTree.Wf, Arr.Wf], by simp⟩
  | ris w =>
    simp only [Obj.tree, Option.some_inj] at h; subst h
    exact ⟨rfl, by simp [PyTree.Wf, Arr.Wf], by simp⟩
  | vertex w =>
    simp only [Obj.tree, Option.some_inj] at h; subst h
    exact ⟨rfl, by simp [PyTree.Wf, Arr.Wf], by simp⟩
  | user c i b => simp [Obj.tree] at h

theorem tree_alike (o o' : Obj) (t t' : PyTree String F) (h : o.tree = some t) (h' : o'.tree = some t')
    (hc : o.cls = o'.cls) : Alike t t' := by
  cases o <;> cases o' <;> simp only [Obj.tree, Option.some_inj, reduceCtorEq] at h h' <;>
    simp only [Obj.cls] at hc <;> (try omega) <;> subst h h' <;> exact ⟨rfl, rfl⟩

theorem mapM_option_iff {α β : Type} (f : α → Option β) (xs : List α) (ys : List β) :
    xs.mapM f = some ys ↔ List.Forall₂ (fun x y => f x = some y) xs ys := by
  induction xs generalizing ys with
  | nil => cases ys <;> simp
  | cons x xs ih =>
    rw [List.mapM_cons]
    cases hx : f x with
    | none => cases ys <;> simp [hx]
    | some y =>
      cases hxs : xs.mapM f with
      | none =>
        cases ys with
        | nil => simp
        | cons z zs =>
          simp only [Option.bind_eq_bind, Option.bind_some, Option.bind_none, List.forall₂_cons, hx, ← ih, hxs]
          simp
      | some l =>
        cases ys with
        | nil => simp
        | cons z zs =>
          simp only [Option.bind_eq_bind, Option.bind_some, List.forall₂_cons, hx, ← ih, hxs]
          simp [pure]

/-- Stacking the objects of a scene of library objects of one class, and making a scene of the stack, gives a
scene with the same objects and neither transmitters nor receivers. -/
theorem C27_scene (s : Scene) (hne : s.objects ≠ []) (hh : Homogeneous s)
    (hlib : ∀ o ∈ s.objects, ∀ c i b, o ≠ .user c i b) :
    ∃ st, s.stackedObjects = some (.ok st) ∧
      Scene.fromStackedObjects st = .ok (some (Scene.make [] [] s.objects)) := by
  have htree : ∀ o ∈ s.objects, ∃ t, o.tree = some t := by
    intro o ho
    cases o with
    | wall w => exact ⟨_, rfl⟩
    | ris w => exact ⟨_, rfl⟩
    | vertex w => exact ⟨_, rfl⟩
    | user c i b => exact absurd rfl (hlib _ ho c i b)
  haveI : Nonempty (PyTree String F) := ⟨⟨"", []⟩⟩
  choose! tr htr using htree
  have hm : s.objects.mapM Obj.tree = some (s.objects.map tr) := by
    rw [mapM_option_iff, List.forall₂_map_right_iff, List.forall₂_same]
    exact fun o ho => htr o ho
  obtain ⟨o0, os, hos⟩ := List.exists_cons_of_ne_nil hne
  have ho0 : o0 ∈ s.objects := by simp [hos]
  obtain ⟨st, h1, -, h2⟩ := C27_inverse (tr o0) (s.objects.map tr) (List.mem_map_of_mem ho0)
    (by
      intro u hu
      obtain ⟨o, ho, rfl⟩ := List.mem_map.1 hu
      exact tree_alike o0 o _ _ (htr o0 ho0) (htr o ho) (hh o0 ho0 o ho))
    (by
      intro u hu
      obtain ⟨o, ho, rfl⟩ := List.mem_map.1 hu
      exact (tree_ofTree o _ (htr o ho)).2.1)
    (tree_ofTree o0 _ (htr o0 ho0)).2.2
  refine ⟨st, ?_, ?_⟩
  · unfold Scene.stackedObjects
    rw [hm, Option.map_some, h1]
  · unfold Scene.fromStackedObjects
    have hback : (s.objects.map tr).mapM Obj.ofTree = some s.objects := by
      rw [mapM_option_iff, List.forall₂_map_left_iff, List.forall₂_same]
      exact fun o ho => (tree_ofTree o _ (htr o ho)).1
    simp only [h2, bind, Except.bind, pure, Except.pure, hback, Option.map_some]

/-- Non-vacuity: two walls. -/
example := C27_scene (sceneOf [] [] [.wall ⟨0, 0⟩ ⟨1, 0⟩, .wall ⟨1, 0⟩ ⟨1, 1⟩]) (by simp [sceneOf, Scene.make])
  (by simp [Homogeneous, sceneOf, Scene.make, Shape.obj, Obj.cls]) (by simp [sceneOf, Scene.make, Shape.obj])

/-- Objects of different classes cannot be stacked. -/
theorem C27_scene_mixed (s : Scene) (hh : ¬ Homogeneous s) (hlib : ∀ o ∈ s.objects, ∀ c i b, o ≠ .user c i b) :
    s.stackedObjects = some (.error .valueError) := by
  have htree : ∀ o ∈ s.objects, ∃ t, o.tree = some t := by
    intro o ho
    cases o with
    | wall w => exact ⟨_, rfl⟩
    | ris w => exact ⟨_, rfl⟩
    | vertex w => exact ⟨_, rfl⟩
    | user c i b => exact absurd rfl (hlib _ ho c i b)
  haveI : Nonempty (PyTree String F) := ⟨⟨"", []⟩⟩
  choose! tr htr using htree
  have hm : s.objects.mapM Obj.tree = some (s.objects.map tr) := by
    rw [mapM_option_iff, List.forall₂_map_right_iff, List.forall₂_same]
    exact fun o ho => htr o ho
  have hdef : ∀ o ∈ s.objects, ∀ o' ∈ s.objects, (tr o').treedef = (tr o).treedef → o.cls = o'.cls := by
    intro o ho o' ho' heq
    have h1 := htr o ho
    have h2 := htr o' ho'
    cases o <;> cases o' <;> simp only [Obj.tree, Option.some_inj, reduceCtorEq] at h1 h2 <;>
      rw [← h1, ← h2] at heq <;> first | rfl | (simp at heq)
  cases hos : s.objects with
  | nil => exact absurd (fun o ho => by simp [hos] at ho) hh
  | cons o0 os =>
    have ho0 : o0 ∈ s.objects := by simp [hos]
    have hex : ∃ o ∈ os, (tr o).treedef ≠ (tr o0).treedef := by
      by_contra hcon
      push Not at hcon
      apply hh
      have hall : ∀ o ∈ s.objects, o0.cls = o.cls := by
        intro o ho
        refine hdef o0 ho0 o ho ?_
        rw [hos] at ho
        rcases List.mem_cons.1 ho with rfl | ho
        · rfl
        · exact hcon o ho
      exact fun o ho o' ho' => (hall o ho).symm.trans (hall o' ho')
    unfold Scene.stackedObjects
    rw [hm, Option.map_some, hos, List.map_cons]
    have : ∃ u ∈ os.map tr, u.treedef ≠ (tr o0).treedef := by
      obtain ⟨o, ho, hne⟩ := hex
      exact ⟨tr o, List.mem_map_of_mem ho, hne⟩
    simp only [stackLeaves, this, if_true]

/-- Non-vacuity: a wall and a vertex. -/
example := C27_scene_mixed (sceneOf [] [] [.wall ⟨0, 0⟩ ⟨1, 0⟩, .vertex ⟨1, 0⟩])
  (by simp [Homogeneous, sceneOf, Scene.make, Shape.obj, Obj.cls]) (by simp [sceneOf, Scene.make, Shape.obj])

/-- A scene made from an array of walls has these walls; the array is what stacking the walls gives. -/
theorem C27_walls_array (ws : List Wall) (hne : ws ≠ []) :
    ∃ xys, (Scene.make [] [] (ws.map Obj.wall)).stackedObjects = some (.ok ⟨"Wall", [xys]⟩) ∧
      xys.shape = [ws.length, 2, 2] ∧
      Scene.fromWallsArray xys = .ok (Scene.make [] [] (ws.map Obj.wall)) := by
  set arr : Wall → Arr F := fun w => ⟨[2, 2], [w.origin.x, w.origin.y, w.dest.x, w.dest.y]⟩ with harr
  have hm : (ws.map Obj.wall).mapM Obj.tree = some (ws.map fun w => ⟨"Wall", [arr w]⟩) := by
    rw [mapM_option_iff, List.forall₂_map_left_iff, List.forall₂_map_right_iff, List.forall₂_same]
    exact fun w _ => rfl
  have hne' : ws.map arr ≠ [] := by simpa using hne
  have hsh : ∀ x ∈ ws.map arr, x.shape = [2, 2] := by
    intro x hx; obtain ⟨w, -, rfl⟩ := List.mem_map.1 hx; rfl
  have hwf : ∀ x ∈ ws.map arr, Arr.Wf x := by
    intro x hx; obtain ⟨w, -, rfl⟩ := List.mem_map.1 hx; simp [Arr.Wf, harr]
  obtain ⟨xys, h1, h2⟩ := stack_iter (ws.map arr) [2, 2] hne' hsh hwf
  obtain ⟨st, h3, h4, -⟩ := C27_stack_axis (ws.map arr) [2, 2] 0 hne' (by simp) hsh hwf
  have : st = xys := by
    have := h3.symm.trans h1
    simpa using this
  subst this
  refine ⟨st, ?_, by simpa using h4, ?_⟩
  · unfold Scene.stackedObjects
    show ((ws.map Obj.wall).mapM Obj.tree).map _ = _
    rw [hm, Option.map_some]
    congr 1
    obtain ⟨w0, rest, rfl⟩ := List.exists_cons_of_ne_nil hne
    unfold stackLeaves
    simp only [List.map_cons]
    have hno : ¬ ∃ u ∈ rest.map (fun w => (⟨"Wall", [arr w]⟩ : PyTree String F)), u.treedef ≠ "Wall" := by
      rintro ⟨u, hu, hne⟩
      obtain ⟨w, -, rfl⟩ := List.mem_map.1 hu
      exact hne rfl
    simp only [hno, if_false, List.length_singleton]
    have hfm : ∀ l : List Wall, (l.map fun w => (⟨"Wall", [arr w]⟩ : PyTree String F)).filterMap (fun u => u.leaves[0]?) =
        l.map arr := by
      intro l
      induction l with
      | nil => rfl
      | cons w l ih => simp [ih]
    have := hfm (w0 :: rest)
    simp only [List.map_cons] at this h1
    rw [show List.range 1 = [0] from rfl, List.mapM_cons, this]
    simp only [bind, Except.bind, h1]
    rfl
  · unfold Scene.fromWallsArray
    have : (ws.map arr).mapM wallOfArr = .ok ws := by
      rw [mapM_iff, List.forall₂_map_left_iff, List.forall₂_same]
      exact fun w _ => rfl
    simp only [h2, bind, Except.bind, this, pure, Except.pure]

/-- Non-vacuity: two walls. -/
example := C27_walls_array [.ofPts ⟨0, 0⟩ ⟨1, 0⟩, .ofPts ⟨1, 0⟩ ⟨1, 1⟩] (by simp)

/-! ## C72: what `unstack_leaves` does with any input -/

theorem column_get {α : Type} (rows : List (List α)) (w : ℕ) (hr : ∀ r ∈ rows, r.length = w) (i : ℕ) (hi : i < w)
    (j : ℕ) : (rows.filterMap fun r => r[i]?)[j]? = rows[j]?.bind fun r => r[i]? := by
  induction rows generalizing j with
  | nil => simp
  | cons r rows ih =>
    have hrl : i < r.length := by rw [hr r (by simp)]; exact hi
    rw [List.filterMap_cons, List.getElem?_eq_getElem hrl]
    cases j with
    | zero => simp [hrl]
    | succ j => simpa using ih (fun r hr' => hr r (by simp [hr'])) j

theorem filterMap_range_get {α : Type} (r : List α) : (List.range r.length).filterMap (fun i => r[i]?) = r := by
  induction r using List.reverseRecOn with
  | nil => rfl
  | append_singleton r a ih =>
    rw [List.length_append, List.length_singleton, List.range_succ, List.filterMap_append]
    congr 1
    · conv_rhs => rw [← ih]
      apply List.filterMap_congr
      intro i hi
      rw [List.getElem?_append_left (List.mem_range.1 hi)]
    · simp

theorem foldl_min_eq {α : Type} (cs : List (List α)) (m : ℕ) (hcs : ∀ c ∈ cs, c.length = m) :
    cs.foldl (fun m ys => min m ys.length) m = m := by
  induction cs with
  | nil => rfl
  | cons c cs ih =>
    rw [List.foldl_cons, hcs c (by simp), Nat.min_self]
    exact ih fun c hc => hcs c (by simp [hc])

theorem foldl_min_spec {α : Type} (cs : List (List α)) (m : ℕ) :
    cs.foldl (fun m ys => min m ys.length) m ≤ m ∧
      (∀ c ∈ cs, cs.foldl (fun m ys => min m ys.length) m ≤ c.length) ∧
      (cs.foldl (fun m ys => min m ys.length) m = m ∨
        ∃ c ∈ cs, cs.foldl (fun m ys => min m ys.length) m = c.length) := by
  induction cs generalizing m with
  | nil => simp
  | cons c cs ih =>
    obtain ⟨h1, h2, h3⟩ := ih (min m c.length)
    simp only [List.foldl_cons]
    refine ⟨h1.trans (Nat.min_le_left _ _), ?_, ?_⟩
    · intro d hd
      rcases List.mem_cons.1 hd with rfl | hd
      · exact h1.trans (Nat.min_le_right _ _)
      · exact h2 d hd
    · rcases h3 with h3 | ⟨d, hd, h3⟩
      · rcases Nat.le_total m c.length with h | h
        · left; rw [h3, Nat.min_eq_left h]
        · right; exact ⟨c, by simp, by rw [h3, Nat.min_eq_right h]⟩
      · right; exact ⟨d, by simp [hd], h3⟩

/-- Iterating over a well-formed array then stacking gives it back. -/
theorem iter_stack {α : Type} (x : Arr α) (n : ℕ) (s : List ℕ) (hx : x.shape = n :: s) (hn : n ≠ 0) (hw : Arr.Wf x) :
    ∃ xs, x.iter = .ok xs ∧ xs.length = n ∧ stackArrays xs 0 = .ok x := by
  obtain ⟨shape, data⟩ := x
  simp only at hx
  subst hx
  have hdl : data.length = n * s.prod := by simpa [Arr.Wf] using hw
  set xs : List (Arr α) := (List.range n).map fun i => ⟨s, (data.drop (i * s.prod)).take s.prod⟩ with hxs
  have hshape : ∀ y ∈ xs, y.shape = s := by
    intro y hy
    obtain ⟨i, -, rfl⟩ := List.mem_map.1 hy
    rfl
  have hwf : ∀ y ∈ xs, Arr.Wf y := by
    intro y hy
    obtain ⟨i, hi, rfl⟩ := List.mem_map.1 hy
    have hi : i < n := List.mem_range.1 hi
    show ((data.drop (i * s.prod)).take s.prod).length = s.prod
    rw [List.length_take, List.length_drop, hdl, Nat.min_eq_left]
    have h1 : (i + 1) * s.prod ≤ n * s.prod := Nat.mul_le_mul_right _ hi
    have h2 : i * s.prod + s.prod ≤ n * s.prod := by linarith [Nat.add_one_mul i s.prod]
    omega
  have hlen : xs.length = n := by simp [hxs]
  have hne : xs ≠ [] := by intro h; rw [h] at hlen; exact hn hlen.symm
  refine ⟨xs, rfl, hlen, ?_⟩
  obtain ⟨st, hst, hsh, hwst, hent⟩ := C27_stack_axis xs s 0 hne (Nat.zero_le _) hshape hwf
  rw [show ((0 : ℕ) : ℤ) = 0 from rfl] at hst
  obtain ⟨st', hst', hit⟩ := stack_iter xs s hne hshape hwf
  rw [hst] at hst'
  injection hst' with hst'
  subst hst'
  rw [hst]
  congr 1
  obtain ⟨ssh, sda⟩ := st
  simp only [List.take_zero, List.drop_zero, List.nil_append, hlen] at hsh
  subst hsh
  congr 1
  have hsl : sda.length = n * s.prod := by simpa [Arr.Wf] using hwst
  -- same blocks
  simp only [Arr.iter] at hit
  injection hit with hit
  rw [hxs] at hit
  have hblock : ∀ i < n, (sda.drop (i * s.prod)).take s.prod = (data.drop (i * s.prod)).take s.prod := by
    intro i hi
    have := congrArg (fun l => l[i]?) hit
    simp only [List.getElem?_map, List.getElem?_range hi, Option.map_some, Option.some_inj, Arr.mk.injEq] at this
    exact this.2
  apply List.ext_getElem?
  intro k
  by_cases hk : k < n * s.prod
  · have hp : 0 < s.prod := by
      rcases Nat.eq_zero_or_pos s.prod with h | h
      · rw [h] at hk; simp at hk
      · exact h
    have hq : k / s.prod < n := (Nat.div_lt_iff_lt_mul hp).2 hk
    have hr : k % s.prod < s.prod := Nat.mod_lt _ hp
    have hkd : k / s.prod * s.prod + k % s.prod = k := by rw [mul_comm]; exact Nat.div_add_mod k s.prod
    have h1 := congrArg (fun l => l[k % s.prod]?) (hblock _ hq)
    simpa only [List.getElem?_take, if_pos hr, List.getElem?_drop, hkd] using h1
  · have hk' : n * s.prod ≤ k := by omega
    rw [List.getElem?_eq_none (hsl ▸ hk'), List.getElem?_eq_none (hdl ▸ hk')]

/-- The only exception `unstack_leaves` can raise is a `TypeError`, exactly when some leaf has no dimension. -/
theorem C72_error {T α : Type} (t : PyTree T α) :
    (∀ e, unstackLeaves t = .error e → e = .typeError) ∧
      ((∃ e, unstackLeaves t = .error e) ↔ ∃ x ∈ t.leaves, x.shape = []) := by
  have hit : ∀ x : Arr α, ∀ e, x.iter = .error e → e = .typeError ∧ x.shape = [] := by
    intro x e h
    unfold Arr.iter at h
    split at h
    · rename_i hx
      injection h with h
      exact ⟨h.symm, hx⟩
    · simp at h
  have key : ∀ xs : List (Arr α), (∃ r, xs.mapM Arr.iter = .ok r ∧ ∀ x ∈ xs, x.shape ≠ []) ∨
      (xs.mapM Arr.iter = .error .typeError ∧ ∃ x ∈ xs, x.shape = []) := by
    intro xs
    induction xs with
    | nil => left; exact ⟨[], rfl, by simp⟩
    | cons x xs ih =>
      rw [List.mapM_cons]
      cases hx : x.iter with
      | error e =>
        obtain ⟨rfl, h⟩ := hit x e hx
        right
        exact ⟨rfl, x, by simp, h⟩
      | ok l =>
        have hxs : x.shape ≠ [] := by
          intro h
          unfold Arr.iter at hx
          rw [h] at hx
          simp at hx
        rcases ih with ⟨r, hr, h⟩ | ⟨hr, y, hy, h⟩
        · left
          refine ⟨l :: r, by rw [hr]; rfl, ?_⟩
          intro z hz
          rcases List.mem_cons.1 hz with rfl | hz
          · exact hxs
          · exact h z hz
        · right
          exact ⟨by rw [hr]; rfl, y, by simp [hy], h⟩
  rcases key t.leaves with ⟨r, hr, h⟩ | ⟨hr, x, hx, h⟩
  · have : unstackLeaves t = .ok ((zipStar r).map fun leaf => ⟨t.treedef, leaf⟩) := by
      unfold unstackLeaves; rw [hr]; rfl
    rw [this]
    refine ⟨by simp, by simp, ?_⟩
    rintro ⟨x, hx, h'⟩
    exact absurd h' (h x hx)
  · have : unstackLeaves t = .error .typeError := by unfold unstackLeaves; rw [hr]; rfl
    rw [this]
    exact ⟨fun e h => by injection h with h; exact h.symm, fun _ => ⟨x, hx, h⟩, fun _ => ⟨_, rfl⟩⟩

/-- Leaves of different sizes are not the result of stacking, but they are accepted: the result has as many
pytrees as the shortest leaf has entries, and the remaining entries of the other leaves are dropped. -/
theorem C72_refuted {T α : Type} (d : T) (x y : Arr α) (n m : ℕ) (s s' : List ℕ) (hx : x.shape = n :: s)
    (hy : y.shape = m :: s') (hnm : n < m) :
    (∀ ts : List (PyTree T α), (∀ u ∈ ts, u.leaves.length = 2) → stackLeaves ts ≠ .ok ⟨d, [x, y]⟩) ∧
      ∃ ts, unstackLeaves (⟨d, [x, y]⟩ : PyTree T α) = .ok ts ∧ ts.length = n := by
  constructor
  · intro ts h2l h
    cases ts with
    | nil => simp [stackLeaves] at h
    | cons t rest =>
      unfold stackLeaves at h
      simp only at h
      split_ifs at h
      simp only [bind, Except.bind, pure, Except.pure] at h
      split at h
      · simp at h
      · rename_i ls hls
        injection h with h
        injection h with _ h
        subst h
        rw [mapM_iff] at hls
        have hl := hls.length_eq
        simp only [List.length_range, List.length_cons, List.length_nil] at hl
        rw [hl] at hls
        have hr : List.range (0 + 1 + 1) = [0, 1] := rfl
        rw [hr, List.forall₂_cons, List.forall₂_cons] at hls
        obtain ⟨h0, h1, -⟩ := hls
        have hsz : ∀ (xs : List (Arr α)) (st : Arr α), stackArrays xs 0 = .ok st → ∃ sh, st.shape = xs.length :: sh := by
          intro xs st hst
          unfold stackArrays at hst
          cases xs with
          | nil => simp at hst
          | cons a as =>
            simp only at hst
            split_ifs at hst with h1 h2
            · exact absurd h2 (lt_irrefl _)
            · injection hst with hst
              subst hst
              exact ⟨a.shape, by simp⟩
        have hcl : ∀ (us : List (PyTree T α)) (i : ℕ), i < 2 → (∀ u ∈ us, u.leaves.length = 2) →
            (us.filterMap fun u => u.leaves[i]?).length = us.length := by
          intro us i hi hu
          induction us with
          | nil => rfl
          | cons u us ih =>
            have hrl : i < u.leaves.length := by rw [hu u (by simp)]; exact hi
            rw [List.filterMap_cons, List.getElem?_eq_getElem hrl]
            simp [ih fun r hr' => hu r (by simp [hr'])]
        obtain ⟨s0, h0⟩ := hsz _ _ h0
        obtain ⟨s1, h1⟩ := hsz _ _ h1
        rw [hx, hcl _ _ (by omega) h2l] at h0
        rw [hy, hcl _ _ (by omega) h2l] at h1
        simp only [List.cons.injEq] at h0 h1
        omega
  · obtain ⟨sx, dx⟩ := x
    obtain ⟨sy, dy⟩ := y
    simp only at hx hy
    subst hx hy
    refine ⟨_, rfl, ?_⟩
    simp [zipStar, hnm.le]

/-- Non-vacuity: leaves with two and three entries. -/
example := C72_refuted "Wall" (⟨[2], [1, 2]⟩ : Arr ℕ) ⟨[3], [3, 4, 5]⟩ 2 3 [] [] rfl rfl (by norm_num)

/-- The part that holds: leaves with the same, nonzero, number of entries are the result of stacking, and
unstacking returns the pytrees they were stacked from. -/
theorem C72_partial {T α : Type} (t : PyTree T α) (n : ℕ) (hn : n ≠ 0) (hl : t.leaves ≠ []) (hw : PyTree.Wf t)
    (hs : ∀ x ∈ t.leaves, ∃ s, x.shape = n :: s) :
    ∃ ts, unstackLeaves t = .ok ts ∧ ts.length = n ∧ stackLeaves ts = .ok t := by
  obtain ⟨d, leaves⟩ := t
  simp only at hl hs
  have hit : ∀ x ∈ leaves, ∃ xs, x.iter = .ok xs ∧ xs.length = n ∧ stackArrays xs 0 = .ok x := by
    intro x hx
    obtain ⟨s, hsx⟩ := hs x hx
    exact iter_stack x n s hsx hn (hw x hx)
  haveI : Nonempty (List (Arr α)) := ⟨[]⟩
  choose! it hit using hit
  have hm : leaves.mapM Arr.iter = .ok (leaves.map it) := by
    rw [mapM_iff, List.forall₂_map_right_iff, List.forall₂_same]
    exact fun x hx => (hit x hx).1
  have hcl : ∀ c ∈ leaves.map it, c.length = n := by
    intro c hc
    obtain ⟨x, hx, rfl⟩ := List.mem_map.1 hc
    exact (hit x hx).2.1
  have hz : zipStar (leaves.map it) = (List.range n).map fun j => (leaves.map it).filterMap fun c => c[j]? := by
    cases hlv : leaves.map it with
    | nil => exact absurd (List.map_eq_nil_iff.1 hlv) hl
    | cons c cs =>
      rw [hlv] at hcl
      unfold zipStar
      simp only
      rw [hcl c (by simp), foldl_min_eq cs n fun c hc => hcl c (by simp [hc])]
  have hrow : ∀ j < n, ∀ i : ℕ, ((leaves.map it).filterMap fun c => c[j]?)[i]? = (leaves.map it)[i]?.bind fun c => c[j]? :=
    fun j hj i => column_get _ n hcl j hj i
  have hun : unstackLeaves (⟨d, leaves⟩ : PyTree T α) =
      .ok ((List.range n).map fun j => ⟨d, (leaves.map it).filterMap fun c => c[j]?⟩) := by
    unfold unstackLeaves
    simp only [hm, bind, Except.bind, pure, Except.pure, hz, List.map_map]
    rfl
  refine ⟨_, hun, by simp, ?_⟩
  have hrl : ∀ j < n, ((leaves.map it).filterMap fun c => c[j]?).length = leaves.length := by
    intro j hj
    have : ∀ cs : List (List (Arr α)), (∀ c ∈ cs, c.length = n) → (cs.filterMap fun c => c[j]?).length = cs.length := by
      intro cs hcs
      induction cs with
      | nil => rfl
      | cons c cs ih =>
        have h1 : j < c.length := by rw [hcs c (by simp)]; exact hj
        rw [List.filterMap_cons, List.getElem?_eq_getElem h1]
        simp [ih fun r hr' => hcs r (by simp [hr'])]
    rw [this _ hcl, List.length_map]
  obtain ⟨n, rfl⟩ := Nat.exists_eq_succ_of_ne_zero hn
  set ts : List (PyTree T α) := (List.range n.succ).map fun j => ⟨d, (leaves.map it).filterMap fun c => c[j]?⟩ with hts
  have hdef : ∀ u ∈ ts, u.treedef = d := by
    intro u hu
    obtain ⟨j, -, rfl⟩ := List.mem_map.1 hu
    rfl
  have hcol : ∀ (i : ℕ) (hi : i < leaves.length), ts.filterMap (fun u => u.leaves[i]?) = it leaves[i] := by
    intro i hi
    rw [hts, List.filterMap_map]
    have h1 : (List.range n.succ).filterMap ((fun u : PyTree T α => u.leaves[i]?) ∘
        fun j => ⟨d, (leaves.map it).filterMap fun c => c[j]?⟩) = (List.range n.succ).filterMap fun j => (it leaves[i])[j]? := by
      apply List.filterMap_congr
      intro j hj
      simp only [Function.comp]
      rw [hrow j (List.mem_range.1 hj) i, List.getElem?_map, List.getElem?_eq_getElem hi]
      rfl
    rw [h1, ← (hit _ (List.getElem_mem hi)).2.1]
    exact filterMap_range_get _
  have hcons : ts = ⟨d, (leaves.map it).filterMap fun c => c[0]?⟩ :: ts.tail := by
    rw [hts, List.range_succ_eq_map]; rfl
  have hall : ¬ ∃ u ∈ ts.tail, u.treedef ≠ d := by
    rintro ⟨u, hu, hne⟩
    exact hne (hdef u (List.mem_of_mem_tail hu))
  have hstk : (List.range leaves.length).mapM (fun (i : ℕ) => stackArrays (ts.filterMap fun u => u.leaves[i]?) 0) =
      .ok leaves := by
    rw [mapM_iff, List.forall₂_iff_get]
    refine ⟨by simp, ?_⟩
    intro i h1 h2
    simp only [List.get_eq_getElem, List.getElem_range]
    rw [hcol i h2]
    exact (hit _ (List.getElem_mem h2)).2.2
  have hexp : stackLeaves ts = (do
      let ls ← (List.range leaves.length).mapM (fun (i : ℕ) => stackArrays (ts.filterMap fun u => u.leaves[i]?) 0)
      pure ⟨d, ls⟩) := by
    conv_lhs => rw [hcons]
    unfold stackLeaves
    simp only [hall, if_false, hrl 0 (by omega)]
    rw [← hcons]
  rw [hexp, hstk]
  rfl

/-- Non-vacuity: leaves with two entries. -/
example := C72_partial (⟨"Wall", [⟨[2, 1], [1, 2]⟩, ⟨[2], [3, 4]⟩]⟩ : PyTree String ℕ) 2 (by norm_num) (by simp) (by simp [PyTree.Wf, Arr.Wf])
  (by simp)

/-- Non-vacuity of C72. -/
example : ∃ ts, unstackLeaves (⟨"Wall", [⟨[2, 1], [1, 2]⟩, ⟨[2], [3, 4]⟩]⟩ : PyTree String ℕ) = .ok ts ∧ ts.length = 2 :=
  ⟨_, rfl, rfl⟩

/-- Non-vacuity: two walls. -/
example : Homogeneous (sceneOf [] [] [.wall ⟨0, 0⟩ ⟨1, 0⟩, .wall ⟨1, 0⟩ ⟨1, 1⟩]) := by
  intro o ho o' ho'
  simp [sceneOf, Scene.make, Shape.obj] at ho ho'
  rcases ho with rfl | rfl <;> rcases ho' with rfl | rfl <;> rfl

/-- Non-vacuity: stacking two 2-vectors along the second axis makes the columns of a matrix. -/
example : stackArrays [⟨[2], [1, 2]⟩, ⟨[2], [3, 4]⟩] 1 = .ok (⟨[2, 2], [1, 3, 2, 4]⟩ : Arr ℕ) := by
  simp [stackArrays]
  decide

end DiffeRT2d.Props
