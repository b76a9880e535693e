import Verif.Spec.Arrays
import Mathlib.Tactic

namespace DiffeRT2d
open Classical Spec

theorem broadcastRev_self (s : List ℕ) : broadcastRev s s = some s := by
  induction s with
  | nil => rfl
  | cons d s ih => simp [broadcastRev, ih]

theorem broadcastRev_nil (s : List ℕ) : broadcastRev s [] = some s := by cases s <;> rfl

theorem broadcastShapes_self (s : List ℕ) : broadcastShapes s s = some s := by simp [broadcastShapes, broadcastRev_self]

theorem broadcastShapes_nil_left (s : List ℕ) : broadcastShapes [] s = some s := by simp [broadcastShapes, broadcastRev]

theorem broadcastShapes_nil_right (s : List ℕ) : broadcastShapes s [] = some s := by simp [broadcastShapes, broadcastRev_nil]

theorem broadcastIndex_self {s idx : List ℕ} (h : IndexOf idx s) : broadcastIndex s idx = idx := by
  unfold broadcastIndex
  rw [h.length_eq, Nat.sub_self, List.drop_zero]
  induction h with
  | nil => rfl
  | cons hd _ ih =>
    simp only [List.zipWith_cons_cons, ih]
    split
    · congr 1; omega
    · rfl

theorem broadcastIndex_nil (idx : List ℕ) : broadcastIndex [] idx = [] := by simp [broadcastIndex]

/-- Two arrays of the same shape. -/
theorem jnpMap2_same {α β γ : Type*} (f : α → β → γ) (a : NdArr α) (b : NdArr β) (h : b.shape = a.shape) :
    Returns (jnpMap2 f a b) a.shape fun idx => f (a.get idx) (b.get idx) := by
  refine ⟨⟨a.shape, fun idx => f (a.get (broadcastIndex a.shape idx)) (b.get (broadcastIndex b.shape idx))⟩, ?_, rfl, ?_⟩
  · simp [jnpMap2, h, broadcastShapes_self]
  · intro idx hi
    simp only [h, broadcastIndex_self hi]

theorem jnpMap2_scalar_right {α β γ : Type*} (f : α → β → γ) (a : NdArr α) (b : List ℕ → β) :
    Returns (jnpMap2 f a ⟨[], b⟩) a.shape fun idx => f (a.get idx) (b []) := by
  refine ⟨⟨a.shape, fun idx => f (a.get (broadcastIndex a.shape idx)) (b (broadcastIndex [] idx))⟩, ?_, rfl, ?_⟩
  · simp [jnpMap2, broadcastShapes_nil_right]
  · intro idx hi
    simp only [broadcastIndex_self hi, broadcastIndex_nil]

theorem jnpMap2_scalar_left {α β γ : Type*} (f : α → β → γ) (a : List ℕ → α) (b : NdArr β) :
    Returns (jnpMap2 f ⟨[], a⟩ b) b.shape fun idx => f (a []) (b.get idx) := by
  refine ⟨⟨b.shape, fun idx => f (a (broadcastIndex [] idx)) (b.get (broadcastIndex b.shape idx))⟩, ?_, rfl, ?_⟩
  · simp [jnpMap2, broadcastShapes_nil_left]
  · intro idx hi
    simp only [broadcastIndex_self hi, broadcastIndex_nil]

theorem Spec.Returns.congr {α : Type*} {c : Except PyErr (NdArr α)} {s : List ℕ} {e e' : List ℕ → α} (h : Returns c s e)
    (he : ∀ idx, IndexOf idx s → e idx = e' idx) : Returns c s e' := by
  obtain ⟨r, hr, hs, hg⟩ := h
  exact ⟨r, hr, hs, fun idx hi => (hg idx hi).trans (he idx hi)⟩

theorem Spec.Returns.map {α β : Type} {c : Except PyErr (NdArr α)} {s : List ℕ} {e : List ℕ → α} (h : Returns c s e) (f : α → β) :
    Returns (do pure (jnpMap f (← c))) s fun idx => f (e idx) := by
  obtain ⟨r, rfl, hs, hg⟩ := h
  exact ⟨jnpMap f r, rfl, hs, fun idx hi => congrArg f (hg idx hi)⟩

theorem Spec.Returns.checked {α : Type} {c : Except PyErr (NdArr α)} {s : List ℕ} {e : List ℕ → α} (h : Returns c s e) (memo : Option (List ℕ))
    (hm : memo = none ∨ memo = some s) : Returns (do checkReturn memo (← c)) s e := by
  obtain ⟨r, rfl, hs, hg⟩ := h
  refine ⟨r, ?_, hs, hg⟩
  rcases hm with rfl | rfl
  · rfl
  · change (if r.shape = s then Except.ok r else _) = _
    rw [if_pos hs]

theorem checked2_arrays {α β : Type} (jit : Bool) (f : NdArr α → NdArr α → Except PyErr (NdArr β)) (a b : NdArr α) :
    checked2 jit f (.array a) (.array b) =
      if b.shape = a.shape then (do checkReturn (some a.shape) (← f a b)) else .error .typeCheckError := by
  have hb : bindArgs none [.array a, .array b] = if b.shape = a.shape then .ok (some a.shape) else .error .typeCheckError := by
    by_cases h : b.shape = a.shape <;> simp [bindArgs, bindBatch, h, bind, Except.bind]
  unfold checked2
  simp only [ArrArg.traced, hb, ArrArg.toArr]
  split <;> rfl

theorem checked2_array_scalar {α β : Type} (jit : Bool) (f : NdArr α → NdArr α → Except PyErr (NdArr β)) (a : NdArr α) (y : α) :
    checked2 jit f (.array a) (.scalar y) =
      if jit = true ∧ a.shape ≠ [] then .error .typeCheckError else (do checkReturn (some a.shape) (← f a ⟨[], fun _ => y⟩)) := by
  cases jit
  · rfl
  · refine (checked2_arrays true f a ⟨[], fun _ => y⟩).trans ?_
    by_cases h : a.shape = []
    · simp [h]
    · simp [h, Ne.symm h]

theorem checked2_scalar_array {α β : Type} (jit : Bool) (f : NdArr α → NdArr α → Except PyErr (NdArr β)) (x : α) (b : NdArr α) :
    checked2 jit f (.scalar x) (.array b) =
      if jit = true ∧ b.shape ≠ [] then .error .typeCheckError else (do checkReturn (some b.shape) (← f ⟨[], fun _ => x⟩ b)) := by
  cases jit
  · rfl
  · refine (checked2_arrays true f ⟨[], fun _ => x⟩ b).trans ?_
    by_cases h : b.shape = []
    · simp [h]
    · simp [h]

theorem checked2_scalars {α β : Type} (jit : Bool) (f : NdArr α → NdArr α → Except PyErr (NdArr β)) (x y : α) :
    checked2 jit f (.scalar x) (.scalar y) =
      (do checkReturn (if jit then some [] else none) (← f ⟨[], fun _ => x⟩ ⟨[], fun _ => y⟩)) := by
  unfold checked2
  cases jit <;> rfl

/-! ## Reductions -/

theorem mem_indicesOf {s idx : List ℕ} : idx ∈ indicesOf s ↔ IndexOf idx s := by
  induction s generalizing idx with
  | nil => simp [indicesOf, IndexOf]
  | cons d s ih =>
    simp only [indicesOf, List.mem_flatMap, List.mem_range, List.mem_map]
    constructor
    · rintro ⟨i, hi, t, ht, rfl⟩
      exact .cons hi (ih.1 ht)
    · intro h
      cases h with
      | cons hi ht => exact ⟨_, hi, _, ih.2 ht, rfl⟩

theorem nodup_indicesOf (s : List ℕ) : (indicesOf s).Nodup := by
  induction s with
  | nil => simp [indicesOf]
  | cons d s ih =>
    rw [indicesOf, List.nodup_flatMap]
    refine ⟨fun i _ => ih.map fun _ _ h => by simpa using h, ?_⟩
    refine (List.nodup_range).imp ?_
    intro i j hij l hl hl'
    simp only [List.mem_map] at hl hl'
    obtain ⟨_, _, rfl⟩ := hl
    obtain ⟨_, _, h⟩ := hl'
    simp only [List.cons.injEq] at h
    exact hij h.1.symm

theorem filter_indicesOf {s r : List ℕ} (h : IndexOf r s) : (indicesOf s).filter (fun t => decide (t = r)) = [r] := by
  generalize hl : indicesOf s = l
  have hn : l.Nodup := hl ▸ nodup_indicesOf s
  have hm : r ∈ l := hl ▸ mem_indicesOf.2 h
  clear hl
  induction l with
  | nil => simp at hm
  | cons a l ih =>
    by_cases e : a = r
    · subst e
      rw [List.filter_cons_of_pos (by simp), List.filter_eq_nil_iff.2]
      intro b hb
      have := (List.nodup_cons.1 hn).1
      simp only [decide_eq_true_eq]
      rintro rfl
      exact this hb
    · rw [List.filter_cons_of_neg (by simpa using e), ih (List.nodup_cons.1 hn).2]
      rcases List.mem_cons.1 hm with h | h
      · exact absurd h.symm e
      · exact h

theorem dropAxes_zero (i : ℕ) (t : List ℕ) : dropAxes [0] (i :: t) = t := by
  unfold dropAxes
  rw [List.zipIdx_cons, List.filter_cons_of_neg (by simp), List.filter_eq_self.2]
  · simp
  · rintro ⟨d, j⟩ hj
    have := List.le_snd_of_mem_zipIdx hj
    simp only [zero_add] at this
    simp
    omega

theorem dropAxes_all (l : List ℕ) : dropAxes (List.range l.length) l = [] := by
  unfold dropAxes
  rw [List.map_eq_nil_iff, List.filter_eq_nil_iff]
  rintro ⟨d, j⟩ hj
  have := List.snd_lt_of_mem_zipIdx hj
  simp at this ⊢
  exact this

theorem slice_zero {α : Type*} (k : ℕ) {s r : List ℕ} (h : IndexOf r s) (g : List ℕ → α) :
    (((indicesOf (k :: s)).filter fun full => decide (dropAxes [0] full = r)).map g) = (List.range k).map fun i => g (i :: r) := by
  have : (indicesOf (k :: s)).filter (fun full => decide (dropAxes [0] full = r)) = (List.range k).map (· :: r) := by
    rw [indicesOf, List.filter_flatMap]
    rw [List.map_eq_flatMap]
    congr 1
    funext i
    rw [List.filter_map]
    have : ((fun full => decide (dropAxes [0] full = r)) ∘ fun t => i :: t) = fun t => decide (t = r) := by
      funext t; simp [dropAxes_zero]
    rw [this, filter_indicesOf h]
    rfl
  rw [this, List.map_map]
  rfl

end DiffeRT2d

namespace DiffeRT2d
open Classical Spec

/-! ## Element-wise functions -/

/-- `f` acts entry by entry, as `g`, on arrays of equal shapes and on an array with a scalar. -/
structure Elementwise {α β : Type} (f : NdArr α → NdArr α → Except PyErr (NdArr β)) (g : α → α → β) : Prop where
  same : ∀ a b, b.shape = a.shape → Returns (f a b) a.shape fun idx => g (a.get idx) (b.get idx)
  right : ∀ a y, Returns (f a ⟨[], fun _ => y⟩) a.shape fun idx => g (a.get idx) y
  left : ∀ x b, Returns (f ⟨[], fun _ => x⟩ b) b.shape fun idx => g x (b.get idx)

theorem elementwise_map2 {α β : Type} (g : α → α → β) : Elementwise (jnpMap2 g) g :=
  ⟨jnpMap2_same g, fun a y => jnpMap2_scalar_right g a fun _ => y, fun x b => jnpMap2_scalar_left g (fun _ => x) b⟩

theorem Elementwise.map {α β γ : Type} {f : NdArr α → NdArr α → Except PyErr (NdArr β)} {g : α → α → β} (h : Elementwise f g) (k : β → γ) :
    Elementwise (fun x y => do pure (jnpMap k (← f x y))) fun x y => k (g x y) :=
  ⟨fun a b e => (h.same a b e).map k, fun a y => (h.right a y).map k, fun x b => (h.left x b).map k⟩

theorem Elementwise.swap {α β : Type} {f : NdArr α → NdArr α → Except PyErr (NdArr β)} {g : α → α → β} (h : Elementwise f g) :
    Elementwise (fun x y => f y x) fun x y => g y x :=
  ⟨fun a b e => by have := h.same b a e.symm; rwa [e] at this, fun a y => h.left y a, fun x b => h.right b x⟩

theorem Elementwise.ite {α β : Type} {f f' : NdArr α → NdArr α → Except PyErr (NdArr β)} {g g' : α → α → β} (c : Bool) (h : Elementwise f g)
    (h' : Elementwise f' g') : Elementwise (fun x y => if c then f x y else f' x y) fun x y => if c then g x y else g' x y := by
  cases c
  · exact h'
  · exact h

theorem elementwise_or (E : Env) (approx : Option Bool) :
    ∃ f, Elementwise f (logicalOr E approx) ∧ ∀ jit, OnArrays.logicalOr E jit approx = checked2 jit f :=
  ⟨_, (elementwise_map2 Truthy.maximum).ite (resolveApprox E approx) (elementwise_map2 fun a b : Truthy => Truthy.b (a.toBool || b.toBool)), fun _ => rfl⟩

theorem elementwise_and (E : Env) (approx : Option Bool) :
    ∃ f, Elementwise f (logicalAnd E approx) ∧ ∀ jit, OnArrays.logicalAnd E jit approx = checked2 jit f :=
  ⟨_, (elementwise_map2 Truthy.minimum).ite (resolveApprox E approx) (elementwise_map2 fun a b : Truthy => Truthy.b (a.toBool && b.toBool)), fun _ => rfl⟩

theorem elementwise_greater (E : Env) (approx : Option Bool) (kw : ActKw) :
    ∃ f, Elementwise f (greater E approx kw) ∧ ∀ jit, OnArrays.greater E jit approx kw = checked2 jit f :=
  ⟨_, ((elementwise_map2 (fun a b : F => a - b)).map fun d : F => Truthy.f (activation kw d)).ite (resolveApprox E approx) (elementwise_map2 fun a b : F => Truthy.b (F.lt b a)),
    fun _ => rfl⟩

theorem elementwise_greaterEqual (E : Env) (approx : Option Bool) (kw : ActKw) :
    ∃ f, Elementwise f (greaterEqual E approx kw) ∧ ∀ jit, OnArrays.greaterEqual E jit approx kw = checked2 jit f :=
  ⟨_, ((elementwise_map2 (fun a b : F => a - b)).map fun d : F => Truthy.f (activation kw d)).ite (resolveApprox E approx) (elementwise_map2 fun a b : F => Truthy.b (F.le b a)),
    fun _ => rfl⟩

theorem elementwise_less (E : Env) (approx : Option Bool) (kw : ActKw) :
    ∃ f, Elementwise f (less E approx kw) ∧ ∀ jit, OnArrays.less E jit approx kw = checked2 jit f :=
  ⟨_, ((elementwise_map2 (fun a b : F => a - b)).map fun d : F => Truthy.f (activation kw d)).swap.ite (resolveApprox E approx) (elementwise_map2 fun a b : F => Truthy.b (F.lt a b)),
    fun _ => rfl⟩

theorem elementwise_lessEqual (E : Env) (approx : Option Bool) (kw : ActKw) :
    ∃ f, Elementwise f (lessEqual E approx kw) ∧ ∀ jit, OnArrays.lessEqual E jit approx kw = checked2 jit f :=
  ⟨_, ((elementwise_map2 (fun a b : F => a - b)).map fun d : F => Truthy.f (activation kw d)).swap.ite (resolveApprox E approx) (elementwise_map2 fun a b : F => Truthy.b (F.le a b)),
    fun _ => rfl⟩

section
variable {α β : Type} {f : NdArr α → NdArr α → Except PyErr (NdArr β)} {g : α → α → β}

theorem Elementwise.arrays (h : Elementwise f g) (jit : Bool) (a b : NdArr α) (e : b.shape = a.shape) :
    Returns (checked2 jit f (.array a) (.array b)) a.shape fun idx => g (a.get idx) (b.get idx) := by
  rw [checked2_arrays, if_pos e]
  exact (h.same a b e).checked _ (.inr rfl)

theorem checked2_mismatch (jit : Bool) (a b : NdArr α) (e : b.shape ≠ a.shape) :
    Raises (checked2 jit f (.array a) (.array b)) .typeCheckError := by
  rw [checked2_arrays, if_neg e]; rfl

theorem Elementwise.array_scalar (h : Elementwise f g) (jit : Bool) (a : NdArr α) (y : α) (e : jit = false ∨ a.shape = []) :
    Returns (checked2 jit f (.array a) (.scalar y)) a.shape fun idx => g (a.get idx) y := by
  rw [checked2_array_scalar, if_neg (by rcases e with rfl | e <;> simp [*])]
  exact (h.right a y).checked _ (.inr rfl)

theorem Elementwise.scalar_array (h : Elementwise f g) (jit : Bool) (x : α) (b : NdArr α) (e : jit = false ∨ b.shape = []) :
    Returns (checked2 jit f (.scalar x) (.array b)) b.shape fun idx => g x (b.get idx) := by
  rw [checked2_scalar_array, if_neg (by rcases e with rfl | e <;> simp [*])]
  exact (h.left x b).checked _ (.inr rfl)

theorem checked2_array_scalar_jit (a : NdArr α) (y : α) (e : a.shape ≠ []) :
    Raises (checked2 true f (.array a) (.scalar y)) .typeCheckError := by
  rw [checked2_array_scalar, if_pos ⟨rfl, e⟩]; rfl

theorem checked2_scalar_array_jit (x : α) (b : NdArr α) (e : b.shape ≠ []) :
    Raises (checked2 true f (.scalar x) (.array b)) .typeCheckError := by
  rw [checked2_scalar_array, if_pos ⟨rfl, e⟩]; rfl

theorem Elementwise.scalars (h : Elementwise f g) (jit : Bool) (x y : α) :
    Returns (checked2 jit f (.scalar x) (.scalar y)) [] fun _ => g x y := by
  rw [checked2_scalars]
  exact (h.right ⟨[], fun _ => x⟩ y).checked _ (by cases jit <;> simp)

end

/-! ## Stacked arguments -/

theorem bindArgs_arrays {α : Type} (s : List ℕ) (as : List (NdArr α)) (h : ∀ a ∈ as, a.shape = s) :
    bindArgs (some s) (as.map .array) = .ok (some s) := by
  induction as with
  | nil => rfl
  | cons a as ih =>
    have ha : a.shape = s := h a (by simp)
    simp only [List.map_cons, bindArgs, bindBatch, ha, if_true]
    exact ih fun b hb => h b (by simp [hb])

theorem bindArgs_arrays_none {α : Type} (s : List ℕ) (as : List (NdArr α)) (h : ∀ a ∈ as, a.shape = s) (hne : as ≠ []) :
    bindArgs none (as.map .array) = .ok (some s) := by
  cases as with
  | nil => exact absurd rfl hne
  | cons a as =>
    have ha : a.shape = s := h a (by simp)
    simp only [List.map_cons, bindArgs, bindBatch, ha]
    exact bindArgs_arrays s as fun b hb => h b (by simp [hb])

theorem jnpStack_same (s : List ℕ) (as : List (NdArr Truthy)) (h : ∀ a ∈ as, a.shape = s) (hne : as ≠ []) :
    ∃ g : List ℕ → Truthy, jnpStack as = .ok ⟨as.length :: s, g⟩ ∧
      ∀ i (hi : i < as.length) r, g (i :: r) =
        if ∀ a ∈ as, ∀ idx, (a.get idx).isB = true then as[i].get r else .f (as[i].get r).toF := by
  have hs : (as.head?.map NdArr.shape).getD [] = s := by
    cases as with
    | nil => exact absurd rfl hne
    | cons a as => exact h a (by simp)
  refine ⟨fun idx => match as[idx.headD 0]? with
    | none => .b false
    | some a => if ∀ a ∈ as, ∀ idx, (a.get idx).isB = true then a.get idx.tail else .f (a.get idx.tail).toF, ?_, ?_⟩
  · unfold jnpStack
    simp only [hs]
    rw [if_neg (by push Not; exact h)]
    rfl
  · intro i hi r
    simp [List.getElem?_eq_getElem hi]

theorem Axis.resolve_first (n : ℕ) (i : ℤ) (hi : i = 0 ∨ i = -((n : ℤ) + 1)) : (Axis.one i).resolve (n + 1) = .ok [0] := by
  rcases hi with rfl | rfl <;> simp only [Axis.resolve]
  · rw [if_pos (by constructor <;> push_cast <;> omega)]
    simp
  · rw [if_pos (by constructor <;> push_cast <;> omega), if_pos (by omega)]
    simp

theorem jnpReduce_first (red : List Truthy → Except PyErr Truthy) (noId : Bool) (k : ℕ) (hk : 0 < k) (s : List ℕ) (g : List ℕ → Truthy)
    (i : ℤ) (hi : i = 0 ∨ i = -((s.length : ℤ) + 1)) (e : List ℕ → Truthy)
    (h : ∀ r, IndexOf r s → red ((List.range k).map fun j => g (j :: r)) = .ok (e r)) :
    Returns (jnpReduce red noId ⟨k :: s, g⟩ (.one i)) s e := by
  have hz : (List.zipIdx (k :: s)).any (fun di => decide (di.2 ∈ [0] ∧ di.1 = 0)) = false := by
    rw [List.any_eq_false]
    rintro ⟨d, j⟩ hj
    simp only [List.mem_singleton, decide_eq_true_eq, not_and]
    rintro rfl
    rw [List.zipIdx_cons, List.mem_cons] at hj
    rcases hj with hj | hj
    · simp only [Prod.mk.injEq] at hj; omega
    · have := List.le_snd_of_mem_zipIdx hj
      simp at this
  refine ⟨⟨dropAxes [0] (k :: s), fun r =>
    match red (((indicesOf (k :: s)).filter fun full => dropAxes [0] full = r).map g) with
    | .ok v => v
    | .error _ => .b false⟩, ?_, dropAxes_zero k s, ?_⟩
  · unfold jnpReduce
    simp only [List.length_cons, Axis.resolve_first _ _ hi]
    change (if (noId && (List.zipIdx (k :: s)).any (fun di => decide (di.2 ∈ [0] ∧ di.1 = 0))) = true then _ else _) = _
    rw [hz, Bool.and_false, if_neg (by simp)]
    rfl
  · intro r hr
    simp only [slice_zero k hr, h r hr]

theorem toBool_toF (t : Truthy) : (Truthy.f t.toF).toBool = t.toBool := by
  rcases t with (_ | _) | v <;> simp [Truthy.toBool, Truthy.toF, F.eq]

theorem map_range_getElem {α β : Type*} (l : List α) (h : ℕ → β) (k : α → β) (e : ∀ i (hi : i < l.length), h i = k l[i]) :
    (List.range l.length).map h = l.map k := by
  apply List.ext_getElem
  · simp
  · intro i h1 h2
    simp only [List.getElem_map, List.getElem_range]
    exact e i (by simpa using h1)

/-- The conversion of the stacked entries at one index. -/
theorem stack_column (as : List (NdArr Truthy)) (hu : ∀ a ∈ as, Uniform a) (r : List ℕ) :
    let c := as.map fun a => if ∀ a ∈ as, ∀ idx, (a.get idx).isB = true then a.get r else .f (a.get r).toF
    c.map Truthy.toBool = (as.map fun a => a.get r).map Truthy.toBool ∧ jnpMin c = jnpMin (as.map fun a => a.get r) ∧
      jnpMax c = jnpMax (as.map fun a => a.get r) := by
  intro c
  by_cases hk : ∀ a ∈ as, ∀ idx, (a.get idx).isB = true
  · have : c = as.map fun a => a.get r := by
      apply List.map_congr_left; intro a _; rw [if_pos hk]
    rw [this]; exact ⟨rfl, rfl, rfl⟩
  · have hc : c = (as.map fun a => a.get r).map fun t => Truthy.f t.toF := by
      rw [List.map_map]; apply List.map_congr_left; intro a _; rw [if_neg hk]; rfl
    have hnb : ¬ (as.map fun a => a.get r).all Truthy.isB = true := by
      push Not at hk
      obtain ⟨a, ha, idx, hb⟩ := hk
      rcases hu a ha with h | h
      · obtain ⟨v, hv⟩ := h idx; rw [hv] at hb; exact absurd rfl hb
      · obtain ⟨v, hv⟩ := h r
        intro hall
        rw [List.all_eq_true] at hall
        have := hall _ (List.mem_map_of_mem ha)
        rw [hv] at this
        cases this
    have htf : ∀ l : List Truthy, (l.map fun t => Truthy.f t.toF).map Truthy.toF = l.map Truthy.toF := by
      intro l; rw [List.map_map]; rfl
    rw [hc]
    generalize (as.map fun a => a.get r) = l at hnb ⊢
    refine ⟨?_, ?_, ?_⟩
    · rw [List.map_map]; apply List.map_congr_left; intro t _; exact toBool_toF t
    · cases l with
      | nil => rfl
      | cons t l =>
        rw [List.map_cons, jnpMin, jnpMin, if_neg hnb, if_neg (by simp [Truthy.isB]), htf]
        rfl
    · cases l with
      | nil => rfl
      | cons t l =>
        rw [List.map_cons, jnpMax, jnpMax, if_neg hnb, if_neg (by simp [Truthy.isB]), htf]
        rfl

theorem jnpMin_ok (l : List Truthy) (h : l ≠ []) : ∃ v, jnpMin l = .ok v := by
  cases l with
  | nil => exact absurd rfl h
  | cons x l => rw [jnpMin]; split <;> exact ⟨_, rfl⟩

theorem jnpMax_ok (l : List Truthy) (h : l ≠ []) : ∃ v, jnpMax l = .ok v := by
  cases l with
  | nil => exact absurd rfl h
  | cons x l => rw [jnpMax]; split <;> exact ⟨_, rfl⟩

theorem Spec.Returns.checkedE {α : Type} {c : Except PyErr (NdArr α)} {s : List ℕ} {e : List ℕ → α} (h : Returns c s e) :
    Returns (do let r ← c; checkReturn (some s) r) s e := h.checked _ (.inr rfl)

/-- The stacked arguments reduced along the new dimension, for any reduction. -/
theorem reduce_stack (red : List Truthy → Except PyErr Truthy) (noId : Bool) (s : List ℕ) (as : List (NdArr Truthy)) (hs : ∀ a ∈ as, a.shape = s)
    (hne : as ≠ []) (i : ℤ) (hi : i = 0 ∨ i = -((s.length : ℤ) + 1)) (e : List ℕ → Truthy)
    (h : ∀ r, red (as.map fun a => if ∀ a ∈ as, ∀ idx, (a.get idx).isB = true then a.get r else .f (a.get r).toF) = .ok (e r)) :
    Returns (do let arr ← jnpStack as; jnpReduce red noId arr (.one i)) s e := by
  obtain ⟨g, hg, hgi⟩ := jnpStack_same s as hs hne
  rw [hg]
  refine jnpReduce_first red noId as.length (List.length_pos_iff.2 hne) s g i hi e fun r hr => ?_
  rw [map_range_getElem as (fun j => g (j :: r)) (fun a => if ∀ a ∈ as, ∀ idx, (a.get idx).isB = true then a.get r else .f (a.get r).toF)
    (fun j hj => hgi j hj r)]
  exact h r

theorem traced_arrays {α : Type} (jit : Bool) (as : List (NdArr α)) : (as.map ArrArg.array).map (ArrArg.traced jit) = as.map ArrArg.array := by
  rw [List.map_map]; rfl

theorem toArr_arrays {α : Type} (as : List (NdArr α)) : (as.map ArrArg.array).map ArrArg.toArr = as := by
  rw [List.map_map]; exact List.map_id' as

theorem all_map_id (l : List Truthy) : l.all Truthy.toBool = (l.map Truthy.toBool).all id := by rw [List.all_map]; rfl

theorem any_map_id (l : List Truthy) : l.any Truthy.toBool = (l.map Truthy.toBool).any id := by rw [List.any_map]; rfl

theorem logicalAll_first (E : Env) (jit : Bool) (approx : Option Bool) (s : List ℕ) (as : List (NdArr Truthy)) (hs : ∀ a ∈ as, a.shape = s)
    (hu : ∀ a ∈ as, Uniform a) (hne : as ≠ []) (i : ℤ) (hi : i = 0 ∨ i = -((s.length : ℤ) + 1)) (e : List ℕ → Truthy)
    (he : ∀ r, logicalAll E approx (as.map fun a => a.get r) = .ok (e r)) :
    Returns (OnArrays.logicalAll E jit approx (.one i) (as.map .array)) s e := by
  have key : Returns (do
      let arr ← jnpStack as
      if resolveApprox E approx then jnpReduce jnpMin true arr (.one i) else jnpReduce (fun l => .ok (.b (l.all Truthy.toBool))) false arr (.one i)) s e := by
    unfold logicalAll at he
    split
    · rename_i h
      simp only [h, if_true] at he
      exact reduce_stack jnpMin true s as hs hne i hi e fun r => ((stack_column as hu r).2.1).trans (he r)
    · rename_i h
      simp only [h] at he
      refine reduce_stack _ false s as hs hne i hi e fun r => (Eq.trans ?_ (he r))
      simp only [all_map_id, (stack_column as hu r).1]
      rfl
  unfold OnArrays.logicalAll
  simp only [traced_arrays, toArr_arrays, bindArgs_arrays_none s as hs hne]
  obtain ⟨g, hg, _⟩ := jnpStack_same s as hs hne
  simp only [hg] at key ⊢
  cases h : resolveApprox E approx <;> simp only [h] at key ⊢ <;> exact key.checkedE

theorem logicalAny_first (E : Env) (jit : Bool) (approx : Option Bool) (s : List ℕ) (as : List (NdArr Truthy)) (hs : ∀ a ∈ as, a.shape = s)
    (hu : ∀ a ∈ as, Uniform a) (hne : as ≠ []) (i : ℤ) (hi : i = 0 ∨ i = -((s.length : ℤ) + 1)) (e : List ℕ → Truthy)
    (he : ∀ r, logicalAny E approx (as.map fun a => a.get r) = .ok (e r)) :
    Returns (OnArrays.logicalAny E jit approx (.one i) (as.map .array)) s e := by
  have key : Returns (do
      let arr ← jnpStack as
      if resolveApprox E approx then jnpReduce jnpMax true arr (.one i) else jnpReduce (fun l => .ok (.b (l.any Truthy.toBool))) false arr (.one i)) s e := by
    unfold logicalAny at he
    split
    · rename_i h
      simp only [h, if_true] at he
      exact reduce_stack jnpMax true s as hs hne i hi e fun r => ((stack_column as hu r).2.2).trans (he r)
    · rename_i h
      simp only [h] at he
      refine reduce_stack _ false s as hs hne i hi e fun r => (Eq.trans ?_ (he r))
      simp only [any_map_id, (stack_column as hu r).1]
      rfl
  unfold OnArrays.logicalAny
  simp only [traced_arrays, toArr_arrays, bindArgs_arrays_none s as hs hne]
  obtain ⟨g, hg, _⟩ := jnpStack_same s as hs hne
  simp only [hg] at key ⊢
  cases h : resolveApprox E approx <;> simp only [h] at key ⊢ <;> exact key.checkedE


/-! ## No dimension given -/

theorem bindBatch_shape {α : Type} {memo m : Option (List ℕ)} {x : ArrArg α} (h : bindBatch memo x = .ok m) :
    (∀ s, memo = some s → m = some s) ∧ ∀ a, x = .array a → m = some a.shape := by
  cases x with
  | scalar _ => cases h; exact ⟨fun s h => h, fun a h => by cases h⟩
  | array a =>
    cases memo with
    | none => cases h; exact ⟨fun s h => by simp at h, fun b h => by cases h; rfl⟩
    | some s =>
      simp only [bindBatch] at h
      split at h
      · cases h; exact ⟨fun _ h => h, fun b hb => by cases hb; simp [*]⟩
      · cases h

theorem bindArgs_shape {α : Type} {xs : List (ArrArg α)} {memo m : Option (List ℕ)} (h : bindArgs memo xs = .ok m) :
    (∀ s, memo = some s → m = some s) ∧ ∀ a, .array a ∈ xs → m = some a.shape := by
  induction xs generalizing memo with
  | nil => cases h; exact ⟨fun _ h => h, fun a h => by simp at h⟩
  | cons x xs ih =>
    rw [bindArgs] at h
    cases hb : bindBatch memo x with
    | error e => rw [hb] at h; cases h
    | ok m' =>
      rw [hb] at h
      obtain ⟨h1, h2⟩ := bindBatch_shape hb
      obtain ⟨h3, h4⟩ := ih (memo := m') h
      refine ⟨fun s hs => h3 s (h1 s hs), fun a ha => ?_⟩
      rcases List.mem_cons.1 ha with rfl | ha
      · exact h3 _ (h2 a rfl)
      · exact h4 a ha

theorem jnpReduce_all_shape {red : List Truthy → Except PyErr Truthy} {noId : Bool} {a r : NdArr Truthy} (h : jnpReduce red noId a .all = .ok r) :
    r.shape = [] := by
  unfold jnpReduce at h
  simp only [Axis.resolve] at h
  change (if _ then _ else _) = _ at h
  split at h
  · cases h
  · cases h; exact dropAxes_all a.shape

/-- Whatever the reduction: with `axis=None` the result has shape `()`, which the annotation refuses if an argument has another shape. -/
theorem reduce_none (jit : Bool) (red : NdArr Truthy → Except PyErr (NdArr Truthy)) (hred : ∀ a r, red a = .ok r → r.shape = []) (xs : List (ArrArg Truthy))
    (h : ∃ a, .array a ∈ xs ∧ a.shape ≠ []) :
    ∃ e, (do
      let memo ← bindArgs none (xs.map (ArrArg.traced jit))
      let arr ← jnpStack ((xs.map (ArrArg.traced jit)).map ArrArg.toArr)
      let r ← red arr
      checkReturn memo r : Except PyErr (NdArr Truthy)) = .error e := by
  obtain ⟨a, ha, hne⟩ := h
  cases hm : bindArgs none (xs.map (ArrArg.traced jit)) with
  | error e => exact ⟨e, rfl⟩
  | ok m =>
    have := (bindArgs_shape hm).2 a (List.mem_map.2 ⟨_, ha, rfl⟩)
    subst this
    cases hs : jnpStack ((xs.map (ArrArg.traced jit)).map ArrArg.toArr) with
    | error e => exact ⟨e, rfl⟩
    | ok arr =>
      cases hr : red arr with
      | error e => exact ⟨e, by simp only [bind, Except.bind, hr]⟩
      | ok r =>
        refine ⟨.typeCheckError, ?_⟩
        simp only [bind, Except.bind, hr, checkReturn]
        rw [if_neg (by rw [hred _ _ hr]; exact Ne.symm hne)]

end DiffeRT2d
