import Verif.Lemmas.Arrays

/-! # Properties C96, C97: the functions of `differt2d.logic` on arrays, and the setting at import -/

namespace DiffeRT2d.Props
open Classical Spec

/-! ## C96 — arrays -/

/-- The connectives and comparisons of two arrays of equal shapes: an array of the same shape, whose entries are the scalar functions of the entries. -/
theorem C96_same_shape (E : Env) (jit : Bool) (approx : Option Bool) (kw : ActKw) :
    (∀ a b : NdArr Truthy, b.shape = a.shape →
      Returns (OnArrays.logicalOr E jit approx (.array a) (.array b)) a.shape (fun i => logicalOr E approx (a.get i) (b.get i)) ∧
      Returns (OnArrays.logicalAnd E jit approx (.array a) (.array b)) a.shape (fun i => logicalAnd E approx (a.get i) (b.get i))) ∧
    ∀ a b : NdArr F, b.shape = a.shape →
      Returns (OnArrays.greater E jit approx kw (.array a) (.array b)) a.shape (fun i => greater E approx kw (a.get i) (b.get i)) ∧
      Returns (OnArrays.greaterEqual E jit approx kw (.array a) (.array b)) a.shape (fun i => greaterEqual E approx kw (a.get i) (b.get i)) ∧
      Returns (OnArrays.less E jit approx kw (.array a) (.array b)) a.shape (fun i => less E approx kw (a.get i) (b.get i)) ∧
      Returns (OnArrays.lessEqual E jit approx kw (.array a) (.array b)) a.shape (fun i => lessEqual E approx kw (a.get i) (b.get i)) := by
  obtain ⟨_, h1, e1⟩ := elementwise_or E approx
  obtain ⟨_, h2, e2⟩ := elementwise_and E approx
  obtain ⟨_, h3, e3⟩ := elementwise_greater E approx kw
  obtain ⟨_, h4, e4⟩ := elementwise_greaterEqual E approx kw
  obtain ⟨_, h5, e5⟩ := elementwise_less E approx kw
  obtain ⟨_, h6, e6⟩ := elementwise_lessEqual E approx kw
  simp only [e1, e2, e3, e4, e5, e6]
  exact ⟨fun a b e => ⟨h1.arrays jit a b e, h2.arrays jit a b e⟩,
    fun a b e => ⟨h3.arrays jit a b e, h4.arrays jit a b e, h5.arrays jit a b e, h6.arrays jit a b e⟩⟩

/-- Two arrays of different shapes are refused, even where NumPy would broadcast them. -/
theorem C96_different_shapes (E : Env) (jit : Bool) (approx : Option Bool) (kw : ActKw) :
    (∀ a b : NdArr Truthy, b.shape ≠ a.shape →
      Raises (OnArrays.logicalOr E jit approx (.array a) (.array b)) .typeCheckError ∧
      Raises (OnArrays.logicalAnd E jit approx (.array a) (.array b)) .typeCheckError) ∧
    ∀ a b : NdArr F, b.shape ≠ a.shape →
      Raises (OnArrays.greater E jit approx kw (.array a) (.array b)) .typeCheckError ∧
      Raises (OnArrays.greaterEqual E jit approx kw (.array a) (.array b)) .typeCheckError ∧
      Raises (OnArrays.less E jit approx kw (.array a) (.array b)) .typeCheckError ∧
      Raises (OnArrays.lessEqual E jit approx kw (.array a) (.array b)) .typeCheckError :=
  ⟨fun a b e => ⟨checked2_mismatch jit a b e, checked2_mismatch jit a b e⟩,
    fun a b e => ⟨checked2_mismatch jit a b e, checked2_mismatch jit a b e, checked2_mismatch jit a b e, checked2_mismatch jit a b e⟩⟩

/-- An array and a Python scalar: entry by entry when not compiled (`jax.disable_jit`) or when the array has shape `()`. -/
theorem C96_with_scalar (E : Env) (jit : Bool) (approx : Option Bool) (kw : ActKw) :
    (∀ (a : NdArr Truthy) (x : Truthy), jit = false ∨ a.shape = [] →
      Returns (OnArrays.logicalOr E jit approx (.array a) (.scalar x)) a.shape (fun i => logicalOr E approx (a.get i) x) ∧
      Returns (OnArrays.logicalOr E jit approx (.scalar x) (.array a)) a.shape (fun i => logicalOr E approx x (a.get i)) ∧
      Returns (OnArrays.logicalAnd E jit approx (.array a) (.scalar x)) a.shape (fun i => logicalAnd E approx (a.get i) x) ∧
      Returns (OnArrays.logicalAnd E jit approx (.scalar x) (.array a)) a.shape (fun i => logicalAnd E approx x (a.get i))) ∧
    ∀ (a : NdArr F) (x : F), jit = false ∨ a.shape = [] →
      Returns (OnArrays.greater E jit approx kw (.array a) (.scalar x)) a.shape (fun i => greater E approx kw (a.get i) x) ∧
      Returns (OnArrays.greater E jit approx kw (.scalar x) (.array a)) a.shape (fun i => greater E approx kw x (a.get i)) ∧
      Returns (OnArrays.greaterEqual E jit approx kw (.array a) (.scalar x)) a.shape (fun i => greaterEqual E approx kw (a.get i) x) ∧
      Returns (OnArrays.greaterEqual E jit approx kw (.scalar x) (.array a)) a.shape (fun i => greaterEqual E approx kw x (a.get i)) ∧
      Returns (OnArrays.less E jit approx kw (.array a) (.scalar x)) a.shape (fun i => less E approx kw (a.get i) x) ∧
      Returns (OnArrays.less E jit approx kw (.scalar x) (.array a)) a.shape (fun i => less E approx kw x (a.get i)) ∧
      Returns (OnArrays.lessEqual E jit approx kw (.array a) (.scalar x)) a.shape (fun i => lessEqual E approx kw (a.get i) x) ∧
      Returns (OnArrays.lessEqual E jit approx kw (.scalar x) (.array a)) a.shape (fun i => lessEqual E approx kw x (a.get i)) := by
  obtain ⟨_, h1, e1⟩ := elementwise_or E approx
  obtain ⟨_, h2, e2⟩ := elementwise_and E approx
  obtain ⟨_, h3, e3⟩ := elementwise_greater E approx kw
  obtain ⟨_, h4, e4⟩ := elementwise_greaterEqual E approx kw
  obtain ⟨_, h5, e5⟩ := elementwise_less E approx kw
  obtain ⟨_, h6, e6⟩ := elementwise_lessEqual E approx kw
  simp only [e1, e2, e3, e4, e5, e6]
  exact ⟨fun a x e => ⟨h1.array_scalar jit a x e, h1.scalar_array jit x a e, h2.array_scalar jit a x e, h2.scalar_array jit x a e⟩,
    fun a x e => ⟨h3.array_scalar jit a x e, h3.scalar_array jit x a e, h4.array_scalar jit a x e, h4.scalar_array jit x a e,
      h5.array_scalar jit a x e, h5.scalar_array jit x a e, h6.array_scalar jit a x e, h6.scalar_array jit x a e⟩⟩

/-- An array of another shape than `()` and a Python scalar, compiled: refused (the scalar is traced to an array of shape `()`). -/
theorem C96_with_scalar_jit (E : Env) (approx : Option Bool) (kw : ActKw) :
    (∀ (a : NdArr Truthy) (x : Truthy), a.shape ≠ [] →
      Raises (OnArrays.logicalOr E true approx (.array a) (.scalar x)) .typeCheckError ∧
      Raises (OnArrays.logicalOr E true approx (.scalar x) (.array a)) .typeCheckError ∧
      Raises (OnArrays.logicalAnd E true approx (.array a) (.scalar x)) .typeCheckError ∧
      Raises (OnArrays.logicalAnd E true approx (.scalar x) (.array a)) .typeCheckError) ∧
    ∀ (a : NdArr F) (x : F), a.shape ≠ [] →
      Raises (OnArrays.greater E true approx kw (.array a) (.scalar x)) .typeCheckError ∧
      Raises (OnArrays.greater E true approx kw (.scalar x) (.array a)) .typeCheckError ∧
      Raises (OnArrays.greaterEqual E true approx kw (.array a) (.scalar x)) .typeCheckError ∧
      Raises (OnArrays.greaterEqual E true approx kw (.scalar x) (.array a)) .typeCheckError ∧
      Raises (OnArrays.less E true approx kw (.array a) (.scalar x)) .typeCheckError ∧
      Raises (OnArrays.less E true approx kw (.scalar x) (.array a)) .typeCheckError ∧
      Raises (OnArrays.lessEqual E true approx kw (.array a) (.scalar x)) .typeCheckError ∧
      Raises (OnArrays.lessEqual E true approx kw (.scalar x) (.array a)) .typeCheckError :=
  ⟨fun a x e => ⟨checked2_array_scalar_jit a x e, checked2_scalar_array_jit x a e, checked2_array_scalar_jit a x e, checked2_scalar_array_jit x a e⟩,
    fun a x e => ⟨checked2_array_scalar_jit a x e, checked2_scalar_array_jit x a e, checked2_array_scalar_jit a x e, checked2_scalar_array_jit x a e,
      checked2_array_scalar_jit a x e, checked2_scalar_array_jit x a e, checked2_array_scalar_jit a x e, checked2_scalar_array_jit x a e⟩⟩

/-- Two Python scalars: an array of shape `()` with the scalar result. -/
theorem C96_scalars (E : Env) (jit : Bool) (approx : Option Bool) (kw : ActKw) (x y : Truthy) (u v : F) :
    Returns (OnArrays.logicalOr E jit approx (.scalar x) (.scalar y)) [] (fun _ => logicalOr E approx x y) ∧
    Returns (OnArrays.logicalAnd E jit approx (.scalar x) (.scalar y)) [] (fun _ => logicalAnd E approx x y) ∧
    Returns (OnArrays.greater E jit approx kw (.scalar u) (.scalar v)) [] (fun _ => greater E approx kw u v) ∧
    Returns (OnArrays.greaterEqual E jit approx kw (.scalar u) (.scalar v)) [] (fun _ => greaterEqual E approx kw u v) ∧
    Returns (OnArrays.less E jit approx kw (.scalar u) (.scalar v)) [] (fun _ => less E approx kw u v) ∧
    Returns (OnArrays.lessEqual E jit approx kw (.scalar u) (.scalar v)) [] (fun _ => lessEqual E approx kw u v) := by
  obtain ⟨_, h1, e1⟩ := elementwise_or E approx
  obtain ⟨_, h2, e2⟩ := elementwise_and E approx
  obtain ⟨_, h3, e3⟩ := elementwise_greater E approx kw
  obtain ⟨_, h4, e4⟩ := elementwise_greaterEqual E approx kw
  obtain ⟨_, h5, e5⟩ := elementwise_less E approx kw
  obtain ⟨_, h6, e6⟩ := elementwise_lessEqual E approx kw
  simp only [e1, e2, e3, e4, e5, e6]
  exact ⟨h1.scalars jit x y, h2.scalars jit x y, h3.scalars jit u v, h4.scalars jit u v, h5.scalars jit u v, h6.scalars jit u v⟩

/-- `logical_not`, `is_true`, `is_false` of an array act entry by entry; with approximation disabled, `is_true` of an array of floats is refused. -/
theorem C96_unary (E : Env) (jit : Bool) (approx : Option Bool) (tol : F) (a : NdArr Truthy) :
    Returns (OnArrays.logicalNot E jit approx (.array a)) a.shape (fun i => logicalNot E approx (a.get i)) ∧
    Returns (OnArrays.isFalse E jit approx tol (.array a)) a.shape (fun i => isFalse E approx (a.get i) tol) ∧
    (resolveApprox E approx = true ∨ OfBools a → ∃ r, OnArrays.isTrue E jit approx tol (.array a) = .ok r ∧ r.shape = a.shape ∧
      ∀ i, IndexOf i a.shape → isTrue E approx (a.get i) tol = .ok (r.get i)) ∧
    (resolveApprox E approx = false → OfFloats a → Raises (OnArrays.isTrue E jit approx tol (.array a)) .typeCheckError) := by
  have hc : ∀ {β : Type} (f : NdArr Truthy → Except PyErr (NdArr β)), checked1 jit f (.array a) = (do checkReturn (some a.shape) (← f a)) := fun f => rfl
  refine ⟨?_, ?_, ?_, ?_⟩
  · unfold OnArrays.logicalNot
    rw [hc]
    apply Returns.checked _ _ (.inr rfl)
    unfold logicalNot
    cases resolveApprox E approx
    · exact ⟨_, rfl, rfl, fun _ _ => rfl⟩
    · exact jnpMap2_scalar_left (fun (x : F) (y : Truthy) => Truthy.f (x - y.toF)) (fun _ => 1) a
  · unfold OnArrays.isFalse
    rw [hc]
    apply Returns.checked _ _ (.inr rfl)
    unfold isFalse
    cases resolveApprox E approx
    · exact ⟨_, rfl, rfl, fun _ _ => rfl⟩
    · exact jnpMap2_scalar_right (fun (x : Truthy) (y : F) => F.lt x.toF y) a fun _ => tol
  · intro h
    unfold OnArrays.isTrue isTrue
    rw [hc]
    cases hr : resolveApprox E approx
    · have hb : OfBools a := by simpa [hr] using h
      refine ⟨jnpMap Truthy.toBool a, ?_, rfl, fun i _ => ?_⟩
      · simp only [Bool.false_eq_true, if_false]
        rw [if_pos (fun i => by obtain ⟨v, hv⟩ := hb i; rw [hv]; rfl)]
        change (if a.shape = a.shape then _ else _) = _
        rw [if_pos rfl]
      · obtain ⟨v, hv⟩ := hb i
        simp [hv, jnpMap, Truthy.toBool]
    · obtain ⟨r, h1, h2, h3⟩ := (jnpMap2_scalar_right (fun (x : Truthy) (y : F) => F.lt y x.toF) a fun _ => 1 - tol).checked _ (.inr rfl)
      exact ⟨r, h1, h2, fun i hi => by rw [h3 i hi]; rfl⟩
  · intro hr hf
    unfold OnArrays.isTrue
    rw [hc, hr]
    obtain ⟨v, hv⟩ := hf []
    simp only [Bool.false_eq_true, if_false]
    rw [if_neg (fun h => by have := h []; rw [hv] at this; cases this)]
    rfl

/-- `logical_all` and `logical_any` along the first dimension (`axis=0`, or the negative number of the same dimension) combine their *arguments*, entry by
entry, and never the entries of one argument: each argument is one slice of the array that is reduced. -/
theorem C96_all_any_first (E : Env) (jit : Bool) (approx : Option Bool) (s : List ℕ) (as : List (NdArr Truthy)) (hs : ∀ a ∈ as, a.shape = s)
    (hu : ∀ a ∈ as, Uniform a) (hne : as ≠ []) (i : ℤ) (hi : i = 0 ∨ i = -((s.length : ℤ) + 1)) :
    (∃ e : List ℕ → Truthy, (∀ r, logicalAll E approx (as.map fun a => a.get r) = .ok (e r)) ∧
      Returns (OnArrays.logicalAll E jit approx (.one i) (as.map .array)) s e) ∧
    ∃ e : List ℕ → Truthy, (∀ r, logicalAny E approx (as.map fun a => a.get r) = .ok (e r)) ∧
      Returns (OnArrays.logicalAny E jit approx (.one i) (as.map .array)) s e := by
  have h1 : ∀ r, ∃ v, logicalAll E approx (as.map fun a => a.get r) = .ok v := by
    intro r; unfold logicalAll; split
    · exact jnpMin_ok _ (by simpa using hne)
    · exact ⟨_, rfl⟩
  have h2 : ∀ r, ∃ v, logicalAny E approx (as.map fun a => a.get r) = .ok v := by
    intro r; unfold logicalAny; split
    · exact jnpMax_ok _ (by simpa using hne)
    · exact ⟨_, rfl⟩
  choose e1 he1 using h1
  choose e2 he2 using h2
  exact ⟨⟨e1, he1, logicalAll_first E jit approx s as hs hu hne i hi e1 he1⟩, ⟨e2, he2, logicalAny_first E jit approx s as hs hu hne i hi e2 he2⟩⟩

/-- Non-vacuity: an array of Booleans and one of floats, of shape (2,). -/
example (E : Env) := C96_all_any_first E true none [2] [⟨[2], fun i => .b (decide (i = [0]))⟩, ⟨[2], fun _ => .f (F.fin (1 / 2))⟩] (by simp)
  (by
    intro a ha
    simp only [List.mem_cons, List.not_mem_nil, or_false] at ha
    rcases ha with rfl | rfl
    · exact .inl fun _ => ⟨_, rfl⟩
    · exact .inr fun _ => ⟨_, rfl⟩) (by simp) 0 (.inl rfl)

/-- Hence one array given to `logical_all` or `logical_any` comes back with its own entries: nothing is reduced. -/
theorem C96_all_any_single (E : Env) (jit : Bool) (a : NdArr Truthy) (hb : OfBools a) (approx : Option Bool) :
    Returns (OnArrays.logicalAll E jit approx (.one 0) [.array a]) a.shape a.get ∧
    Returns (OnArrays.logicalAny E jit approx (.one 0) [.array a]) a.shape a.get := by
  have h := C96_all_any_first E jit approx a.shape [a] (by simp) (by intro b hb'; rw [List.mem_singleton] at hb'; subst hb'; exact .inl hb) (by simp) 0 (.inl rfl)
  have ok : ∀ r, logicalAll E approx [a.get r] = .ok (a.get r) ∧ logicalAny E approx [a.get r] = .ok (a.get r) := by
    intro r
    obtain ⟨v, hv⟩ := hb r
    unfold logicalAll logicalAny
    cases resolveApprox E approx <;> simp [hv, jnpMin, jnpMax, Truthy.isB, Truthy.toBool]
  obtain ⟨⟨e1, h1, r1⟩, ⟨e2, h2, r2⟩⟩ := h
  refine ⟨r1.congr fun r _ => ?_, r2.congr fun r _ => ?_⟩
  · have := (h1 r).symm.trans (ok r).1
    exact Except.ok.inj this
  · have := (h2 r).symm.trans (ok r).2
    exact Except.ok.inj this

/-- Without `axis` the result has shape `()`: as soon as one argument is an array of another shape, the call raises. -/
theorem C96_all_any_none (E : Env) (jit : Bool) (approx : Option Bool) (xs : List (ArrArg Truthy)) (h : ∃ a, .array a ∈ xs ∧ a.shape ≠ []) :
    (∃ e, Raises (OnArrays.logicalAll E jit approx .all xs) e) ∧ ∃ e, Raises (OnArrays.logicalAny E jit approx .all xs) e := by
  constructor
  · unfold OnArrays.logicalAll Raises
    cases resolveApprox E approx
    · exact reduce_none jit _ (fun a r hr => jnpReduce_all_shape hr) xs h
    · exact reduce_none jit _ (fun a r hr => jnpReduce_all_shape hr) xs h
  · unfold OnArrays.logicalAny Raises
    cases resolveApprox E approx
    · exact reduce_none jit _ (fun a r hr => jnpReduce_all_shape hr) xs h
    · exact reduce_none jit _ (fun a r hr => jnpReduce_all_shape hr) xs h

/-- Non-vacuity: two arrays of shape `(2,)`, compiled or not. -/
example (E : Env) (jit : Bool) :
    Returns (OnArrays.greater E jit (some false) {} (.array ⟨[2], fun i => if i = [0] then 3 else 1⟩) (.array ⟨[2], fun _ => 2⟩)) [2]
      (fun i => .b (decide (i = [0]))) := by
  refine ((C96_same_shape E jit (some false) {}).2 ⟨[2], fun i => if i = [0] then 3 else 1⟩ ⟨[2], fun _ => 2⟩ rfl).1.congr fun i _ => ?_
  have h3 : F.lt (2 : F) (3 : F) = true := by
    rw [show (2 : F) = F.fin 2 from rfl, show (3 : F) = F.fin 3 from rfl]; simp only [F.lt]; norm_num
  have h1 : F.lt (2 : F) (1 : F) = false := by
    rw [show (2 : F) = F.fin 2 from rfl, show (1 : F) = F.fin 1 from congrArg F.fin Nat.cast_one]; simp only [F.lt]; norm_num
  by_cases h : i = [0] <;> simp [greater, resolveApprox, h, h3, h1]

/-- Non-vacuity: shapes `(1,)` and `(2,)` broadcast in NumPy, and are refused here. -/
example (E : Env) (jit : Bool) : broadcastShapes [1] [2] = some [2] ∧
    Raises (OnArrays.logicalOr E jit none (.array ⟨[1], fun _ => .b true⟩) (.array ⟨[2], fun _ => .b false⟩)) .typeCheckError :=
  ⟨rfl, ((C96_different_shapes E jit none {}).1 ⟨[1], fun _ => .b true⟩ ⟨[2], fun _ => .b false⟩ (by simp)).1⟩

/-- Non-vacuity, and a surprise for readers of the documentation: `logical_all(jnp.array([True, False]), axis=0)` is `[True, False]`. -/
example (E : Env) : Returns (OnArrays.logicalAll E true (some false) (.one 0) [.array ⟨[2], fun i => .b (decide (i = [0]))⟩]) [2]
    (fun i => .b (decide (i = [0]))) :=
  (C96_all_any_single E true ⟨[2], fun i => .b (decide (i = [0]))⟩ (fun _ => ⟨_, rfl⟩) (some false)).1

/-- And `logical_all(jnp.array([True, False]))` raises. -/
example (E : Env) : ∃ e, Raises (OnArrays.logicalAll E true (some false) .all [.array ⟨[2], fun i => .b (decide (i = [0]))⟩]) e :=
  (C96_all_any_none E true (some false) _ ⟨_, List.mem_singleton.2 rfl, by simp⟩).1

/-! ## C97 — the setting at import -/

/-- The initial setting is approximate exactly when the variable `ENABLE_APPROX` is in the environment, with any value, and the empty one. -/
theorem C97_import (environ : List (String × String)) :
    importSetting environ = true ↔ ∃ value, ("ENABLE_APPROX", value) ∈ environ := by
  simp [importSetting]

/-- Other variables (`DISABLE_APPROX` among them) have no effect. -/
theorem C97_other_variables (environ : List (String × String)) (name value : String) (h : name ≠ "ENABLE_APPROX") :
    importSetting ((name, value) :: environ) = importSetting environ := by
  simp [importSetting, Ne.symm h]

/-- Non-vacuity: the documented variable. -/
example (environ : List (String × String)) : importSetting (("DISABLE_APPROX", "1") :: environ) = importSetting environ :=
  C97_other_variables environ "DISABLE_APPROX" "1" (by simp)

/-- Without the variable, approximation is off by default: functions called without `approx` are the hard ones. -/
theorem C97_default (environ : List (String × String)) (eps : ℝ) (h : ∀ value, ("ENABLE_APPROX", value) ∉ environ) (x y : Truthy) (u v : F) (kw : ActKw) :
    let E : Env := ⟨importSetting environ, eps⟩
    logicalOr E none x y = logicalOr E (some false) x y ∧ logicalAnd E none x y = logicalAnd E (some false) x y ∧
    logicalNot E none x = logicalNot E (some false) x ∧ greater E none kw u v = greater E (some false) kw u v ∧
    less E none kw u v = less E (some false) kw u v ∧ trueValue E none = .b true ∧ falseValue E none = .b false := by
  have : importSetting environ = false := by
    rw [← Bool.not_eq_true, C97_import]; exact fun ⟨v, hv⟩ => h v hv
  simp [this, logicalOr, logicalAnd, logicalNot, greater, less, trueValue, falseValue, resolveApprox]

/-- Non-vacuity: an environment with other variables. -/
example (eps : ℝ) (x y : Truthy) (u v : F) := C97_default [("PATH", "/bin"), ("DISABLE_APPROX", "0")] eps (by simp) x y u v {}

/-- Non-vacuity: setting the variable to `0`, or the documented `DISABLE_APPROX`. -/
example : importSetting [("ENABLE_APPROX", "0")] = true ∧ importSetting [("DISABLE_APPROX", "1"), ("ENABLE_APPROX", "")] = true ∧
    importSetting [("DISABLE_APPROX", "1")] = false ∧ importSetting [] = false := by
  refine ⟨(C97_import _).2 ⟨"0", by simp⟩, (C97_import _).2 ⟨"", by simp⟩, ?_, ?_⟩ <;> rw [← Bool.not_eq_true, C97_import] <;> simp

end DiffeRT2d.Props
