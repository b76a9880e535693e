import Verif.Lemmas.Geometry
import Mathlib.Algebra.Order.BigOperators.Group.List

/-! Norms, normalization, lengths. -/

namespace DiffeRT2d
open Spec Classical

/-- Euclidean norm over the reals. -/
noncomputable def nrm (v : Pt) : ℝ := Real.sqrt (v.x * v.x + v.y * v.y)

theorem V2.fin_norm' (v : Pt) : V2.norm (V2.fin v) = F.fin (nrm v) := V2.fin_norm v

theorem nrm_nonneg (v : Pt) : 0 ≤ nrm v := Real.sqrt_nonneg _
theorem nrm_sq (v : Pt) : nrm v * nrm v = v.x * v.x + v.y * v.y :=
  Real.mul_self_sqrt (by nlinarith [mul_self_nonneg v.x, mul_self_nonneg v.y])
theorem nrm_eq_zero (v : Pt) : nrm v = 0 ↔ v = ⟨0, 0⟩ := by
  rw [V2.eq_zero_iff, ← nrm_sq, mul_self_eq_zero]
theorem nrm_pos {v : Pt} (h : v ≠ ⟨0, 0⟩) : 0 < nrm v :=
  lt_of_le_of_ne (nrm_nonneg v) fun e => h ((nrm_eq_zero v).mp e.symm)
theorem nrm_eq {v : Pt} {r : ℝ} (h0 : 0 ≤ r) (h : r * r = v.x * v.x + v.y * v.y) : nrm v = r := by
  unfold nrm; rw [← h, Real.sqrt_mul_self h0]
theorem nrm_neg (v : Pt) : nrm (-v) = nrm v := by simp [nrm]
theorem nrm_smul (k : ℝ) (v : Pt) : nrm (V2.smul k v) = |k| * nrm v := by
  apply nrm_eq (mul_nonneg (abs_nonneg _) (nrm_nonneg _))
  simp only [V2.smul_x, V2.smul_y]
  have := nrm_sq v
  have h2 := abs_mul_abs_self k
  calc |k| * nrm v * (|k| * nrm v) = (|k| * |k|) * (nrm v * nrm v) := by ring
    _ = _ := by rw [this, h2]; ring

theorem cauchy (a b : Pt) : a.x * b.x + a.y * b.y ≤ nrm a * nrm b := by
  apply (abs_le_of_sq_le_sq' _ (mul_nonneg (nrm_nonneg a) (nrm_nonneg b))).2
  have ha := nrm_sq a
  have hb := nrm_sq b
  have : (nrm a * nrm b) ^ 2 = (nrm a * nrm a) * (nrm b * nrm b) := by ring
  rw [this, ha, hb]
  nlinarith [sq_nonneg (a.x * b.y - a.y * b.x)]

theorem nrm_add_le (a b : Pt) : nrm (a + b) ≤ nrm a + nrm b := by
  apply (abs_le_of_sq_le_sq' _ (add_nonneg (nrm_nonneg a) (nrm_nonneg b))).2
  have h := nrm_sq (a + b)
  have ha := nrm_sq a
  have hb := nrm_sq b
  have hc := cauchy a b
  simp only [V2.add_x, V2.add_y] at h
  nlinarith

theorem abs_nrm_add_sub_le (a b : Pt) : |nrm (a + b) - nrm a| ≤ nrm b := by
  rw [abs_le]
  constructor
  · have h := nrm_add_le (a + b) (-b)
    rw [nrm_neg] at h
    have e : a + b + -b = a := by ext <;> simp
    rw [e] at h; linarith
  · linarith [nrm_add_le a b]

theorem eucl_eq_nrm (p q : Pt) : eucl p q = nrm (q - p) := by
  simp only [eucl, nrm, V2.sub_x, V2.sub_y, pow_two]

theorem eucl_nonneg (p q : Pt) : 0 ≤ eucl p q := Real.sqrt_nonneg _
theorem eucl_comm (p q : Pt) : eucl p q = eucl q p := by
  unfold eucl; congr 1; ring
theorem eucl_self (p : Pt) : eucl p p = 0 := by simp [eucl]
theorem eucl_triangle (p q r : Pt) : eucl p r ≤ eucl p q + eucl q r := by
  rw [eucl_eq_nrm, eucl_eq_nrm, eucl_eq_nrm]
  have := nrm_add_le (q - p) (r - q)
  have e : q - p + (r - q) = r - p := by ext <;> simp
  rwa [e] at this

/-! ### normalize -/

/-- The divisor used by `normalize`. -/
noncomputable def len1 (v : Pt) : ℝ := if nrm v = 0 then 1 else nrm v
/-- The unit vector computed by `normalize`. -/
noncomputable def unit (v : Pt) : Pt := ⟨v.x / len1 v, v.y / len1 v⟩

theorem len1_pos (v : Pt) : 0 < len1 v := by
  unfold len1; split
  · exact one_pos
  · rename_i h; exact lt_of_le_of_ne (nrm_nonneg v) (Ne.symm h)

theorem normalize_fin (v : Pt) : normalize (V2.fin v) = (V2.fin (unit v), F.fin (len1 v)) := by
  have h := len1_pos v
  have e : F.where_ (F.eq (V2.norm (V2.fin v)) 0) 1 (V2.norm (V2.fin v)) = F.fin (len1 v) := by
    rw [V2.fin_norm']; unfold len1
    by_cases h0 : nrm v = 0 <;> simp [h0]
  simp only [normalize, e]
  rw [V2.fin_sdiv _ h.ne']; rfl

theorem unit_zero : unit ⟨0, 0⟩ = ⟨0, 0⟩ := by simp [unit]
theorem unit_sq {v : Pt} (h : v ≠ ⟨0, 0⟩) : (unit v).x * (unit v).x + (unit v).y * (unit v).y = 1 := by
  have h0 : nrm v ≠ 0 := fun e => h ((nrm_eq_zero v).mp e)
  simp only [unit, len1, h0, if_false]
  rw [div_mul_div_comm, div_mul_div_comm, ← add_div, nrm_sq]
  exact div_self (by rw [← nrm_sq]; exact mul_self_ne_zero.mpr h0)
theorem unit_sq_le (v : Pt) : (unit v).x * (unit v).x + (unit v).y * (unit v).y ≤ 1 := by
  by_cases h : v = ⟨0, 0⟩
  · subst h; simp [unit_zero]
  · exact (unit_sq h).le
theorem unit_mul (v : Pt) : V2.smul (len1 v) (unit v) = v := by
  have h := (len1_pos v).ne'
  ext <;> simp [unit] <;> field_simp
theorem unit_neg (v : Pt) : unit (-v) = -unit v := by
  have : len1 (-v) = len1 v := by simp [len1, nrm_neg]
  ext <;> simp [unit, this, neg_div]
theorem unit_smul_pos {k : ℝ} (hk : 0 < k) (v : Pt) : unit (V2.smul k v) = unit v := by
  by_cases h : v = ⟨0, 0⟩
  · subst h; congr 1; ext <;> simp
  · have h0 : nrm v ≠ 0 := fun e => h ((nrm_eq_zero v).mp e)
    have h1 : nrm (V2.smul k v) = k * nrm v := by rw [nrm_smul, abs_of_pos hk]
    have h2 : k * nrm v ≠ 0 := mul_ne_zero hk.ne' h0
    ext <;> simp only [unit, len1, h1, h2, h0, if_false, V2.smul_x, V2.smul_y] <;>
      rw [mul_div_mul_left _ _ hk.ne']
theorem unit_of_sq {v : Pt} (h : v.x * v.x + v.y * v.y = 1) : unit v = v := by
  have h1 : nrm v = 1 := nrm_eq zero_le_one (by linarith)
  ext <;> simp [unit, len1, h1]
theorem unit_smul_neg {k : ℝ} (hk : k < 0) (v : Pt) : unit (V2.smul k v) = -unit v := by
  have : V2.smul k v = -(V2.smul (-k) v) := by ext <;> simp
  rw [this, unit_neg, unit_smul_pos (by linarith)]
theorem isDirection_unit (v : Pt) : IsDirection v (unit v) := by
  by_cases h : v = ⟨0, 0⟩
  · left; exact ⟨h, by rw [h, unit_zero]⟩
  · right
    refine ⟨by have := unit_sq h; nlinarith, len1 v, len1_pos v, ?_⟩
    exact (unit_mul v).symm
theorem IsDirection.eq_unit {v u : Pt} (h : IsDirection v u) : u = unit v := by
  rcases h with ⟨rfl, rfl⟩ | ⟨hu, l, hl, rfl⟩
  · exact unit_zero.symm
  · have := unit_smul_pos hl u
    rw [unit_of_sq (v := u) (by nlinarith)] at this
    exact this.symm

/-! ### path length -/

/-- Real form of `path_length`. -/
noncomputable def plen (eps : ℝ) : List Pt → ℝ
  | p :: q :: ps => nrm (q - p + ⟨eps, eps⟩) + plen eps (q :: ps)
  | _ => 0

theorem F.sum_cons (x : F) (xs : List F) : F.sum (x :: xs) = x + F.sum xs := by
  unfold F.sum
  have : ∀ (ys : List F) (a b : F), ys.foldl (· + ·) (a + b) = a + ys.foldl (· + ·) b := by
    intro ys
    induction ys with
    | nil => intros; rfl
    | cons y ys ih => intro a b; simp only [List.foldl_cons, F.add_assoc']; exact ih a (b + y)
  have := this xs x (F.fin 0)
  simp only [List.foldl_cons, F.zero_add']
  rw [← this, F.add_zero']

theorem F.sum_nil : F.sum [] = F.fin 0 := rfl

theorem F.sum_fin (xs : List ℝ) : F.sum (xs.map F.fin) = F.fin xs.sum := by
  induction xs with
  | nil => rfl
  | cons x xs ih => rw [List.map_cons, F.sum_cons, ih, F.fin_add, List.sum_cons]

theorem pathLength_fin (E : Env) (pts : List Pt) :
    pathLength E (pts.map V2.fin) = F.fin (plen E.eps pts) := by
  unfold pathLength
  induction pts with
  | nil => simp [diffs, plen, F.sum_nil]
  | cons p ps ih =>
    cases ps with
    | nil => simp [diffs, plen, F.sum_nil]
    | cons q qs =>
      simp only [List.map_cons] at ih
      simp only [List.map_cons, diffs, plen, F.sum_cons, ih]
      have : (⟨F.fin E.eps, F.fin E.eps⟩ : V2 F) = V2.fin ⟨E.eps, E.eps⟩ := rfl
      rw [this, V2.fin_sub, V2.fin_add, V2.fin_norm', F.fin_add]

theorem nrm_eps (e : ℝ) : nrm ⟨e, e⟩ = Real.sqrt 2 * |e| := by
  apply nrm_eq (by positivity)
  have h := Real.mul_self_sqrt (show (0:ℝ) ≤ 2 by norm_num)
  have h2 := abs_mul_abs_self e
  calc Real.sqrt 2 * |e| * (Real.sqrt 2 * |e|) = (Real.sqrt 2 * Real.sqrt 2) * (|e| * |e|) := by ring
    _ = _ := by rw [h, h2]; ring

theorem plen_approx (e : ℝ) (pts : List Pt) :
    |plen e pts - polyLength pts| ≤ (pts.length - 1 : ℕ) * (Real.sqrt 2 * |e|) := by
  induction pts with
  | nil => simp [plen, polyLength]
  | cons p ps ih =>
    cases ps with
    | nil => simp [plen, polyLength]
    | cons q qs =>
      simp only [plen, polyLength, List.length_cons] at ih ⊢
      have h1 := abs_nrm_add_sub_le (q - p) ⟨e, e⟩
      rw [nrm_eps, ← eucl_eq_nrm] at h1
      have e1 : nrm (q - p + ⟨e, e⟩) + plen e (q :: qs) - (eucl p q + polyLength (q :: qs)) =
          (nrm (q - p + ⟨e, e⟩) - eucl p q) + (plen e (q :: qs) - polyLength (q :: qs)) := by ring
      rw [e1]
      refine (abs_add_le _ _).trans ?_
      have : ((qs.length + 1 + 1 - 1 : ℕ) : ℝ) = 1 + (qs.length + 1 - 1 : ℕ) := by
        push_cast [Nat.add_sub_cancel]; ring
      rw [this, add_mul, one_mul]
      exact add_le_add h1 ih

theorem plen_nonneg (e : ℝ) (pts : List Pt) : 0 ≤ plen e pts := by
  induction pts with
  | nil => simp [plen]
  | cons p ps ih =>
    cases ps with
    | nil => simp [plen]
    | cons q qs => simp only [plen]; exact add_nonneg (nrm_nonneg _) ih

theorem polyLength_nonneg (pts : List Pt) : 0 ≤ polyLength pts := by
  induction pts with
  | nil => simp [polyLength]
  | cons p ps ih =>
    cases ps with
    | nil => simp [polyLength]
    | cons q qs => simp only [polyLength]; exact add_nonneg (eucl_nonneg _ _) ih

theorem eucl_le_polyLength (p : Pt) (ps : List Pt) :
    eucl p ((p :: ps).getLast (by simp)) ≤ polyLength (p :: ps) := by
  induction ps generalizing p with
  | nil => simp [polyLength, eucl_self]
  | cons q qs ih =>
    rw [List.getLast_cons (by simp)]
    simp only [polyLength]
    exact (eucl_triangle p q _).trans (by linarith [ih q])

theorem polyLength_append (ps : List Pt) (q : Pt) (qs : List Pt) :
    polyLength (ps ++ q :: qs) = polyLength (ps ++ [q]) + polyLength (q :: qs) := by
  induction ps with
  | nil => simp [polyLength]
  | cons p ps ih =>
    cases ps with
    | nil => simp [polyLength]
    | cons r rs => simp only [List.cons_append, polyLength] at ih ⊢; rw [ih]; ring

theorem polyLength_reverse (pts : List Pt) : polyLength pts.reverse = polyLength pts := by
  induction pts with
  | nil => rfl
  | cons p ps ih =>
    cases ps with
    | nil => rfl
    | cons q qs =>
      simp only [List.reverse_cons, List.append_assoc] at ih ⊢
      rw [List.cons_append, polyLength_append, ih]
      simp only [polyLength, List.nil_append]
      rw [eucl_comm]; ring

theorem plen_translate (e : ℝ) (t : Pt) (pts : List Pt) :
    plen e (pts.map (· + t)) = plen e pts := by
  induction pts with
  | nil => rfl
  | cons p ps ih =>
    cases ps with
    | nil => rfl
    | cons q qs =>
      simp only [List.map_cons, plen] at ih ⊢
      rw [ih]; congr 2; congr 1
      ext <;> simp

end DiffeRT2d
