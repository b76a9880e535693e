import Verif.Lemmas.GradNan

/-! Finite cotangents and NaN cotangents in approximate mode. -/

namespace DiffeRT2d
open Classical Spec

variable {ι : Type} {i : ι}

/-- The value is a real number, and real cotangents are sent back as real multiples of themselves. -/
def Tame (r : Rev ι) : Prop := ∃ (v : ℝ) (φ : ι → ℝ), r.val = F.fin v ∧ ∀ (c : ℝ) (i : ι), r.pull (F.fin c) i = F.fin (c * φ i)

/-- Nothing is sent back. -/
def Dead (r : Rev ι) : Prop := ∀ c i, r.pull c i = F.fin 0

theorem balancedEq_fin (x z y : F) : ∃ k : ℝ, Rev.balancedEq x z y = F.fin k := by
  unfold Rev.balancedEq
  cases F.eq x z <;> cases F.eq y z <;> simp only [F.where_, if_true, Bool.false_eq_true, if_false]
  · exact ⟨0 / 1, by rw [F.zero_eq, F.one_eq, F.fin_div _ one_ne_zero]⟩
  · exact ⟨0 / 2, by rw [F.zero_eq]; exact F.fin_div _ two_ne_zero⟩
  · exact ⟨1 / 1, by rw [F.one_eq, F.fin_div _ one_ne_zero]⟩
  · exact ⟨1 / 2, by rw [F.one_eq]; exact F.fin_div _ two_ne_zero⟩

theorem nnSigmoid_fin (x : ℝ) : nnSigmoid (F.fin x) = F.fin (1 / (1 + Real.exp (-x))) := rfl

namespace Tame
variable {a b : Rev ι}

theorem of_diff {X : Type} [NormedAddCommGroup X] [NormedSpace ℝ X] {e : ι → X} {x0 : X} {f : X → ℝ} (h : Differentiates e x0 a f) : Tame a := by
  obtain ⟨h1, f', -, h3⟩ := h
  exact ⟨f x0, fun i => f' (e i), h1, h3⟩

theorem const (x : ℝ) : Tame (Rev.const (F.fin x) : Rev ι) := ⟨x, fun _ => 0, rfl, fun c i => by simp [Rev.const]⟩
theorem const_one : Tame (Rev.const 1 : Rev ι) := by rw [F.one_eq]; exact const 1
theorem const_zero : Tame (Rev.const 0 : Rev ι) := by rw [F.zero_eq]; exact const 0

theorem pull_zero (h : Tame a) (i : ι) : a.pull 0 i = F.fin 0 := by
  obtain ⟨v, φ, -, h⟩ := h
  rw [F.zero_eq, h]; simp

theorem add (ha : Tame a) (hb : Tame b) : Tame (a + b) := by
  obtain ⟨v, φ, h1, h2⟩ := ha
  obtain ⟨w, ψ, h3, h4⟩ := hb
  refine ⟨v + w, fun i => φ i + ψ i, by simp [h1, h3], fun c i => ?_⟩
  show a.pull _ i + b.pull _ i = _
  rw [h2, h4, F.fin_add, mul_add]

theorem neg (ha : Tame a) : Tame (-a) := by
  obtain ⟨v, φ, h1, h2⟩ := ha
  refine ⟨-v, fun i => -φ i, by simp [h1], fun c i => ?_⟩
  show a.pull (-F.fin c) i = _
  rw [F.fin_neg, h2]; simp

theorem sub (ha : Tame a) (hb : Tame b) : Tame (a - b) := by
  obtain ⟨v, φ, h1, h2⟩ := ha
  obtain ⟨w, ψ, h3, h4⟩ := hb
  refine ⟨v - w, fun i => φ i - ψ i, by simp [h1, h3], fun c i => ?_⟩
  show a.pull _ i + b.pull (-F.fin c) i = _
  rw [F.fin_neg, h2, h4, F.fin_add]; congr 1; ring

theorem mul (ha : Tame a) (hb : Tame b) : Tame (a * b) := by
  obtain ⟨v, φ, h1, h2⟩ := ha
  obtain ⟨w, ψ, h3, h4⟩ := hb
  refine ⟨v * w, fun i => w * φ i + v * ψ i, by simp [h1, h3], fun c i => ?_⟩
  show a.pull (F.fin c * b.val) i + b.pull (F.fin c * a.val) i = _
  rw [h1, h3, F.fin_mul, F.fin_mul, h2, h4, F.fin_add]; congr 1; ring

theorem div (ha : Tame a) (hb : Tame b) (h : b.val ≠ F.fin 0) : Tame (a / b) := by
  obtain ⟨v, φ, h1, h2⟩ := ha
  obtain ⟨w, ψ, h3, h4⟩ := hb
  have hw : w ≠ 0 := by rintro rfl; exact h h3
  refine ⟨v / w, fun i => φ i / w - v / (w * w) * ψ i, by rw [Rev.val_div, h1, h3, F.fin_div _ hw], fun c i => ?_⟩
  show a.pull (F.fin c / b.val) i + b.pull (-(F.fin c * (1 / (b.val * b.val)) * a.val)) i = _
  rw [h1, h3, F.fin_div _ hw, F.fin_mul, F.one_eq, F.fin_div _ (mul_self_ne_zero.mpr hw), F.fin_mul, F.fin_mul, F.fin_neg, h2, h4, F.fin_add]
  congr 1
  field_simp
  ring

theorem where_true (ha : Tame a) (hb : ∀ i, b.pull 0 i = F.fin 0) : Tame (Rev.where_ true a b) := by
  obtain ⟨v, φ, h1, h2⟩ := ha
  refine ⟨v, φ, by simp [h1, F.where_], fun c i => ?_⟩
  show a.pull (F.where_ true (F.fin c) 0) i + b.pull (F.where_ true 0 (F.fin c)) i = _
  simp only [F.where_, if_true, hb, h2, F.fin_add, add_zero]

theorem where_false (hb : Tame b) (ha : ∀ i, a.pull 0 i = F.fin 0) : Tame (Rev.where_ false a b) := by
  obtain ⟨v, φ, h1, h2⟩ := hb
  refine ⟨v, φ, by simp [h1, F.where_], fun c i => ?_⟩
  show a.pull (F.where_ false (F.fin c) 0) i + b.pull (F.where_ false 0 (F.fin c)) i = _
  simp only [F.where_, Bool.false_eq_true, if_false, ha, h2, F.fin_add, zero_add]

theorem where_ (c : Bool) (ha : Tame a) (hb : Tame b) : Tame (Rev.where_ c a b) := by
  cases c
  · exact hb.where_false ha.pull_zero
  · exact ha.where_true hb.pull_zero

theorem max (ha : Tame a) (hb : Tame b) : Tame (Rev.max a b) := by
  obtain ⟨v, φ, h1, h2⟩ := ha
  obtain ⟨w, ψ, h3, h4⟩ := hb
  obtain ⟨k, hk⟩ := balancedEq_fin a.val (F.max a.val b.val) b.val
  obtain ⟨l, hl⟩ := balancedEq_fin b.val (F.max a.val b.val) a.val
  refine ⟨Max.max v w, fun i => k * φ i + l * ψ i, by simp [h1, h3], fun c i => ?_⟩
  show a.pull (F.fin c * _) i + b.pull (F.fin c * _) i = _
  rw [hk, hl, F.fin_mul, F.fin_mul, h2, h4, F.fin_add]; congr 1; ring

theorem min (ha : Tame a) (hb : Tame b) : Tame (Rev.min a b) := by
  obtain ⟨v, φ, h1, h2⟩ := ha
  obtain ⟨w, ψ, h3, h4⟩ := hb
  obtain ⟨k, hk⟩ := balancedEq_fin a.val (F.min a.val b.val) b.val
  obtain ⟨l, hl⟩ := balancedEq_fin b.val (F.min a.val b.val) a.val
  refine ⟨Min.min v w, fun i => k * φ i + l * ψ i, by simp [h1, h3], fun c i => ?_⟩
  show a.pull (F.fin c * _) i + b.pull (F.fin c * _) i = _
  rw [hk, hl, F.fin_mul, F.fin_mul, h2, h4, F.fin_add]; congr 1; ring

theorem logistic (ha : Tame a) : Tame a.logistic := by
  obtain ⟨v, φ, h1, h2⟩ := ha
  refine ⟨_, fun i => (1 / (1 + Real.exp (-v)) * (1 - 1 / (1 + Real.exp (-v)))) * φ i, by simp only [Rev.logistic, h1, nnSigmoid_fin]; rfl, fun c i => ?_⟩
  show a.pull (F.fin c * (nnSigmoid a.val * (1 - nnSigmoid a.val))) i = _
  rw [h1, nnSigmoid_fin, F.one_eq, F.fin_sub, F.fin_mul, F.fin_mul, h2]; congr 1; ring

theorem sqrt (ha : Tame a) (h : ∀ v, a.val = F.fin v → 0 < v) : Tame a.sqrt := by
  obtain ⟨v, φ, h1, h2⟩ := ha
  have hv := h v h1
  have hs : Real.sqrt v ≠ 0 := (Real.sqrt_pos.mpr hv).ne'
  refine ⟨Real.sqrt v, fun i => (1 / 2 / Real.sqrt v) * φ i, by show F.sqrt a.val = _; rw [h1, F.sqrt_fin hv.le], fun c i => ?_⟩
  show a.pull (F.fin c * (0.5 / F.sqrt a.val)) i = _
  rw [h1, F.sqrt_fin hv.le, F.ofScientific_eq, F.fin_div _ hs, F.fin_mul, h2]
  congr 1
  norm_num
  ring

theorem foldl_pull {α : Type} (l : List α) (f : α → ℝ → ι → F) (h : ∀ a ∈ l, ∃ φ : ι → ℝ, ∀ c i, f a c i = F.fin (c * φ i)) :
    ∀ z : ι → ℝ, ∃ φ : ι → ℝ, ∀ c i, (l.map fun a => f a c i).foldl (· + ·) (F.fin (c * z i)) = F.fin (c * φ i) := by
  induction l with
  | nil => exact fun z => ⟨z, fun c i => rfl⟩
  | cons a l ih =>
    intro z
    obtain ⟨φ, h1⟩ := h a (by simp)
    obtain ⟨ψ, h2⟩ := ih (fun a ha => h a (by simp [ha])) (fun i => z i + φ i)
    refine ⟨ψ, fun c i => ?_⟩
    rw [← h2]
    simp only [List.map_cons, List.foldl_cons, h1, F.fin_add, mul_add]

theorem minOf_fin (xs : List F) : ∀ x : ℝ, (∀ y ∈ xs, ∃ v : ℝ, y = F.fin v) → ∃ v : ℝ, F.minOf (F.fin x) xs = F.fin v := by
  induction xs with
  | nil => exact fun x _ => ⟨x, rfl⟩
  | cons y ys ih =>
    intro x h
    obtain ⟨v, rfl⟩ := h y (by simp)
    simp only [F.minOf, List.foldl_cons, F.min_fin]
    exact ih _ fun y hy => h y (by simp [hy])

theorem minOf {x : Rev ι} {xs : List (Rev ι)} (h : ∀ y ∈ x :: xs, Tame y) : Tame (Rev.minOf x xs) := by
  have hval : ∃ v, F.minOf x.val (xs.map Rev.val) = F.fin v := by
    obtain ⟨v, -, h1, -⟩ := h x (by simp)
    rw [h1]
    refine minOf_fin _ _ fun y hy => ?_
    obtain ⟨z, hz, rfl⟩ := List.mem_map.mp hy
    obtain ⟨v, -, h1, -⟩ := h z (List.mem_cons_of_mem _ hz)
    exact ⟨v, h1⟩
  obtain ⟨v, hv⟩ := hval
  by_cases h0 : ((x :: xs).countP fun y => F.eq y.val (F.minOf x.val (xs.map Rev.val))) = 0
  · exfalso
    rw [List.countP_eq_zero] at h0
    have hmem : ∀ (xs : List F) (x : F), F.minOf x xs ≠ F.nan → ∃ y ∈ x :: xs, F.eq y (F.minOf x xs) = true := by
      intro xs
      induction xs with
      | nil =>
        intro x hx
        refine ⟨x, by simp, ?_⟩
        simp only [F.minOf, List.foldl_nil] at hx ⊢
        cases x <;> simp_all [F.eq]
      | cons y ys ih =>
        intro x hx
        obtain ⟨z, hz, he⟩ := ih (F.min x y) hx
        rcases List.mem_cons.mp hz with rfl | hz
        · have : F.min x y = x ∨ F.min x y = y := by
            unfold F.min
            split
            · rename_i hn
              rcases Bool.or_eq_true _ _ ▸ hn with hn | hn
              · cases x <;> simp_all [F.isNan]
              · cases y <;> simp_all [F.isNan]
            · split <;> simp
          have he' : F.eq (F.min x y) (F.minOf x (y :: ys)) = true := he
          rcases this with e | e
          · exact ⟨x, by simp, by rwa [e] at he'⟩
          · exact ⟨y, by simp, by rwa [e] at he'⟩
        · exact ⟨z, by simp [hz], he⟩
    obtain ⟨y, hy, he⟩ := hmem (xs.map Rev.val) x.val (by rw [hv]; simp)
    have hy' : y ∈ (x :: xs).map Rev.val := by simpa using hy
    obtain ⟨z, hz, rfl⟩ := List.mem_map.mp hy'
    exact h0 z hz he
  · have hc : ((((x :: xs).countP fun y => F.eq y.val (F.minOf x.val (xs.map Rev.val))) : ℕ) : ℝ) ≠ 0 := by exact_mod_cast h0
    have h1 : ∀ y ∈ x :: xs, ∃ φ : ι → ℝ, ∀ c i, y.pull (F.where_ (F.eq y.val (F.minOf x.val (xs.map Rev.val))) 1 0 *
        (F.fin c / F.fin ((x :: xs).countP fun y => F.eq y.val (F.minOf x.val (xs.map Rev.val))))) i = F.fin (c * φ i) := by
      intro y hy
      obtain ⟨-, φ, -, h2⟩ := h y hy
      cases F.eq y.val (F.minOf x.val (xs.map Rev.val))
      · refine ⟨fun _ => 0, fun c i => ?_⟩
        rw [F.fin_div _ hc]
        simp only [F.where_, Bool.false_eq_true, if_false, F.zero_eq, F.fin_mul, h2]
        simp
      · refine ⟨fun i => (1 / (((x :: xs).countP fun y => F.eq y.val (F.minOf x.val (xs.map Rev.val))) : ℕ)) * φ i, fun c i => ?_⟩
        rw [F.fin_div _ hc]
        simp only [F.where_, if_true, F.one_eq, F.fin_mul, h2]
        congr 1; ring
    obtain ⟨φ, h2⟩ := foldl_pull (x :: xs) (fun y c i => y.pull (F.where_ (F.eq y.val (F.minOf x.val (xs.map Rev.val))) 1 0 *
        (F.fin c / F.fin ((x :: xs).countP fun y => F.eq y.val (F.minOf x.val (xs.map Rev.val))))) i) h1 (fun _ => 0)
    refine ⟨v, φ, hv, fun c i => ?_⟩
    have h3 := h2 c i
    rw [mul_zero, ← F.zero_eq] at h3
    exact h3

theorem nanToNum (h : Tame a) : Tame a.nanToNum := by
  obtain ⟨v, -, hv, -⟩ := id h
  have h1 : Tame (Rev.where_ a.val.isNan (Rev.const 0) a) := where_ _ const_zero h
  have h2 := where_ (F.eq (Rev.where_ a.val.isNan (Rev.const 0) a).val F.pinf) (const F.maxFinite) h1
  exact where_ _ (const (-F.maxFinite)) h2

end Tame

namespace Dead
variable {a b : Rev ι}
theorem const (x : F) : Dead (Rev.const x : Rev ι) := fun c i => by simp [Rev.const]
theorem sub (ha : Dead a) (hb : Dead b) : Dead (a - b) := fun c i => by show a.pull _ i + b.pull _ i = _; rw [ha, hb]; simp
theorem add (ha : Dead a) (hb : Dead b) : Dead (a + b) := fun c i => by show a.pull _ i + b.pull _ i = _; rw [ha, hb]; simp
theorem mul (ha : Dead a) (hb : Dead b) : Dead (a * b) := fun c i => by show a.pull _ i + b.pull _ i = _; rw [ha, hb]; simp
theorem div (ha : Dead a) (hb : Dead b) : Dead (a / b) := fun c i => by show a.pull _ i + b.pull _ i = _; rw [ha, hb]; simp
theorem max (ha : Dead a) (hb : Dead b) : Dead (Rev.max a b) := fun c i => by show a.pull _ i + b.pull _ i = _; rw [ha, hb]; simp
theorem min (ha : Dead a) (hb : Dead b) : Dead (Rev.min a b) := fun c i => by show a.pull _ i + b.pull _ i = _; rw [ha, hb]; simp
theorem logistic (ha : Dead a) : Dead a.logistic := fun c i => ha _ i
theorem tame (ha : Dead a) {v : ℝ} (hv : a.val = F.fin v) : Tame a := ⟨v, fun _ => 0, hv, fun c i => by rw [ha]; simp⟩
end Dead

namespace Nans
variable {a b : Rev ι}
theorem div_left (h : Nans i a) : Nans i (a / b) := fun c => by
  show a.pull _ i + b.pull _ i = _; rw [h]; simp
theorem max_left (h : Nans i a) : Nans i (Rev.max a b) := fun c => by
  show a.pull _ i + b.pull _ i = _; rw [h]; simp
theorem min_left (h : Nans i a) : Nans i (Rev.min a b) := fun c => by
  show a.pull _ i + b.pull _ i = _; rw [h]; simp
theorem min_right (h : Nans i b) : Nans i (Rev.min a b) := fun c => by
  show a.pull _ i + b.pull _ i = _; rw [h]; simp
theorem logistic (h : Nans i a) : Nans i a.logistic := fun c => h _
theorem where_right (c : Bool) (h : Nans i b) : Nans i (Rev.where_ c a b) := fun ct => by
  show a.pull _ i + b.pull _ i = _; rw [h]; simp
theorem nanToNum (h : Nans i a) : Nans i a.nanToNum := by
  exact (((h.where_right _).where_right _).where_right _)

theorem foldlF : ∀ (l : List F) (z : F), (z = F.nan ∨ F.nan ∈ l) → l.foldl (· + ·) z = F.nan := by
  intro l
  induction l with
  | nil => intro z h; simpa using h
  | cons a l ih =>
    intro z h
    simp only [List.foldl_cons]
    apply ih
    rcases h with rfl | h
    · left; simp
    · rcases List.mem_cons.mp h with rfl | h
      · left; simp
      · exact .inr h

theorem minOf {x : Rev ι} {xs : List (Rev ι)} (h : ∃ y ∈ x :: xs, Nans i y) : Nans i (Rev.minOf x xs) := by
  obtain ⟨y, hy, h⟩ := h
  intro c
  refine foldlF _ _ (.inr ?_)
  exact List.mem_map.mpr ⟨y, hy, h _⟩

end Nans

/-- An activation whose differentiated form does no harm. -/
structure TameKw (kw : Rev.ActKw ι) : Prop where
  real : ∀ x : Rev ι, Tame x → Tame (Rev.activation kw x)
  far : ∀ x : Rev ι, Dead x → (x.val = F.pinf ∨ x.val = F.ninf) → Tame (Rev.activation kw x)
  nans : ∀ (x : Rev ι) (i : ι), Nans i x → Nans i (Rev.activation kw x)

theorem tameKw_sigmoid {a : ℝ} (ha : 0 < a) : TameKw (⟨F.fin a, Rev.sigmoid⟩ : Rev.ActKw ι) := by
  refine ⟨fun x h => ((Tame.const a).mul h).logistic, fun x h hv => ?_, fun x i h => h.mul_right.logistic⟩
  have hd : Dead (Rev.activation (⟨F.fin a, Rev.sigmoid⟩ : Rev.ActKw ι) x) := ((Dead.const _).mul h).logistic
  have h1 : (F.fin a * F.pinf : F) = F.pinf := by show F.mul _ _ = _; simp [F.mul, ha, ha.ne']
  have h2 : (F.fin a * F.ninf : F) = F.ninf := by show F.mul _ _ = _; simp [F.mul, ha, ha.ne']
  rcases hv with hv | hv
  · refine hd.tame (v := 1) ?_
    show nnSigmoid (F.fin a * x.val) = _
    rw [hv, h1]; exact F.one_eq
  · refine hd.tame (v := 0) ?_
    show nnSigmoid (F.fin a * x.val) = _
    rw [hv, h2]; exact F.zero_eq

theorem tameKw_hardSigmoid {a : ℝ} (ha : 0 < a) : TameKw (⟨F.fin a, Rev.hardSigmoid⟩ : Rev.ActKw ι) := by
  have h6 : (Rev.const 6 : Rev ι) = Rev.const (F.fin 6) := rfl
  have h3 : (Rev.const 3 : Rev ι) = Rev.const (F.fin 3) := rfl
  refine ⟨fun x h => ?_, fun x h hv => ?_, fun x i h => (h.mul_right.add_left.max_left.min_left).div_left⟩
  · refine Tame.div (Tame.min (Tame.max (((Tame.const a).mul h).add ?_) .const_zero) ?_) ?_ ?_
    · rw [h3]; exact .const _
    · rw [h6]; exact .const _
    · rw [h6]; exact .const _
    · rw [h6]; simp
  · have hd : Dead (Rev.activation (⟨F.fin a, Rev.hardSigmoid⟩ : Rev.ActKw ι) x) :=
      ((((Dead.const _).mul h).add (.const _)).max (.const _)).min (.const _) |>.div (.const _)
    have h1 : (F.fin a * F.pinf : F) = F.pinf := by show F.mul _ _ = _; simp [F.mul, ha, ha.ne']
    have h2 : (F.fin a * F.ninf : F) = F.ninf := by show F.mul _ _ = _; simp [F.mul, ha, ha.ne']
    have hv' : (Rev.activation (⟨F.fin a, Rev.hardSigmoid⟩ : Rev.ActKw ι) x).val = hardSigmoid x.val (F.fin a) := rfl
    obtain ⟨_, -, -, h5⟩ := softStep_hardSigmoid
    rcases hv with hv | hv
    · exact hd.tame (v := 1) (by rw [hv', hv]; exact (h5 a ha).1)
    · exact hd.tame (v := 0) (by rw [hv', hv]; exact (h5 a ha).2.1)

end DiffeRT2d
