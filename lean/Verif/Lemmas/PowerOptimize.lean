import Verif.Spec.PowerOptimize
import Verif.Lemmas.Adam
import Verif.Lemmas.GradNan
import Verif.Lemmas.GradTame

/-! # The optimizer of `plot_power_optimize.py`, and the smallest of several powers -/

namespace DiffeRT2d
open Classical Spec

/-! ### One coordinate -/

/-- Next first moment. -/
noncomputable def cm (x m : F) : F := F.fin (1 - 0.9) * x + F.fin 0.9 * m
/-- Next second moment. -/
noncomputable def cv (x v : F) : F := F.fin (1 - 0.999) * (x * x) + F.fin 0.999 * v
/-- Update of step `k`, from the new moments. -/
noncomputable def ca (lr : F) (k : ℕ) (m v : F) : F := -lr * (m / F.fin (1 - 0.9 ^ (k + 1)) / (F.sqrt (v / F.fin (1 - 0.999 ^ (k + 1))) + 1e-8))
/-- The same without NaN. -/
noncomputable def cu (lr : F) (k : ℕ) (m v : F) : F := F.where_ (ca lr k m v).isNan 0 (ca lr k m v)

/-- The moments of a coordinate that has met a gradient that is not real. -/
def Spoilt (m v : F) : Prop := NotReal m ∧ (v = F.pinf ∨ v = F.nan)

theorem notReal_cases {x : F} (h : NotReal x) : x = F.pinf ∨ x = F.ninf ∨ x = F.nan := by
  cases x with
  | fin r => exact absurd rfl (h r)
  | pinf => exact .inl rfl
  | ninf => exact .inr (.inl rfl)
  | nan => exact .inr (.inr rfl)

theorem notReal_pinf : NotReal F.pinf := fun _ h => by cases h
theorem notReal_ninf : NotReal F.ninf := fun _ h => by cases h
theorem notReal_nan : NotReal F.nan := fun _ h => by cases h

theorem pos_mul_pinf {a : ℝ} (h : 0 < a) : F.fin a * F.pinf = F.pinf := by show F.mul _ _ = _; simp only [F.mul, h.ne', if_false, h, if_true]
theorem pos_mul_ninf {a : ℝ} (h : 0 < a) : F.fin a * F.ninf = F.ninf := by show F.mul _ _ = _; simp only [F.mul, h.ne', if_false, h, if_true]
theorem pinf_div_pos {a : ℝ} (h : 0 < a) : F.pinf / F.fin a = F.pinf := by show F.div _ _ = _; simp only [F.div, not_lt.mpr h.le, if_false]
theorem ninf_div_pos {a : ℝ} (h : 0 < a) : F.ninf / F.fin a = F.ninf := by show F.div _ _ = _; simp only [F.div, not_lt.mpr h.le, if_false]

theorem notReal_add {x y : F} (h : NotReal x ∨ NotReal y) : NotReal (x + y) := by
  intro r hr
  cases x <;> cases y <;> first
      | (rcases h with h | h
         · exact h _ rfl
         · exact h _ rfl)
      | cases hr

theorem notReal_pos_mul {a : ℝ} (ha : 0 < a) {x : F} (h : NotReal x) : NotReal (F.fin a * x) := by
  rcases notReal_cases h with rfl | rfl | rfl
  · rw [pos_mul_pinf ha]; exact notReal_pinf
  · rw [pos_mul_ninf ha]; exact notReal_ninf
  · rw [F.mul_nan]; exact notReal_nan

theorem spoilt_update {lr : ℝ} {k : ℕ} {m v : F} (h : Spoilt m v) : ca (F.fin lr) k m v = F.nan := by
  have h1 := pow9 k
  have h2 := pow999 k
  have he : (1e-8 : F) = F.fin 1e-8 := rfl
  obtain ⟨hm, hv⟩ := h
  have hq : ∀ m : F, NotReal m → m / F.pinf = F.nan := by
    intro m hm
    rcases notReal_cases hm with rfl | rfl | rfl <;> rfl
  have hm' : NotReal (m / F.fin (1 - 0.9 ^ (k + 1))) := by
    rcases notReal_cases hm with rfl | rfl | rfl
    · rw [pinf_div_pos h1]; exact notReal_pinf
    · rw [ninf_div_pos h1]; exact notReal_ninf
    · rw [F.nan_div]; exact notReal_nan
  unfold ca
  rcases hv with rfl | rfl
  · rw [pinf_div_pos h2, he, show F.sqrt F.pinf + F.fin 1e-8 = F.pinf from rfl, hq _ hm', F.mul_nan]
  · rw [F.nan_div, show F.sqrt F.nan = F.nan from rfl, F.nan_add, F.div_nan, F.mul_nan]

theorem spoilt_step {x m v : F} (h : Spoilt m v ∨ (NotReal x ∧ ∃ a b : ℝ, m = F.fin a ∧ v = F.fin b)) : Spoilt (cm x m) (cv x v) := by
  have p1 : (0 : ℝ) < 1 - 0.9 := by norm_num
  have p2 : (0 : ℝ) < 1 - 0.999 := by norm_num
  have p3 : (0 : ℝ) < 0.9 := by norm_num
  have p4 : (0 : ℝ) < 0.999 := by norm_num
  rcases h with ⟨hm, hv⟩ | ⟨hx, a, b, rfl, rfl⟩
  · refine ⟨notReal_add (.inr (notReal_pos_mul p3 hm)), ?_⟩
    unfold cv
    have hs : (∃ r, x * x = F.fin r) ∨ x * x = F.pinf ∨ x * x = F.nan := by
      cases x with
      | fin r => exact .inl ⟨_, F.fin_mul _ _⟩
      | pinf => exact .inr (.inl rfl)
      | ninf => exact .inr (.inl rfl)
      | nan => exact .inr (.inr rfl)
    rcases hv with rfl | rfl
    · rw [pos_mul_pinf p4]
      rcases hs with ⟨r, hs⟩ | hs | hs
      · rw [hs, F.fin_mul]; exact .inl rfl
      · rw [hs, pos_mul_pinf p2]; exact .inl rfl
      · rw [hs, F.mul_nan]; exact .inr rfl
    · rw [F.mul_nan, F.add_nan]; exact .inr rfl
  · refine ⟨notReal_add (.inl (notReal_pos_mul p1 hx)), ?_⟩
    unfold cv
    rw [F.fin_mul]
    rcases notReal_cases hx with rfl | rfl | rfl
    · rw [show F.pinf * F.pinf = F.pinf from rfl, pos_mul_pinf p2]; exact .inl rfl
    · rw [show F.ninf * F.ninf = F.pinf from rfl, pos_mul_pinf p2]; exact .inl rfl
    · simp

/-- What a coordinate can be after `k` steps. -/
def CoordInv (k : ℕ) (m v : F) : Prop := (∃ g : ℕ → ℝ, m = F.fin (am g k) ∧ v = F.fin (av g k)) ∨ Spoilt m v

theorem am_congr {g g' : ℕ → ℝ} {k : ℕ} (h : ∀ j < k, g j = g' j) : am g k = am g' k := by
  induction k with
  | zero => rfl
  | succ k ih => simp only [am]; rw [h k (by omega), ih fun j hj => h j (by omega)]

theorem av_congr {g g' : ℕ → ℝ} {k : ℕ} (h : ∀ j < k, g j = g' j) : av g k = av g' k := by
  induction k with
  | zero => rfl
  | succ k ih => simp only [av]; rw [h k (by omega), ih fun j hj => h j (by omega)]

theorem ca_real (lr : ℝ) (g : ℕ → ℝ) (k : ℕ) : ca (F.fin lr) k (F.fin (am g (k + 1))) (F.fin (av g (k + 1))) = F.fin (au lr g k) := by
  have he : (1e-8 : F) = F.fin 1e-8 := rfl
  have h1 := pow9 k
  have h2 := pow999 k
  have h3 : 0 ≤ av g (k + 1) / (1 - 0.999 ^ (k + 1) : ℝ) := div_nonneg (av_nonneg _ _) h2.le
  have h4 : Real.sqrt (av g (k + 1) / (1 - 0.999 ^ (k + 1))) + 1e-8 ≠ 0 := by positivity
  simp only [ca, F.fin_mul, F.fin_add, F.fin_div _ h1.ne', F.fin_div _ h2.ne', F.sqrt_fin h3, he, F.fin_div _ h4, F.fin_neg, au]

theorem coord_step {lr : ℝ} (hlr : 0 < lr) {k : ℕ} {m v : F} (h : CoordInv k m v) (x : F) :
    ∃ u : ℝ, cu (F.fin lr) k (cm x m) (cv x v) = F.fin u ∧ |u| < lr * Real.sqrt (370 / 7) ∧ CoordInv (k + 1) (cm x m) (cv x v) ∧
      (Spoilt m v ∨ NotReal x → u = 0 ∧ Spoilt (cm x m) (cv x v)) := by
  have hpos : 0 < lr * Real.sqrt (370 / 7) := mul_pos hlr (Real.sqrt_pos.mpr (by norm_num))
  have dead : Spoilt (cm x m) (cv x v) → ∃ u : ℝ, cu (F.fin lr) k (cm x m) (cv x v) = F.fin u ∧ |u| < lr * Real.sqrt (370 / 7) ∧ CoordInv (k + 1) (cm x m) (cv x v) ∧
      (Spoilt m v ∨ NotReal x → u = 0 ∧ Spoilt (cm x m) (cv x v)) := by
    intro hd
    refine ⟨0, ?_, by simpa using hpos, .inr hd, fun _ => ⟨rfl, hd⟩⟩
    rw [cu, spoilt_update hd]; exact F.zero_eq
  rcases h with ⟨g, rfl, rfl⟩ | h
  · by_cases hx : NotReal x
    · exact dead (spoilt_step (.inr ⟨hx, _, _, rfl, rfl⟩))
    · simp only [NotReal, not_forall, not_not] at hx
      obtain ⟨r, rfl⟩ := hx
      let g' : ℕ → ℝ := fun j => if j = k then r else g j
      have e1 : cm (F.fin r) (F.fin (am g k)) = F.fin (am g' (k + 1)) := by
        simp only [cm, F.fin_mul, F.fin_add, am, g', if_true]
        rw [am_congr (g := g) (g' := fun j => if j = k then r else g j) fun j hj => by simp [hj.ne]]
      have e2 : cv (F.fin r) (F.fin (av g k)) = F.fin (av g' (k + 1)) := by
        simp only [cv, F.fin_mul, F.fin_add, av, g', if_true]
        rw [av_congr (g := g) (g' := fun j => if j = k then r else g j) fun j hj => by simp [hj.ne]]
      refine ⟨au lr g' k, ?_, abs_au_lt hlr g' k, .inl ⟨g', e1, e2⟩, ?_⟩
      · rw [e1, e2, cu, ca_real]; rfl
      · rintro (⟨h, -⟩ | h)
        · exact absurd rfl (h _)
        · exact absurd rfl (h r)
  · exact dead (spoilt_step (.inl h))

theorem coord_zero (lr : ℝ) (k : ℕ) : cm (F.fin 0) (F.fin 0) = F.fin 0 ∧ cv (F.fin 0) (F.fin 0) = F.fin 0 ∧ cu (F.fin lr) k (F.fin 0) (F.fin 0) = F.fin 0 := by
  have e : ∀ k, am (fun _ => 0) k = 0 ∧ av (fun _ => 0) k = 0 := by
    intro k
    induction k with
    | zero => simp [am, av]
    | succ k ih => simp [am, av, ih]
  refine ⟨by simp [cm], by simp [cv], ?_⟩
  have := ca_real lr (fun _ => 0) k
  rw [(e _).1, (e _).2] at this
  have h0 : au lr (fun _ => 0) k = 0 := by simp [au, (e _).1]
  rw [cu, this, h0]; rfl

/-! ### The run -/

/-- The state of the optimizer of the example. -/
def exState (lr : F) (mx my vx vy : F) (k : ℕ) : (exampleOptimizer lr).State := (([mx, my], [vx, vy], k), ())

theorem exState_inj {lr a b c d a' b' c' d' : F} {k k' : ℕ} (h : exState lr a b c d k = exState lr a' b' c' d' k') : a = a' ∧ b = b' ∧ c = c' ∧ d = d' := by
  have h1 : (([a, b], [c, d], k) : List F × List F × ℕ) = ([a', b'], [c', d'], k') := congrArg (fun s : (List F × List F × ℕ) × Unit => s.1) h
  simp only [Prod.mk.injEq, List.cons.injEq, and_true] at h1
  exact ⟨h1.1.1, h1.1.2, h1.2.1.1, h1.2.1.2⟩

theorem example_update (lr : F) (gx gy mx my vx vy : F) (k : ℕ) :
    (exampleOptimizer lr).update [gx, gy] (exState lr mx my vx vy k) =
      ([cu lr k (cm gx mx) (cv gx vx), cu lr k (cm gy my) (cv gy vy)], exState lr (cm gx mx) (cm gy my) (cv gx vx) (cv gy vy) (k + 1)) := by
  simp [exampleOptimizer, Optimizer.chain, adam, zeroNans, exState, cu, ca, cm, cv]

theorem example_init (lr : F) (p : V2 F) : Rev.start (exampleOptimizer lr) p = (p, exState lr 0 0 0 0 0) := by
  simp [Rev.start, exampleOptimizer, Optimizer.chain, adam, zeroNans, exState]

theorem animate_append {α : Type} (opt : Optimizer) (loss : α → V2 (Rev Rev.Coord) → Except PyErr (Rev Rev.Coord)) (as bs : List α) (c : V2 F × opt.State) :
    Rev.animate opt loss (as ++ bs) c = (Rev.animate opt loss as c).bind (Rev.animate opt loss bs) := by
  induction as generalizing c with
  | nil => rfl
  | cons a as ih =>
    simp only [List.cons_append, Rev.animate, Bind.bind]
    cases Rev.optimizeStep opt (loss a) c with
    | error e => rfl
    | ok c' => exact ih c'

theorem animate_take_succ {α : Type} (opt : Optimizer) (loss : α → V2 (Rev Rev.Coord) → Except PyErr (Rev Rev.Coord)) (as : List α) (c c' : V2 F × opt.State)
    (k : ℕ) (a : α) (ha : as[k]? = some a) (h : Rev.animate opt loss (as.take k) c = .ok c') :
    Rev.animate opt loss (as.take (k + 1)) c = Rev.optimizeStep opt (loss a) c' := by
  rw [List.take_add_one, ha, animate_append, h]
  simp only [Option.toList, Except.bind, Rev.animate, Bind.bind]
  cases Rev.optimizeStep opt (loss a) c' <;> rfl

theorem example_step (lr : F) (loss : V2 (Rev Rev.Coord) → Except PyErr (Rev Rev.Coord)) (p : Pt) (mx my vx vy : F) (k : ℕ) {out : F × V2 F}
    (h : Rev.valueAndGrad loss (V2.fin p) = .ok out) {ux uy : ℝ} (hx : cu lr k (cm out.2.x mx) (cv out.2.x vx) = F.fin ux)
    (hy : cu lr k (cm out.2.y my) (cv out.2.y vy) = F.fin uy) :
    Rev.optimizeStep (exampleOptimizer lr) loss (V2.fin p, exState lr mx my vx vy k) =
      .ok (V2.fin ⟨p.x + ux, p.y + uy⟩, exState lr (cm out.2.x mx) (cm out.2.y my) (cv out.2.x vx) (cv out.2.y vy) (k + 1)) := by
  simp only [Rev.optimizeStep, h, Bind.bind, Except.bind, example_update, Pure.pure, Except.pure, hx, hy]
  congr 2

/-! ### The smallest of several powers -/

theorem nans_min_left {ι : Type} {i : ι} {a b : Rev ι} (h : Nans i a) : Nans i (Rev.min a b) := fun c => by
  show a.pull _ i + b.pull _ i = _; rw [h]; simp
theorem nans_min_right {ι : Type} {i : ι} {a b : Rev ι} (h : Nans i b) : Nans i (Rev.min a b) := fun c => by
  show a.pull _ i + b.pull _ i = _; rw [h]; simp
theorem nans_div_left {ι : Type} {i : ι} {a b : Rev ι} (h : Nans i a) : Nans i (a / b) := fun c => by
  show a.pull _ i + b.pull _ i = _; rw [h]; simp
theorem nans_neg {ι : Type} {i : ι} {a : Rev ι} (h : Nans i a) : Nans i (-a) := fun c => h _

theorem objective_nans {ι : Type} {i : ι} {ps : List (Rev ι)} (h : ∃ p ∈ ps, Nans i p) : Nans i (Rev.objectiveFunction ps) := by
  unfold Rev.objectiveFunction
  have H : ∀ (ps : List (Rev ι)) (z : Rev ι), (Nans i z ∨ ∃ p ∈ ps, Nans i p) → Nans i (ps.foldl (fun acc p => Rev.min acc (p / .const P0)) z) := by
    intro ps
    induction ps with
    | nil => intro z h; simpa using h
    | cons a ps ih =>
      intro z h
      apply ih
      rcases h with h | ⟨b, hb, h⟩
      · exact .inl (nans_min_left h)
      · rcases List.mem_cons.mp hb with rfl | hb
        · exact .inl (nans_min_right (nans_div_left h))
        · exact .inr ⟨b, hb, h⟩
  exact H ps _ (.inr h)

theorem P0_eq : P0 = F.fin 100 := by unfold P0; rw [F.ofScientific_eq]; norm_num

theorem objective_val {ι β : Type} (rs : List β) (hne : rs ≠ []) (D : β → Rev ι) (v : β → ℝ) (h : ∀ r ∈ rs, (D r).val = F.fin (v r)) :
    ∃ r ∈ rs, (∀ r' ∈ rs, v r ≤ v r') ∧ (Rev.objectiveFunction (rs.map D)).val = F.fin (v r / 100) := by
  induction rs using List.reverseRecOn with
  | nil => exact absurd rfl hne
  | append_singleton rs r ih =>
    have hd : (D r / .const P0).val = F.fin (v r / 100) := by
      rw [Rev.val_div, h r (by simp)]
      show F.fin (v r) / P0 = _
      rw [P0_eq, F.fin_div _ (by norm_num)]
    have e : Rev.objectiveFunction ((rs ++ [r]).map D) = Rev.min (Rev.objectiveFunction (rs.map D)) (D r / .const P0) := by
      simp [Rev.objectiveFunction]
    rw [e]
    show ∃ r' ∈ _, _ ∧ F.min _ _ = _
    rw [hd]
    rcases eq_or_ne rs [] with rfl | hrs
    · refine ⟨r, by simp, by simp, rfl⟩
    · obtain ⟨q, hq, hmin, hval⟩ := ih hrs fun r hr => h r (by simp [hr])
      rw [hval, F.min_fin]
      rcases le_total (v q) (v r) with hle | hle
      · refine ⟨q, by simp [hq], fun r' hr' => ?_, ?_⟩
        · rcases List.mem_append.mp hr' with hr' | hr'
          · exact hmin r' hr'
          · simp at hr'; subst hr'; exact hle
        · rw [min_eq_left (by linarith)]
      · refine ⟨r, by simp, fun r' hr' => ?_, ?_⟩
        · rcases List.mem_append.mp hr' with hr' | hr'
          · exact hle.trans (hmin r' hr')
          · simp at hr'; subst hr'; exact le_rfl
        · rw [min_eq_right (by linarith)]

theorem balanced_lt {x y : ℝ} (h : x < y) : Rev.balancedEq (F.fin x) (F.min (F.fin x) (F.fin y)) (F.fin y) = F.fin 1 ∧
    Rev.balancedEq (F.fin y) (F.min (F.fin x) (F.fin y)) (F.fin x) = F.fin 0 := by
  rw [F.min_fin, min_eq_left h.le]
  have e1 : F.eq (F.fin x) (F.fin x) = true := by simp [F.eq]
  have e2 : F.eq (F.fin y) (F.fin x) = false := by simp [F.eq, h.ne']
  unfold Rev.balancedEq
  rw [e1, e2]
  simp only [F.where_, if_true, Bool.false_eq_true, if_false, F.zero_eq, F.one_eq]
  refine ⟨by rw [F.fin_div _ one_ne_zero]; norm_num, ?_⟩
  exact (F.fin_div _ two_ne_zero).trans (by norm_num)

theorem balanced_gt {x y : ℝ} (h : y < x) : Rev.balancedEq (F.fin x) (F.min (F.fin x) (F.fin y)) (F.fin y) = F.fin 0 ∧
    Rev.balancedEq (F.fin y) (F.min (F.fin x) (F.fin y)) (F.fin x) = F.fin 1 := by
  rw [F.min_fin, min_eq_right h.le]
  have e1 : F.eq (F.fin y) (F.fin y) = true := by simp [F.eq]
  have e2 : F.eq (F.fin x) (F.fin y) = false := by simp [F.eq, h.ne']
  unfold Rev.balancedEq
  rw [e1, e2]
  simp only [F.where_, if_true, Bool.false_eq_true, if_false, F.zero_eq, F.one_eq]
  refine ⟨?_, by rw [F.fin_div _ one_ne_zero]; norm_num⟩
  exact (F.fin_div _ two_ne_zero).trans (by norm_num)

theorem balanced_tie (x : ℝ) : Rev.balancedEq (F.fin x) (F.min (F.fin x) (F.fin x)) (F.fin x) = F.fin (1 / 2) := by
  rw [F.min_fin, min_self]
  have e1 : F.eq (F.fin x) (F.fin x) = true := by simp [F.eq]
  unfold Rev.balancedEq
  rw [e1]
  simp only [F.where_, if_true, F.one_eq]
  exact F.fin_div _ two_ne_zero

theorem sum_update {β : Type} (rs : List β) (r : β) (hr : r ∉ rs) (w : β → ℝ) (x a : ℝ) (h : β → ℝ) :
    ((rs ++ [r]).map fun q => (if q = r then x else a * w q) * h q).sum = a * (rs.map fun q => w q * h q).sum + x * h r := by
  rw [List.map_append, List.sum_append]
  congr 1
  · rw [← List.sum_map_mul_left]
    congr 1
    refine List.map_congr_left fun q hq => ?_
    rw [if_neg (fun e : q = r => hr (e ▸ hq)), mul_assoc]
  · simp

/-- The gradient of the smallest power: a mean of the gradients of the smallest powers. -/
theorem objective_pull {ι β : Type} (rs : List β) (hne : rs ≠ []) (hnd : rs.Nodup) (D : β → Rev ι) (v : β → ℝ) (φ : β → ι → ℝ)
    (h : ∀ r ∈ rs, (D r).val = F.fin (v r)) (hp : ∀ r ∈ rs, ∀ (c : ℝ) (i : ι), (D r).pull (F.fin c) i = F.fin (c * φ r i)) :
    ∃ w : β → ℝ, (∀ r ∈ rs, 0 ≤ w r) ∧ (rs.map w).sum = 1 ∧ (∀ r ∈ rs, w r ≠ 0 → ∀ r' ∈ rs, v r ≤ v r') ∧
      ∀ (c : ℝ) (i : ι), (Rev.objectiveFunction (rs.map D)).pull (F.fin c) i = F.fin (c * ((rs.map fun r => w r * φ r i).sum / 100)) := by
  induction rs using List.reverseRecOn with
  | nil => exact absurd rfl hne
  | append_singleton rs r ih =>
    have hd : (D r / .const P0).val = F.fin (v r / 100) := by
      rw [Rev.val_div, h r (by simp)]
      show F.fin (v r) / P0 = _
      rw [P0_eq, F.fin_div _ (by norm_num)]
    have hdp : ∀ (c : ℝ) (i : ι), (D r / .const P0).pull (F.fin c) i = F.fin (c * (φ r i / 100)) := by
      intro c i
      show (D r).pull (F.fin c / P0) i + 0 = _
      rw [P0_eq, F.fin_div _ (by norm_num), hp r (by simp), F.zero_eq, F.fin_add]
      congr 1; ring
    have e : Rev.objectiveFunction ((rs ++ [r]).map D) = Rev.min (Rev.objectiveFunction (rs.map D)) (D r / .const P0) := by
      simp [Rev.objectiveFunction]
    rcases eq_or_ne rs [] with rfl | hrs
    · refine ⟨fun _ => 1, by simp, by simp, by simp, fun c i => ?_⟩
      rw [e]
      show 0 + (D r / .const P0).pull (F.fin c * Rev.balancedEq (D r / .const P0).val (F.min F.pinf (D r / .const P0).val) F.pinf) i = _
      have e1 : F.min F.pinf (F.fin (v r / 100)) = F.fin (v r / 100) := rfl
      have e2 : Rev.balancedEq (F.fin (v r / 100)) (F.fin (v r / 100)) F.pinf = F.fin 1 := by
        have e1 : F.eq (F.fin (v r / 100)) (F.fin (v r / 100)) = true := by simp [F.eq]
        have e2 : F.eq F.pinf (F.fin (v r / 100)) = false := by simp [F.eq]
        unfold Rev.balancedEq
        rw [e1, e2]
        simp only [F.where_, if_true, Bool.false_eq_true, if_false, F.one_eq]
        rw [F.fin_div _ one_ne_zero]; norm_num
      rw [hd, e1, e2, F.fin_mul, hdp, F.zero_eq, F.fin_add]
      simp
    · have hr : r ∉ rs := by
        intro hr
        exact (List.nodup_append.mp hnd).2.2 r hr r (by simp) rfl
      obtain ⟨w, w1, w2, w3, w4⟩ := ih hrs (List.nodup_append.mp hnd).1 (fun r hr => h r (by simp [hr])) fun r hr => hp r (by simp [hr])
      obtain ⟨q, hq, hmin, hval⟩ := objective_val rs hrs D v fun r hr => h r (by simp [hr])
      have key : ∀ a x : ℝ, 0 ≤ a → 0 ≤ x → a + x = 1 → (a ≠ 0 → v q ≤ v r) → (x ≠ 0 → v r ≤ v q) →
          Rev.balancedEq (F.fin (v q / 100)) (F.min (F.fin (v q / 100)) (F.fin (v r / 100))) (F.fin (v r / 100)) = F.fin a →
          Rev.balancedEq (F.fin (v r / 100)) (F.min (F.fin (v q / 100)) (F.fin (v r / 100))) (F.fin (v q / 100)) = F.fin x →
          ∃ w : β → ℝ, (∀ r' ∈ rs ++ [r], 0 ≤ w r') ∧ ((rs ++ [r]).map w).sum = 1 ∧ (∀ p ∈ rs ++ [r], w p ≠ 0 → ∀ r' ∈ rs ++ [r], v p ≤ v r') ∧
            ∀ (c : ℝ) (i : ι), (Rev.objectiveFunction ((rs ++ [r]).map D)).pull (F.fin c) i = F.fin (c * (((rs ++ [r]).map fun r => w r * φ r i).sum / 100)) := by
        intro a x ha hx hax hqr hrq hb1 hb2
        refine ⟨fun p => if p = r then x else a * w p, ?_, ?_, ?_, ?_⟩
        · intro p hp'
          beta_reduce
          split
          · exact hx
          · rename_i hne'
            have : p ∈ rs := by simpa [hne'] using hp'
            exact mul_nonneg ha (w1 p this)
        · have := sum_update rs r hr w x a fun _ => 1
          simp only [mul_one] at this
          rw [this, w2]; linarith
        · intro p hp' hw r' hr'
          beta_reduce at hw
          by_cases hpr : p = r
          · subst hpr
            rw [if_pos rfl] at hw
            rcases List.mem_append.mp hr' with hr' | hr'
            · exact (hrq hw).trans (hmin r' hr')
            · simp at hr'; subst hr'; exact le_rfl
          · rw [if_neg hpr] at hw
            have hps : p ∈ rs := by simpa [hpr] using hp'
            have hle := w3 p hps (fun h => hw (by rw [h, mul_zero]))
            rcases List.mem_append.mp hr' with hr' | hr'
            · exact hle r' hr'
            · simp at hr'; subst hr'; exact (hle q hq).trans (hqr fun h => hw (by rw [h, zero_mul]))
        · intro c i
          rw [sum_update rs r hr w x a fun p => φ p i, e]
          show (Rev.objectiveFunction (rs.map D)).pull (F.fin c * _) i + (D r / .const P0).pull (F.fin c * _) i = _
          rw [hval, hd, hb1, hb2, F.fin_mul, F.fin_mul, w4, hdp, F.fin_add]
          congr 1; ring
      rcases lt_trichotomy (v q) (v r) with hlt | heq | hlt
      · obtain ⟨b1, b2⟩ := balanced_lt (x := v q / 100) (y := v r / 100) (by linarith)
        exact key 1 0 (by norm_num) le_rfl (by norm_num) (fun _ => hlt.le) (fun h => absurd rfl h) b1 b2
      · have b := balanced_tie (v q / 100)
        refine key (1 / 2) (1 / 2) (by norm_num) (by norm_num) (by norm_num) (fun _ => heq.le) (fun _ => heq.ge) ?_ ?_
        · rw [← heq]; exact b
        · rw [← heq]; exact b
      · obtain ⟨b1, b2⟩ := balanced_gt (x := v q / 100) (y := v r / 100) (by linarith)
        exact key 0 1 le_rfl (by norm_num) (by norm_num) (fun h => absurd rfl h) (fun _ => hlt.le) b1 b2

end DiffeRT2d
