import Mathlib.Analysis.SpecialFunctions.Sqrt
import Mathlib.Analysis.SpecialFunctions.ExpDeriv
import Mathlib.Analysis.SpecialFunctions.Trigonometric.Deriv
import Mathlib.Analysis.Analytic.Constructions
import Mathlib.Analysis.SpecialFunctions.Complex.Analytic
import Mathlib.Analysis.SpecialFunctions.Pow.Real
import Verif.Model.Presets
import Verif.Spec.Analytic
import Verif.Lemmas.Analytic
import Verif.Lemmas.Float

/-! Families of floats that are real analytic near almost every parameter: closure under all operations. -/

namespace DiffeRT2d
open Classical Spec MeasureTheory Filter Topology

/-- The real number of a float (0 for special values). -/
noncomputable def F.re : F → ℝ
  | F.fin x => x
  | _ => 0

variable {X : Type} [NormedAddCommGroup X] [NormedSpace ℝ X] [FiniteDimensional ℝ X] [MeasurableSpace X] [BorelSpace X] {μ : Measure X} [μ.IsAddHaarMeasure]

/-- The germ of a family at `x`: real analytic with constant sign, or constant and special. -/
def GermAt (f : X → F) (x : X) : Prop :=
  (AnalyticAt ℝ (fun y => (f y).re) x ∧ ∀ᶠ y in 𝓝 x, f y = F.fin (f y).re) ∨ ∃ c, c.isFinite = false ∧ ∀ᶠ y in 𝓝 x, f y = c

/-- The sign of `h` does not change near `x`. -/
def SignAt (h : X → ℝ) (x : X) : Prop := (∀ᶠ y in 𝓝 x, h y = 0) ∨ (∀ᶠ y in 𝓝 x, 0 < h y) ∨ ∀ᶠ y in 𝓝 x, h y < 0

theorem sign_ae (μ : Measure X) [μ.IsAddHaarMeasure] (h : X → ℝ) : ∀ᵐ x ∂μ, AnalyticAt ℝ h x → SignAt h x := by
  filter_upwards [zeros_analytic μ h] with x hx ha
  rcases lt_trichotomy (h x) 0 with h0 | h0 | h0
  · exact .inr (.inr (ha.continuousAt.eventually (gt_mem_nhds h0)))
  · exact .inl (hx ha h0)
  · exact .inr (.inl (ha.continuousAt.eventually (lt_mem_nhds h0)))

theorem almostAnalytic_iff {f : X → F} : AlmostAnalytic μ f ↔ ∀ᵐ x ∂μ, GermAt f x := by
  refine ⟨fun h => h.mono fun x hx => ?_, fun h => h.mono fun x hx => ?_⟩
  · have key : ∀ h : X → ℝ, AnalyticAt ℝ h x → (∀ᶠ y in 𝓝 x, f y = F.fin (h y)) → GermAt f x := by
      intro h ha he
      exact .inl ⟨ha.congr (he.mono fun y hy => by show h y = (f y).re; rw [hy]; rfl), he.mono fun y hy => by rw [hy]; rfl⟩
    rcases hx with ⟨h, ha, he⟩ | ⟨c, hc⟩
    · exact key h ha he
    · cases c with
      | fin a => exact key (fun _ => a) analyticAt_const hc
      | nan => exact .inr ⟨_, rfl, hc⟩
      | pinf => exact .inr ⟨_, rfl, hc⟩
      | ninf => exact .inr ⟨_, rfl, hc⟩
  · rcases hx with ⟨ha, he⟩ | ⟨c, -, hc⟩
    · exact .inl ⟨_, ha, he⟩
    · exact .inr ⟨c, hc⟩

/-- Germs with everything that is needed to compute: real, with a sign, or special. -/
theorem germ_cases {f : X → F} (h : AlmostAnalytic μ f) : ∀ᵐ x ∂μ,
    (AnalyticAt ℝ (fun y => (f y).re) x ∧ SignAt (fun y => (f y).re) x ∧ ∀ᶠ y in 𝓝 x, f y = F.fin (f y).re) ∨ ∃ c, c.isFinite = false ∧ ∀ᶠ y in 𝓝 x, f y = c := by
  filter_upwards [almostAnalytic_iff.mp h, sign_ae μ fun y => (f y).re] with x h1 h2
  rcases h1 with ⟨a, b⟩ | h1
  · exact .inl ⟨a, h2 a, b⟩
  · exact .inr h1

namespace Spec.AlmostConstant
variable {α β γ : Type} {f : X → α} {g : X → β}

theorem of_eq (c : α) : AlmostConstant μ fun _ : X => c := Eventually.of_forall fun _ => Eventually.of_forall fun _ => rfl

theorem map (h : AlmostConstant μ f) (φ : α → γ) : AlmostConstant μ fun x => φ (f x) :=
  h.mono fun _ hx => hx.mono fun _ hy => congrArg φ hy

theorem map₂ (h : AlmostConstant μ f) (h' : AlmostConstant μ g) (φ : α → β → γ) : AlmostConstant μ fun x => φ (f x) (g x) := by
  filter_upwards [h, h'] with x h1 h2
  filter_upwards [h1, h2] with y e1 e2
  rw [e1, e2]

theorem ite {c : X → Bool} {f g : X → α} (hc : AlmostConstant μ c) (h : AlmostConstant μ f) (h' : AlmostConstant μ g) : AlmostConstant μ fun x => F.where_ (c x) (f x) (g x) := by
  filter_upwards [hc, h, h'] with x h0 h1 h2
  filter_upwards [h0, h1, h2] with y e0 e1 e2
  rw [e0, e1, e2]

end Spec.AlmostConstant

/-- To be constant near almost every point it is enough to be equal to something near almost every point. -/
theorem almostConstant_of {α : Type} {f : X → α} (h : ∀ᵐ x ∂μ, ∃ c, ∀ᶠ y in 𝓝 x, f y = c) : AlmostConstant μ f :=
  h.mono fun x ⟨c, hc⟩ => hc.mono fun y hy => hy.trans hc.self_of_nhds.symm

namespace Spec.AlmostAnalytic
variable {f g : X → F}

theorem const (c : F) : AlmostAnalytic μ fun _ : X => c := Eventually.of_forall fun _ => .inr ⟨c, Eventually.of_forall fun _ => rfl⟩

theorem analytic {h : X → ℝ} (ha : ∀ x, AnalyticAt ℝ h x) : AlmostAnalytic μ fun x => F.fin (h x) :=
  Eventually.of_forall fun x => .inl ⟨h, ha x, Eventually.of_forall fun _ => rfl⟩

theorem congr (h : AlmostAnalytic μ f) (he : ∀ x, g x = f x) : AlmostAnalytic μ g := (funext he : g = f) ▸ h

theorem of_const (h : AlmostConstant μ f) : AlmostAnalytic μ f := h.mono fun _ hx => .inr ⟨_, hx⟩

theorem neg (hf : AlmostAnalytic μ f) : AlmostAnalytic μ fun x => -f x := by
  filter_upwards [germ_cases hf] with x hx
  rcases hx with ⟨a, -, e⟩ | ⟨c, -, e⟩
  · exact .inl ⟨_, a.neg, e.mono fun y hy => by rw [hy]; simp [F.re]⟩
  · exact .inr ⟨-c, e.mono fun y hy => by rw [hy]⟩

theorem add (hf : AlmostAnalytic μ f) (hg : AlmostAnalytic μ g) : AlmostAnalytic μ fun x => f x + g x := by
  filter_upwards [germ_cases hf, germ_cases hg] with x hx hy
  rcases hx with ⟨a, -, e⟩ | ⟨c, hc, e⟩ <;> rcases hy with ⟨a', -, e'⟩ | ⟨c', hc', e'⟩
  · exact .inl ⟨_, a.add a', (e.and e').mono fun y hy => by rw [hy.1, hy.2]; simp [F.re]⟩
  · refine .inr ⟨c', (e.and e').mono fun y hy => ?_⟩
    rw [hy.1, hy.2]
    cases c' <;> first | rfl | exact absurd hc' (by simp [F.isFinite])
  · refine .inr ⟨c, (e.and e').mono fun y hy => ?_⟩
    rw [hy.1, hy.2]
    cases c <;> first | rfl | exact absurd hc (by simp [F.isFinite])
  · exact .inr ⟨c + c', (e.and e').mono fun y hy => by rw [hy.1, hy.2]⟩

theorem sub (hf : AlmostAnalytic μ f) (hg : AlmostAnalytic μ g) : AlmostAnalytic μ fun x => f x - g x := hf.add hg.neg

end Spec.AlmostAnalytic

/-- What is computed from a special value and a real depends on the sign of the latter. -/
theorem sign_const {φ : F → F} {h : X → ℝ} {x : X} (hs : SignAt h x) (h0 : ∀ a b : ℝ, SignType.sign a = SignType.sign b → φ (F.fin a) = φ (F.fin b)) :
    ∃ c, ∀ᶠ y in 𝓝 x, φ (F.fin (h y)) = c := by
  rcases hs with e | e | e
  · exact ⟨φ (F.fin 0), e.mono fun y hy => by rw [hy]⟩
  · exact ⟨φ (F.fin 1), e.mono fun y hy => h0 _ _ (by simp [sign_pos hy])⟩
  · exact ⟨φ (F.fin (-1)), e.mono fun y hy => h0 _ _ (by rw [sign_neg hy, sign_neg (by norm_num)])⟩

theorem sign_pos_iff_of {a b : ℝ} (h : SignType.sign a = SignType.sign b) : (0 < a ↔ 0 < b) ∧ (a = 0 ↔ b = 0) ∧ (a < 0 ↔ b < 0) := by
  refine ⟨?_, ?_, ?_⟩
  · rw [← sign_eq_one_iff, h, sign_eq_one_iff]
  · rw [← sign_eq_zero_iff, h, sign_eq_zero_iff]
  · rw [← sign_eq_neg_one_iff, h, sign_eq_neg_one_iff]

theorem mul_sign_left (c : F) (hc : c.isFinite = false) (a b : ℝ) (h : SignType.sign a = SignType.sign b) : c * F.fin a = c * F.fin b := by
  obtain ⟨h1, h2, -⟩ := sign_pos_iff_of h
  cases c with
  | fin _ => simp [F.isFinite] at hc
  | nan => rfl
  | pinf => show (if a = 0 then F.nan else if 0 < a then F.pinf else F.ninf) = if b = 0 then F.nan else if 0 < b then F.pinf else F.ninf; simp only [h1, h2]
  | ninf => show (if a = 0 then F.nan else if 0 < a then F.ninf else F.pinf) = if b = 0 then F.nan else if 0 < b then F.ninf else F.pinf; simp only [h1, h2]

theorem mul_sign_right (c : F) (hc : c.isFinite = false) (a b : ℝ) (h : SignType.sign a = SignType.sign b) : F.fin a * c = F.fin b * c := by
  obtain ⟨h1, h2, -⟩ := sign_pos_iff_of h
  cases c with
  | fin _ => simp [F.isFinite] at hc
  | nan => rfl
  | pinf => show (if a = 0 then F.nan else if 0 < a then F.pinf else F.ninf) = if b = 0 then F.nan else if 0 < b then F.pinf else F.ninf; simp only [h1, h2]
  | ninf => show (if a = 0 then F.nan else if 0 < a then F.ninf else F.pinf) = if b = 0 then F.nan else if 0 < b then F.ninf else F.pinf; simp only [h1, h2]

theorem div_sign_left (c : F) (hc : c.isFinite = false) (a b : ℝ) (h : SignType.sign a = SignType.sign b) : c / F.fin a = c / F.fin b := by
  obtain ⟨-, -, h3⟩ := sign_pos_iff_of h
  cases c with
  | fin _ => simp [F.isFinite] at hc
  | nan => rfl
  | pinf => show (if a < 0 then F.ninf else F.pinf) = if b < 0 then F.ninf else F.pinf; simp only [h3]
  | ninf => show (if a < 0 then F.pinf else F.ninf) = if b < 0 then F.pinf else F.ninf; simp only [h3]

theorem div_special (c : F) (hc : c.isFinite = false) (a b : ℝ) : F.fin a / c = F.fin b / c := by
  cases c <;> first | rfl | simp [F.isFinite] at hc

theorem div_zero_sign (a b : ℝ) (h : SignType.sign a = SignType.sign b) : F.fin a / F.fin 0 = F.fin b / F.fin 0 := by
  obtain ⟨h1, h2, -⟩ := sign_pos_iff_of h
  show (if (0 : ℝ) = 0 then (if a = 0 then F.nan else if 0 < a then F.pinf else F.ninf) else F.fin (a / 0)) = if (0 : ℝ) = 0 then (if b = 0 then F.nan else if 0 < b then F.pinf else F.ninf) else F.fin (b / 0)
  simp only [if_true, h1, h2]

namespace Spec.AlmostAnalytic
variable {f g : X → F}

theorem mul (hf : AlmostAnalytic μ f) (hg : AlmostAnalytic μ g) : AlmostAnalytic μ fun x => f x * g x := by
  filter_upwards [germ_cases hf, germ_cases hg] with x hx hy
  rcases hx with ⟨a, s, e⟩ | ⟨c, hc, e⟩ <;> rcases hy with ⟨a', s', e'⟩ | ⟨c', hc', e'⟩
  · exact .inl ⟨_, a.mul a', (e.and e').mono fun y hy => by rw [hy.1, hy.2]; simp [F.re]⟩
  · obtain ⟨d, hd⟩ := sign_const (φ := fun z => z * c') s (mul_sign_right c' hc')
    exact .inr ⟨d, (e.and (e'.and hd)).mono fun y hy => by rw [hy.1, hy.2.1]; exact hy.2.2⟩
  · obtain ⟨d, hd⟩ := sign_const (φ := fun z => c * z) s' (mul_sign_left c hc)
    exact .inr ⟨d, (e.and (e'.and hd)).mono fun y hy => by rw [hy.1, hy.2.1]; exact hy.2.2⟩
  · exact .inr ⟨c * c', (e.and e').mono fun y hy => by rw [hy.1, hy.2]⟩

theorem div (hf : AlmostAnalytic μ f) (hg : AlmostAnalytic μ g) : AlmostAnalytic μ fun x => f x / g x := by
  filter_upwards [germ_cases hf, germ_cases hg] with x hx hy
  rcases hx with ⟨a, s, e⟩ | ⟨c, hc, e⟩ <;> rcases hy with ⟨a', s', e'⟩ | ⟨c', hc', e'⟩
  · have key : (∀ᶠ y in 𝓝 x, (g y).re ≠ 0) → _ := fun h => (Or.inl ⟨_, a.div a' h.self_of_nhds, (e.and (e'.and h)).mono fun y hy => by
      rw [hy.1, hy.2.1, F.fin_div _ hy.2.2]; rfl⟩ : (∃ h : X → ℝ, AnalyticAt ℝ h x ∧ ∀ᶠ y in 𝓝 x, f y / g y = F.fin (h y)) ∨ ∃ c, ∀ᶠ y in 𝓝 x, f y / g y = c)
    rcases s' with s' | s' | s'
    · obtain ⟨d, hd⟩ := sign_const (φ := fun z => z / F.fin 0) s div_zero_sign
      exact .inr ⟨d, (e.and (e'.and (s'.and hd))).mono fun y hy => by rw [hy.1, hy.2.1, show (g y).re = 0 from hy.2.2.1]; exact hy.2.2.2⟩
    · exact key (s'.mono fun y hy => hy.ne')
    · exact key (s'.mono fun y hy => hy.ne)
  · exact .inr ⟨F.fin 0 / c', (e.and e').mono fun y hy => by rw [hy.1, hy.2]; exact div_special c' hc' _ _⟩
  · obtain ⟨d, hd⟩ := sign_const (φ := fun z => c / z) s' (div_sign_left c hc)
    exact .inr ⟨d, (e.and (e'.and hd)).mono fun y hy => by rw [hy.1, hy.2.1]; exact hy.2.2⟩
  · exact .inr ⟨c / c', (e.and e').mono fun y hy => by rw [hy.1, hy.2]⟩

theorem map_special {φ : F → F} {ψ : ℝ → ℝ} (hφ : ∀ a, φ (F.fin a) = F.fin (ψ a)) (hψ : ∀ a, AnalyticAt ℝ ψ a) (hf : AlmostAnalytic μ f) : AlmostAnalytic μ fun x => φ (f x) := by
  filter_upwards [germ_cases hf] with x hx
  rcases hx with ⟨a, s, e⟩ | ⟨c, -, e⟩
  · exact .inl ⟨_, (hψ _).comp a, e.mono fun y hy => by rw [hy, hφ]; rfl⟩
  · exact .inr ⟨φ c, e.mono fun y hy => by rw [hy]⟩

theorem sqrt (hf : AlmostAnalytic μ f) : AlmostAnalytic μ fun x => F.sqrt (f x) := by
  filter_upwards [germ_cases hf] with x hx
  rcases hx with ⟨a, s, e⟩ | ⟨c, -, e⟩
  · rcases s with s | s | s
    · exact .inr ⟨F.sqrt (F.fin 0), (e.and s).mono fun y hy => by rw [hy.1, show (f y).re = 0 from hy.2]⟩
    · refine .inl ⟨fun y => Real.sqrt (f y).re, ?_, (e.and s).mono fun y hy => by rw [hy.1, F.sqrt_fin hy.2.le]⟩
      have h1 : AnalyticAt ℝ (fun y => Real.exp (Real.log ((f y).re) / 2)) x := by
        have h2 : AnalyticAt ℝ (fun y => Real.log (f y).re) x := AnalyticAt.comp' (g := Real.log) (f := fun y => (f y).re) (_root_.analyticAt_log s.self_of_nhds) a
        exact (h2.div analyticAt_const two_ne_zero).rexp
      exact h1.congr (s.mono fun y hy => by show Real.exp (Real.log (f y).re / 2) = √(f y).re; rw [Real.sqrt_eq_rpow, Real.rpow_def_of_pos hy]; congr 1; ring)
    · refine .inr ⟨F.nan, (e.and s).mono fun y hy => ?_⟩
      rw [hy.1]
      exact if_pos hy.2
  · exact .inr ⟨F.sqrt c, e.mono fun y hy => by rw [hy]⟩

theorem nnSigmoid (hf : AlmostAnalytic μ f) : AlmostAnalytic μ fun x => nnSigmoid (f x) :=
  hf.map_special (ψ := fun a => 1 / (1 + Real.exp (-a))) (fun _ => rfl) fun a =>
    analyticAt_const.div (analyticAt_const.add (analyticAt_id.neg.rexp)) (by positivity)

theorem sin (hf : AlmostAnalytic μ f) : AlmostAnalytic μ fun x => F.sin (f x) := hf.map_special (ψ := Real.sin) (fun _ => rfl) fun _ => Real.analyticAt_sin

theorem cos (hf : AlmostAnalytic μ f) : AlmostAnalytic μ fun x => F.cos (f x) := hf.map_special (ψ := Real.cos) (fun _ => rfl) fun _ => Real.analyticAt_cos

theorem nanToNum (hf : AlmostAnalytic μ f) : AlmostAnalytic μ fun x => (f x).nanToNum := hf.map_special (ψ := id) (fun _ => rfl) fun _ => analyticAt_id

theorem isNan (hf : AlmostAnalytic μ f) : AlmostConstant μ fun x => (f x).isNan := by
  refine almostConstant_of ?_
  filter_upwards [germ_cases hf] with x hx
  rcases hx with ⟨a, s, e⟩ | ⟨c, -, e⟩
  · exact ⟨false, e.mono fun y hy => by rw [hy]; rfl⟩
  · exact ⟨c.isNan, e.mono fun y hy => by rw [hy]⟩

theorem lt (hf : AlmostAnalytic μ f) (hg : AlmostAnalytic μ g) : AlmostConstant μ fun x => F.lt (f x) (g x) := by
  refine almostConstant_of ?_
  filter_upwards [germ_cases hf, germ_cases hg, sign_ae μ fun y => (f y).re - (g y).re] with x hx hy hs
  rcases hx with ⟨a, s, e⟩ | ⟨c, hc, e⟩ <;> rcases hy with ⟨a', s', e'⟩ | ⟨c', hc', e'⟩
  · rcases hs (a.sub a') with h | h | h
    · exact ⟨false, (e.and (e'.and h)).mono fun y hy => by rw [hy.1, hy.2.1, sub_eq_zero.mp hy.2.2]; simp [F.lt]⟩
    · exact ⟨false, (e.and (e'.and h)).mono fun y hy => by rw [hy.1, hy.2.1]; simp only [F.lt, decide_eq_false_iff_not]; have := hy.2.2; linarith⟩
    · exact ⟨true, (e.and (e'.and h)).mono fun y hy => by rw [hy.1, hy.2.1]; simp only [F.lt, decide_eq_true_eq]; have := hy.2.2; linarith⟩
  · exact ⟨F.lt (F.fin 0) c', (e.and e').mono fun y hy => by rw [hy.1, hy.2]; cases c' <;> first | rfl | simp [F.isFinite] at hc'⟩
  · exact ⟨F.lt c (F.fin 0), (e.and e').mono fun y hy => by rw [hy.1, hy.2]; cases c <;> first | rfl | simp [F.isFinite] at hc⟩
  · exact ⟨F.lt c c', (e.and e').mono fun y hy => by rw [hy.1, hy.2]⟩

theorem eq (hf : AlmostAnalytic μ f) (hg : AlmostAnalytic μ g) : AlmostConstant μ fun x => F.eq (f x) (g x) := by
  refine almostConstant_of ?_
  filter_upwards [germ_cases hf, germ_cases hg, sign_ae μ fun y => (f y).re - (g y).re] with x hx hy hs
  rcases hx with ⟨a, s, e⟩ | ⟨c, hc, e⟩ <;> rcases hy with ⟨a', s', e'⟩ | ⟨c', hc', e'⟩
  · rcases hs (a.sub a') with h | h | h
    · exact ⟨true, (e.and (e'.and h)).mono fun y hy => by rw [hy.1, hy.2.1, sub_eq_zero.mp hy.2.2]; simp [F.eq]⟩
    · exact ⟨false, (e.and (e'.and h)).mono fun y hy => by rw [hy.1, hy.2.1]; simp only [F.eq, decide_eq_false_iff_not]; have := hy.2.2; intro h; linarith⟩
    · exact ⟨false, (e.and (e'.and h)).mono fun y hy => by rw [hy.1, hy.2.1]; simp only [F.eq, decide_eq_false_iff_not]; have := hy.2.2; intro h; linarith⟩
  · exact ⟨F.eq (F.fin 0) c', (e.and e').mono fun y hy => by rw [hy.1, hy.2]; cases c' <;> first | rfl | simp [F.isFinite] at hc'⟩
  · exact ⟨F.eq c (F.fin 0), (e.and e').mono fun y hy => by rw [hy.1, hy.2]; cases c <;> first | rfl | simp [F.isFinite] at hc⟩
  · exact ⟨F.eq c c', (e.and e').mono fun y hy => by rw [hy.1, hy.2]⟩

theorem le (hf : AlmostAnalytic μ f) (hg : AlmostAnalytic μ g) : AlmostConstant μ fun x => F.le (f x) (g x) := (hf.lt hg).map₂ (hf.eq hg) (· || ·)

theorem where_ {c : X → Bool} (hc : AlmostConstant μ c) (hf : AlmostAnalytic μ f) (hg : AlmostAnalytic μ g) : AlmostAnalytic μ fun x => F.where_ (c x) (f x) (g x) := by
  filter_upwards [hc, hf, hg] with x h0 h1 h2
  cases hcx : c x with
  | true =>
    have e : ∀ᶠ y in 𝓝 x, F.where_ (c y) (f y) (g y) = f y := h0.mono fun y hy => by rw [hy, hcx]; rfl
    rcases h1 with ⟨h, ha, he⟩ | ⟨d, hd⟩
    · exact .inl ⟨h, ha, (e.and he).mono fun y hy => hy.1.trans hy.2⟩
    · exact .inr ⟨d, (e.and hd).mono fun y hy => hy.1.trans hy.2⟩
  | false =>
    have e : ∀ᶠ y in 𝓝 x, F.where_ (c y) (f y) (g y) = g y := h0.mono fun y hy => by rw [hy, hcx]; rfl
    rcases h2 with ⟨h, ha, he⟩ | ⟨d, hd⟩
    · exact .inl ⟨h, ha, (e.and he).mono fun y hy => hy.1.trans hy.2⟩
    · exact .inr ⟨d, (e.and hd).mono fun y hy => hy.1.trans hy.2⟩

theorem max (hf : AlmostAnalytic μ f) (hg : AlmostAnalytic μ g) : AlmostAnalytic μ fun x => F.max (f x) (g x) :=
  where_ (c := fun x => (f x).isNan || (g x).isNan) (hf.isNan.map₂ hg.isNan (· || ·)) (const F.nan) (where_ (hf.lt hg) hg hf)

theorem min (hf : AlmostAnalytic μ f) (hg : AlmostAnalytic μ g) : AlmostAnalytic μ fun x => F.min (f x) (g x) :=
  where_ (c := fun x => (f x).isNan || (g x).isNan) (hf.isNan.map₂ hg.isNan (· || ·)) (const F.nan) (where_ (hg.lt hf) hg hf)

theorem sum (L : List (X → F)) (h : ∀ f ∈ L, AlmostAnalytic μ f) : AlmostAnalytic μ fun x => F.sum (L.map (· x)) := by
  unfold F.sum
  have : ∀ (L : List (X → F)) (a : X → F), AlmostAnalytic μ a → (∀ f ∈ L, AlmostAnalytic μ f) → AlmostAnalytic μ fun x => (L.map (· x)).foldl (· + ·) (a x) := by
    intro L
    induction L with
    | nil => intro a ha _; exact ha
    | cons f L ih => intro a ha h; exact ih _ (ha.add (h f (by simp))) fun f hf => h f (by simp [hf])
  exact this L _ (const _) h

theorem minOf (L : List (X → F)) (a : X → F) (ha : AlmostAnalytic μ a) (h : ∀ f ∈ L, AlmostAnalytic μ f) : AlmostAnalytic μ fun x => F.minOf (a x) (L.map (· x)) := by
  unfold F.minOf
  induction L generalizing a with
  | nil => exact ha
  | cons f L ih => exact ih _ (ha.min (h f (by simp))) fun f hf => h f (by simp [hf])

theorem npow (hf : AlmostAnalytic μ f) (n : ℕ) : AlmostAnalytic μ fun x => (f x).npow n := by
  induction n using F.npow.induct with
  | case1 => exact const _
  | case2 => exact hf
  | case3 n ih => exact ih.mul hf

theorem ipow (hf : AlmostAnalytic μ f) (n : ℤ) : AlmostAnalytic μ fun x => (f x).ipow n := by
  unfold F.ipow
  split
  · exact hf.npow _
  · exact (const _).div (hf.npow _)

end Spec.AlmostAnalytic
end DiffeRT2d
