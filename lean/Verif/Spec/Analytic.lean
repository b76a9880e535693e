import Mathlib.Analysis.Analytic.Basic
import Mathlib.MeasureTheory.Measure.Haar.Basic
import Verif.Model.Scene

/-! # Vocabulary: regularity near almost every point -/

namespace DiffeRT2d.Spec
open MeasureTheory Filter Topology

variable {X : Type} [NormedAddCommGroup X] [NormedSpace ℝ X] [MeasurableSpace X]

/-- Near almost every `x`, the float `f` is a real analytic function of its argument, or does not change at all (a NaN or an infinity). -/
def AlmostAnalytic (μ : Measure X) (f : X → F) : Prop :=
  ∀ᵐ x ∂μ, (∃ h : X → ℝ, AnalyticAt ℝ h x ∧ ∀ᶠ y in 𝓝 x, f y = F.fin (h y)) ∨ ∃ c, ∀ᶠ y in 𝓝 x, f y = c

/-- Near almost every `x`, `f` does not change. -/
def AlmostConstant {α : Type} (μ : Measure X) (f : X → α) : Prop := ∀ᵐ x ∂μ, ∀ᶠ y in 𝓝 x, f y = f x

/-- Both coordinates of a point are analytic near almost every parameter. -/
def AnalyticPt (μ : Measure X) (p : X → V2 F) : Prop := AlmostAnalytic μ (fun x => (p x).x) ∧ AlmostAnalytic μ fun x => (p x).y

/-- A truth value that depends on a parameter: a float, analytic near almost every parameter, or a Boolean, constant near almost every parameter. -/
def AnalyticTruth (μ : Measure X) (T : X → Truthy) : Prop :=
  (∃ b : X → Bool, AlmostConstant μ b ∧ ∀ x, T x = .b (b x)) ∨ ∃ f : X → F, AlmostAnalytic μ f ∧ ∀ x, T x = .f (f x)

/-- An object of one of the classes of the library, whose coordinates (and angle) depend on a parameter. -/
def AnalyticObj (μ : Measure X) (o : X → Obj) : Prop :=
  (∃ w : X → Wall, AnalyticPt μ (fun x => (w x).origin) ∧ AnalyticPt μ (fun x => (w x).dest) ∧ ∀ x, o x = .wall (w x)) ∨
  (∃ w : X → RIS, AnalyticPt μ (fun x => (w x).origin) ∧ AnalyticPt μ (fun x => (w x).dest) ∧ AlmostAnalytic μ (fun x => (w x).phi) ∧ ∀ x, o x = .ris (w x)) ∨
  ∃ w : X → Vertex, AnalyticPt μ (fun x => (w x).xy) ∧ ∀ x, o x = .vertex (w x)

/-- The activation (with its `alpha`) applied to an analytic argument is analytic. -/
def AnalyticKw (μ : Measure X) (kw : X → ActKw) : Prop := ∀ f, AlmostAnalytic μ f → AlmostAnalytic μ fun x => activation (kw x) (f x)

/-- A function of paths that is analytic near almost every parameter, if the path and the objects are. -/
def AnalyticFun (μ : Measure X) (f : X → Scene.PathFun) : Prop :=
  ∀ (tx rx : X → V2 F) (pts : List (X → V2 F)) (loss : X → F) (objs : List (X → Obj)), AnalyticPt μ tx → AnalyticPt μ rx → (∀ p ∈ pts, AnalyticPt μ p) →
    AlmostAnalytic μ loss → (∀ o ∈ objs, AnalyticObj μ o) → AlmostAnalytic μ fun x => f x (tx x) (rx x) ⟨pts.map (· x), loss x⟩ (objs.map (· x))

/-- A call that depends on a parameter raises the same exception for all parameters, or returns for all parameters, with results that satisfy `P`. -/
def Outcome {α : Type} (P : (X → α) → Prop) (r : X → Except PyErr α) : Prop := (∃ e, ∀ x, r x = .error e) ∨ ∃ a, P a ∧ ∀ x, r x = .ok (a x)

/-- A list of fixed size whose entries satisfy `P`. -/
def AllOf {α : Type} (P : (X → α) → Prop) (l : X → List α) : Prop := ∃ L : List (X → α), (∀ a ∈ L, P a) ∧ ∀ x, l x = L.map (· x)

/-- A path with points and loss that are analytic near almost every parameter. -/
def AnalyticPath (μ : Measure X) (p : X → Path) : Prop := AllOf (AnalyticPt μ) (fun x => (p x).xys) ∧ AlmostAnalytic μ fun x => (p x).loss

/-- What `all_paths` yields: the names and the candidate are fixed, validity and path are analytic near almost every parameter. -/
def AnalyticTraced (μ : Measure X) (t : X → Scene.Traced) : Prop :=
  (∃ (tx rx : String) (c : List ℤ), ∀ x, (t x).tx = tx ∧ (t x).rx = rx ∧ (t x).candidate = c) ∧ AnalyticTruth μ (fun x => (t x).valid) ∧ AnalyticPath μ fun x => (t x).path

/-- A tracing method that gives analytic paths. -/
def AnalyticMethod {Key : Type} (μ : Measure X) (m : Scene.PathMethod Key) : Prop :=
  ∀ (key : Option Key) (tx rx : X → V2 F) (objs : List (X → Obj)), AnalyticPt μ tx → AnalyticPt μ rx → (∀ o ∈ objs, AnalyticObj μ o) →
    Outcome (AnalyticPath μ) fun x => m.trace key (tx x) (objs.map (· x)) (rx x)

/-- A scene of named points and objects that depend on a parameter. -/
def familyScene (tx rx : PyDict (X → V2 F)) (objs : List (X → Obj)) (x : X) : Scene :=
  .make (tx.map fun p => (p.1, p.2 x)) (rx.map fun p => (p.1, p.2 x)) (objs.map (· x))

/-- A selection of objects that does not depend on the parameter (for instance, by class). -/
def FixedFilter (o : Scene.Orders) (objs : List (X → Obj)) : Prop := ∀ keep, o.filter = some keep → ∀ b ∈ objs, ∀ x y, keep (b x) = keep (b y)

end DiffeRT2d.Spec
