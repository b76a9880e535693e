import Verif.Model.Interactive
import Verif.Spec.Specular
import Verif.Spec.Traversal

/-! # Vocabulary for the interactive application -/

namespace DiffeRT2d
namespace Spec
open Window

variable {Key : Type}

/-- A value of the slider between `a` and `b`, at the position `i` out of `0..99`. -/
noncomputable def notch (a b : ℝ) (i : ℕ) : ℝ := a + (b - a) * (i / 99)

/-- Decibels relative to `100`; no power at all is minus infinity. -/
noncomputable def decibels (p : ℝ) : F := if p = 0 then F.ninf else F.fin (10 * Real.logb 10 (p / 100))

/-- A ray as it is drawn: a line through the points of the path, behind the markers, whose opacity is the validity of the path. -/
noncomputable def rayOf (t : Scene.Traced) : Artist :=
  .line t.path.xys [] [("zorder", .num (-1)), ("alpha", .num t.valid.toF), ("color", .str "orange")]

/-- How visible a line is. -/
def opacity : Artist → Option Val
  | .line _ _ kw => kw.lookup "alpha"
  | _ => none

/-- The window shows the map and the paths of its own scene and settings (for some random keys), and nothing else. -/
structure Displays (A : App Key) (w : Window Key) : Prop where
  map : ∃ (key : Key) (P : Scene.Grid F) (rest : Option (Scene.Grid (V2 F))),
    w.scene.accumulateOnReceiversGridAll A.G A.split (w.pathCls.method A) { minOrder := w.minOrder, maxOrder := w.maxOrder }
      { E := A.E, patch := w.patch, approx := some w.approx, kw := ⟨w.alpha, w.function.function⟩ } (some key) A.gradOp false false
      (fun t r path objects => receivedPower A.E t r path (objects.map Obj.interact) w.rCoef) w.X w.Y = .ok (some P, rest) ∧
    w.coverage = P.map (List.map fun p => 10 * (p / P0).log10)
  rays : ∃ (key : Key) (ts : List Scene.Traced),
    w.scene.allPaths A.G A.split (w.pathCls.method A) { minOrder := w.minOrder, maxOrder := w.maxOrder }
      { E := A.E, patch := w.patch, approx := some w.approx, kw := ⟨w.alpha, w.function.function⟩ } (some key) = .ok ts ∧
    w.pathArtists = ts.map rayOf

/-- Two windows have the same settings. -/
def SameSettings (w w' : Window Key) : Prop :=
  w.minOrder = w'.minOrder ∧ w.maxOrder = w'.maxOrder ∧ w.patch = w'.patch ∧ w.approx = w'.approx ∧ w.alpha = w'.alpha ∧
    w.function = w'.function ∧ w.rCoef = w'.rCoef ∧ w.pathCls = w'.pathCls

/-- The settings that the action asks for. A slider that is already at the position says nothing new. -/
noncomputable def asked (w : Window Key) : Event → Window Key
  | .pick _ => w
  | .motion _ _ => w
  | .toggleApprox => { w with approx := !w.approx }
  | .alphaSlider i => { w with alpha := F.fin ((10 : ℝ) ^ notch 0 3 (min i 99)) }
  | .patchSlider i => if min i 99 = w.patchSlider.index then w else { w with patch := F.fin (notch (-1) 1 (min i 99)) }
  | .rCoefSlider i => if min i 99 = w.rCoefSlider.index then w else { w with rCoef := F.fin (notch 0 1 (min i 99)) }
  | .minOrder k => { w with minOrder := min k 99 }
  | .maxOrder k => { w with maxOrder := min k 99 }
  | .function f => { w with function := f }
  | .method c => { w with pathCls := c }

/-- The action moves the patch slider away from where it is. -/
def MovesPatch (w : Window Key) : Event → Prop
  | .patchSlider i => min i 99 ≠ w.patchSlider.index
  | _ => False

/-- The action moves the slider of the reflection coefficient away from where it is. -/
def MovesCoef (w : Window Key) : Event → Prop
  | .rCoefSlider i => min i 99 ≠ w.rCoefSlider.index
  | _ => False

/-- At some moment of the history an action did `p`. -/
def Sometime (A : App Key) (p : Window Key → Event → Prop) (w : Window Key) (history : List Event) : Prop :=
  ∃ before e after, history = before ++ e :: after ∧ p (w.run A before) e

end Spec
end DiffeRT2d
