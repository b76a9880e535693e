import Verif.Model.Approx
import Verif.Model.Arrays
import Verif.Model.Figures
import Verif.Model.Float
import Verif.Model.Generators
import Verif.Model.GeoJson
import Verif.Model.Geometry
import Verif.Model.Grad
import Verif.Model.GradGrid
import Verif.Model.GradPaths
import Verif.Model.Graph
import Verif.Model.Interactive
import Verif.Model.Logic
import Verif.Model.Optimize
import Verif.Model.Paths
import Verif.Model.Plot
import Verif.Model.PowerOptimize
import Verif.Model.Presets
import Verif.Model.PyTree
import Verif.Model.Rounded
import Verif.Model.Sampler
import Verif.Model.Scene
import Verif.Model.Sgd
import Verif.Model.Steer
import Verif.Model.Training
import Verif.Model.TruthGradient
import Verif.Spec.Accuracy
import Verif.Spec.Analytic
import Verif.Spec.Arrays
import Verif.Spec.Centre
import Verif.Spec.Diffraction
import Verif.Spec.Directions
import Verif.Spec.Fields
import Verif.Spec.Generators
import Verif.Spec.GeoJson
import Verif.Spec.Geometry
import Verif.Spec.Grad
import Verif.Spec.GradPaths
import Verif.Spec.GradTransfer
import Verif.Spec.Graph
import Verif.Spec.Interactive
import Verif.Spec.Laws
import Verif.Spec.Lines
import Verif.Spec.Logic
import Verif.Spec.Methods
import Verif.Spec.NonFlat
import Verif.Spec.Objects
import Verif.Spec.Opaque
import Verif.Spec.Optimize
import Verif.Spec.Paths
import Verif.Spec.Placing
import Verif.Spec.Plot
import Verif.Spec.PowerOptimize
import Verif.Spec.Precision
import Verif.Spec.Presets
import Verif.Spec.PyTree
import Verif.Spec.RIS
import Verif.Spec.Rate
import Verif.Spec.Rays
import Verif.Spec.Reciprocal
import Verif.Spec.Room
import Verif.Spec.Rounded
import Verif.Spec.RoundedPower
import Verif.Spec.Sampler
import Verif.Spec.Scene
import Verif.Spec.Sgd
import Verif.Spec.Shadow
import Verif.Spec.Shapes
import Verif.Spec.Sharper
import Verif.Spec.Smooth
import Verif.Spec.Specular
import Verif.Spec.Stability
import Verif.Spec.Steer
import Verif.Spec.Training
import Verif.Spec.Traversal
import Verif.Spec.Trials
import Verif.Spec.TruthGradient
import Verif.Spec.ZeroGradient
import Verif.Lemmas.Accumulate
import Verif.Lemmas.Accuracy
import Verif.Lemmas.Adam
import Verif.Lemmas.AlmostAnalytic
import Verif.Lemmas.AlmostPaths
import Verif.Lemmas.AlmostProgram
import Verif.Lemmas.AlmostScene
import Verif.Lemmas.Analytic
import Verif.Lemmas.Approx
import Verif.Lemmas.ApproxMachine
import Verif.Lemmas.Argmin
import Verif.Lemmas.Arrays
import Verif.Lemmas.BBox
import Verif.Lemmas.Candidates
import Verif.Lemmas.Directions
import Verif.Lemmas.Figures
import Verif.Lemmas.Float
import Verif.Lemmas.Generators
import Verif.Lemmas.Generic
import Verif.Lemmas.GenericShapes
import Verif.Lemmas.Geometry
import Verif.Lemmas.GradAe
import Verif.Lemmas.GradAlmost
import Verif.Lemmas.GradDeriv
import Verif.Lemmas.GradNan
import Verif.Lemmas.GradPaths
import Verif.Lemmas.GradScene
import Verif.Lemmas.GradSoft
import Verif.Lemmas.GradTame
import Verif.Lemmas.GradValue
import Verif.Lemmas.Graph
import Verif.Lemmas.Grid
import Verif.Lemmas.Ieee
import Verif.Lemmas.Image
import Verif.Lemmas.ImagePath
import Verif.Lemmas.ImageScore
import Verif.Lemmas.ImageSym
import Verif.Lemmas.Jit
import Verif.Lemmas.Length
import Verif.Lemmas.Lines
import Verif.Lemmas.LitCurve
import Verif.Lemmas.LitFlat
import Verif.Lemmas.LitLength
import Verif.Lemmas.Logic
import Verif.Lemmas.Methods
import Verif.Lemmas.NonFlat
import Verif.Lemmas.NonFlatHard
import Verif.Lemmas.NonFlatSight
import Verif.Lemmas.Objectives
import Verif.Lemmas.OneWall
import Verif.Lemmas.Opaque
import Verif.Lemmas.PowerError
import Verif.Lemmas.PowerOptimize
import Verif.Lemmas.PowerReal
import Verif.Lemmas.Precision
import Verif.Lemmas.PrecisionFormats
import Verif.Lemmas.PrecisionHard
import Verif.Lemmas.PrecisionSoft
import Verif.Lemmas.RIS
import Verif.Lemmas.Rate
import Verif.Lemmas.RateSoft
import Verif.Lemmas.Room
import Verif.Lemmas.RoomPath
import Verif.Lemmas.Rounded
import Verif.Lemmas.RoundedPaths
import Verif.Lemmas.RoundedPower
import Verif.Lemmas.Sampler
import Verif.Lemmas.Scene
import Verif.Lemmas.Shadow
import Verif.Lemmas.ShapeSteps
import Verif.Lemmas.Sharper
import Verif.Lemmas.SignedRoot
import Verif.Lemmas.Similarity
import Verif.Lemmas.Smooth
import Verif.Lemmas.Specular
import Verif.Lemmas.Stability
import Verif.Lemmas.Steer
import Verif.Lemmas.SumLengths
import Verif.Lemmas.Ties
import Verif.Lemmas.Tracing
import Verif.Lemmas.Traversal
import Verif.Lemmas.TruthGradient
import Verif.Lemmas.Validity
import Verif.Lemmas.Wall
import Verif.Props.Accumulate
import Verif.Props.Accuracy
import Verif.Props.Adam
import Verif.Props.Analytic
import Verif.Props.Approx
import Verif.Props.Arrays
import Verif.Props.BBox
import Verif.Props.Candidates
import Verif.Props.Centre
import Verif.Props.Curated
import Verif.Props.Descent
import Verif.Props.Diffraction
import Verif.Props.Directions
import Verif.Props.Fields
import Verif.Props.Figures
import Verif.Props.FlowLoss
import Verif.Props.FlowModel
import Verif.Props.GeneratorResults
import Verif.Props.Generators
import Verif.Props.Generic
import Verif.Props.GenericShapes
import Verif.Props.GeoJson
import Verif.Props.Geometry
import Verif.Props.Grad
import Verif.Props.GradAlmost
import Verif.Props.GradHardAlmost
import Verif.Props.GradNan
import Verif.Props.GradPaths
import Verif.Props.GradSoft
import Verif.Props.GradTransfer
import Verif.Props.Grid
import Verif.Props.ImageErrors
import Verif.Props.ImagePath
import Verif.Props.Interactive
import Verif.Props.Laws
import Verif.Props.Length
import Verif.Props.Library
import Verif.Props.Lines
import Verif.Props.LitFlat
import Verif.Props.Liveness
import Verif.Props.Logic
import Verif.Props.Methods
import Verif.Props.Monotone
import Verif.Props.NonFlat
import Verif.Props.Objectives
import Verif.Props.Opaque
import Verif.Props.Optimize
import Verif.Props.Patch
import Verif.Props.PatchMirror
import Verif.Props.Placing
import Verif.Props.PlacingSharp
import Verif.Props.Plot
import Verif.Props.PowerAccuracy
import Verif.Props.PowerOptimize
import Verif.Props.Precision
import Verif.Props.Presets
import Verif.Props.PyTree
import Verif.Props.RIS
import Verif.Props.Rate
import Verif.Props.RateSoft
import Verif.Props.Rays
import Verif.Props.Reciprocal
import Verif.Props.Redraw
import Verif.Props.Reorder
import Verif.Props.Reward
import Verif.Props.Room
import Verif.Props.RoomPower
import Verif.Props.Rounded
import Verif.Props.RoundedImage
import Verif.Props.RoundedPower
import Verif.Props.SampledCandidates
import Verif.Props.Samples
import Verif.Props.Scene
import Verif.Props.Sgd
import Verif.Props.SgdMany
import Verif.Props.Shadow
import Verif.Props.ShadowGradient
import Verif.Props.Sharper
import Verif.Props.Smooth
import Verif.Props.Specular
import Verif.Props.Stability
import Verif.Props.Stationary
import Verif.Props.Steer
import Verif.Props.Symmetry
import Verif.Props.Touching
import Verif.Props.Tracing
import Verif.Props.Training
import Verif.Props.Traversal
import Verif.Props.Trials
import Verif.Props.TruthGradient
import Verif.Props.Validity
import Verif.Props.Wall
import Verif.Props.Window
import Verif.Props.ZeroGradient
