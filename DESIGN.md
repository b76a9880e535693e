# Formal model of DiffeRT2d in Lean 4 — design

## 1. What is modelled, and how

The model is a shallow embedding, function by function, of `differt2d/*.py`. Every definition in
`lean/Verif/Model/*.lean` carries a comment with the file and lines it models and the simplifications made.
Lemmas live in `lean/Verif/Lemmas/*`, independent specifications in `lean/Verif/Spec/*`, and the property
theorems (with non-vacuity examples beside them) in `lean/Verif/Props/*`. A theorem named `Cxx_...` is about the
property `Cxx` of `properties.jsonl`; `_refuted` marks a proof that the property, as documented, is false of the code;
`_partial` what is proved of it nevertheless; `_iff` an exact characterisation of when it holds.

### Numbers
JAX floats are modelled by `F` (`Model/Float.lean`): an IEEE-like value is `nan`, `+inf`, `-inf` or an exact real
number. NaN propagation, infinities, comparisons with NaN, `x/0`, `0*inf`, `inf-inf`, `min/max/argmin` with NaN,
`sqrt` of negatives follow IEEE / `jax.numpy`. **Not modelled there:** rounding, overflow, signed zeros (there is one
zero; `x/0` for `x>0` is `+inf`), decimal literals are read as exact reals. So, except for C87 and later claims that say so,
theorems about values are about *exact arithmetic with IEEE special values*. This is the main trusted abstraction.
`Model/Rounded.lean` models `logic.py`, the geometric primitives, the image method and `is_valid` again with every operation
rounded (and overflowing), for any rounding that satisfies a small contract (`Spec/Rounded.lean`); `float32` and `float64`, round to
nearest even with gradual underflow, are instances. There each operation is rounded on its own (XLA may fuse a multiply and an add),
sums go from left to right, and `sqrt`, `sin`, `cos` and the logistic function are rounded correctly.
`jnp.finfo(dtype).eps` is a parameter `eps` of the environment (2^-23 for float32).

### JAX, equinox, optax
`jit`/`vmap`/`scan`/`lax.switch`/`where` are modelled by their reference semantics (functions, maps, folds,
clamped selection, if-then-else; both branches of `where` are total values). `jit` caching matters only for
`approx=None` and is modelled by a separate state machine (C09, C70). Filter predicates passed to jitted code are pure.
Random keys are free terms (`KeyTerm`: a root, and `split k n i`): distinct terms stand for independent keys;
that `split(key, n)` returns `n` keys is the assumption `SplitCount`. `jax.random.uniform` is an arbitrary function
of the key into `[0,1)`. `jax.grad` and `jax.value_and_grad` are parameters
(`gradOp`) in `Model/Scene.lean`; `Model/Grad.lean` runs the same program on numbers that carry their pullback, with the reverse-mode
rules of JAX for each operation (`add`, `mul`, `div`, `sqrt`, `select`, `max`, `min`, `reduce_min`, `logistic`, `nan_to_num`; cotangents of
shared operands are summed; nothing is simplified, so 0 times NaN is NaN). `Model/GradGrid.lean` uses it in the accumulations on grids.
optax optimizers are arbitrary `init/update` pairs; Adam's update rule is modelled for the refutation of C43.
`minimize` with `steps = 0` raises `IndexError` (`losses[-1]` on an axis of size 0): an assumption about `jnp` indexing.
Exceptions are values (`Except PyErr`).

### Libraries outside the repository
* `differt_core` (compiled Rust): its two path enumerators are a parameter `GraphLib`, constrained only by the contract
  `GraphContract` (no repeated path; exactly the paths of the given length). `refLib` is an executable enumerator, proved
  to satisfy the contract, so that the assumption is consistent and examples can be run through it.
* `json`: documents are taken after `json.loads`.
* matplotlib is modelled by the artists returned, with what they show and the keywords given.
* Python: dicts are association lists in insertion order with distinct keys; generators are the list of what a complete
  iteration yields, or the exception it raises, and, in `Model/Generators.lean`, machines resumed by `next`; `itertools.groupby`, `islice`, tuple indexing with negative
  indices and slicing are modelled.

### Coverage
| file | modelled | not modelled |
|------|----------|--------------|
| `logic.py` | all functions, on scalars and on arrays of any shape; the global flag, lock and context managers, threads, jit cache; the setting at import | |
| `geometry.py` | `segments_intersect`, `path_length`, `normalize`, `closest_point`, `stack/unstack_leaves`, `Point`, `Ray`, `Wall`, `RIS`, `Vertex`, `Path`, `ImagePath`, `FermatPath`, `MinPath`, bounding boxes, `parametric_to_cartesian`, `plot` | pytree registration details (`is_leaf`), dtype promotion |
| `abc.py` | `Plottable.grid`, `get_location`, `center`, `Interactable`, `Object` as interfaces | abstract-method enforcement |
| `optimize.py` | `minimize`, `minimize_random_uniform`, `minimize_many_random_uniform` and their default arguments | `value_and_grad` of objectives other than those of the library's two minimizing tracers (these: `Model/GradPaths.lean`) |
| `scene.py` | `PyTreeDict`, constructors, editing, candidates, traversals, accumulation (pairs, grids, gradients), GeoJSON, presets, plotting, stacking | docstring figures |
| `utils.py` | `received_power`, `P0` | |
| `defaults.py` | the constants | |
| `examples/` | `plot_power_optimize.py` (C127), `plot_ris_power_map.py` (C128), `plot_vertex_diffraction_power_map.py` (C126), `plot_power_profiles.py` (C130), `qt_interactive.py` (C129), `plot_power_map.py` (C143) | layout, colours and annotations of figures |
| `papers/` | `eucap2024/plot_power_map.py`, `eucap2024/plot_zero_gradient.py`, `eucap2024/plot_optimize_steps.py`, `joss/plot_optimize_steps.py`: the arrays shown and the two runs (C143, C149) | `joss/plot_ris_power_map.py` (same program as the example of C128), `eucap2024/utils.py` (file names, fonts) |
| `docs/source/quickstart.md` | the scene and the maps of the power (C148) | plots |
| `docs/source/notebooks/cost20120_helsinki_model.ipynb` | `random_samples`, `sample_2_scene`, `reward`, `FlowModel.__call__`, `Model.__call__`, `loss`, `train`, `filter_xys` (C131–C137) | figures, initial weights, `optax`, the weights of the two perceptrons (uninterpreted functions) |

### Trusted base
Lean's kernel; Mathlib's definitions of `ℝ`, `Real.sqrt`, `Real.exp`, `Real.sin`, `Real.cos`; the reading of the
Python in this model (the code is not run); the reference semantics of the libraries above. Axioms: see section 4.

## 2. Plan per property
| id | model | proof |
|----|-------|-------|
| C01-C03 | `Model/Logic.lean`: `Truthy` = Bool or F, promotion rules of jnp | case analysis; order lemmas; induction over argument lists |
| C04-C06 | `sigmoid`, `hardSigmoid`, `activation`, `isTrue`, `isFalse` | real analysis on `exp`, `min/max`; `Tendsto` |
| C07 | `Model/Approx.lean`: programs of `set/with/raise/read`, big step | induction over programs |
| C08 | same file: threads, RLock, atomic steps, all interleavings | mutual exclusion invariant by induction over steps; the restoration claim is **false** (the setting is saved before the lock is taken): refuted by a concrete schedule; partial theorem for schedules that do not read while another thread holds the lock |
| C09 | jit-cache state machine over histories | induction over histories |
| C10-C12 | `segmentsIntersect` over F | Cramer's rule over ℝ; det ≠ 0 / = 0 cases |
| C13-C14 | `pathLength`, `normalize` | triangle inequality, induction over point lists |
| C15 | `closestPoint`, `getClosest*`, NaN-aware argmin | induction |
| C16-C19 | `Wall.*`, `Vertex.*`, `sample` | algebra over ℝ |
| C20-C21 | `Wall.intersectsCartesian` | C20 from C10; C21 is **false** (doc and code disagree): counterexample |
| C22-C23 | `evaluateCartesian` | algebra with unit normals |
| C24 | `Ray.rotate` | **false** (matrix applied on the wrong side): counterexample, exact characterization of the rays/angles for which it holds, partial theorem for angles multiple of π |
| C25-C26 | `boundingBox`, `grid`, `getLocation`, `linspace` | induction over lists |
| C27 | arrays as (shape, row-major data), pytrees as (treedef, leaves) | induction |
| C28-C29 | `Path*.fromTxObjectsRx`, `parametricToCartesian` | induction over object lists, arbitrary optimizer; the lists `ImagePath` refuses by cases on the classes |
| C30-C35 | `ImagePath` (two scans) | induction over walls; mirror algebra; triangle inequality |
| C36-C40 | `onObjects`, `intersectsWithObjects`, `isValid` over an abstract object interface | folds; activation lemmas |
| C41-C42 | objectives of Fermat/Min path | convexity of norm of affine maps; C31 |
| C43-C46 | `Model/Optimize.lean` | C43, C46 are **false**: counterexamples + partial; C44/C45 induction |
| C47 | free key algebra | injectivity/size arguments |
| C48-C52 | `Model/Scene.lean` ordered dicts, scenes | refinement to finite maps; C50 false on collisions, C52 false |
| C53-C54 | `Model/Graph.lean` | induction over order |
| C55-C62 | `Model/Scene.lean` generators, groupby, grids | list algebra; C59, C61 false in general: counterexample + partial |
| C63-C65 | `Model/GeoJson.lean` parsed JSON tree | list algebra; C64, C65 false: counterexamples + partial |
| C66-C67 | scene constructors | index arithmetic / real algebra |
| C68 | `receivedPower` | real inequalities |
| C69 | `Model/Plot.lean` plot calls as a log | list algebra |
| C70 | jit-cache state machine with nested calls | **false**: two calls compiled under different settings; partial when all were compiled under the current one |
| C71 | losses of the three tracers | C43's analysis; **false** of MinPath |
| C72 | `unstackLeaves` | **false** (truncation); partial for equal sizes |
| C73-C74 | `Spec/Specular.lean`: law of reflection, physical ray paths | induction over walls with the image theorem; composition of C19, C20, C30, C31, C38, C53, C56, C57 |
| C75-C79 | relations between two scenes | C75 from C74; C76 from the invariance of each geometric primitive; C77-C79 by monotonicity of validity |
| C80-C82 | accumulated values in scenes of walls | C80 by continuity of the logical connectives along the limit of each comparison; C81 from C58 and C74; C82 from C53 (more candidates) and C79 |
| C83-C84 | scenes whose points and walls move (functions from a topological space) | continuity of every step of the image method away from its guards; crossing tests tend to 0 when the segment becomes parallel to the wall; local constancy of each comparison without tie |
| C85-C86 | the same motions, over a normed space | calculus of `ContDiffAt` through every step of the image method; the soft logic is min, max and a Lipschitz step of smooth margins (where a segment is parallel to a wall, of the inverse of the margin); Rademacher (Mathlib) |
| C87-C91 | the numerical functions with every operation rounded (`Model/Rounded.lean`), for any arithmetic that satisfies a contract | IEEE formats are constructed and shown to satisfy the contract; the contract suffices for the sign and order arguments; with exact arithmetic the rounded model is the main one (`C87_exact_model`) |
| C92-C93 | the three tracing methods over walls, `Spec/Methods.lean` (points at parameters, mirror direction, minimisers, moved scene) | MinPath: score of an interaction in terms of the angle to the mirror direction, null sum of squares; FermatPath: unfolding of the polyline in images, equality case of the triangle inequality by induction on the walls |
| C94 | threads over the setting and its reentrant lock (`Model/ApproxMachine`) | a measure of the remaining work of a thread decreases at each of its steps; invariant: the owner of the lock has a release pending, so it is not finished and can step |
| C95 | the generators as resumable machines (`Model/Generators.lean`): suspended state, `next`, exceptions, the look-ahead of `groupby` | state after n calls by induction on n; agreement with the complete lists of `Model/Scene.lean` |
| C96-C97 | arrays (shape and entries), NumPy broadcasting, stacking, reductions, the check of `*batch` (`Model/Arrays.lean`); the environment | lemmas on indices of a shape (induction over the shape); each function is shown to be an element-wise map in three shape situations, then the check is discharged |
| C98-C99 | reverse-mode differentiation of the accumulation (`Model/Grad.lean`, `Model/GradGrid.lean`), for scenes of walls and the image method | C98: the value of every operation is the operation on values, by induction through the program. C99: a relation (differentiated number, real function) preserved by every operation; validity is locally constant without ties (C84) |
| C100 | the same | NaN cotangents are followed through the program (a point whose step is guarded sends NaN back whatever its cotangent); otherwise C99 with the validity frozen |
| C101 | the same | every operation maps tame inputs (real value, NaN-free pull) to tame outputs; a repeated point sends NaN back; collinear walls always repeat a point |
| C102 | the same | induction on the candidate: the first point avoids given lines through the image if the receiver avoids lines (a projection from the image maps lines to points of the wall); the other way round by reciprocity |
| C103 | the same | AE: around almost every point of an open set the value is analytic and the tape right; closed under all operations of the model, since two analytic functions are, around almost every point, equal on a neighbourhood or different on one (zeros of an analytic function that is not constant are a null set); then induction on paths and candidates |
| C104 | F operations, segments_intersect, walls, RIS, image method, is_valid, all_paths, accumulate_over_paths over families of scenes | zeros of an analytic function: almost every zero has a neighbourhood of zeros (density points and vanishing derivatives), so that comparisons are constant near almost every parameter; closure under every operation, then induction on paths, objects, candidates and pairs |
| C105 | the same, with the tape | C100 (gradient with the accepted paths held fixed), C102 (determined off finitely many lines), C104 (acceptance is constant near almost every position) |
| C106 | `adam`, `minimize` | invariant of the moments: m² ≤ 10 S v with S the partial sum of powers of 30/37 (Cauchy–Schwarz, one step at a time); bias corrections by 2·0.9^k ≤ (30/37)^k + 0.999^k; NaN and infinities by cases |
| C107 | `Rev.fermatLoss`, `Rev.minLoss`, `Rev.gradient` (`Model/GradPaths.lean`) | each entry by projection of the reverse pass to one input; steps that do not move send nothing back (`Dead`), moving ones are differentiated by `Differentiates`, singular ones send NaN (`Nans`); the whole gradient with all inputs at once |
| C108 | `FermatPath.differentiated`, `MinPath.differentiated` | C106 along the run of C44 with the gradients of C107; C40 for validity |
| C109 | `FermatPath.differentiated`, `MinPath.differentiated` | convexity (C41) and the derivative along segments; nonnegativity (C42); closed form of the score when the receiver mirrors the transmitter |
| C110 | the traversals of scenes of walls | a ray path can be followed at a small distance without meeting a wall: flanks of the steps (compactness), half discs at the reflections, induction along the path; convex rooms by the first face reached |
| C111 | the traversals of scenes of walls | induction along the two paths: the next wall of the shorter step would block the longer one, reflection is a function of the direction; reversal for the arrivals |
| C112 | the traversals of scenes of walls | unfolding: induction on the reflections for the image of the receiver and its cell; injectivity from C111; the converse by induction on |m| + |m'|, following the line to the wall where it leaves the room first |
| C113 | the traversals of scenes of walls and received_power | the sum over ray paths (C81), the count of paths per order (C112), telescoping bound on the remainder, monotone convergence |
| C114 | the rounded image method, is_valid, path_length, received_power and the accumulation loop; IEEE formats | limits of each operation along a filter, a value that goes to infinity when a segment is parallel to a wall, eventual agreement of comparisons without ties |
| C115 | the rounded logic module, image method, is_valid and accumulation loop | limits of minima, maxima and activations; parallel segments make one activation tend to 0 whatever the sign of the rounded parameter |
| C116 | the rounded path_length, received_power and accumulation loop; IEEE formats | monotonicity of rounding, idempotence of rounding to nearest, induction over the candidates |
| C117 | the rounded path_length; IEEE formats | error analysis of differences, squares, roots and sums; induction over the points |
| C118 | the rounded path_length, received_power and accumulation loop in float32 | relative error of length (C117), power, squares and quotient; no overflow within the bounds; induction over the candidates |
| C119 | the rounded image method, validity, path_length, received_power and accumulation loop, as in C114 | calculus of errors that are O(eps): sums, products, quotients and norms of quantities with a non-zero limit; induction along the path and over the candidates |
| C120 | the rounded validity in approximate mode, the rounded activations and accumulation loop, as in C115 | the calculus of O(eps) errors of C119, extended by min, max, the two activations and quotients with vanishing denominators; induction over walls, segments and candidates |
| C121 | Model/GradPaths.lean, Model/Optimize.lean with many >= 2 | The runs of the trials (C44), argmin with NaN first (C45, C46), and C108 for the selected trial; the objective at a NaN parameter is NaN. |
| C122 | Model/Abc.lean, Model/Geometry.lean, Model/Scene.lean | The image of a point in a wall, the intersection with it, contains_parametric under t -> 1 - t with the interval test symmetric about 1/2, and the patched segment test under exchange of the ends; then the traversal is the same function of the candidate. |
| C123 | Model/Scene.lean, Model/Geometry.lean, Model/Logic.lean | The candidates of the two scenes correspond by the renumbering (C53), the obstruction degrees of a path are the same set, a NaN-propagating maximum depends on the set only, and sums do not depend on the order. |
| C124 | Model/Scene.lean, Model/Presets.lean (received_power), Model/Geometry.lean | C35 and C76 for one motion, C122 and C123 for the return to the original list of walls; the function x -> 1/(h^2+x^2) is 1/h^3-Lipschitz, and C13 bounds the change of the length. |
| C125 | Model/Scene.lean, Model/Paths.lean, Model/Geometry.lean | Elementary geometry on the characterisation of the valid paths by RayPath (C74). |
| C126 | FermatPath, MinPath, minimize*, is_valid, all_valid_paths, accumulate_over_paths over the built-in objects | pathLoss and parametric_to_cartesian over vertices by induction; hard validity (C38) with the crossing test (C20); C54 for the filter. |
| C127 | `Rev.objectiveFunction`, `Rev.powerLoss`, `zeroNans`, `Optimizer.chain`, `Rev.optimizeStep`, `Rev.animate` (Model/PowerOptimize.lean) | min over receivers by induction on the fold (value, pullback weights, NaN propagation); invariant of one coordinate of Adam (real moments of a gradient history, or spoilt for ever); C100/C101 for the powers. |
| C128 | `RIS.evaluate`, `MinPath.fromTxObjectsRx`, `FermatPath.fromTxObjectsRx`, `ImagePath.fromTxObjectsRx`, `Path.isValid`, `Scene.allValidPaths`, `Rev.minLoss` | closed form of the score; a real total below the tolerance has real, small, non-negative terms (NaN and infinities excluded case by case); a real score of a RIS forces a real parameter; loss of minimize is a value of the objective; derivative of the cosine along the line; C107 for the gradient. |
| C129 | `Slider`, `Window.create`, `Window.onSceneChange`, `Window.onPick`, `Window.onMotion`, `Window.step`, `Window.run`, and the models of `Scene.plot`, `allPaths`, `accumulateOnReceiversGridAll` | invariant of the window by induction on the history, one case per action; a redrawing of a room cannot fail (totality of the path methods and of validity); slider values are odd multiples of 1/99 away from the middle; C60, C58, C26 for the cells. |
| C130 | `activation`, the comparisons and connectives, `segmentsIntersect`, `contains`, `intersects`, `Path.isValid`, `accumulateOverPaths` | a relation between an exact Boolean and two degrees, closed under min, max and 1 - x by cases on the Booleans; a comparison satisfies it because a soft step sharpens (C04); NaN losses give false and 0 in all runs; accumulated values by comparison of sums over the candidates (C58). |
| C131 | `Model/Sampler.lean`: `sampleStep`, `randomSamples`, `sample2Scene`; `jax.random` under `DataContract` | the preset from C67; every wall is a quarter turn about the centre, so that `rotate` is a rotation by minus the angle; induction over the number of samples. |
| C132 | `Model/Sampler.lean`: `reward`, `takeFill`; the tracing and validity of the library | jnp.take selects the walls of the candidate; then C34/C38 and the geometric characterisation of C112; a NaN wall makes the loss NaN, so the last test is false; C130 for the bound 2/3. |
| C133 | `Model/Sampler.lean`: `FlowModel.call`, `normalizeRows`, `OneHot.nonzeroRows`, `takeFill`, `atSet`; the two perceptrons are any functions | sums are invariant under permutation (F is commutative and associative); what `jnp.nonzero` returns for a one-hot encoding is the sorted list of the walls selected; exp is positive; the normalization subtracts the mean. |
| C134 | `Model/Sampler.lean`: `chooseWall`, `sampleScan`, `sampleCandidate`; `SupportContract`, `RandomContract` | induction over the scan: a candidate is drawn iff each of its walls is drawn from the logits of its prefix; the softmax of the logarithms of the normalized flows is the normalized flows; the witness uses `Measure.infinitePi`. |
| C135 | `Model/Sampler.lean`: `lossScan`, `lossOne`, `flowLoss`, `reward` | the state after each step is the encoding of the prefix; jnp.nonzero returns the sorted candidate; telescoping with ratios at most 1 and Cauchy-Schwarz; the corner by the law of reflection. |
| C136 | `Model/Training.lean`: `Trainer`, `validate`, `trainBody`, `trainLoop`, `train`, `notebookTrainer` | loop invariant: the variables after n steps in closed form; the number of the next fresh key is the step plus the validations done; the n-th fresh key has the address 0...01 in the tree of splits. |
| C137 | `Model/Training.lean`: `filterXys` | C74 (valid paths are the physical ray paths); geometry of two samples of the generator, with the uniqueness of specular paths (C73). |
| C138 | as C20, C57, C58, C60, C129 | the wall patched with -1-p is the wall patched with p, ends exchanged; C11 (segments have no direction); C79 for the order. |
| C139 | as C31, C57, C58, C60 | C11 (a segment crosses a wall in both directions), the reverse of a chain of images off the exceptional lines (C102), candidates are closed under reversal (C53), sums do not depend on the order (C123), inverse squares of close lengths. |
| C140 | as C103, C105 (reverse-mode differentiation, Model/Grad.lean, Model/GradGrid.lean) | the gradients are derivatives near almost every position (C103, C105), a derivative is unique, the chain rule, affine maps preserve null sets; C122, C123 and C124 for the values. |
| C141 | as C103, C127 (reverse-mode differentiation, Model/Grad.lean, Model/GradGrid.lean, Model/PowerOptimize.lean) | the power is piecewise analytic with finitely many pieces, each the inverse square of a distance times a constant or a step of a quotient of affine functions; on a half-plane such a piece is either zero or not constant (it tends to zero along a ray), so the zeros of its derivative are a null set (identity theorem); ties of receivers are local, almost everywhere; explicit first step of Adam. |
| C142 | as C100, C105, C127 (reverse-mode differentiation, Model/Grad.lean, Model/GradGrid.lean, Model/Optimizer) | without approximation the power is, locally and almost everywhere, the sum over a constant set of accepted candidates of analytic functions; where such a sum is locally constant it is so along a line in almost any direction, on which the reflection points are quotients of affine functions and each length has a continuation with signed square roots of polynomials, so each power continues to a meromorphic function of the line that tends to zero at infinity, hence the constant is zero; reversal of the paths gives the transmitter's side. |
| C143 | `Model/Figures.lean`: `objectiveFunction`, `loss`, `objectiveMap`, `powerMap`, `gradientMap`, `paperRuns` | C60 reduces each cell of a grid to a scene with one receiver or transmitter; the minimum of arrays is taken cell by cell; C142's flatness argument is applied to the sum over the transmitters; induction over the frames for the two runs. |
| C144 | `Model/GradGrid.lean`: grid functions with gradients, `Model/GradPaths.lean`: `receivedPower` | C100 gives the gradient as that of a finite sum of powers along image paths. The length of the image path and that of the path whose interaction points stay fixed are both at least the distance from the last image, with equality at the position considered, so both have the derivative of that distance. Joint smoothness in the guard and the position gives the limit. |
| C145 | `Model/Sgd.lean`: `sgd` (optax.sgd, published rule); `Model/GradPaths.lean`: `FermatPath.differentiated` | C107 gives the gradient as the derivative of the sum of two distances sqrt(A (t-a)^2 + h^2); its derivative is positive and at most A/h + A/k, so one step is a contraction on bounded sets (mean value theorem) with fixed point (a k + b h)/(h + k). C93 identifies the point. In the symmetric case the step multiplies the offset by -1 at the offset where the distance is lr A. |
| C146 | `Model/Sgd.lean`: `sgd` (optax.sgd, published rule); `Model/GradPaths.lean`: `FermatPath.differentiated` | The length is a sum of norms of affine maps; the difference of unit directions satisfies (|u|+|w|)/2 |u^-w^|^2 = <u^-w^, u-w>, so with |w| >= l the gradient is co-coercive relative to the minimum: every step decreases the squared distance by at least lr (l - lr S') |direction changes|^2, whose sum over steps is bounded. Cauchy-Schwarz turns it into a rate for the length; compactness gives the limit. C107 identifies the gradient, C109 the minimum, C93 the specular path. |
| C147 | `Model/Steer.lean`: `steering`, `Rev.steering`, `steer`; `Model/Sgd.lean`: `sgd` (optax.sgd, published rule) | The score is 2 - 2 cos of the angle between the beam and the outgoing step, so the sum is a constant minus 2 R cos(phi - best); the backward pass is proved equal to the derivative 2 R sin(phi - best) through the rules for sin and cos, and the iteration delta - 2 lr R sin(delta) is a contraction to 0 on every [-D, D] with D < pi (concavity of sin); for 2 lr R > 2 the intermediate value theorem gives a two-cycle. |
| C148 | quickstartScene in Spec/Shadow.lean (docs/source/quickstart.md:29-49), by Scene.squareScene, Scene.addObjects; accumulateOnReceiversGridAll; ImagePath; is_valid | C81 and C60 reduce each cell to the sum over the ray paths; the image of the transmitter in each of the five walls is then followed (the added wall seen from its left and right, the left wall), and explicit two-reflection paths are given (ceiling then right wall, floor then right wall, ceiling then floor) |
| C149 | Spec/ZeroGradient.lean; Scene.squareSceneWithWall; Rev.accumulateOnReceiversGrid; Rev.receivedPower | C100 gives the gradient at every receiver for the set of accepted paths, C81 the set itself: the line of sight, when no wall blocks it; the walls that block are found from the coordinates |
| C150 | Model/PowerOptimize.lean (loss, animate), Model/Sgd.lean; Spec/Placing.lean | the gradient of the example's loss in line of sight is a multiple of the vector to the worst served receiver (C127, C144), with the power of free space or zero (C81); induction over the frames on the fraction of the way that is left |
| C151 | Model/PowerOptimize.lean (loss, animate), Model/Sgd.lean; Spec/Placing.lean, Spec/Centre.lean | a place away from c is further than R from some receiver (a small move of c towards it would make the circle smaller); the step is towards a mean of the furthest receivers, that are all at one distance; induction over the frames |
| C152 | Model/Grad.lean, Model/TruthGradient.lean (greater, logicalAny, activationGradients: vmap(grad(f))(x)); Spec/TruthGradient.lean | backward passes are linear in what is given to them; the balanced rule of max and min for ties; one-sided derivatives at the corners |

Properties that no executable model can express: none planned. Runtime facts outside the model: fused operations,
compilation, wall-clock behaviour, rendering of artists.

## 3. Findings: properties the code does not have
Each is a theorem (`Cxx_refuted` or as named), with what holds instead in `Cxx_partial` / `Cxx_iff`.

* C08: `enable_approx` reads the old setting before taking the lock: two threads can leave the setting changed.
* C21: a patch in `(0, 1)` extends the walls; it never compresses them, contrary to the documentation.
* C24: `Ray.rotate` multiplies the matrix of row points from the left, which is not a rotation of each point.
* C40: the end points and vertices are not tested by `is_valid` (counterexample beside the theorem).
* C43, C71: `minimize` returns the loss of the point before the last update.
* C46: a start that diverges to NaN wins the `argmin` over starts.
* C50: renaming points onto the same name silently drops some.
* C52: negative indices mean different objects in different places.
* C59: pairs without candidate have no group in the accumulation.
* C61: `0 * inf` makes an invalid path poison the accumulated value.
* C64: closed GeoJSON rings give a wall of zero length. C65: `Point` features raise `TypeError`.
* C69: a colour in the general plotting keywords is refused.
* C70: after a setting change, a composite function may mix modes, because of the jit cache.
* C72: `unstack_leaves` truncates silently.
* C95: `accumulate_over_paths` traces the first path of the next pair before it yields a pair: an exception there loses the finished pair.
* C96: `logical_all`/`logical_any` never reduce the entries of one array; without `axis` they refuse arrays.
* C97: approximation is off by default and `DISABLE_APPROX` has no effect, contrary to the documentation.
* C100: gradients in hard mode are NaN at positions where the value is finite: wherever a path candidate, accepted or not, meets the guard of the image method.
* C101: in exact arithmetic the gradients of `basic_scene` in approximate mode are NaN everywhere as soon as paths of order 2 are considered, because two inner walls are collinear.
* C102: which scenes have no real gradient at all in approximate mode: those with two collinear walls (order 2) or a wall reduced to a point.
* C109: `MinPath` can rest where it starts: behind the wall, at the mirror image of the transmitter, its loss is constant (4) and its gradient zero, so that it returns its random guess.
* C152: the gradients of equal truth values do not respect absorption and associativity (C152_laws, C152_associative_refuted). Read, not modelled: docs/source/jax_and_jaxtyping.md applies jax.grad(activation) to an array, which jax refuses (only scalar outputs); the docstring of activation does it right, with vmap.
* C143: without any path candidate the map of the objective shows 0 where the loss is -inf (C143_no_candidates); in papers/eucap2024/plot_optimize_steps.py the continue that skips a plot also skips the step of the run without approximation at frames 20, 40, 60, 80: 96 steps instead of 100 (C143_runs), which the figure does not show; a NaN gradient is shown as 0 (C143_gradient)
* C139: received_power is not exactly reciprocal because of the eps added in path_length (C139_power_inexact); at positions where a step is parallel to its wall the paths in the two directions differ (C139_exception)
* C138: a negative patch below -1/2 enlarges walls again (C138_negative_refuted)
* C137: filter_xys of the sampler notebook uses the global order = 2 while the curated training uses order=1: scenes with first-order paths are dropped and scenes without are kept (C137_order_refuted)
* C136: the return annotation of train in the sampler notebook is wrong unless print_every = 1: the last step is reported too (C136_annotation_refuted); an empty list of validation samples raises ZeroDivisionError (C136_zero_division)
* C135: loss of the sampler notebook decodes the candidate with jnp.nonzero, which lists the walls by index and not in the order of selection, so that the reward of the wrong path is used for orders >= 2: the announced property p proportional to R fails (C135_proportional_refuted, C135_valid_lost); it holds for order 1 (C135_first_order)
* C134: with a single wall and order >= 2 the sampler draws from NaN logits and returns the same wall repeated instead of reporting that there is no candidate (C134_single_wall, C134_single_nan)
* C133: FlowModel.__call__ documents that a negative wall_index means that no wall was selected, but -1 stops the flow of the last wall (C133_negative_refuted); the notebook itself passes num_walls
* C131: random_samples turns each wall by minus the angle drawn (Wall.rotate is clockwise, C16), so a non-symmetric range min_angle..max_angle is not respected (C131_clockwise_refuted); the default range is symmetric
* C130: the sentence 'the higher alpha, the closer it gets to the Without approx. case' holds path by path and for the line of sight alone, but not for totals over several paths (C130_total_refuted); with the default settings the degree of a perfectly valid path is at most 2/3, since the test loss < tol is smoothed with the same slope (C130_default)
* C129: a click on a marker of the interactive example always raises: what Point.plot draws with ax.scatter has no get_xydata, so nothing can be dragged (C129_drag); the sliders cannot return to patch 0 and coefficient 1/2 (C129_patch_lost, C129_coef_lost); the resolution option only sets the number of rows (C129_resolution)
* C127: `zero_nans` comes after `adam` in the chain: a NaN gradient is hidden, but it has already entered the moments of Adam, which stay NaN; the coordinate is frozen for the rest of the optimization. (`chain(zero_nans(), adam(lr))` would skip that gradient only.) With `max_order >= 3` the start position of the example is such a position; the example's remark that a larger `max_order` avoids the problem fails for 3 and more.
* C125: a wall listed twice (for example the common wall of two adjacent buildings of a GeoJSON file, or two walls of a plan that overlap) does not reflect: it becomes an absorber. Where a long wall is drawn in two pieces there is a gap without reflections around the joint.
* C124: path_length is not invariant under rotations and mirrorings: it depends on the direction of the path, to first order in eps.
* C121: asking for more trials makes the result worse when one of them meets a singular point: the NaN trial always wins.

## 4. Axioms
`#print axioms` on all theorems of `MANIFEST.json` gives a subset of `propext`, `Classical.choice`, `Quot.sound`
(at the commit of C152: 653 use all three, 7 `propext` and `Quot.sound`, 5 `propext`, 1 none). No axiom is declared, and
no compiled evaluation is used.

## 5. Tests of the theorems
`seeded/LOG.jsonl`: one line per wrong program. A scratch copy of the Lean project is edited in one definition of the
model; the project is rebuilt; each theorem or lemma whose proof breaks is recorded (`theorems_failed`, `lemmas_failed`),
its proof is removed and the build resumed, so that every theorem still resting on a broken fact is found through its
axioms (`theorems_failed_through_lemmas`). An edit whose target property has no failing theorem reveals a weak theorem.
