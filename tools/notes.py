NOTES = {
 "C08": ("partial", "Mutual exclusion is proved for all schedules; the restoration claim is false of the code (the setting is read before the lock is taken): C08_restore_refuted gives a two-thread schedule, C08_restore_partial proves it for schedules without that racy read."),
 "C70": ("partial", "False of the code: C70_mixed_refuted; holds when all approx=None versions were compiled under the current setting."),
 "C21": ("partial", "False of the code (documentation and code disagree): C21_refuted; C21_partial proves compression for patch in [-1/2,0]; C20_monotone shows a patch in (0,1) only adds intersections."),
 "C24": ("partial", "False of the code (the rotation matrix multiplies the matrix of row points from the left): C24_refuted; C24_iff characterizes exactly when it holds; C24_partial: multiples of pi."),
 "C43": ("partial", "False of the code (the last loss is recorded before the last update): C43_refuted with the default optimizer; C43_iff characterizes exactly when it holds; C43_partial: when the last update is zero."),
 "C46": ("partial", "False of the code (argmin prefers NaN): C46_nan_wins, C46_refuted; C46_partial covers divergence to infinity."),
 "C71": ("partial", "Proved for ImagePath and FermatPath; false for MinPath (C71_min_refuted), whose loss is that of one update earlier (C71_min_partial)."),
 "C40": ("proved", "Vertices and the two end points are not tested by is_valid: C40_endpoint_counterexample shows why the claim is restricted to the loss and to points on walls and RISs."),
 "C50": ("partial", "False of the code when two points get the same name (the later one silently replaces the earlier one): C50_refuted; C50_count_iff: points are kept if and only if the new names do not collide; C50_*_partial: then each point stays, in order, under its new name."),
 "C52": ("partial", "False of the code: C52_refuted; C52_partial says what negative indices designate in each kind of scene."),
 "C53": ("proved", "For every path enumerator meeting the documented contract of differt_core (GraphContract, an assumption about an external library; refLib_contract shows it can be met)."),
 "C54": ("proved", "Same assumption as C53. The order among candidates of one length is not specified by the library, so 'changes nothing' is a permutation."),
 "C47": ("proved", "Keys are free terms of split (an idealization of the PRNG, stated in DESIGN.md). In a grid accumulation the key of a candidate is shared by all grid points and transmitters, by design of the code."),
 "C56": ("proved", "Same assumption as C53. Generators are modelled by the list of all they yield, or the exception of a full iteration."),
 "C58": ("proved", "Same assumption as C53."),
 "C59": ("partial", "False of the code (pairs without candidates have no group): C59_refuted, C59_no_candidates; C59_partial: holds if and only if there is no pair or some candidate."),
 "C60": ("proved", "For path classes that do not use their key, as stated; C47_*_grid gives the value for the others. transmitter_cls/receiver_cls is the default Point. Without candidates the grid is zero (C60_*_no_candidates)."),
 "C61": ("partial", "False of the code (0 * inf is NaN): C61_refuted; C61_partial: holds when the function is finite on the invalid paths."),
 "C62": ("proved", "For every differentiation operator (jax.grad is a parameter of the model)."),
    "C63": ("proved", "Documents are taken after json.loads. cyclicPairs is the specification of cyclically consecutive vertices (C63_cyclic states it with indices)."),
    "C64": ("partial", "Refuted for every closed ring (C64_refuted): the first wall joins the last vertex to the first, which has zero length when the ring is closed, and there is one wall too many. Proved: all other walls are exactly the segments (C64_partial)."),
    "C65": ("partial", "Refuted for Point features (C65_refuted: TypeError, wherever the feature stands). Proved for features without geometry and for geometries given by nested arrays (C65_partial, C65_among)."),
    "C66": ("proved", "The generator is any function returning the requested number of points. Negative counts are not modelled."),
    "C68": ("proved", "Paths with at least two points and finite coordinates. C68_P0: the offset added by path_length makes the power at zero distance slightly smaller than P0."),
    "C69": ("proved", "matplotlib is modelled by the artists it returns. C69_color_refused: a colour in the general keywords is refused with a TypeError when transmitters are drawn."),
    "C27": ("proved", "Scenes of library objects (Wall, RIS, Vertex); is_leaf and dtype promotion are not modelled."),
    "C72": ("partial", "Refuted: unstack_leaves never raises ValueError (C72_error: only TypeError, for 0-d leaves), and leaves of different sizes are silently truncated (C72_refuted). Proved: for leaves of the same nonzero size, stacking the result gives the input back (C72_partial)."),
    "C73": ("proved", "Walls of non-zero length. Soundness for paths that go somewhere (a path that stands still on a wall has no angle of incidence)."),
    "C74": ("proved", "Same assumption as C53; real arithmetic."),
    "C75": ("proved", "Same assumption as C53; for paths whose points are not all equal."),
    "C76": ("proved", "Same assumption as C53; scenes of walls, image method."),
    "C77": ("proved", "Same assumption as C53. Hypotheses on the path class hold of ImagePath and Path."),
    "C78": ("proved", "Same assumption as C53. Hypotheses on the path class hold of ImagePath and Path."),
    "C79": ("proved", "In approximate mode, activations that are soft steps. The patch claim is for scenes of walls, RIS and vertices, when the traced points are finite and one per interaction."),
    "C80": ("proved", "Same assumption as C53; scenes of walls, image method; every traced path in generic position (no equality in any comparison)."),
    "C81": ("proved", "Same assumption as C53; scenes of walls of non-zero length, image method, tolerance in (0, 1]; no transmitter on the line of a wall is at the place of a receiver."),
    "C82": ("proved", "Same assumption as C53; scenes of walls (of any length), image method; in approximate mode, activations that are soft steps."),
    "C83": ("proved", "Same assumption as C53; scenes of walls of non-zero length, image method; at positions where no path stands still or slides along the line of a tested wall."),
    "C84": ("proved", "Same assumptions as C83, and no comparison is a tie at that position."),
    "C85": ("proved", "Same assumptions as C83 (paths only need not to stand still), and no comparison is a tie for the hard-mode values."),
    "C86": ("proved", "Same assumptions as C83, and the function of the path is continuously differentiable where it is evaluated."),
    "C87": ("proved", "Rounded model: each operation is rounded on its own (no fused multiply-add), one zero, sqrt/sin/cos/logistic correctly rounded."),
    "C88": ("proved", "Rounded model: each operation is rounded on its own (no fused multiply-add), one zero, sqrt/sin/cos/logistic correctly rounded."),
    "C89": ("proved", "Rounded model: each operation is rounded on its own (no fused multiply-add), one zero, sqrt/sin/cos/logistic correctly rounded. Exact and approximate runs are compared on the same path (traced once)."),
    "C90": ("proved", "Rounded model: each operation is rounded on its own (no fused multiply-add), one zero, sqrt/sin/cos/logistic correctly rounded."),
    "C91": ("proved", "Rounded model: each operation is rounded on its own (no fused multiply-add), one zero, sqrt/sin/cos/logistic correctly rounded. 'Nothing overflows' is expressed by an unbounded exponent range."),
    "C92": ("proved", "Exact real arithmetic. Whether the optimizer reaches a null loss is not claimed (see C71, C45)."),
    "C93": ("proved", "Exact real arithmetic. Whether the optimizer reaches the minimum is not claimed. In exact arithmetic eps = 0 the moved scene is the scene itself."),
    "C94": ("proved", "Programs of a thread are finite (no unbounded loops in the client code); the lock is the reentrant lock of the module."),
    "C95": ("proved", "Each call reads the setting afresh (jit disabled or functions not compiled yet); the compiled case is C09. Changes of the dicts of the scene between two calls are not modelled."),
    "C96": ("proved", "Array shapes, broadcasting, stacking, reductions and the jaxtyped check of *batch are modelled (Model/Arrays.lean). The documentation of logical_all (axis: axes along which to operate, by default flattened input) suggests that one array is reduced: it is not."),
    "C97": ("proved", "The docstring of enable_approx says that approximation is enabled by default and that DISABLE_APPROX disables it: neither holds at this commit."),
    "C98": ("proved", "Scenes of walls and the image method. Reverse-mode differentiation is modelled operation by operation with the rules JAX documents (Model/Grad.lean), over reals with NaN and infinities; user functions are functions of the points of the path."),
    "C99": ("proved", "As C98. Regular: the reflection points are determined, no comparison is tied, no step of the path is the opposite of the guard (eps, eps). What is returned elsewhere: C100."),
    "C100": ("proved", "Scenes of walls, image method. One expects finite gradients where the value is finite: jnp.where in ImagePath guards the value of the quotient by zero but not its cotangent, so this is false, exactly where stated."),
    "C101": ("proved", "Scenes of walls, image method, exact real arithmetic with the special values of IEEE 754. The norm of a zero step has gradient 0/0 in segment tests; the NaN is not masked. In floats, rounding may separate the coinciding points: the statement about basic_scene is about exact arithmetic."),
    "C102": ("proved", "Scenes of walls, image method, exact real arithmetic with the special values of IEEE 754. The exceptional lines for the moving point depend on the fixed one."),
    "C103": ("proved", "Scenes of walls, image method, exact real arithmetic. Almost every: Lebesgue measure of the plane. Unlike C99 nothing is assumed of the position: ties are shown to be harmless almost everywhere, also when they occur on a set of positive measure; the exceptional positions form a closed null set."),
    "C104": ("proved", "Exact real arithmetic; tracing methods are the image method and the plain method, or any method that satisfies AnalyticMethod (the iterative ones depend on an abstract minimiser). Filters that do not look at the parameters. Almost every: any Haar (Lebesgue) measure of the parameter space."),
    "C105": ("proved", "Scenes of walls, image method, exact real arithmetic. Combines C100, C102 and C104; unlike C99 nothing is assumed of the position."),
    "C106": ("proved", "Adam is optax's published rule with its defaults (optax is not in the repository); exact real arithmetic with NaN and infinities."),
    "C107": ("proved", "Reverse mode with the rules of jax (Model/Grad.lean), on the programs of the two objectives; real coordinates, exact arithmetic."),
    "C108": ("proved", "One trial (the default many=1). The singular parameters are described by FermatSingular and MinSingular in Spec/GradPaths.lean."),
    "C109": ("proved", "The objective of FermatPath is convex (C41), so rest means the global minimum; C109_min_stuck is the counterexample for MinPath."),
    "C110": ("proved", "Same assumptions as C74 and C81 (image method, hard mode, exact arithmetic). Rays that run along a wall, which the intersection test does not see, are included."),
    "C111": ("proved", "Same assumptions as C74 (image method, hard mode, exact arithmetic). Paths of different orders can leave together: the direct path, and the one that goes through the receiver and comes back from a wall it meets at a right angle (example_together)."),
    "C112": ("proved", "Same assumptions as C74 (image method, hard mode, exact arithmetic). The 1/200 is the tolerance of the intersection test, which makes paths that pass close to a corner invalid."),
    "C113": ("proved", "Same assumptions as C81 (image method, hard mode, exact arithmetic)."),
    "C114": ("proved", "Rounding is correct rounding of each operation, in the order of the source; XLA may fuse and reorder. Model/Rounded.lean models the operations; the limit is the value of the exact model."),
    "C115": ("proved", "As for C114. The activation may be any family of floating point steps that tends to a function that vanishes at minus infinity; the slope may be rounded."),
    "C116": ("proved", "Each operation is rounded on its own, sums go from left to right, r_coef**n is repeated multiplication. The traced paths must have finite coordinates; C116_finite shows that they do where nothing overflows, C116_height that every height between 2^-60 and 2^60 is allowed in float32."),
    "C117": ("proved", "Summation from left to right; XLA may sum in another order. Points are given exactly."),
    "C118": ("proved", "The error is measured against the traced points as computed (how far these are from the exact ones is C114). Left-to-right sums, correctly rounded operations."),
    "C119": ("proved", "Sharpens C114 (convergence) with a rate. The guard of path_length must be at most proportional to 2^-p, as the machine epsilon is. The exact path must not pause (no two consecutive equal points) and, for the power, be regular and generic as in C114: at a threshold, hard validity is discontinuous and no rate can hold."),
    "C120": ("proved", "Sharpens C115 (convergence) with a rate. Where a segment is parallel to a wall, the computed parameter of the crossing point is an infinity or a number as large as 1/eps, and the activation maps it to a degree of size eps: this needs that rounding does not shrink large numbers by more than half, and that the computed logistic function errs by O(eps), both proved of the IEEE formats."),
    "C121": ("proved", "Combines C45, C46, C107 and C108 for the traced paths. The trials are compared by the objective before the last step, not by that of the returned points, which is what the code does (losses[-1])."),
    "C122": ("proved", "Exact equality of the results, errors included. The filter of get_all_path_candidates (which may look at the objects) is not used."),
    "C123": ("proved", "Extends C78 (hard mode, all_valid_paths) to degrees of validity, sums and maps. Sums are those of exact arithmetic; in floating point the order of a sum changes its rounding, which C119 and C120 bound. The random optimisers use their keys in order, so they are not covered (see C78)."),
    "C124": ("proved", "Sums of exact arithmetic; C119 and C120 bound the rounding. The bound for the power is proved for hard mode and for approximate mode with a good activation; the exact statements hold with any activation."),
    "C125": ("proved", "From C74: the wall that is not the one of the reflection is not excluded from the obstruction test, and the step that arrives at a common point crosses it within the tolerance."),
    "C126": ("proved", "The warning of examples/plot_vertex_diffraction_power_map.py, made exact."),
    "C127": ("proved", "C127_hard, C127_soft: loss and gradient from those of accumulate_over_paths and of the grid map (C100, C101). C127_single: one worst receiver. C127_run, C127_stays: optimizer. C127_stuck, C127_shadow, C127_nan_hard, C127_nan_soft, C127_right_angle: positions from which there is no motion. C127_example: the scene of the example."),
    "C128": ("proved", "C128_score: cone. C128_fermat, C128_image: own points of valid paths. C128_served, C128_wrong_side, C128_scene, C128_dark: receivers. C128_independent: transmitters. C128_objective, C128_strip: objective of one RIS. C128_reversed, C128_half_turn, C128_mirror, C128_not_reciprocal: compared with a wall. C128_example: the RIS of the example, which serves no receiver of the right half."),
    "C129": ("proved", "C129_open, C129_assert, C129_names, C129_file: opening. C129_display, C129_obeys, C129_settings, C129_no_memory, C129_cells, C129_visible: the picture and the settings. C129_exceptions, C129_drag: exceptions. C129_set_value, C129_sliders, C129_patch_lost, C129_coef_lost, C129_alpha_again, C129_labels: sliders. C129_resolution: grid. The claim about artists (a PathCollection has no get_xydata) is part of the trusted model of matplotlib."),
    "C130": ("proved", "C130_refined: any objects whose tests are refined; C130_builtin: walls, RISs and vertices are; C130_closer: the validity of a path. C130_ceiling, C130_default: the ceiling. C130_accumulate: accumulated values. C130_total_refuted: the counterexample for totals."),
    "C131": ("proved", "C131_step: one sample; C131_samples, C131_default: any number of samples, decoded by sample_2_scene; C131_scene: decoding; C131_rigid: lengths and distances to the centre; C131_clockwise_refuted: non-symmetric ranges."),
    "C132": ("proved", "C132_all_paths: agreement with the library; C132_hard: physical meaning; C132_filler: indices out of bounds; C132_soft: approximate mode."),
    "C133": ("proved", "C133_flow: the flows; C133_negative_refuted: negative indices; C133_equivariant: order of the walls; C133_blind: order of selection; C133_translation: position of the scene."),
    "C134": ("proved", "C134_flows: the flows exist; C134_sampled, C134_enumerated: every key gives a candidate that the library enumerates; C134_law: its probability; C134_possible: positive exactly for candidates; C134_single_wall, C134_single_nan: a single wall. inversionJax is proved to keep both contracts (inverse transform sampling with independent uniform numbers)."),
    "C135": ("proved", "C135_loss, C135_batch: what the loss computes; C135_consistency: the bound; C135_first_order: the announced property for order 1; C135_unsorted, C135_proportional_refuted, C135_valid_lost: refuted for higher orders; C135_never_zero: positivity."),
    "C136": ("proved", "C136_train: the invariant of the loop; C136_count, C136_order, C136_annotation_refuted: the reports; C136_keys, C136_independent: the keys; C136_losses: the notebook's losses; C136_zero_division: errors."),
    "C137": ("partial", "C137_filter: what the filter computes; C137_order_refuted: two samples. Partial because the announced purpose (scenes with at least one valid path for the training) is refuted."),
    "C138": ("proved", "C138_object, C138_distance: objects; C138_validity; C138_paths, C138_valid_paths, C138_accumulate, C138_order: scenes, any path class with finite points; C138_image, C138_grids: image method, no condition; C138_app: the application; C138_negative_refuted: a ray stopped with patch -2 and not with patch 0."),
    "C139": ("proved", "C139_validity: any finite path; C139_positions: the condition holds off finitely many lines; C139_paths, C139_accumulate, C139_grids: scenes; C139_power_exact, C139_power, C139_power_inexact: received power; C139_exception: the condition is needed."),
    "C140": ("proved", "C140_transfer, C140_transfer_tx: the principle, for receivers and transmitters; C140_moved, C140_moved_tx: order of walls, ends, translations and the first diagonal. Exact real arithmetic; almost every: Lebesgue measure of the plane. For other isometries the values agree only up to eps (C124), so nothing is claimed of their gradients."),
    "C141": ("proved", "C141_transmitters, C141_receivers: gradients; C141_dark: when the power is zero; C141_loss, C141_moves: loss and first frame of examples/plot_power_optimize.py (and papers/eucap2024/plot_optimize_steps.py); C141_stays: the zero-gradient zone (papers/eucap2024/plot_zero_gradient.py) in approximate mode. Exact real arithmetic: with binary floats sigmoid underflows and its gradient can round to zero. Only lines of sight: with reflections the numerators are not affine."),
    "C142": ("proved", "C142_receivers, C142_transmitters: gradients; C142_dark: when the power is zero; C142_loss, C142_moves: loss and first frame of examples/plot_power_optimize.py. Exact real arithmetic."),
    "C143": ("proved", "C143_objective, C143_worst, C143_nan, C143_any_transmitter, C143_no_candidates: map of the objective; C143_loss_hard, C143_loss_soft: the differentiated loss; C143_power, C143_decibels, C143_sight: maps of the power; C143_gradient: map of the gradient; C143_runs: the two runs of the paper."),
    "C144": ("proved", "C144_receivers, C144_transmitters: the limit of the gradients; C144_sight: the exact gradient in line of sight, for every guard."),
    "C145": ("proved", "C145_converges: geometric convergence to the unique minimum; C145_specular: the limit is the path of ImagePath, with zero loss; C145_oscillates: for larger rates, a start that never converges."),
    "C146": ("proved", "C146_converges: descent to the minimal length, with a rate; C146_near: no singular parameters from nearby starts; C146_limit: convergence of the parameters; C146_image: the limit is the path of ImagePath, with zero loss."),
    "C147": ("proved", "C147_best: the minimizing angles; C147_gradient: the gradient and its zeros; C147_converges: geometric convergence of angle and loss; C147_served: one path ends by being accepted; C147_stuck: critical starts do not move; C147_oscillates: the bound on the rate is sharp."),
    "C148": ("proved", "C148_map is about the call itself on any grid, C148_gradient about the gradient it returns (for a guard eps below 0.2); C148_shadow and C148_second are about the rays. The tolerance of the tests of obstruction (0.005 along a segment) is why the lit regions have margins."),
    "C149": ("proved", "C149_figure. The script plots the power only; the annotation of the figure is about its gradient, which is what value_and_grad returns. The script also renames the transmitter, which changes no value (C50)."),
    "C150": ("proved", "C150_loss: powers, loss and gradient at every position. C150_step: one frame, several receivers. C150_run, C150_reaches, C150_dichotomy: one receiver. C150_overshoots, C150_sharp: the rate. The loop is that of the example with another optimizer of optax; C127 has the optimizer of the example."),
    "C151": ("proved", "C151_circle: the circle. C151_best: the loss at every position. C151_step: one frame, with ties between receivers (jnp.min shares the gradient between them). C151_run: all frames; C151_zero_nans: with zero_nans as in the example, where the run never stops being real and stays for ever at a receiver it meets. The loop is that of the example with another optimizer of optax; C127 has the optimizer of the example."),
    "C152": ("proved", "C152_sigmoid, C152_hard, C152_figure: activations. C152_compare, C152_connectives, C152_all_any: the functions. C152_laws: laws, with the exact gradient of the absorption law at ties; C152_associative_refuted: what fails. C152_values: same values as without differentiation (the other functions: C98)."),
}
