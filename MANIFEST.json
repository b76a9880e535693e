{
 "claims": [
  {
   "property": "C01",
   "status": "proved",
   "theorems": [
    "DiffeRT2d.Props.C01_connectives",
    "DiffeRT2d.Props.C01_all_any",
    "DiffeRT2d.Props.C01_comparisons",
    "DiffeRT2d.Props.C01_explicit_approx"
   ],
   "note": ""
  },
  {
   "property": "C02",
   "status": "proved",
   "theorems": [
    "DiffeRT2d.Props.C02_crisp",
    "DiffeRT2d.Props.C02_crisp_all"
   ],
   "note": ""
  },
  {
   "property": "C03",
   "status": "proved",
   "theorems": [
    "DiffeRT2d.Props.C03_degrees",
    "DiffeRT2d.Props.C03_laws",
    "DiffeRT2d.Props.C03_all_any",
    "DiffeRT2d.Props.C03_order"
   ],
   "note": ""
  },
  {
   "property": "C04",
   "status": "proved",
   "theorems": [
    "DiffeRT2d.Props.C04_soft_steps",
    "DiffeRT2d.Props.C04_values",
    "DiffeRT2d.Props.C04_activation"
   ],
   "note": ""
  },
  {
   "property": "C05",
   "status": "proved",
   "theorems": [
    "DiffeRT2d.Props.C05_library",
    "DiffeRT2d.Props.C05_threshold",
    "DiffeRT2d.Props.C05_tie"
   ],
   "note": ""
  },
  {
   "property": "C06",
   "status": "proved",
   "theorems": [
    "DiffeRT2d.Props.C06_approx",
    "DiffeRT2d.Props.C06_monotone",
    "DiffeRT2d.Props.C06_hard"
   ],
   "note": ""
  },
  {
   "property": "C07",
   "status": "proved",
   "theorems": [
    "DiffeRT2d.Props.C07_restore",
    "DiffeRT2d.Props.C07_entry",
    "DiffeRT2d.Props.C07_after",
    "DiffeRT2d.Props.C07_balanced",
    "DiffeRT2d.Props.C07_machine"
   ],
   "note": ""
  },
  {
   "property": "C08",
   "status": "partial",
   "theorems": [
    "DiffeRT2d.Props.C08_exclusion_partial",
    "DiffeRT2d.Props.C08_restore_partial",
    "DiffeRT2d.Props.C08_restore_refuted"
   ],
   "note": "Mutual exclusion is proved for all schedules; the restoration claim is false of the code (the setting is read before the lock is taken): C08_restore_refuted gives a two-thread schedule, C08_restore_partial proves it for schedules without that racy read."
  },
  {
   "property": "C09",
   "status": "proved",
   "theorems": [
    "DiffeRT2d.Props.C09_explicit",
    "DiffeRT2d.Props.C09_first",
    "DiffeRT2d.Props.C09_fresh",
    "DiffeRT2d.Props.C09_frozen",
    "DiffeRT2d.Props.C09_disable_jit"
   ],
   "note": ""
  },
  {
   "property": "C10",
   "status": "proved",
   "theorems": [
    "DiffeRT2d.Props.C10_hard",
    "DiffeRT2d.Props.C10_share_point",
    "DiffeRT2d.Props.C10_parallel"
   ],
   "note": ""
  },
  {
   "property": "C11",
   "status": "proved",
   "theorems": [
    "DiffeRT2d.Props.C11_exchange",
    "DiffeRT2d.Props.C11_reverse",
    "DiffeRT2d.Props.C11_affine"
   ],
   "note": ""
  },
  {
   "property": "C12",
   "status": "proved",
   "theorems": [
    "DiffeRT2d.Props.C12_soft",
    "DiffeRT2d.Props.C12_library"
   ],
   "note": ""
  },
  {
   "property": "C13",
   "status": "proved",
   "theorems": [
    "DiffeRT2d.Props.C13_close",
    "DiffeRT2d.Props.C13_straight",
    "DiffeRT2d.Props.C13_translate",
    "DiffeRT2d.Props.C13_reverse",
    "DiffeRT2d.Props.C13_exact"
   ],
   "note": ""
  },
  {
   "property": "C14",
   "status": "proved",
   "theorems": [
    "DiffeRT2d.Props.C14_normalize",
    "DiffeRT2d.Props.C14_idempotent",
    "DiffeRT2d.Props.C14_odd",
    "DiffeRT2d.Props.C14_scale"
   ],
   "note": ""
  },
  {
   "property": "C15",
   "status": "proved",
   "theorems": [
    "DiffeRT2d.Props.C15_closest",
    "DiffeRT2d.Props.C15_empty",
    "DiffeRT2d.Props.C15_scene",
    "DiffeRT2d.Props.C15_scene_empty"
   ],
   "note": ""
  },
  {
   "property": "C16",
   "status": "proved",
   "theorems": [
    "DiffeRT2d.Props.C16_mirror",
    "DiffeRT2d.Props.C16_unique",
    "DiffeRT2d.Props.C16_involution",
    "DiffeRT2d.Props.C16_isometry",
    "DiffeRT2d.Props.C16_fixed",
    "DiffeRT2d.Props.C16_degenerate"
   ],
   "note": ""
  },
  {
   "property": "C17",
   "status": "proved",
   "theorems": [
    "DiffeRT2d.Props.C17_normal",
    "DiffeRT2d.Props.C17_orientation"
   ],
   "note": ""
  },
  {
   "property": "C18",
   "status": "proved",
   "theorems": [
    "DiffeRT2d.Props.C18_roundtrip",
    "DiffeRT2d.Props.C18_projection",
    "DiffeRT2d.Props.C18_endpoints"
   ],
   "note": ""
  },
  {
   "property": "C19",
   "status": "proved",
   "theorems": [
    "DiffeRT2d.Props.C19_parameter",
    "DiffeRT2d.Props.C19_segment",
    "DiffeRT2d.Props.C19_soft",
    "DiffeRT2d.Props.C19_sample",
    "DiffeRT2d.Props.C19_vertex",
    "DiffeRT2d.Props.C19_degenerate"
   ],
   "note": ""
  },
  {
   "property": "C20",
   "status": "proved",
   "theorems": [
    "DiffeRT2d.Props.C20_extended",
    "DiffeRT2d.Props.C20_parameter",
    "DiffeRT2d.Props.C20_monotone",
    "DiffeRT2d.Props.C20_zero",
    "DiffeRT2d.Props.C20_vertex"
   ],
   "note": ""
  },
  {
   "property": "C21",
   "status": "partial",
   "theorems": [
    "DiffeRT2d.Props.C21_refuted",
    "DiffeRT2d.Props.C21_partial"
   ],
   "note": "False of the code (documentation and code disagree): C21_refuted; C21_partial proves compression for patch in [-1/2,0]; C20_monotone shows a patch in (0,1) only adds intersections."
  },
  {
   "property": "C22",
   "status": "proved",
   "theorems": [
    "DiffeRT2d.Props.C22_range",
    "DiffeRT2d.Props.C22_zero",
    "DiffeRT2d.Props.C22_degenerate",
    "DiffeRT2d.Props.C22_reverse",
    "DiffeRT2d.Props.C22_swap",
    "DiffeRT2d.Props.C22_similarity"
   ],
   "note": ""
  },
  {
   "property": "C23",
   "status": "proved",
   "theorems": [
    "DiffeRT2d.Props.C23_range",
    "DiffeRT2d.Props.C23_incident",
    "DiffeRT2d.Props.C23_zero",
    "DiffeRT2d.Props.C23_period",
    "DiffeRT2d.Props.C23_inherits"
   ],
   "note": ""
  },
  {
   "property": "C24",
   "status": "partial",
   "theorems": [
    "DiffeRT2d.Props.C24_iff",
    "DiffeRT2d.Props.C24_refuted",
    "DiffeRT2d.Props.C24_partial"
   ],
   "note": "False of the code (the rotation matrix multiplies the matrix of row points from the left): C24_refuted; C24_iff characterizes exactly when it holds; C24_partial: multiples of pi."
  },
  {
   "property": "C25",
   "status": "proved",
   "theorems": [
    "DiffeRT2d.Props.C25_point",
    "DiffeRT2d.Props.C25_wall",
    "DiffeRT2d.Props.C25_path",
    "DiffeRT2d.Props.C25_path_empty",
    "DiffeRT2d.Props.C25_unique",
    "DiffeRT2d.Props.C25_center",
    "DiffeRT2d.Props.C25_scene",
    "DiffeRT2d.Props.C25_scene_empty"
   ],
   "note": ""
  },
  {
   "property": "C26",
   "status": "proved",
   "theorems": [
    "DiffeRT2d.Props.C26_location",
    "DiffeRT2d.Props.C26_location_inside",
    "DiffeRT2d.Props.C26_shape",
    "DiffeRT2d.Props.C26_grid"
   ],
   "note": ""
  },
  {
   "property": "C27",
   "status": "proved",
   "theorems": [
    "DiffeRT2d.Props.C27_stack_axis",
    "DiffeRT2d.Props.C27_inverse",
    "DiffeRT2d.Props.C27_mismatch",
    "DiffeRT2d.Props.C27_nothing",
    "DiffeRT2d.Props.C27_no_leaves",
    "DiffeRT2d.Props.C27_scene",
    "DiffeRT2d.Props.C27_scene_mixed",
    "DiffeRT2d.Props.C27_walls_array"
   ],
   "note": "Scenes of library objects (Wall, RIS, Vertex); is_leaf and dtype promotion are not modelled."
  },
  {
   "property": "C28",
   "status": "proved",
   "theorems": [
    "DiffeRT2d.Props.C28_image_errors",
    "DiffeRT2d.Props.C28_path",
    "DiffeRT2d.Props.C28_image",
    "DiffeRT2d.Props.C28_image_total",
    "DiffeRT2d.Props.C28_fermat",
    "DiffeRT2d.Props.C28_min"
   ],
   "note": ""
  },
  {
   "property": "C29",
   "status": "proved",
   "theorems": [
    "DiffeRT2d.Props.C29_routing",
    "DiffeRT2d.Props.C29_offset",
    "DiffeRT2d.Props.C29_fermat",
    "DiffeRT2d.Props.C29_min"
   ],
   "note": ""
  },
  {
   "property": "C30",
   "status": "proved",
   "theorems": [
    "DiffeRT2d.Props.C30_points",
    "DiffeRT2d.Props.C30_on_lines"
   ],
   "note": ""
  },
  {
   "property": "C31",
   "status": "proved",
   "theorems": [
    "DiffeRT2d.Props.C31_scores",
    "DiffeRT2d.Props.C31_sides",
    "DiffeRT2d.Props.C31_threshold"
   ],
   "note": ""
  },
  {
   "property": "C32",
   "status": "proved",
   "theorems": [
    "DiffeRT2d.Props.C32_minimal",
    "DiffeRT2d.Props.C32_lower_bound"
   ],
   "note": ""
  },
  {
   "property": "C33",
   "status": "proved",
   "theorems": [
    "DiffeRT2d.Props.C33_finite",
    "DiffeRT2d.Props.C33_evaluate_finite"
   ],
   "note": ""
  },
  {
   "property": "C34",
   "status": "proved",
   "theorems": [
    "DiffeRT2d.Props.C34_reciprocal"
   ],
   "note": ""
  },
  {
   "property": "C35",
   "status": "proved",
   "theorems": [
    "DiffeRT2d.Props.C35_trace",
    "DiffeRT2d.Props.C35_validity",
    "DiffeRT2d.Props.C35_traced_validity"
   ],
   "note": ""
  },
  {
   "property": "C36",
   "status": "proved",
   "theorems": [
    "DiffeRT2d.Props.C36_hard",
    "DiffeRT2d.Props.C36_soft",
    "DiffeRT2d.Props.C36_walls"
   ],
   "note": ""
  },
  {
   "property": "C37",
   "status": "proved",
   "theorems": [
    "DiffeRT2d.Props.C37_hard",
    "DiffeRT2d.Props.C37_soft",
    "DiffeRT2d.Props.C37_monotone",
    "DiffeRT2d.Props.C37_monotone_soft",
    "DiffeRT2d.Props.C37_too_short"
   ],
   "note": ""
  },
  {
   "property": "C38",
   "status": "proved",
   "theorems": [
    "DiffeRT2d.Props.C38_library",
    "DiffeRT2d.Props.C38_hard",
    "DiffeRT2d.Props.C38_hard_parts",
    "DiffeRT2d.Props.C38_soft",
    "DiffeRT2d.Props.C38_builtin"
   ],
   "note": ""
  },
  {
   "property": "C39",
   "status": "proved",
   "theorems": [
    "DiffeRT2d.Props.C39_agree",
    "DiffeRT2d.Props.C39_limit",
    "DiffeRT2d.Props.C39_exact",
    "DiffeRT2d.Props.C39_agree_shapes",
    "DiffeRT2d.Props.C39_limit_shapes",
    "DiffeRT2d.Props.C39_exact_shapes",
    "DiffeRT2d.Props.C39_library"
   ],
   "note": ""
  },
  {
   "property": "C40",
   "status": "proved",
   "theorems": [
    "DiffeRT2d.Props.C40_loss",
    "DiffeRT2d.Props.C40_point",
    "DiffeRT2d.Props.C40_endpoint_counterexample"
   ],
   "note": "Vertices and the two end points are not tested by is_valid: C40_endpoint_counterexample shows why the claim is restricted to the loss and to points on walls and RISs."
  },
  {
   "property": "C41",
   "status": "proved",
   "theorems": [
    "DiffeRT2d.Props.C41_convex",
    "DiffeRT2d.Props.C41_local_global",
    "DiffeRT2d.Props.C41_lower_bound",
    "DiffeRT2d.Props.C41_image_minimizes"
   ],
   "note": ""
  },
  {
   "property": "C42",
   "status": "proved",
   "theorems": [
    "DiffeRT2d.Props.C42_nonneg",
    "DiffeRT2d.Props.C42_zero"
   ],
   "note": ""
  },
  {
   "property": "C43",
   "status": "partial",
   "theorems": [
    "DiffeRT2d.Props.C43_iff",
    "DiffeRT2d.Props.C43_partial",
    "DiffeRT2d.Props.C43_refuted"
   ],
   "note": "False of the code (the last loss is recorded before the last update): C43_refuted with the default optimizer; C43_iff characterizes exactly when it holds; C43_partial: when the last update is zero."
  },
  {
   "property": "C44",
   "status": "proved",
   "theorems": [
    "DiffeRT2d.Props.C44_steps",
    "DiffeRT2d.Props.C44_deterministic",
    "DiffeRT2d.Props.C44_no_steps",
    "DiffeRT2d.Props.C44_stationary"
   ],
   "note": ""
  },
  {
   "property": "C45",
   "status": "proved",
   "theorems": [
    "DiffeRT2d.Props.C45_best",
    "DiffeRT2d.Props.C45_single",
    "DiffeRT2d.Props.C45_trials"
   ],
   "note": ""
  },
  {
   "property": "C46",
   "status": "partial",
   "theorems": [
    "DiffeRT2d.Props.C46_nan_wins",
    "DiffeRT2d.Props.C46_refuted",
    "DiffeRT2d.Props.C46_partial"
   ],
   "note": "False of the code (argmin prefers NaN): C46_nan_wins, C46_refuted; C46_partial covers divergence to infinity."
  },
  {
   "property": "C47",
   "status": "proved",
   "theorems": [
    "DiffeRT2d.Props.C47_receivers_grid",
    "DiffeRT2d.Props.C47_transmitters_grid",
    "DiffeRT2d.Props.C47_all_paths",
    "DiffeRT2d.Props.C47_trials"
   ],
   "note": "Keys are free terms of split (an idealization of the PRNG, stated in DESIGN.md). In a grid accumulation the key of a candidate is shared by all grid points and transmitters, by design of the code."
  },
  {
   "property": "C48",
   "status": "proved",
   "theorems": [
    "DiffeRT2d.Props.C48_mapping",
    "DiffeRT2d.Props.C48_mismatch",
    "DiffeRT2d.Props.C48_make",
    "DiffeRT2d.Props.C48_idempotent"
   ],
   "note": ""
  },
  {
   "property": "C49",
   "status": "proved",
   "theorems": [
    "DiffeRT2d.Props.C49_edit",
    "DiffeRT2d.Props.C49_history",
    "DiffeRT2d.Props.C49_view_faithful",
    "DiffeRT2d.Props.C49_self"
   ],
   "note": ""
  },
  {
   "property": "C50",
   "status": "partial",
   "theorems": [
    "DiffeRT2d.Props.C50_transmitters_partial",
    "DiffeRT2d.Props.C50_receivers_partial",
    "DiffeRT2d.Props.C50_count_iff",
    "DiffeRT2d.Props.C50_unknown",
    "DiffeRT2d.Props.C50_receivers_count_iff",
    "DiffeRT2d.Props.C50_receivers_unknown",
    "DiffeRT2d.Props.C50_refuted"
   ],
   "note": "False of the code when two points get the same name (the later one silently replaces the earlier one): C50_refuted; C50_count_iff: points are kept if and only if the new names do not collide; C50_*_partial: then each point stays, in order, under its new name."
  },
  {
   "property": "C51",
   "status": "proved",
   "theorems": [
    "DiffeRT2d.Props.C51_get_object",
    "DiffeRT2d.Props.C51_get_object_error",
    "DiffeRT2d.Props.C51_interacting",
    "DiffeRT2d.Props.C51_candidates"
   ],
   "note": ""
  },
  {
   "property": "C52",
   "status": "partial",
   "theorems": [
    "DiffeRT2d.Props.C52_partial",
    "DiffeRT2d.Props.C52_refuted"
   ],
   "note": "False of the code: C52_refuted; C52_partial says what negative indices designate in each kind of scene."
  },
  {
   "property": "C53",
   "status": "proved",
   "theorems": [
    "DiffeRT2d.Props.C53_sound_complete",
    "DiffeRT2d.Props.C53_count",
    "DiffeRT2d.Props.C53_order",
    "DiffeRT2d.Props.C53_empty"
   ],
   "note": "For every path enumerator meeting the documented contract of differt_core (GraphContract, an assumption about an external library; refLib_contract shows it can be met)."
  },
  {
   "property": "C54",
   "status": "proved",
   "theorems": [
    "DiffeRT2d.Props.C54_filter",
    "DiffeRT2d.Props.C54_keep_all"
   ],
   "note": "Same assumption as C53. The order among candidates of one length is not specified by the library, so 'changes nothing' is a permutation."
  },
  {
   "property": "C55",
   "status": "proved",
   "theorems": [
    "DiffeRT2d.Props.C55_pairs"
   ],
   "note": ""
  },
  {
   "property": "C56",
   "status": "proved",
   "theorems": [
    "DiffeRT2d.Props.C56_paths",
    "DiffeRT2d.Props.C56_total",
    "DiffeRT2d.Props.C56_image_total"
   ],
   "note": "Same assumption as C53. Generators are modelled by the list of all they yield, or the exception of a full iteration."
  },
  {
   "property": "C57",
   "status": "proved",
   "theorems": [
    "DiffeRT2d.Props.C57_valid"
   ],
   "note": ""
  },
  {
   "property": "C58",
   "status": "proved",
   "theorems": [
    "DiffeRT2d.Props.C58_entries",
    "DiffeRT2d.Props.C58_terms",
    "DiffeRT2d.Props.C58_reduce"
   ],
   "note": "Same assumption as C53."
  },
  {
   "property": "C59",
   "status": "partial",
   "theorems": [
    "DiffeRT2d.Props.C59_no_candidates",
    "DiffeRT2d.Props.C59_partial",
    "DiffeRT2d.Props.C59_refuted"
   ],
   "note": "False of the code (pairs without candidates have no group): C59_refuted, C59_no_candidates; C59_partial: holds if and only if there is no pair or some candidate."
  },
  {
   "property": "C60",
   "status": "proved",
   "theorems": [
    "DiffeRT2d.Props.C60_receivers",
    "DiffeRT2d.Props.C60_receivers_total",
    "DiffeRT2d.Props.C60_receivers_no_candidates",
    "DiffeRT2d.Props.C60_receivers_reduce",
    "DiffeRT2d.Props.C60_transmitters",
    "DiffeRT2d.Props.C60_transmitters_total",
    "DiffeRT2d.Props.C60_transmitters_no_candidates",
    "DiffeRT2d.Props.C60_transmitters_reduce"
   ],
   "note": "For path classes that do not use their key, as stated; C47_*_grid gives the value for the others. transmitter_cls/receiver_cls is the default Point. Without candidates the grid is zero (C60_*_no_candidates)."
  },
  {
   "property": "C61",
   "status": "partial",
   "theorems": [
    "DiffeRT2d.Props.C61_partial",
    "DiffeRT2d.Props.C61_congr",
    "DiffeRT2d.Props.C61_refuted"
   ],
   "note": "False of the code (0 * inf is NaN): C61_refuted; C61_partial: holds when the function is finite on the invalid paths."
  },
  {
   "property": "C62",
   "status": "proved",
   "theorems": [
    "DiffeRT2d.Props.C62_receivers",
    "DiffeRT2d.Props.C62_receivers_gradient",
    "DiffeRT2d.Props.C62_receivers_reduce",
    "DiffeRT2d.Props.C62_transmitters",
    "DiffeRT2d.Props.C62_transmitters_gradient",
    "DiffeRT2d.Props.C62_transmitters_reduce"
   ],
   "note": "For every differentiation operator (jax.grad is a parameter of the model)."
  },
  {
   "property": "C63",
   "status": "proved",
   "theorems": [
    "DiffeRT2d.Props.C63_walls",
    "DiffeRT2d.Props.C63_empty",
    "DiffeRT2d.Props.C63_cyclic",
    "DiffeRT2d.Props.C63_sources"
   ],
   "note": "Documents are taken after json.loads. cyclicPairs is the specification of cyclically consecutive vertices (C63_cyclic states it with indices)."
  },
  {
   "property": "C64",
   "status": "partial",
   "theorems": [
    "DiffeRT2d.Props.C64_refuted",
    "DiffeRT2d.Props.C64_partial",
    "DiffeRT2d.Props.C64_refuted_document"
   ],
   "note": "Refuted for every closed ring (C64_refuted): the first wall joins the last vertex to the first, which has zero length when the ring is closed, and there is one wall too many. Proved: all other walls are exactly the segments (C64_partial)."
  },
  {
   "property": "C65",
   "status": "partial",
   "theorems": [
    "DiffeRT2d.Props.C65_partial",
    "DiffeRT2d.Props.C65_among",
    "DiffeRT2d.Props.C65_refuted",
    "DiffeRT2d.Props.C65_falsy",
    "DiffeRT2d.Props.C65_scalar"
   ],
   "note": "Refuted for Point features (C65_refuted: TypeError, wherever the feature stands). Proved for features without geometry and for geometries given by nested arrays (C65_partial, C65_among)."
  },
  {
   "property": "C66",
   "status": "proved",
   "theorems": [
    "DiffeRT2d.Props.C66_random",
    "DiffeRT2d.Props.C66_inside"
   ],
   "note": "The generator is any function returning the requested number of points. Negative counts are not modelled."
  },
  {
   "property": "C67",
   "status": "proved",
   "theorems": [
    "DiffeRT2d.Props.C67_square",
    "DiffeRT2d.Props.C67_wall",
    "DiffeRT2d.Props.C67_obstacle",
    "DiffeRT2d.Props.C67_square_sides",
    "DiffeRT2d.Props.C67_basic",
    "DiffeRT2d.Props.C67_bbox",
    "DiffeRT2d.Props.C67_by_name"
   ],
   "note": ""
  },
  {
   "property": "C68",
   "status": "proved",
   "theorems": [
    "DiffeRT2d.Props.C68_value",
    "DiffeRT2d.Props.C68_any",
    "DiffeRT2d.Props.C68_bounds",
    "DiffeRT2d.Props.C68_monotone",
    "DiffeRT2d.Props.C68_only_path",
    "DiffeRT2d.Props.C68_P0"
   ],
   "note": "Paths with at least two points and finite coordinates. C68_P0: the offset added by path_length makes the power at zero distance slightly smaller than P0."
  },
  {
   "property": "C69",
   "status": "proved",
   "theorems": [
    "DiffeRT2d.Props.C69_plot",
    "DiffeRT2d.Props.C69_total",
    "DiffeRT2d.Props.C69_color_refused",
    "DiffeRT2d.Props.C69_count",
    "DiffeRT2d.Props.C69_path"
   ],
   "note": "matplotlib is modelled by the artists it returns. C69_color_refused: a colour in the general keywords is refused with a TypeError when transmitters are drawn."
  },
  {
   "property": "C70",
   "status": "partial",
   "theorems": [
    "DiffeRT2d.Props.C70_mixed_refuted",
    "DiffeRT2d.Props.C70_uniform_partial"
   ],
   "note": "False of the code: C70_mixed_refuted; holds when all approx=None versions were compiled under the current setting."
  },
  {
   "property": "C71",
   "status": "partial",
   "theorems": [
    "DiffeRT2d.Props.C71_image",
    "DiffeRT2d.Props.C71_fermat",
    "DiffeRT2d.Props.C71_min_partial",
    "DiffeRT2d.Props.C71_min_refuted"
   ],
   "note": "Proved for ImagePath and FermatPath; false for MinPath (C71_min_refuted), whose loss is that of one update earlier (C71_min_partial)."
  },
  {
   "property": "C72",
   "status": "partial",
   "theorems": [
    "DiffeRT2d.Props.C72_error",
    "DiffeRT2d.Props.C72_refuted",
    "DiffeRT2d.Props.C72_partial"
   ],
   "note": "Refuted: unstack_leaves never raises ValueError (C72_error: only TypeError, for 0-d leaves), and leaves of different sizes are silently truncated (C72_refuted). Proved: for leaves of the same nonzero size, stacking the result gives the input back (C72_partial)."
  },
  {
   "property": "C73",
   "status": "proved",
   "theorems": [
    "DiffeRT2d.Props.C73_complete",
    "DiffeRT2d.Props.C73_sound",
    "DiffeRT2d.Props.C73_unique",
    "DiffeRT2d.Props.C73_iff"
   ],
   "note": "Walls of non-zero length. Soundness for paths that go somewhere (a path that stands still on a wall has no angle of incidence)."
  },
  {
   "property": "C74",
   "status": "proved",
   "theorems": [
    "DiffeRT2d.Props.C74_valid_paths"
   ],
   "note": "Same assumption as C53; real arithmetic."
  },
  {
   "property": "C75",
   "status": "proved",
   "theorems": [
    "DiffeRT2d.Props.C75_reciprocity"
   ],
   "note": "Same assumption as C53; for paths whose points are not all equal."
  },
  {
   "property": "C76",
   "status": "proved",
   "theorems": [
    "DiffeRT2d.Props.C76_moved",
    "DiffeRT2d.Props.C76_valid"
   ],
   "note": "Same assumption as C53; scenes of walls, image method."
  },
  {
   "property": "C77",
   "status": "proved",
   "theorems": [
    "DiffeRT2d.Props.C77_add_objects"
   ],
   "note": "Same assumption as C53. Hypotheses on the path class hold of ImagePath and Path."
  },
  {
   "property": "C78",
   "status": "proved",
   "theorems": [
    "DiffeRT2d.Props.C78_reorder",
    "DiffeRT2d.Props.C78_perm"
   ],
   "note": "Same assumption as C53. Hypotheses on the path class hold of ImagePath and Path."
  },
  {
   "property": "C79",
   "status": "proved",
   "theorems": [
    "DiffeRT2d.Props.C79_validity",
    "DiffeRT2d.Props.C79_tolerance",
    "DiffeRT2d.Props.C79_patch_validity",
    "DiffeRT2d.Props.C79_patch"
   ],
   "note": "In approximate mode, activations that are soft steps. The patch claim is for scenes of walls, RIS and vertices, when the traced points are finite and one per interaction."
  },
  {
   "property": "C80",
   "status": "proved",
   "theorems": [
    "DiffeRT2d.Props.C80_limit"
   ],
   "note": "Same assumption as C53; scenes of walls, image method; every traced path in generic position (no equality in any comparison)."
  },
  {
   "property": "C81",
   "status": "proved",
   "theorems": [
    "DiffeRT2d.Props.C81_sum",
    "DiffeRT2d.Props.C81_power"
   ],
   "note": "Same assumption as C53; scenes of walls of non-zero length, image method, tolerance in (0, 1]; no transmitter on the line of a wall is at the place of a receiver."
  },
  {
   "property": "C82",
   "status": "proved",
   "theorems": [
    "DiffeRT2d.Props.C82_monotone"
   ],
   "note": "Same assumption as C53; scenes of walls (of any length), image method; in approximate mode, activations that are soft steps."
  },
  {
   "property": "C83",
   "status": "proved",
   "theorems": [
    "DiffeRT2d.Props.C83_steps",
    "DiffeRT2d.Props.C83_path",
    "DiffeRT2d.Props.C83_field",
    "DiffeRT2d.Props.C83_power"
   ],
   "note": "Same assumption as C53; scenes of walls of non-zero length, image method; at positions where no path stands still or slides along the line of a tested wall."
  },
  {
   "property": "C84",
   "status": "proved",
   "theorems": [
    "DiffeRT2d.Props.C84_path",
    "DiffeRT2d.Props.C84_field"
   ],
   "note": "Same assumptions as C83, and no comparison is a tie at that position."
  },
  {
   "property": "C85",
   "status": "proved",
   "theorems": [
    "DiffeRT2d.Props.C85_path",
    "DiffeRT2d.Props.C85_field",
    "DiffeRT2d.Props.C85_power"
   ],
   "note": "Same assumptions as C83 (paths only need not to stand still), and no comparison is a tie for the hard-mode values."
  },
  {
   "property": "C86",
   "status": "proved",
   "theorems": [
    "DiffeRT2d.Props.C86_steps",
    "DiffeRT2d.Props.C86_field",
    "DiffeRT2d.Props.C86_almost_everywhere"
   ],
   "note": "Same assumptions as C83, and the function of the path is continuously differentiable where it is evaluated."
  },
  {
   "property": "C87",
   "status": "proved",
   "theorems": [
    "DiffeRT2d.Props.C87_formats",
    "DiffeRT2d.Props.C87_steps",
    "DiffeRT2d.Props.C87_range",
    "DiffeRT2d.Props.C87_de_morgan",
    "DiffeRT2d.Props.C87_exact_model"
   ],
   "note": "Rounded model: each operation is rounded on its own (no fused multiply-add), one zero, sqrt/sin/cos/logistic correctly rounded."
  },
  {
   "property": "C88",
   "status": "proved",
   "theorems": [
    "DiffeRT2d.Props.C88_sound",
    "DiffeRT2d.Props.C88_monotone",
    "DiffeRT2d.Props.C88_undecided",
    "DiffeRT2d.Props.C88_decided"
   ],
   "note": "Rounded model: each operation is rounded on its own (no fused multiply-add), one zero, sqrt/sin/cos/logistic correctly rounded."
  },
  {
   "property": "C89",
   "status": "proved",
   "theorems": [
    "DiffeRT2d.Props.C89_range",
    "DiffeRT2d.Props.C89_builtin",
    "DiffeRT2d.Props.C89_accepts",
    "DiffeRT2d.Props.C89_rejects"
   ],
   "note": "Rounded model: each operation is rounded on its own (no fused multiply-add), one zero, sqrt/sin/cos/logistic correctly rounded. Exact and approximate runs are compared on the same path (traced once)."
  },
  {
   "property": "C90",
   "status": "proved",
   "theorems": [
    "DiffeRT2d.Props.C90_symmetry"
   ],
   "note": "Rounded model: each operation is rounded on its own (no fused multiply-add), one zero, sqrt/sin/cos/logistic correctly rounded."
  },
  {
   "property": "C91",
   "status": "proved",
   "theorems": [
    "DiffeRT2d.Props.C91_length",
    "DiffeRT2d.Props.C91_finite",
    "DiffeRT2d.Props.C91_nan_loss"
   ],
   "note": "Rounded model: each operation is rounded on its own (no fused multiply-add), one zero, sqrt/sin/cos/logistic correctly rounded. 'Nothing overflows' is expressed by an unbounded exponent range."
  },
  {
   "property": "C92",
   "status": "proved",
   "theorems": [
    "DiffeRT2d.Props.C92_tolerance",
    "DiffeRT2d.Props.C92_zero_iff",
    "DiffeRT2d.Props.C92_same_path"
   ],
   "note": "Exact real arithmetic. Whether the optimizer reaches a null loss is not claimed (see C71, C45)."
  },
  {
   "property": "C93",
   "status": "proved",
   "theorems": [
    "DiffeRT2d.Props.C93_minimizer",
    "DiffeRT2d.Props.C93_exact",
    "DiffeRT2d.Props.C93_same_path"
   ],
   "note": "Exact real arithmetic. Whether the optimizer reaches the minimum is not claimed. In exact arithmetic eps = 0 the moved scene is the scene itself."
  },
  {
   "property": "C94",
   "status": "proved",
   "theorems": [
    "DiffeRT2d.Props.C94_no_deadlock",
    "DiffeRT2d.Props.C94_bounded",
    "DiffeRT2d.Props.C94_completes"
   ],
   "note": "Programs of a thread are finite (no unbounded loops in the client code); the lock is the reentrant lock of the module."
  },
  {
   "property": "C95",
   "status": "proved",
   "theorems": [
    "DiffeRT2d.Props.C95_explicit",
    "DiffeRT2d.Props.C95_results",
    "DiffeRT2d.Props.C95_all_paths",
    "DiffeRT2d.Props.C95_eager",
    "DiffeRT2d.Props.C95_valid_eager",
    "DiffeRT2d.Props.C95_valid"
   ],
   "note": "Each call reads the setting afresh (jit disabled or functions not compiled yet); the compiled case is C09. Changes of the dicts of the scene between two calls are not modelled."
  },
  {
   "property": "C96",
   "status": "proved",
   "theorems": [
    "DiffeRT2d.Props.C96_same_shape",
    "DiffeRT2d.Props.C96_different_shapes",
    "DiffeRT2d.Props.C96_with_scalar",
    "DiffeRT2d.Props.C96_with_scalar_jit",
    "DiffeRT2d.Props.C96_scalars",
    "DiffeRT2d.Props.C96_unary",
    "DiffeRT2d.Props.C96_all_any_first",
    "DiffeRT2d.Props.C96_all_any_single",
    "DiffeRT2d.Props.C96_all_any_none"
   ],
   "note": "Array shapes, broadcasting, stacking, reductions and the jaxtyped check of *batch are modelled (Model/Arrays.lean). The documentation of logical_all (axis: axes along which to operate, by default flattened input) suggests that one array is reduced: it is not."
  },
  {
   "property": "C97",
   "status": "proved",
   "theorems": [
    "DiffeRT2d.Props.C97_import",
    "DiffeRT2d.Props.C97_other_variables",
    "DiffeRT2d.Props.C97_default"
   ],
   "note": "The docstring of enable_approx says that approximation is enabled by default and that DISABLE_APPROX disables it: neither holds at this commit."
  },
  {
   "property": "C98",
   "status": "proved",
   "theorems": [
    "DiffeRT2d.Props.C98_parts",
    "DiffeRT2d.Props.C98_receivers",
    "DiffeRT2d.Props.C98_transmitters"
   ],
   "note": "Scenes of walls and the image method. Reverse-mode differentiation is modelled operation by operation with the rules JAX documents (Model/Grad.lean), over reals with NaN and infinities; user functions are functions of the points of the path."
  },
  {
   "property": "C99",
   "status": "proved",
   "theorems": [
    "DiffeRT2d.Props.C99_power",
    "DiffeRT2d.Props.C99_program",
    "DiffeRT2d.Props.C99_receivers",
    "DiffeRT2d.Props.C99_transmitters"
   ],
   "note": "As C98. Regular: the reflection points are determined, no comparison is tied, no step of the path is the opposite of the guard (eps, eps). What is returned elsewhere: C100."
  },
  {
   "property": "C100",
   "status": "proved",
   "theorems": [
    "DiffeRT2d.Props.C100_receivers",
    "DiffeRT2d.Props.C100_transmitters",
    "DiffeRT2d.Props.C100_one_wall",
    "DiffeRT2d.Props.C100_right_angle"
   ],
   "note": "Scenes of walls, image method. One expects finite gradients where the value is finite: jnp.where in ImagePath guards the value of the quotient by zero but not its cotangent, so this is false, exactly where stated."
  },
  {
   "property": "C101",
   "status": "proved",
   "theorems": [
    "DiffeRT2d.Props.C101_receivers",
    "DiffeRT2d.Props.C101_transmitters",
    "DiffeRT2d.Props.C101_collinear",
    "DiffeRT2d.Props.C101_basic_scene"
   ],
   "note": "Scenes of walls, image method, exact real arithmetic with the special values of IEEE 754. The norm of a zero step has gradient 0/0 in segment tests; the NaN is not masked. In floats, rounding may separate the coinciding points: the statement about basic_scene is about exact arithmetic."
  },
  {
   "property": "C102",
   "status": "proved",
   "theorems": [
    "DiffeRT2d.Props.C102_positions",
    "DiffeRT2d.Props.C102_hard_receivers",
    "DiffeRT2d.Props.C102_hard_transmitters",
    "DiffeRT2d.Props.C102_soft_receivers",
    "DiffeRT2d.Props.C102_soft_transmitters",
    "DiffeRT2d.Props.C102_hard_receivers_nan",
    "DiffeRT2d.Props.C102_hard_transmitters_nan",
    "DiffeRT2d.Props.C102_soft_receivers_nan",
    "DiffeRT2d.Props.C102_soft_transmitters_nan",
    "DiffeRT2d.Props.C102_negligible"
   ],
   "note": "Scenes of walls, image method, exact real arithmetic with the special values of IEEE 754. The exceptional lines for the moving point depend on the fixed one."
  },
  {
   "property": "C103",
   "status": "proved",
   "theorems": [
    "DiffeRT2d.Props.C103_receivers",
    "DiffeRT2d.Props.C103_transmitters"
   ],
   "note": "Scenes of walls, image method, exact real arithmetic. Almost every: Lebesgue measure of the plane. Unlike C99 nothing is assumed of the position: ties are shown to be harmless almost everywhere, also when they occur on a set of positive measure; the exceptional positions form a closed null set."
  },
  {
   "property": "C104",
   "status": "proved",
   "theorems": [
    "DiffeRT2d.Props.C104_all_paths",
    "DiffeRT2d.Props.C104_valid_paths",
    "DiffeRT2d.Props.C104_accumulate",
    "DiffeRT2d.Props.C104_reduce_all",
    "DiffeRT2d.Props.C104_library",
    "DiffeRT2d.Props.C104_closed",
    "DiffeRT2d.Props.C104_smooth"
   ],
   "note": "Exact real arithmetic; tracing methods are the image method and the plain method, or any method that satisfies AnalyticMethod (the iterative ones depend on an abstract minimiser). Filters that do not look at the parameters. Almost every: any Haar (Lebesgue) measure of the parameter space."
  },
  {
   "property": "C105",
   "status": "proved",
   "theorems": [
    "DiffeRT2d.Props.C105_receivers",
    "DiffeRT2d.Props.C105_transmitters"
   ],
   "note": "Scenes of walls, image method, exact real arithmetic. Combines C100, C102 and C104; unlike C99 nothing is assumed of the position."
  },
  {
   "property": "C106",
   "status": "proved",
   "theorems": [
    "DiffeRT2d.Props.C106_real_or_nan",
    "DiffeRT2d.Props.C106_step",
    "DiffeRT2d.Props.C106_total",
    "DiffeRT2d.Props.C106_first",
    "DiffeRT2d.Props.C106_minimize"
   ],
   "note": "Adam is optax's published rule with its defaults (optax is not in the repository); exact real arithmetic with NaN and infinities."
  },
  {
   "property": "C107",
   "status": "proved",
   "theorems": [
    "DiffeRT2d.Props.C107_owner",
    "DiffeRT2d.Props.C107_fermat",
    "DiffeRT2d.Props.C107_min",
    "DiffeRT2d.Props.C107_fermat_gradient",
    "DiffeRT2d.Props.C107_min_gradient",
    "DiffeRT2d.Props.C107_value",
    "DiffeRT2d.Props.C107_path"
   ],
   "note": "Reverse mode with the rules of jax (Model/Grad.lean), on the programs of the two objectives; real coordinates, exact arithmetic."
  },
  {
   "property": "C108",
   "status": "proved",
   "theorems": [
    "DiffeRT2d.Props.C108_fermat",
    "DiffeRT2d.Props.C108_min",
    "DiffeRT2d.Props.C108_invalid"
   ],
   "note": "One trial (the default many=1). The singular parameters are described by FermatSingular and MinSingular in Spec/GradPaths.lean."
  },
  {
   "property": "C109",
   "status": "proved",
   "theorems": [
    "DiffeRT2d.Props.C109_fermat_zero",
    "DiffeRT2d.Props.C109_min_zero",
    "DiffeRT2d.Props.C109_rest",
    "DiffeRT2d.Props.C109_min_stuck"
   ],
   "note": "The objective of FermatPath is convex (C41), so rest means the global minimum; C109_min_stuck is the counterexample for MinPath."
  },
  {
   "property": "C110",
   "status": "proved",
   "theorems": [
    "DiffeRT2d.Props.C110_opaque",
    "DiffeRT2d.Props.C110_dark",
    "DiffeRT2d.Props.C110_room",
    "DiffeRT2d.Props.C110_more",
    "DiffeRT2d.Props.C110_rectangle",
    "DiffeRT2d.Props.C110_square"
   ],
   "note": "Same assumptions as C74 and C81 (image method, hard mode, exact arithmetic). Rays that run along a wall, which the intersection test does not see, are included."
  },
  {
   "property": "C111",
   "status": "proved",
   "theorems": [
    "DiffeRT2d.Props.C111_ray",
    "DiffeRT2d.Props.C111_same",
    "DiffeRT2d.Props.C111_apart"
   ],
   "note": "Same assumptions as C74 (image method, hard mode, exact arithmetic). Paths of different orders can leave together: the direct path, and the one that goes through the receiver and comes back from a wall it meets at a right angle (example_together)."
  },
  {
   "property": "C112",
   "status": "proved",
   "theorems": [
    "DiffeRT2d.Props.C112_images",
    "DiffeRT2d.Props.C112_count",
    "DiffeRT2d.Props.C112_yielded",
    "DiffeRT2d.Props.C112_all_valid_paths",
    "DiffeRT2d.Props.C112_exists",
    "DiffeRT2d.Props.C112_exact",
    "DiffeRT2d.Props.C112_first"
   ],
   "note": "Same assumptions as C74 (image method, hard mode, exact arithmetic). The 1/200 is the tolerance of the intersection test, which makes paths that pass close to a corner invalid."
  },
  {
   "property": "C113",
   "status": "proved",
   "theorems": [
    "DiffeRT2d.Props.C113_power"
   ],
   "note": "Same assumptions as C81 (image method, hard mode, exact arithmetic)."
  },
  {
   "property": "C114",
   "status": "proved",
   "theorems": [
    "DiffeRT2d.Props.C114_formats",
    "DiffeRT2d.Props.C114_path",
    "DiffeRT2d.Props.C114_valid",
    "DiffeRT2d.Props.C114_field"
   ],
   "note": "Rounding is correct rounding of each operation, in the order of the source; XLA may fuse and reorder. Model/Rounded.lean models the operations; the limit is the value of the exact model."
  },
  {
   "property": "C115",
   "status": "proved",
   "theorems": [
    "DiffeRT2d.Props.C115_steps",
    "DiffeRT2d.Props.C115_valid",
    "DiffeRT2d.Props.C115_field"
   ],
   "note": "As for C114. The activation may be any family of floating point steps that tends to a function that vanishes at minus infinity; the slope may be rounded."
  },
  {
   "property": "C116",
   "status": "proved",
   "theorems": [
    "DiffeRT2d.Props.C116_formats",
    "DiffeRT2d.Props.C116_power",
    "DiffeRT2d.Props.C116_decreasing",
    "DiffeRT2d.Props.C116_field",
    "DiffeRT2d.Props.C116_more",
    "DiffeRT2d.Props.C116_finite",
    "DiffeRT2d.Props.C116_height"
   ],
   "note": "Each operation is rounded on its own, sums go from left to right, r_coef**n is repeated multiplication. The traced paths must have finite coordinates; C116_finite shows that they do where nothing overflows, C116_height that every height between 2^-60 and 2^60 is allowed in float32."
  },
  {
   "property": "C117",
   "status": "proved",
   "theorems": [
    "DiffeRT2d.Props.C117_formats",
    "DiffeRT2d.Props.C117_length",
    "DiffeRT2d.Props.C117_float32"
   ],
   "note": "Summation from left to right; XLA may sum in another order. Points are given exactly."
  },
  {
   "property": "C118",
   "status": "proved",
   "theorems": [
    "DiffeRT2d.Props.C118_power",
    "DiffeRT2d.Props.C118_field"
   ],
   "note": "The error is measured against the traced points as computed (how far these are from the exact ones is C114). Left-to-right sums, correctly rounded operations."
  },
  {
   "property": "C119",
   "status": "proved",
   "theorems": [
    "DiffeRT2d.Props.C119_formats",
    "DiffeRT2d.Props.C119_path",
    "DiffeRT2d.Props.C119_field"
   ],
   "note": "Sharpens C114 (convergence) with a rate. The guard of path_length must be at most proportional to 2^-p, as the machine epsilon is. The exact path must not pause (no two consecutive equal points) and, for the power, be regular and generic as in C114: at a threshold, hard validity is discontinuous and no rate can hold."
  },
  {
   "property": "C120",
   "status": "proved",
   "theorems": [
    "DiffeRT2d.Props.C120_formats",
    "DiffeRT2d.Props.C120_steps",
    "DiffeRT2d.Props.C120_valid",
    "DiffeRT2d.Props.C120_field"
   ],
   "note": "Sharpens C115 (convergence) with a rate. Where a segment is parallel to a wall, the computed parameter of the crossing point is an infinity or a number as large as 1/eps, and the activation maps it to a degree of size eps: this needs that rounding does not shrink large numbers by more than half, and that the computed logistic function errs by O(eps), both proved of the IEEE formats."
  },
  {
   "property": "C121",
   "status": "proved",
   "theorems": [
    "DiffeRT2d.Props.C121_fermat",
    "DiffeRT2d.Props.C121_min"
   ],
   "note": "Combines C45, C46, C107 and C108 for the traced paths. The trials are compared by the objective before the last step, not by that of the returned points, which is what the code does (losses[-1])."
  },
  {
   "property": "C122",
   "status": "proved",
   "theorems": [
    "DiffeRT2d.Props.C122_ris",
    "DiffeRT2d.Props.C122_trace",
    "DiffeRT2d.Props.C122_validity",
    "DiffeRT2d.Props.C122_paths",
    "DiffeRT2d.Props.C122_valid_paths",
    "DiffeRT2d.Props.C122_accumulate",
    "DiffeRT2d.Props.C122_grids"
   ],
   "note": "Exact equality of the results, errors included. The filter of get_all_path_candidates (which may look at the objects) is not used."
  },
  {
   "property": "C123",
   "status": "proved",
   "theorems": [
    "DiffeRT2d.Props.C123_validity",
    "DiffeRT2d.Props.C123_paths",
    "DiffeRT2d.Props.C123_accumulate",
    "DiffeRT2d.Props.C123_grids"
   ],
   "note": "Extends C78 (hard mode, all_valid_paths) to degrees of validity, sums and maps. Sums are those of exact arithmetic; in floating point the order of a sum changes its rounding, which C119 and C120 bound. The random optimisers use their keys in order, so they are not covered (see C78)."
  },
  {
   "property": "C124",
   "status": "proved",
   "theorems": [
    "DiffeRT2d.Props.C124_moved_sums",
    "DiffeRT2d.Props.C124_moved_maps",
    "DiffeRT2d.Props.C124_symmetric_sums",
    "DiffeRT2d.Props.C124_symmetric_maps",
    "DiffeRT2d.Props.C124_power_diagonal",
    "DiffeRT2d.Props.C124_power_exact",
    "DiffeRT2d.Props.C124_power_close",
    "DiffeRT2d.Props.C124_power_sums",
    "DiffeRT2d.Props.C124_power_inexact"
   ],
   "note": "Sums of exact arithmetic; C119 and C120 bound the rounding. The bound for the power is proved for hard mode and for approximate mode with a good activation; the exact statements hold with any activation."
  },
  {
   "property": "C125",
   "status": "proved",
   "theorems": [
    "DiffeRT2d.Props.C125_touching",
    "DiffeRT2d.Props.C125_collinear",
    "DiffeRT2d.Props.C125_rays",
    "DiffeRT2d.Props.C125_duplicate",
    "DiffeRT2d.Props.C125_joints"
   ],
   "note": "From C74: the wall that is not the one of the reflection is not excluded from the obstruction test, and the step that arrives at a common point crosses it within the tolerance."
  },
  {
   "property": "C126",
   "status": "proved",
   "theorems": [
    "DiffeRT2d.Props.C126_path",
    "DiffeRT2d.Props.C126_diffraction",
    "DiffeRT2d.Props.C126_accumulate",
    "DiffeRT2d.Props.C126_edge",
    "DiffeRT2d.Props.C126_corner",
    "DiffeRT2d.Props.C126_ends",
    "DiffeRT2d.Props.C126_patch",
    "DiffeRT2d.Props.C126_no_diffraction",
    "DiffeRT2d.Props.C126_mixed"
   ],
   "note": "The warning of examples/plot_vertex_diffraction_power_map.py, made exact."
  },
  {
   "property": "C127",
   "status": "proved",
   "theorems": [
    "DiffeRT2d.Props.C127_hard",
    "DiffeRT2d.Props.C127_soft",
    "DiffeRT2d.Props.C127_single",
    "DiffeRT2d.Props.C127_run",
    "DiffeRT2d.Props.C127_stays",
    "DiffeRT2d.Props.C127_stuck",
    "DiffeRT2d.Props.C127_nan_hard",
    "DiffeRT2d.Props.C127_nan_soft",
    "DiffeRT2d.Props.C127_shadow",
    "DiffeRT2d.Props.C127_right_angle",
    "DiffeRT2d.Props.C127_example"
   ],
   "note": "C127_hard, C127_soft: loss and gradient from those of accumulate_over_paths and of the grid map (C100, C101). C127_single: one worst receiver. C127_run, C127_stays: optimizer. C127_stuck, C127_shadow, C127_nan_hard, C127_nan_soft, C127_right_angle: positions from which there is no motion. C127_example: the scene of the example."
  },
  {
   "property": "C128",
   "status": "proved",
   "theorems": [
    "DiffeRT2d.Props.C128_score",
    "DiffeRT2d.Props.C128_mirror",
    "DiffeRT2d.Props.C128_reversed",
    "DiffeRT2d.Props.C128_half_turn",
    "DiffeRT2d.Props.C128_fermat",
    "DiffeRT2d.Props.C128_image",
    "DiffeRT2d.Props.C128_served",
    "DiffeRT2d.Props.C128_wrong_side",
    "DiffeRT2d.Props.C128_scene",
    "DiffeRT2d.Props.C128_dark",
    "DiffeRT2d.Props.C128_independent",
    "DiffeRT2d.Props.C128_objective",
    "DiffeRT2d.Props.C128_strip",
    "DiffeRT2d.Props.C128_example",
    "DiffeRT2d.Props.C128_not_reciprocal"
   ],
   "note": "C128_score: cone. C128_fermat, C128_image: own points of valid paths. C128_served, C128_wrong_side, C128_scene, C128_dark: receivers. C128_independent: transmitters. C128_objective, C128_strip: objective of one RIS. C128_reversed, C128_half_turn, C128_mirror, C128_not_reciprocal: compared with a wall. C128_example: the RIS of the example, which serves no receiver of the right half."
  },
  {
   "property": "C129",
   "status": "proved",
   "theorems": [
    "DiffeRT2d.Props.C129_set_value",
    "DiffeRT2d.Props.C129_open",
    "DiffeRT2d.Props.C129_assert",
    "DiffeRT2d.Props.C129_display",
    "DiffeRT2d.Props.C129_exceptions",
    "DiffeRT2d.Props.C129_drag",
    "DiffeRT2d.Props.C129_obeys",
    "DiffeRT2d.Props.C129_settings",
    "DiffeRT2d.Props.C129_labels",
    "DiffeRT2d.Props.C129_sliders",
    "DiffeRT2d.Props.C129_patch_lost",
    "DiffeRT2d.Props.C129_coef_lost",
    "DiffeRT2d.Props.C129_alpha_again",
    "DiffeRT2d.Props.C129_resolution",
    "DiffeRT2d.Props.C129_no_memory",
    "DiffeRT2d.Props.C129_visible",
    "DiffeRT2d.Props.C129_cells",
    "DiffeRT2d.Props.C129_names",
    "DiffeRT2d.Props.C129_file"
   ],
   "note": "C129_open, C129_assert, C129_names, C129_file: opening. C129_display, C129_obeys, C129_settings, C129_no_memory, C129_cells, C129_visible: the picture and the settings. C129_exceptions, C129_drag: exceptions. C129_set_value, C129_sliders, C129_patch_lost, C129_coef_lost, C129_alpha_again, C129_labels: sliders. C129_resolution: grid. The claim about artists (a PathCollection has no get_xydata) is part of the trusted model of matplotlib."
  },
  {
   "property": "C130",
   "status": "proved",
   "theorems": [
    "DiffeRT2d.Props.C130_refined",
    "DiffeRT2d.Props.C130_builtin",
    "DiffeRT2d.Props.C130_closer",
    "DiffeRT2d.Props.C130_ceiling",
    "DiffeRT2d.Props.C130_default",
    "DiffeRT2d.Props.C130_accumulate",
    "DiffeRT2d.Props.C130_total_refuted"
   ],
   "note": "C130_refined: any objects whose tests are refined; C130_builtin: walls, RISs and vertices are; C130_closer: the validity of a path. C130_ceiling, C130_default: the ceiling. C130_accumulate: accumulated values. C130_total_refuted: the counterexample for totals."
  },
  {
   "property": "C131",
   "status": "proved",
   "theorems": [
    "DiffeRT2d.Props.C131_step",
    "DiffeRT2d.Props.C131_scene",
    "DiffeRT2d.Props.C131_samples",
    "DiffeRT2d.Props.C131_default",
    "DiffeRT2d.Props.C131_rigid",
    "DiffeRT2d.Props.C131_clockwise_refuted"
   ],
   "note": "C131_step: one sample; C131_samples, C131_default: any number of samples, decoded by sample_2_scene; C131_scene: decoding; C131_rigid: lengths and distances to the centre; C131_clockwise_refuted: non-symmetric ranges."
  },
  {
   "property": "C132",
   "status": "proved",
   "theorems": [
    "DiffeRT2d.Props.C132_all_paths",
    "DiffeRT2d.Props.C132_hard",
    "DiffeRT2d.Props.C132_filler",
    "DiffeRT2d.Props.C132_soft"
   ],
   "note": "C132_all_paths: agreement with the library; C132_hard: physical meaning; C132_filler: indices out of bounds; C132_soft: approximate mode."
  },
  {
   "property": "C133",
   "status": "proved",
   "theorems": [
    "DiffeRT2d.Props.C133_flow",
    "DiffeRT2d.Props.C133_negative_refuted",
    "DiffeRT2d.Props.C133_equivariant",
    "DiffeRT2d.Props.C133_blind",
    "DiffeRT2d.Props.C133_translation"
   ],
   "note": "C133_flow: the flows; C133_negative_refuted: negative indices; C133_equivariant: order of the walls; C133_blind: order of selection; C133_translation: position of the scene."
  },
  {
   "property": "C134",
   "status": "proved",
   "theorems": [
    "DiffeRT2d.Props.C134_flows",
    "DiffeRT2d.Props.C134_sampled",
    "DiffeRT2d.Props.C134_enumerated",
    "DiffeRT2d.Props.C134_law",
    "DiffeRT2d.Props.C134_possible",
    "DiffeRT2d.Props.C134_single_wall",
    "DiffeRT2d.Props.C134_single_nan"
   ],
   "note": "C134_flows: the flows exist; C134_sampled, C134_enumerated: every key gives a candidate that the library enumerates; C134_law: its probability; C134_possible: positive exactly for candidates; C134_single_wall, C134_single_nan: a single wall. inversionJax is proved to keep both contracts (inverse transform sampling with independent uniform numbers)."
  },
  {
   "property": "C135",
   "status": "proved",
   "theorems": [
    "DiffeRT2d.Props.C135_consistency",
    "DiffeRT2d.Props.C135_never_zero",
    "DiffeRT2d.Props.C135_loss",
    "DiffeRT2d.Props.C135_batch",
    "DiffeRT2d.Props.C135_first_order",
    "DiffeRT2d.Props.C135_unsorted",
    "DiffeRT2d.Props.C135_proportional_refuted",
    "DiffeRT2d.Props.C135_valid_lost"
   ],
   "note": "C135_loss, C135_batch: what the loss computes; C135_consistency: the bound; C135_first_order: the announced property for order 1; C135_unsorted, C135_proportional_refuted, C135_valid_lost: refuted for higher orders; C135_never_zero: positivity."
  },
  {
   "property": "C136",
   "status": "proved",
   "theorems": [
    "DiffeRT2d.Props.C136_train",
    "DiffeRT2d.Props.C136_zero_division",
    "DiffeRT2d.Props.C136_count",
    "DiffeRT2d.Props.C136_order",
    "DiffeRT2d.Props.C136_annotation_refuted",
    "DiffeRT2d.Props.C136_keys",
    "DiffeRT2d.Props.C136_independent",
    "DiffeRT2d.Props.C136_losses"
   ],
   "note": "C136_train: the invariant of the loop; C136_count, C136_order, C136_annotation_refuted: the reports; C136_keys, C136_independent: the keys; C136_losses: the notebook's losses; C136_zero_division: errors."
  },
  {
   "property": "C137",
   "status": "partial",
   "theorems": [
    "DiffeRT2d.Props.C137_filter",
    "DiffeRT2d.Props.C137_order_refuted"
   ],
   "note": "C137_filter: what the filter computes; C137_order_refuted: two samples. Partial because the announced purpose (scenes with at least one valid path for the training) is refuted."
  },
  {
   "property": "C138",
   "status": "proved",
   "theorems": [
    "DiffeRT2d.Props.C138_object",
    "DiffeRT2d.Props.C138_distance",
    "DiffeRT2d.Props.C138_validity",
    "DiffeRT2d.Props.C138_paths",
    "DiffeRT2d.Props.C138_valid_paths",
    "DiffeRT2d.Props.C138_accumulate",
    "DiffeRT2d.Props.C138_order",
    "DiffeRT2d.Props.C138_image",
    "DiffeRT2d.Props.C138_grids",
    "DiffeRT2d.Props.C138_app",
    "DiffeRT2d.Props.C138_negative_refuted"
   ],
   "note": "C138_object, C138_distance: objects; C138_validity; C138_paths, C138_valid_paths, C138_accumulate, C138_order: scenes, any path class with finite points; C138_image, C138_grids: image method, no condition; C138_app: the application; C138_negative_refuted: a ray stopped with patch -2 and not with patch 0."
  },
  {
   "property": "C139",
   "status": "proved",
   "theorems": [
    "DiffeRT2d.Props.C139_validity",
    "DiffeRT2d.Props.C139_positions",
    "DiffeRT2d.Props.C139_paths",
    "DiffeRT2d.Props.C139_accumulate",
    "DiffeRT2d.Props.C139_grids",
    "DiffeRT2d.Props.C139_power_exact",
    "DiffeRT2d.Props.C139_power",
    "DiffeRT2d.Props.C139_power_inexact",
    "DiffeRT2d.Props.C139_exception"
   ],
   "note": "C139_validity: any finite path; C139_positions: the condition holds off finitely many lines; C139_paths, C139_accumulate, C139_grids: scenes; C139_power_exact, C139_power, C139_power_inexact: received power; C139_exception: the condition is needed."
  },
  {
   "property": "C140",
   "status": "proved",
   "theorems": [
    "DiffeRT2d.Props.C140_transfer",
    "DiffeRT2d.Props.C140_transfer_tx",
    "DiffeRT2d.Props.C140_moved",
    "DiffeRT2d.Props.C140_moved_tx"
   ],
   "note": "C140_transfer, C140_transfer_tx: the principle, for receivers and transmitters; C140_moved, C140_moved_tx: order of walls, ends, translations and the first diagonal. Exact real arithmetic; almost every: Lebesgue measure of the plane. For other isometries the values agree only up to eps (C124), so nothing is claimed of their gradients."
  },
  {
   "property": "C141",
   "status": "proved",
   "theorems": [
    "DiffeRT2d.Props.C141_transmitters",
    "DiffeRT2d.Props.C141_receivers",
    "DiffeRT2d.Props.C141_loss",
    "DiffeRT2d.Props.C141_moves",
    "DiffeRT2d.Props.C141_dark",
    "DiffeRT2d.Props.C141_stays"
   ],
   "note": "C141_transmitters, C141_receivers: gradients; C141_dark: when the power is zero; C141_loss, C141_moves: loss and first frame of examples/plot_power_optimize.py (and papers/eucap2024/plot_optimize_steps.py); C141_stays: the zero-gradient zone (papers/eucap2024/plot_zero_gradient.py) in approximate mode. Exact real arithmetic: with binary floats sigmoid underflows and its gradient can round to zero. Only lines of sight: with reflections the numerators are not affine."
  },
  {
   "property": "C142",
   "status": "proved",
   "theorems": [
    "DiffeRT2d.Props.C142_receivers",
    "DiffeRT2d.Props.C142_transmitters",
    "DiffeRT2d.Props.C142_loss",
    "DiffeRT2d.Props.C142_moves",
    "DiffeRT2d.Props.C142_dark"
   ],
   "note": "C142_receivers, C142_transmitters: gradients; C142_dark: when the power is zero; C142_loss, C142_moves: loss and first frame of examples/plot_power_optimize.py. Exact real arithmetic."
  },
  {
   "property": "C143",
   "status": "proved",
   "theorems": [
    "DiffeRT2d.Props.C143_objective",
    "DiffeRT2d.Props.C143_worst",
    "DiffeRT2d.Props.C143_nan",
    "DiffeRT2d.Props.C143_no_candidates",
    "DiffeRT2d.Props.C143_any_transmitter",
    "DiffeRT2d.Props.C143_power",
    "DiffeRT2d.Props.C143_decibels",
    "DiffeRT2d.Props.C143_sight",
    "DiffeRT2d.Props.C143_gradient",
    "DiffeRT2d.Props.C143_loss_hard",
    "DiffeRT2d.Props.C143_loss_soft",
    "DiffeRT2d.Props.C143_runs"
   ],
   "note": "C143_objective, C143_worst, C143_nan, C143_any_transmitter, C143_no_candidates: map of the objective; C143_loss_hard, C143_loss_soft: the differentiated loss; C143_power, C143_decibels, C143_sight: maps of the power; C143_gradient: map of the gradient; C143_runs: the two runs of the paper."
  },
  {
   "property": "C144",
   "status": "proved",
   "theorems": [
    "DiffeRT2d.Props.C144_receivers",
    "DiffeRT2d.Props.C144_transmitters",
    "DiffeRT2d.Props.C144_sight"
   ],
   "note": "C144_receivers, C144_transmitters: the limit of the gradients; C144_sight: the exact gradient in line of sight, for every guard."
  },
  {
   "property": "C145",
   "status": "proved",
   "theorems": [
    "DiffeRT2d.Props.C145_converges",
    "DiffeRT2d.Props.C145_specular",
    "DiffeRT2d.Props.C145_oscillates"
   ],
   "note": "C145_converges: geometric convergence to the unique minimum; C145_specular: the limit is the path of ImagePath, with zero loss; C145_oscillates: for larger rates, a start that never converges."
  },
  {
   "property": "C146",
   "status": "proved",
   "theorems": [
    "DiffeRT2d.Props.C146_converges",
    "DiffeRT2d.Props.C146_near",
    "DiffeRT2d.Props.C146_limit",
    "DiffeRT2d.Props.C146_image"
   ],
   "note": "C146_converges: descent to the minimal length, with a rate; C146_near: no singular parameters from nearby starts; C146_limit: convergence of the parameters; C146_image: the limit is the path of ImagePath, with zero loss."
  },
  {
   "property": "C147",
   "status": "proved",
   "theorems": [
    "DiffeRT2d.Props.C147_best",
    "DiffeRT2d.Props.C147_gradient",
    "DiffeRT2d.Props.C147_converges",
    "DiffeRT2d.Props.C147_served",
    "DiffeRT2d.Props.C147_stuck",
    "DiffeRT2d.Props.C147_oscillates"
   ],
   "note": "C147_best: the minimizing angles; C147_gradient: the gradient and its zeros; C147_converges: geometric convergence of angle and loss; C147_served: one path ends by being accepted; C147_stuck: critical starts do not move; C147_oscillates: the bound on the rate is sharp."
  },
  {
   "property": "C148",
   "status": "proved",
   "theorems": [
    "DiffeRT2d.Props.C148_shadow",
    "DiffeRT2d.Props.C148_second",
    "DiffeRT2d.Props.C148_map",
    "DiffeRT2d.Props.C148_gradient"
   ],
   "note": "C148_map is about the call itself on any grid, C148_gradient about the gradient it returns (for a guard eps below 0.2); C148_shadow and C148_second are about the rays. The tolerance of the tests of obstruction (0.005 along a segment) is why the lit regions have margins."
  },
  {
   "property": "C149",
   "status": "proved",
   "theorems": [
    "DiffeRT2d.Props.C149_figure"
   ],
   "note": "C149_figure. The script plots the power only; the annotation of the figure is about its gradient, which is what value_and_grad returns. The script also renames the transmitter, which changes no value (C50)."
  },
  {
   "property": "C150",
   "status": "proved",
   "theorems": [
    "DiffeRT2d.Props.C150_loss",
    "DiffeRT2d.Props.C150_step",
    "DiffeRT2d.Props.C150_run",
    "DiffeRT2d.Props.C150_reaches",
    "DiffeRT2d.Props.C150_dichotomy",
    "DiffeRT2d.Props.C150_overshoots",
    "DiffeRT2d.Props.C150_sharp"
   ],
   "note": "C150_loss: powers, loss and gradient at every position. C150_step: one frame, several receivers. C150_run, C150_reaches, C150_dichotomy: one receiver. C150_overshoots, C150_sharp: the rate. The loop is that of the example with another optimizer of optax; C127 has the optimizer of the example."
  },
  {
   "property": "C151",
   "status": "proved",
   "theorems": [
    "DiffeRT2d.Props.C151_circle",
    "DiffeRT2d.Props.C151_best",
    "DiffeRT2d.Props.C151_step",
    "DiffeRT2d.Props.C151_run",
    "DiffeRT2d.Props.C151_zero_nans"
   ],
   "note": "C151_circle: the circle. C151_best: the loss at every position. C151_step: one frame, with ties between receivers (jnp.min shares the gradient between them). C151_run: all frames; C151_zero_nans: with zero_nans as in the example, where the run never stops being real and stays for ever at a receiver it meets. The loop is that of the example with another optimizer of optax; C127 has the optimizer of the example."
  },
  {
   "property": "C152",
   "status": "proved",
   "theorems": [
    "DiffeRT2d.Props.C152_sigmoid",
    "DiffeRT2d.Props.C152_hard",
    "DiffeRT2d.Props.C152_figure",
    "DiffeRT2d.Props.C152_compare",
    "DiffeRT2d.Props.C152_connectives",
    "DiffeRT2d.Props.C152_laws",
    "DiffeRT2d.Props.C152_all_any",
    "DiffeRT2d.Props.C152_associative_refuted",
    "DiffeRT2d.Props.C152_values"
   ],
   "note": "C152_sigmoid, C152_hard, C152_figure: activations. C152_compare, C152_connectives, C152_all_any: the functions. C152_laws: laws, with the exact gradient of the absorption law at ties; C152_associative_refuted: what fails. C152_values: same values as without differentiation (the other functions: C98)."
  }
 ]
}