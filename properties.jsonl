{"id": "C01", "title": "Hard mode is ordinary logic", "statement": "With approx=False, logical_or/and/not/all/any and greater/greater_equal/less/less_equal return exactly the Boolean connective or the IEEE comparison of their arguments (a float argument counts as true iff it is not 0, NaN compares false), and explicit approx=False/True never looks at the global setting.", "quantifier": "every pair of Boolean or float (incl. NaN, infinities) arguments, every argument list, every global setting", "why_tests_cant": "Values range over an infinite set including NaN/inf and over argument lists of any length; tests sample uniform(0,1) arrays.", "anchors": ["differt2d/logic.py:logical_or", "differt2d/logic.py:logical_and", "differt2d/logic.py:logical_not", "differt2d/logic.py:logical_all", "differt2d/logic.py:logical_any", "differt2d/logic.py:greater", "differt2d/logic.py:greater_equal", "differt2d/logic.py:less", "differt2d/logic.py:less_equal"]}
{"id": "C02", "title": "Approximate connectives restrict to Boolean logic on crisp values", "statement": "With approx=True, on the crisp values 0.0 and 1.0 the connectives logical_or/and/not/all/any return the 0.0/1.0 encoding of the Boolean result, and true_value/false_value are those encodings in both modes.", "quantifier": "all crisp argument tuples and lists of any positive length", "why_tests_cant": "The list-valued connectives take argument lists of unbounded length.", "anchors": ["differt2d/logic.py:logical_or", "differt2d/logic.py:logical_and", "differt2d/logic.py:logical_not", "differt2d/logic.py:logical_all", "differt2d/logic.py:logical_any", "differt2d/logic.py:true_value", "differt2d/logic.py:false_value"]}
{"id": "C03", "title": "Fuzzy algebra of the approximate connectives", "statement": "With approx=True and truth values in [0,1], every connective returns a value in [0,1]; and/or are commutative, associative, idempotent, absorptive; not is an involution; De Morgan's laws hold; logical_all/logical_any return the least/greatest argument and do not depend on argument order.", "quantifier": "all truth values in [0,1] and argument lists of any positive length, in any order", "why_tests_cant": "Algebraic laws over the real interval and over all permutations.", "anchors": ["differt2d/logic.py:logical_or", "differt2d/logic.py:logical_and", "differt2d/logic.py:logical_not", "differt2d/logic.py:logical_all", "differt2d/logic.py:logical_any"]}
{"id": "C04", "title": "Activation functions are valid soft steps", "statement": "For every alpha>0, sigmoid and hard_sigmoid map every real into [0,1], are nondecreasing, equal 1/2 at 0, are strictly above 1/2 exactly for positive inputs, satisfy s(-x)=1-s(x), send +inf/-inf to 1/0 and NaN to NaN; increasing alpha moves the value away from 1/2; and as alpha grows the value tends to 1 for x>0 and 0 for x<0 (hard_sigmoid reaches it exactly once |alpha*x|>=3).", "quantifier": "all reals x, all alpha>0", "why_tests_cant": "Continuum of inputs and a limit statement.", "anchors": ["differt2d/logic.py:sigmoid", "differt2d/logic.py:hard_sigmoid", "differt2d/logic.py:activation"]}
{"id": "C05", "title": "Thresholding an approximate comparison recovers the strict comparison", "statement": "For finite x, y and any alpha>0, is_true(greater(x,y,approx=True),approx=True) holds iff x>y and is_true(less(...)) iff x<y, whichever built-in activation is used; greater_equal and less_equal behave like their strict versions there, so at x==y hard mode says True while approx mode says not-true.", "quantifier": "all finite x, y; all alpha>0; both activations", "why_tests_cant": "Boundary behaviour over a continuum and for every slope.", "anchors": ["differt2d/logic.py:greater", "differt2d/logic.py:greater_equal", "differt2d/logic.py:less", "differt2d/logic.py:less_equal", "differt2d/logic.py:is_true"]}
{"id": "C06", "title": "is_true / is_false are consistent readings of a truth value", "statement": "With approx=True: for 0<=tol<=1/2 no value is both true and false; for tol=1/2 exactly the value 1/2 and NaN are neither; is_false(x) equals is_true(logical_not(x)); both are monotone in the value. With approx=False is_true returns a Boolean unchanged and rejects a float with a type error, while is_false negates.", "quantifier": "all truth values incl. NaN, all tolerances", "why_tests_cant": "Continuum of values and tolerances.", "anchors": ["differt2d/logic.py:is_true", "differt2d/logic.py:is_false"]}
{"id": "C07", "title": "Approximation setting: nested contexts restore it, also on exceptions", "statement": "In a single thread, whatever statements run inside `with enable_approx(b)` / `disable_approx(b)` (nested contexts, set_approx calls, an exception at any point), the setting seen at the start of the body is b (resp. not b), and after the block the setting is what it was just before the block.", "quantifier": "all programs built from set_approx, nested context managers, reads and raises, any nesting depth", "why_tests_cant": "Programs and exception points are unbounded.", "anchors": ["differt2d/logic.py:enable_approx", "differt2d/logic.py:disable_approx", "differt2d/logic.py:set_approx"]}
{"id": "C08", "title": "Approximation setting under threads", "statement": "While a thread is inside its enable_approx block no other thread can change the setting, and once all threads have left their blocks the setting is back to its initial value.", "quantifier": "all thread counts, all programs, all interleavings of the atomic steps", "why_tests_cant": "Every interleaving must be covered; a test sees one schedule per run.", "anchors": ["differt2d/logic.py:enable_approx", "differt2d/logic.py:set_approx", "differt2d/logic.py:_LOCK"]}
{"id": "C09", "title": "approx=None is frozen at compilation; explicit approx is history independent", "statement": "For a jitted function, a call with explicit approx=True/False gives the same mode after any history of set_approx/context/clear_cache/calls; a call with approx=None uses the setting that was current at its first call (with that signature) since the last cache clear; with jit disabled it uses the current setting.", "quantifier": "all histories of setting changes, calls with any signature, and cache clears", "why_tests_cant": "Unbounded call histories.", "anchors": ["differt2d/logic.py:enable_approx", "differt2d/logic.py:set_approx", "differt2d/logic.py:greater", "differt2d/logic.py:is_true"]}
{"id": "C10", "title": "segments_intersect decides intersection (hard mode)", "statement": "With approx=False, segments_intersect(P1,P2,P3,P4,tol) is True iff the supporting lines are not parallel and there is a point P1+a(P2-P1)=P3+b(P4-P3) with a and b both in [-tol,1+tol]; for tol=0 and non-parallel segments this is exactly 'the closed segments share a point'; collinear or degenerate segments are always reported as not intersecting (even when they overlap).", "quantifier": "all finite points, all finite tolerances", "why_tests_cant": "Four points range over a continuum, with degenerate configurations of measure zero that random tests never hit.", "anchors": ["differt2d/geometry.py:segments_intersect"]}
{"id": "C11", "title": "segments_intersect is symmetric and affine invariant", "statement": "The result (both modes, every activation/alpha) is unchanged when the two segments are exchanged, or all points are mapped by the same invertible affine map; in hard mode, and in approximate mode, it is unchanged when the endpoints of a segment are exchanged.", "quantifier": "all finite points, tolerances, affine maps with nonzero determinant", "why_tests_cant": "Invariance over an infinite group.", "anchors": ["differt2d/geometry.py:segments_intersect"]}
{"id": "C12", "title": "Approximate intersection is a truth value and thresholds to the strict test", "statement": "With approx=True and finite inputs, segments_intersect returns a number in [0,1] (never NaN, parallel segments give exactly 0), and for every alpha>0 it exceeds 1/2 iff the lines are not parallel and both parameters lie strictly inside (-tol,1+tol).", "quantifier": "all finite points, all alpha>0, both activations", "why_tests_cant": "Continuum of inputs incl. the division-by-zero configurations.", "anchors": ["differt2d/geometry.py:segments_intersect"]}
{"id": "C13", "title": "Path length", "statement": "path_length is nonnegative and differs from the exact Euclidean polyline length by at most (number of segments)*sqrt(2)*eps; hence it is at least the straight-line distance between its endpoints minus that error; it is translation invariant; a path and its reverse have the same length up to twice that error.", "quantifier": "all point lists of any length", "why_tests_cant": "Unbounded number of points.", "anchors": ["differt2d/geometry.py:path_length", "differt2d/geometry.py:Path.length"]}
{"id": "C14", "title": "Vector normalization", "statement": "normalize(v) returns (u,l) with u*l=v always; u has unit norm and l=|v| for v nonzero; for v=0 it returns (0,1). It is idempotent and odd, and invariant under positive scaling.", "quantifier": "all finite vectors including zero", "why_tests_cant": "Continuum incl. the singular point.", "anchors": ["differt2d/geometry.py:normalize"]}
{"id": "C15", "title": "Nearest point queries", "statement": "closest_point returns the first index attaining the minimal distance together with that distance; get_closest_transmitter/receiver return the name of a transmitter/receiver at minimal distance (ties go to the earliest in insertion order) and that distance; with no candidates they raise instead of returning something.", "quantifier": "all nonempty finite point lists / scenes, all targets", "why_tests_cant": "Unbounded lists; ties are measure-zero.", "anchors": ["differt2d/geometry.py:closest_point", "differt2d/scene.py:Scene.get_closest_transmitter", "differt2d/scene.py:Scene.get_closest_receiver"]}
{"id": "C16", "title": "Wall images are mirror reflections", "statement": "Wall.image_of is the mirror reflection in the wall's supporting line: it is an involution, preserves distances, fixes exactly the points of the line, and the segment to the image is orthogonal to the wall and bisected by its line; a zero-length wall leaves every point unchanged.", "quantifier": "all finite walls (incl. degenerate) and points", "why_tests_cant": "Continuum of walls and points.", "anchors": ["differt2d/geometry.py:Wall.image_of", "differt2d/geometry.py:Wall.normal"]}
{"id": "C17", "title": "Wall normal", "statement": "Wall.normal is orthogonal to the wall direction, has norm 1 for a non-degenerate wall, is 0 for a zero-length wall, and flips sign when the wall's endpoints are exchanged.", "quantifier": "all finite walls", "why_tests_cant": "Continuum incl. degenerate walls.", "anchors": ["differt2d/geometry.py:Wall.normal"]}
{"id": "C18", "title": "Parametric and Cartesian coordinates are inverse on a wall", "statement": "On a non-degenerate wall cartesian_to_parametric(parametric_to_cartesian(t))=t for all t, and parametric_to_cartesian(cartesian_to_parametric(p)) is the orthogonal projection of p on the wall's line, equal to p iff p is on the line; t=0 and t=1 are the endpoints.", "quantifier": "all non-degenerate finite walls, all parameters, all points", "why_tests_cant": "Round-trip over a continuum.", "anchors": ["differt2d/geometry.py:Wall.parametric_to_cartesian", "differt2d/geometry.py:Wall.cartesian_to_parametric"]}
{"id": "C19", "title": "Containment on objects", "statement": "With approx=False, a wall contains a parameter iff it lies in [0,1]; hence for a point of the supporting line of a non-degenerate wall containment of its parameter is equivalent to lying on the closed wall segment. In approximate mode the value is in [0,1] and exceeds 1/2 iff the parameter is strictly inside (0,1). Random samples drawn on an object are contained in it. A vertex contains everything, and a zero-length wall contains every point.", "quantifier": "all finite walls, points, parameters, alpha>0, all sample values in [0,1)", "why_tests_cant": "Continuum.", "anchors": ["differt2d/geometry.py:Wall.contains_parametric", "differt2d/geometry.py:Vertex.contains_parametric", "differt2d/abc.py:Interactable.sample"]}
{"id": "C20", "title": "The patch parameter enlarges walls monotonically", "statement": "Wall.intersects_cartesian(ray,patch) in hard mode tests the wall extended by patch times its length at both ends (plus the 0.005 tolerance); for -1/2<=patch<=patch', a ray hit with patch is also hit with patch'; patch=0 is the wall itself; a vertex is never hit.", "quantifier": "all finite walls, rays and patch values", "why_tests_cant": "Monotonicity over a continuum.", "anchors": ["differt2d/geometry.py:Wall.intersects_cartesian", "differt2d/geometry.py:Vertex.intersects_cartesian", "differt2d/defaults.py:DEFAULT_PATCH"]}
{"id": "C21", "title": "Documented meaning of patch in (0,1)", "statement": "The documentation of intersects_cartesian says a patch between 0 and 1 compresses the object (so it can only remove intersections compared with the unpatched object).", "quantifier": "all walls, rays and 0<patch<1", "why_tests_cant": "Universal claim; needs a proof or a counterexample.", "anchors": ["differt2d/abc.py:Interactable.intersects_cartesian", "differt2d/geometry.py:Wall.intersects_cartesian"]}
{"id": "C22", "title": "Specular reflection score of a wall", "statement": "Wall.evaluate_cartesian is never negative, at most 4, and is 0 iff the outgoing unit direction is the mirror image of the incoming unit direction (both possibly zero); it is unchanged when the path is traversed backwards, and under translation, rotation, mirroring and scaling of the configuration.", "quantifier": "all finite walls and point triples incl. coincident points", "why_tests_cant": "Continuum incl. degenerate triples.", "anchors": ["differt2d/geometry.py:Wall.evaluate_cartesian", "differt2d/abc.py:Interactable.evaluate_cartesian"]}
{"id": "C23", "title": "RIS score", "statement": "RIS.evaluate_cartesian is never negative, at most 4 for a non-degenerate RIS, does not depend on the incident point, and is 0 iff the outgoing direction r (unit) satisfies cross(-r,n)=sin(phi) and dot(-r,n)=cos(phi), i.e. makes the constant angle phi with the normal; adding 2*pi to phi changes nothing.", "quantifier": "all finite RIS, phi, point triples", "why_tests_cant": "Continuum.", "anchors": ["differt2d/geometry.py:RIS.evaluate_cartesian"]}
{"id": "C24", "title": "Ray rotation rotates both endpoints", "statement": "Ray.rotate(angle, around) returns the ray whose origin and destination are each rotated by angle about the centre.", "quantifier": "all rays, angles and centres", "why_tests_cant": "Tests only use multiples of pi, where the claim happens to hold.", "anchors": ["differt2d/geometry.py:Ray.rotate"]}
{"id": "C25", "title": "Bounding boxes are tight", "statement": "The bounding box of a point, ray/wall, path or scene is the smallest axis-aligned box containing all its points: every point lies in it and each of its four sides touches one; center is its midpoint.", "quantifier": "all objects, paths and scenes with at least one element", "why_tests_cant": "Unbounded scenes.", "anchors": ["differt2d/geometry.py:Point.bounding_box", "differt2d/geometry.py:Ray.bounding_box", "differt2d/geometry.py:Path.bounding_box", "differt2d/scene.py:Scene.bounding_box", "differt2d/abc.py:Plottable.center"]}
{"id": "C26", "title": "Locations and grids lie in the bounding box", "statement": "get_location returns the named side/corner/centre of the bounding box; grid(m,n) returns arrays of n rows and m columns whose points all lie in the bounding box, are evenly spaced, with first/last columns (rows) exactly on the west/east (south/north) sides.", "quantifier": "all objects, all m,n, all locations", "why_tests_cant": "Unbounded grid sizes.", "anchors": ["differt2d/abc.py:Plottable.get_location", "differt2d/abc.py:Plottable.grid", "differt2d/abc.py:Plottable.center"]}
{"id": "C27", "title": "Stacking and unstacking leaves are inverse", "statement": "For any nonempty sequence of objects of the same structure and shapes (with at least one leaf), unstack_leaves(stack_leaves(objs)) returns the same objects in order; stacking objects of different structure or shape raises ValueError.", "quantifier": "all sequences of any length, any number and shape of leaves", "why_tests_cant": "Unbounded lengths and shapes.", "anchors": ["differt2d/geometry.py:stack_leaves", "differt2d/geometry.py:unstack_leaves", "differt2d/scene.py:Scene.stacked_objects", "differt2d/scene.py:Scene.from_stacked_objects"]}
{"id": "C28", "title": "Every tracing method returns a path with the right endpoints and size", "statement": "For Path, ImagePath, FermatPath and MinPath, from_tx_objects_rx with k objects returns k+2 points, the first is the transmitter and the last the receiver; with no objects the path is the straight line with loss 0; for the sampling/minimizing methods the i-th inner point lies on the i-th object's supporting line (and is the vertex for a vertex), whatever the optimizer and random key do. ImagePath accepts exactly the lists of walls and the lists of RIS: objects of different classes raise ValueError, and objects of one class that do not mirror points raise AttributeError.", "quantifier": "all object lists (walls, RIS, vertices in any mix), all optimizers, steps, keys", "why_tests_cant": "Unbounded lists and arbitrary optimizer behaviour.", "anchors": ["differt2d/geometry.py:Path.from_tx_objects_rx", "differt2d/geometry.py:ImagePath.from_tx_objects_rx", "differt2d/geometry.py:FermatPath.from_tx_objects_rx", "differt2d/geometry.py:MinPath.from_tx_objects_rx", "differt2d/geometry.py:parametric_to_cartesian"]}
{"id": "C29", "title": "Parameters are routed to the right object", "statement": "In the minimizing methods the unknown vector is partitioned: object i receives exactly its parameters_count() consecutive entries starting at the sum of the counts of the objects before it; the slices are disjoint, in order and cover the vector.", "quantifier": "all sequences of objects with any mix of parameter counts, all unknown vectors", "why_tests_cant": "Unbounded sequences.", "anchors": ["differt2d/geometry.py:parametric_to_cartesian", "differt2d/geometry.py:parametric_to_cartesian_from_slice"]}
{"id": "C30", "title": "Image method: points lie on the walls' lines", "statement": "If all walls are non-degenerate and no step is parallel (the guarded denominator is non-zero), each interaction point of ImagePath lies on the supporting line of its wall, and lies on the line through the next path point and the corresponding transmitter image.", "quantifier": "all wall sequences of any length, all tx and rx", "why_tests_cant": "Unbounded number of walls.", "anchors": ["differt2d/geometry.py:ImagePath.from_tx_objects_rx"]}
{"id": "C31", "title": "Image method: the loss is a sum of 0, 1 or 4 and detects non-physical reflections", "statement": "For finite inputs with walls of any kind (incl. zero-length), every interaction of an ImagePath scores exactly 0, 1 or 4: 0 if previous and next points are strictly on the same side of a wall (a true mirror reflection), 4 if strictly on opposite sides, so the loss is below a tolerance in (0,1] iff it is 0.", "quantifier": "all wall sequences of any length, all tx and rx", "why_tests_cant": "Unbounded number of walls and degenerate configurations.", "anchors": ["differt2d/geometry.py:ImagePath.from_tx_objects_rx", "differt2d/geometry.py:Wall.evaluate_cartesian", "differt2d/geometry.py:Path.is_valid"]}
{"id": "C32", "title": "Image method returns a path of minimal length", "statement": "When every interaction of the image path is a proper reflection, no polyline from tx to rx touching the walls' lines in the same order is (Euclidean) shorter than the image path; its length is the distance from the last image of tx to rx.", "quantifier": "all wall sequences of any length, all competing polylines", "why_tests_cant": "Optimality over all competitors.", "anchors": ["differt2d/geometry.py:ImagePath.from_tx_objects_rx"]}
{"id": "C33", "title": "Image method never produces NaN or infinity", "statement": "For finite transmitter, receiver and walls (any number, possibly zero-length, parallel or coincident with tx/rx), all coordinates and the loss of ImagePath are finite numbers, and so are the losses of walls for the other methods given finite coordinates.", "quantifier": "all finite inputs incl. all degenerate configurations", "why_tests_cant": "Degenerate configurations have measure zero.", "anchors": ["differt2d/geometry.py:ImagePath.from_tx_objects_rx", "differt2d/geometry.py:normalize", "differt2d/geometry.py:Wall.evaluate_cartesian"]}
{"id": "C34", "title": "Image method is reciprocal", "statement": "Exchanging transmitter and receiver and reversing the wall order yields the same path reversed, with the same loss, whenever no guarded denominator vanishes in either direction.", "quantifier": "all wall sequences of any length, all tx and rx", "why_tests_cant": "Unbounded number of walls.", "anchors": ["differt2d/geometry.py:ImagePath.from_tx_objects_rx"]}
{"id": "C35", "title": "Tracing and validity are invariant under similarity transformations", "statement": "Moving, rotating, mirroring or uniformly scaling a whole configuration (tx, rx, walls) transforms the image path accordingly and leaves its loss and its validity (both modes) unchanged.", "quantifier": "all scenes of walls, all similarity transformations, all path candidates", "why_tests_cant": "Infinite group and unbounded scenes.", "anchors": ["differt2d/geometry.py:ImagePath.from_tx_objects_rx", "differt2d/geometry.py:Path.is_valid"]}
{"id": "C36", "title": "on_objects checks every interaction point", "statement": "With approx=False path.on_objects(objects) is True iff for each i the i-th object contains the (i+1)-th path point; with approx=True it is the minimum of the individual values (1 if there are none).", "quantifier": "all paths and object lists of matching length, incl. user defined objects", "why_tests_cant": "Unbounded lists.", "anchors": ["differt2d/geometry.py:Path.on_objects"]}
{"id": "C37", "title": "intersects_with_objects checks every segment against every non-adjacent object", "statement": "With approx=False path.intersects_with_objects(objects, candidate) is True iff some segment i is hit by some object j that is neither the object the segment leaves from nor the one it arrives at; with approx=True it is the maximum of the corresponding values (0 if none). It can only grow when objects are added at the end of the scene.", "quantifier": "all paths, scenes and candidates of matching length, incl. user defined objects", "why_tests_cant": "Unbounded products of segments and objects.", "anchors": ["differt2d/geometry.py:Path.intersects_with_objects"]}
{"id": "C38", "title": "is_valid is the conjunction of the three documented requirements", "statement": "With approx=False a path is valid iff all interaction points are on their objects, nothing obstructs it and its loss is < tol. With approx=True the result is always a number in [0,1], never NaN, and at most each of the three individual truth values.", "quantifier": "all paths, scenes, candidates, tolerances; incl. NaN coordinates or loss", "why_tests_cant": "Unbounded scenes and special float values.", "anchors": ["differt2d/geometry.py:Path.is_valid"]}
{"id": "C39", "title": "Approximate validity agrees with exact validity in generic position, for every alpha", "statement": "If no comparison made by is_valid is an exact tie, then for every alpha>0 and both activations is_true(is_valid(approx=True)) equals is_valid(approx=False); with hard_sigmoid the approximate value is even exactly 0.0/1.0 for all large enough alpha, and with sigmoid it converges to it.", "quantifier": "all paths and scenes of walls, RIS and vertices in generic position, all alpha>0", "why_tests_cant": "Universal over scenes, and a limit statement.", "anchors": ["differt2d/geometry.py:Path.is_valid", "differt2d/logic.py:activation"]}
{"id": "C40", "title": "A path with NaN data is never reported valid", "statement": "If the loss of a path, or an interaction point on a wall or RIS, is NaN then is_valid is False (hard) or 0 (approximate).", "quantifier": "all paths containing NaN, all scenes", "why_tests_cant": "Special values in unbounded structures.", "anchors": ["differt2d/geometry.py:Path.is_valid"]}
{"id": "C41", "title": "Fermat objective is convex", "statement": "The function minimized by FermatPath (path length as a function of the wall parameters) is convex for every list of walls and vertices, so every local minimum is a global one; along the exact lines its infimum cannot be below the direct distance minus the eps error.", "quantifier": "all object lists, all parameter vectors", "why_tests_cant": "Continuum of parameter vectors.", "anchors": ["differt2d/geometry.py:FermatPath.from_tx_objects_rx", "differt2d/geometry.py:path_length"]}
{"id": "C42", "title": "MinPath objective is nonnegative and vanishes on proper image paths", "statement": "The function minimized by MinPath is nonnegative everywhere, and when the image path consists of proper reflections it attains 0 at the image path's parameters.", "quantifier": "all lists of walls, all parameter vectors", "why_tests_cant": "Continuum.", "anchors": ["differt2d/geometry.py:MinPath.from_tx_objects_rx"]}
{"id": "C43", "title": "minimize returns a matching (solution, loss) pair", "statement": "minimize returns the solution array and the corresponding loss, i.e. the returned loss is the objective at the returned solution.", "quantifier": "all objectives, initial guesses, optimizers and step counts", "why_tests_cant": "Arbitrary optimizers and objectives.", "anchors": ["differt2d/optimize.py:minimize"]}
{"id": "C44", "title": "minimize performs exactly `steps` optimizer updates", "statement": "minimize returns the iterate obtained from x0 by exactly `steps` optimizer updates, and the loss recorded by the last step (the objective one update earlier); a stationary starting point is returned unchanged with its own loss by the default Adam optimizer.", "quantifier": "all objectives, optimizers, x0, steps>=1", "why_tests_cant": "Unbounded steps.", "anchors": ["differt2d/optimize.py:minimize"]}
{"id": "C45", "title": "minimize_many_random_uniform returns the best trial", "statement": "With many>=2 it returns the (solution, loss) of the first trial with the least loss among the `many` trials, provided no trial loss is NaN; with many=1 it is the single trial started from the given key.", "quantifier": "all objectives, keys, many>=1", "why_tests_cant": "Unbounded number of trials.", "anchors": ["differt2d/optimize.py:minimize_many_random_uniform"]}
{"id": "C46", "title": "A diverging trial does not spoil minimize_many_random_uniform", "statement": "If some trial diverges to a NaN loss while another converges, the converged one is returned.", "quantifier": "all objectives, keys, many>=2", "why_tests_cant": "Needs special values in arbitrary positions.", "anchors": ["differt2d/optimize.py:minimize_many_random_uniform"]}
{"id": "C47", "title": "Random keys are never reused", "statement": "All keys consumed by one all_paths traversal (one per path), by one grid accumulation (one per candidate), and by the trials of one minimization are pairwise distinct derivations of the user's key.", "quantifier": "all scenes and orders; keys treated as free terms of split", "why_tests_cant": "Unbounded traversals.", "anchors": ["differt2d/scene.py:Scene.all_paths", "differt2d/scene.py:Scene.accumulate_on_receivers_grid_over_paths", "differt2d/optimize.py:minimize_many_random_uniform"]}
{"id": "C48", "title": "Transmitter/receiver mappings behave like immutable ordered dicts", "statement": "PyTreeDict.from_mapping(m) has the same keys, order, length and values as m; indexing a missing key raises KeyError; `in`, iteration and items agree with indexing; mismatched key/value counts are rejected.", "quantifier": "all mappings", "why_tests_cant": "Unbounded mappings.", "anchors": ["differt2d/scene.py:PyTreeDict"]}
{"id": "C49", "title": "with_*/update_* replace or merge exactly the named part", "statement": "with_transmitters/receivers/objects replace only that field; update_* yields the union where new points win and old names keep their position; add_objects appends; filter_objects keeps exactly the objects satisfying the predicate in order; the other fields and the original scene are unchanged, for any sequence of such operations.", "quantifier": "all scenes and all sequences of operations", "why_tests_cant": "Operation histories of any length.", "anchors": ["differt2d/scene.py:Scene.with_transmitters", "differt2d/scene.py:Scene.with_receivers", "differt2d/scene.py:Scene.with_objects", "differt2d/scene.py:Scene.update_transmitters", "differt2d/scene.py:Scene.update_receivers", "differt2d/scene.py:Scene.add_objects", "differt2d/scene.py:Scene.filter_objects"]}
{"id": "C50", "title": "Renaming keeps every point", "statement": "rename_transmitters/receivers keep the number and order of points and each point stays reachable under its new name; unknown old names are ignored.", "quantifier": "all scenes, all renamings", "why_tests_cant": "Unbounded mappings; collisions.", "anchors": ["differt2d/scene.py:Scene.rename_transmitters", "differt2d/scene.py:Scene.rename_receivers"]}
{"id": "C51", "title": "Object lookup", "statement": "get_object(i) returns the object at index i clamped to the valid range when all objects have one type, and raises when types differ or there is no object; get_interacting_objects(candidate) returns, for every candidate produced by all_path_candidates, exactly the objects at those indices in order, for homogeneous and mixed scenes alike.", "quantifier": "all scenes, all indices incl. negative and too large, all candidates", "why_tests_cant": "Unbounded scenes.", "anchors": ["differt2d/scene.py:Scene.get_object", "differt2d/scene.py:Scene.get_interacting_objects"]}
{"id": "C52", "title": "Negative object indices mean the same thing in every scene", "statement": "A negative index in a path candidate designates the same object (counted from the end) whether or not the scene's objects all have the same type.", "quantifier": "all scenes, negative indices", "why_tests_cant": "Universal claim; needs proof or counterexample.", "anchors": ["differt2d/scene.py:Scene.get_interacting_objects", "differt2d/scene.py:Scene.get_object", "CHANGELOG.md"]}
{"id": "C53", "title": "Path candidates are sound, complete and duplicate free", "statement": "all_path_candidates(min_order,max_order) returns exactly the sequences of object indices with length between min_order and max_order and no two equal consecutive indices, each exactly once, in nondecreasing length; there are n*(n-1)^(k-1) of order k>=1 and one of order 0; order=k is the same as min_order=max_order=k.", "quantifier": "all scene sizes and orders", "why_tests_cant": "Unbounded n and order.", "anchors": ["differt2d/scene.py:all_path_candidates", "differt2d/scene.py:Scene.all_path_candidates"]}
{"id": "C54", "title": "Filtering candidates", "statement": "With filter_objects the candidates are exactly the unfiltered candidates that use only objects satisfying the predicate; a predicate that keeps everything changes nothing.", "quantifier": "all scenes, predicates, orders", "why_tests_cant": "Unbounded.", "anchors": ["differt2d/scene.py:all_path_candidates", "differt2d/scene.py:Scene.all_path_candidates"]}
{"id": "C55", "title": "All transmitter/receiver pairs", "statement": "all_transmitter_receiver_pairs enumerates the Cartesian product transmitter-major, each pair exactly once.", "quantifier": "all scenes", "why_tests_cant": "Unbounded.", "anchors": ["differt2d/scene.py:Scene.all_transmitter_receiver_pairs"]}
{"id": "C56", "title": "all_paths yields one traced path per pair and candidate", "statement": "all_paths yields, for each pair in order and each candidate in order, exactly one tuple whose path is the path_cls tracing through the candidate's objects and whose validity is that path's is_valid against all scene objects.", "quantifier": "all scenes, path classes, orders, keys", "why_tests_cant": "Unbounded.", "anchors": ["differt2d/scene.py:Scene.all_paths"]}
{"id": "C57", "title": "all_valid_paths is the sublist of true paths", "statement": "all_valid_paths yields, in order, exactly those tuples of all_paths (without the validity) whose validity is_true, in either mode.", "quantifier": "all scenes, modes", "why_tests_cant": "Unbounded.", "anchors": ["differt2d/scene.py:Scene.all_valid_paths"]}
{"id": "C58", "title": "accumulate_over_paths sums validity-weighted values per pair", "statement": "When there is at least one path candidate, accumulate_over_paths yields one entry for each (transmitter, receiver) pair in order, whose value is the sum over candidates of validity*fun; reduce_all=True returns the sum of the entries.", "quantifier": "all scenes, functions, orders", "why_tests_cant": "Unbounded sums and grouping.", "anchors": ["differt2d/scene.py:Scene.accumulate_over_paths"]}
{"id": "C59", "title": "accumulate_over_paths yields an entry for each pair", "statement": "accumulate_over_paths produces an entry for each (transmitter, receiver) pair, whatever the orders requested.", "quantifier": "all scenes, all orders incl. those without any candidate", "why_tests_cant": "Universal claim; needs proof or counterexample.", "anchors": ["differt2d/scene.py:Scene.accumulate_over_paths"]}
{"id": "C60", "title": "Grid accumulations agree pointwise with single-point accumulation", "statement": "The receivers-grid (transmitters-grid) accumulation has the shape of the grid, one array per transmitter (receiver) in order, and its entry at each grid point equals the accumulate_over_paths value of the scene whose only receiver (transmitter) is placed there (for key-independent path classes); reduce_all gives the sum over transmitters (receivers).", "quantifier": "all scenes, grids, functions", "why_tests_cant": "Unbounded grids and scenes.", "anchors": ["differt2d/scene.py:Scene.accumulate_on_receivers_grid_over_paths", "differt2d/scene.py:Scene.accumulate_on_transmitters_grid_over_paths", "differt2d/scene.py:Scene.accumulate_over_paths"]}
{"id": "C61", "title": "Invalid paths contribute nothing", "statement": "A path whose validity is False/0 does not change an accumulated result.", "quantifier": "all scenes, functions and paths", "why_tests_cant": "Special values (inf/NaN) of fun on invalid paths.", "anchors": ["differt2d/scene.py:Scene.accumulate_over_paths", "differt2d/scene.py:Scene.accumulate_on_receivers_grid_over_paths"]}
{"id": "C62", "title": "grad/value_and_grad selection", "statement": "value_and_grad=True takes precedence over grad=True; the value part equals the plain result and the gradient part equals the grad=True result; reduce_all sums both parts.", "quantifier": "all scenes and functions, for any differentiation operator", "why_tests_cant": "All flag combinations over arbitrary functions.", "anchors": ["differt2d/scene.py:Scene.accumulate_on_receivers_grid_over_paths", "differt2d/scene.py:Scene.accumulate_on_transmitters_grid_over_paths"]}
{"id": "C63", "title": "GeoJSON import", "statement": "from_geojson creates, for each Polygon feature, the walls joining cyclically consecutive vertices of its outer ring, in order, ignoring features without geometry and non-polygon areas; tx and rx are placed at the requested locations of the bounding box of the walls (or at (0,0),(1,1) if there are none).", "quantifier": "all parsed GeoJSON documents", "why_tests_cant": "Unbounded documents.", "anchors": ["differt2d/scene.py:Scene.from_geojson"]}
{"id": "C64", "title": "GeoJSON import creates one wall per ring segment", "statement": "For a closed GeoJSON ring (first vertex repeated at the end, as the standard requires) from_geojson creates one wall per line segment and no zero-length wall.", "quantifier": "all closed rings", "why_tests_cant": "Universal claim; needs proof or counterexample.", "anchors": ["differt2d/scene.py:Scene.from_geojson"]}
{"id": "C65", "title": "GeoJSON import skips geometries that are not polygons", "statement": "Features whose geometry is not a Polygon (e.g. a Point) are skipped without error.", "quantifier": "all documents", "why_tests_cant": "Universal claim; needs proof or counterexample.", "anchors": ["differt2d/scene.py:Scene.from_geojson"]}
{"id": "C66", "title": "Random scenes use every random point exactly once", "statement": "random_uniform_scene(n_tx,n_walls,n_rx) has exactly the requested numbers of elements, with distinct names, and every drawn point is used exactly once (as a transmitter, a wall endpoint or a receiver).", "quantifier": "all counts, all drawn arrays", "why_tests_cant": "Unbounded counts and index arithmetic.", "anchors": ["differt2d/scene.py:Scene.random_uniform_scene"]}
{"id": "C67", "title": "Preset scenes", "statement": "square_scene_with_obstacle(ratio) adds a closed axis-aligned square of side |ratio| centred in the unit room, square_scene_with_wall(ratio) a centred vertical wall of length |ratio|; for |ratio|<=1 and tx, rx in the room the scene's bounding box is the unit square; the outer room is closed.", "quantifier": "all ratios and tx/rx positions in the room", "why_tests_cant": "Continuum of ratios.", "anchors": ["differt2d/scene.py:Scene.square_scene", "differt2d/scene.py:Scene.square_scene_with_wall", "differt2d/scene.py:Scene.square_scene_with_obstacle", "differt2d/scene.py:Scene.basic_scene"]}
{"id": "C68", "title": "Received power", "statement": "For 0<=r_coef<=1 and height>0, received_power is between 0 and 1/height^2 (100 with defaults), does not increase with path length or with the number of interactions, and depends on nothing but the path.", "quantifier": "all paths, coefficients, heights", "why_tests_cant": "Continuum.", "anchors": ["differt2d/utils.py:received_power", "differt2d/utils.py:P0"]}
{"id": "C69", "title": "Scene plotting", "statement": "Scene.plot returns artists for transmitters, then objects, then receivers, in scene order and only for the enabled groups; annotations add exactly one artist per named point; keyword defaults never override user settings.", "quantifier": "all scenes, flags and keyword settings", "why_tests_cant": "Unbounded scenes and keyword combinations.", "anchors": ["differt2d/scene.py:Scene.plot", "differt2d/geometry.py:Point.plot"]}
{"id": "C70", "title": "A composite call uses one mode throughout", "statement": "A composite function (such as segments_intersect or is_valid) called with approx=None evaluates all its comparisons in the same mode.", "quantifier": "all histories of setting changes and earlier calls", "why_tests_cant": "Depends on the whole call history through the compilation cache.", "anchors": ["differt2d/logic.py:greater", "differt2d/geometry.py:segments_intersect", "differt2d/geometry.py:Path.is_valid"]}
{"id": "C71", "title": "The loss of a path is the total score of its own points", "statement": "The loss of a traced path is the sum of evaluate_cartesian of its objects at the path's own points.", "quantifier": "all object lists, end points, optimizers, steps, keys, for the three tracing methods", "why_tests_cant": "Quantifies over all optimizers and continuous inputs.", "anchors": ["differt2d/geometry.py:ImagePath.from_tx_objects_rx", "differt2d/geometry.py:FermatPath.from_tx_objects_rx", "differt2d/geometry.py:MinPath.from_tx_objects_rx"]}
{"id": "C72", "title": "unstack_leaves refuses inputs that are not stacked", "statement": "unstack_leaves raises ValueError when its input is not the result of stacking; otherwise stacking its result gives the input back.", "quantifier": "all pytrees, any number, rank and size of leaves", "why_tests_cant": "Unbounded shapes and leaf counts.", "anchors": ["differt2d/geometry.py:unstack_leaves", "differt2d/geometry.py:stack_leaves"]}
{"id": "C73", "title": "The image method finds exactly the specular paths", "statement": "For end points and a sequence of walls of non-zero length: a broken line that reflects on each wall in turn according to the law of reflection (the reflection point is on the wall's line, both neighbours are on the same side, equal angles) is what ImagePath.from_tx_objects_rx returns, with a null loss; conversely every traced path with a loss below one whose points are not all equal (in particular when the ends differ) is such a broken line; there is at most one.", "quantifier": "all end points, all wall sequences of any length", "why_tests_cant": "Continuous inputs and unbounded numbers of reflections; tests compare a few literals.", "anchors": ["differt2d/geometry.py:ImagePath.from_tx_objects_rx", "differt2d/geometry.py:Wall.image_of", "differt2d/geometry.py:Wall.normal"]}
{"id": "C74", "title": "all_valid_paths yields the physical ray paths", "statement": "For a scene of walls, in hard mode, with a tolerance in (0, 1]: all_valid_paths succeeds, gives at most one path per transmitter, receiver and candidate, yields every physical ray path of the requested orders (law of reflection on each wall of the candidate, inside the wall, no other wall crossed by the segments), and nothing else (unless all points of the path, including both ends, are equal).", "quantifier": "all scenes of walls, orders, settings, patches above -1/2, graph libraries meeting their contract", "why_tests_cant": "Quantifies over all scenes and unbounded orders.", "anchors": ["differt2d/scene.py:Scene.all_valid_paths", "differt2d/scene.py:Scene.all_paths", "differt2d/geometry.py:Path.is_valid", "differt2d/geometry.py:ImagePath.from_tx_objects_rx"]}
{"id": "C75", "title": "Reciprocity", "statement": "Exchanging transmitters and receivers in a scene of walls reverses its valid paths: the same points and candidates in the opposite order.", "quantifier": "all scenes of walls, orders and settings (hard mode)", "why_tests_cant": "Relates two runs over all scenes.", "anchors": ["differt2d/scene.py:Scene.all_valid_paths", "differt2d/geometry.py:ImagePath.from_tx_objects_rx", "differt2d/geometry.py:Path.is_valid"]}
{"id": "C76", "title": "Moving a scene moves its paths", "statement": "Translating, rotating, mirroring and scaling the points and walls of a scene moves the points of all_paths and all_valid_paths in the same way, and changes neither their number, their order, their names, their candidates, their validity (in both modes) nor their loss.", "quantifier": "all scenes of walls (even degenerate), similarities, orders, tolerances, patches, modes and activations", "why_tests_cant": "Relates two runs over all scenes and all similarities.", "anchors": ["differt2d/scene.py:Scene.all_paths", "differt2d/scene.py:Scene.all_valid_paths", "differt2d/geometry.py:Path.is_valid"]}
{"id": "C77", "title": "Adding objects never creates a path over the old objects", "statement": "After add_objects, every valid path whose candidate uses old objects only was already a valid path before (hard mode).", "quantifier": "all scenes of any objects, all path classes that ignore their key and trace one point per object", "why_tests_cant": "Relates two runs over all scenes.", "anchors": ["differt2d/scene.py:Scene.add_objects", "differt2d/scene.py:Scene.all_valid_paths", "differt2d/geometry.py:Path.on_objects", "differt2d/geometry.py:Path.intersects_with_objects"]}
{"id": "C78", "title": "The order of the objects does not matter", "statement": "Reordering the objects of a scene renumbers the candidates, and all_valid_paths yields the same paths between the same names (hard mode).", "quantifier": "all scenes of any objects, all permutations, all path classes that ignore their key and trace one point per object", "why_tests_cant": "Relates two runs over all scenes and permutations.", "anchors": ["differt2d/scene.py:Scene.with_objects", "differt2d/scene.py:Scene.all_valid_paths"]}
{"id": "C79", "title": "Tolerance and patch act in one direction", "statement": "A larger tolerance only adds valid paths, and a larger patch (at least -1/2) only removes some; the validity of each path does not decrease, or increase, accordingly.", "quantifier": "all scenes, path classes, random keys, orders, tolerances, in both modes; for the patch, all scenes of walls, RIS and vertices, and finite traced points", "why_tests_cant": "Relates two runs over all scenes and real parameters.", "anchors": ["differt2d/scene.py:Scene.all_valid_paths", "differt2d/geometry.py:Path.is_valid", "differt2d/geometry.py:Wall.intersects_cartesian"]}
{"id": "C80", "title": "The approximation is consistent", "statement": "When every traced path of a scene of walls is in generic position, the values of accumulate_over_paths in approximate mode converge, as the slope alpha grows, to the values it gives in hard mode.", "quantifier": "all scenes of walls, orders, soft steps and real functions of the path", "why_tests_cant": "A limit over a real parameter, for all scenes.", "anchors": ["differt2d/scene.py:Scene.accumulate_over_paths", "differt2d/geometry.py:Path.is_valid", "differt2d/logic.py:activation"]}
{"id": "C81", "title": "The accumulated value is a sum over the physical ray paths", "statement": "In hard mode, the value of accumulate_over_paths for a pair of points is the sum of the function over the physical ray paths of the requested orders; in particular the received power is the sum of r_coef^n / (height^2 + length^2).", "quantifier": "all scenes of walls, orders, real functions, settings", "why_tests_cant": "Quantifies over all scenes and unbounded orders.", "anchors": ["differt2d/scene.py:Scene.accumulate_over_paths", "differt2d/utils.py:received_power"]}
{"id": "C82", "title": "Accumulated values grow with the orders and the tolerance, and decrease with the patch", "statement": "With a function that is not negative, the value of every pair does not decrease when the range of orders grows, when the tolerance grows, or when the patch (at least -1/2) shrinks.", "quantifier": "all scenes of walls, ranges of orders, non-negative functions, in both modes", "why_tests_cant": "Relates two runs over all scenes and ranges.", "anchors": ["differt2d/scene.py:Scene.accumulate_over_paths", "differt2d/scene.py:Scene.all_path_candidates"]}
{"id": "C83", "title": "In approximate mode values move continuously", "statement": "When the points and the walls of a scene move continuously, so do the points and the loss of each traced path, its validity in approximate mode, and the values of accumulate_over_paths in approximate mode (for a continuous function such as the received power), at every regular position.", "quantifier": "all scenes of walls, motions over any topological space, orders, continuous activations (sigmoid and hard_sigmoid with any positive slope)", "why_tests_cant": "Continuity over a continuum of positions, for all scenes.", "anchors": ["differt2d/scene.py:Scene.accumulate_over_paths", "differt2d/geometry.py:Path.is_valid", "differt2d/logic.py:activation", "differt2d/geometry.py:ImagePath.from_tx_objects_rx"]}
{"id": "C84", "title": "In hard mode validity jumps at ties only", "statement": "In hard mode, the validity of a path does not change near a regular position without ties, and the accumulated values are continuous there.", "quantifier": "all scenes of walls, motions over any topological space, orders", "why_tests_cant": "Local constancy over a continuum of positions, for all scenes.", "anchors": ["differt2d/scene.py:Scene.accumulate_over_paths", "differt2d/geometry.py:Path.is_valid"]}
{"id": "C85", "title": "Traced paths and hard-mode values are smooth away from ties", "statement": "Where the traced path does not stand still, its points and its loss are as many times continuously differentiable, as functions of the positions of the ends and of the walls, as these motions are. In hard mode the values accumulated by accumulate_over_paths are so too, at positions without ties, for every smooth function of the path (in particular the received power).", "quantifier": "all scenes of walls, motions parametrised by any normed space, differentiability orders, path orders, functions of the path", "why_tests_cant": "Differentiability (what the library is for) is a statement about a continuum of positions; a finite-difference test checks a few of them.", "anchors": ["differt2d/scene.py:Scene.accumulate_over_paths", "differt2d/geometry.py:ImagePath.from_tx_objects_rx", "differt2d/geometry.py:Path.is_valid", "differt2d/utils.py:received_power"]}
{"id": "C86", "title": "In approximate mode values are differentiable almost everywhere", "statement": "In approximate mode the values accumulated by accumulate_over_paths are Lipschitz functions of the positions near every position where no path stands still or runs along the line of a wall it is tested against, even at ties and where a segment is parallel to a wall; hence they are differentiable at almost every such position.", "quantifier": "all scenes of walls, motions parametrised by any (finite-dimensional, for the second part) space, orders, activation functions that are locally Lipschitz, also at minus infinity (both of the library)", "why_tests_cant": "Lipschitz continuity and almost-everywhere differentiability range over a continuum.", "anchors": ["differt2d/scene.py:Scene.accumulate_over_paths", "differt2d/geometry.py:Path.is_valid", "differt2d/logic.py:activation", "differt2d/logic.py:sigmoid", "differt2d/logic.py:hard_sigmoid"]}
{"id": "C87", "title": "Truth degrees stay truth degrees in floating point", "statement": "With every operation rounded, sigmoid and hard_sigmoid stay monotone soft steps (values in [0, 1], 1/2 at 0, NaN passes through) for every positive slope, the approximate comparisons return degrees in [0, 1] (or NaN), logical_not maps degrees to degrees, and De Morgan's laws still hold exactly.", "quantifier": "all float inputs (infinities and NaN included), all slopes, every rounding that is monotone, odd and exact on small halves: float32, float64 and all IEEE binary formats", "why_tests_cant": "There are 2^64 pairs of float32 inputs for each comparison, and unbounded ranges of formats and slopes.", "anchors": ["differt2d/logic.py:hard_sigmoid", "differt2d/logic.py:sigmoid", "differt2d/logic.py:greater", "differt2d/logic.py:logical_not"]}
{"id": "C88", "title": "Approximate comparisons never contradict the exact ones in floating point", "statement": "In floating point, is_true of an approximate comparison implies the strict comparison and is_false the reverse one; the degree of greater is monotone in both arguments. In float32 with hard_sigmoid and a slope of at least 64, numbers that differ by 2^-27 or more are told apart; below, they need not be: 2^-40 > 0 has degree exactly 1/2 with the default settings.", "quantifier": "all float inputs, soft steps, roundings", "why_tests_cant": "All pairs of floats.", "anchors": ["differt2d/logic.py:greater", "differt2d/logic.py:greater_equal", "differt2d/logic.py:less", "differt2d/logic.py:less_equal", "differt2d/logic.py:is_true", "differt2d/logic.py:is_false"]}
{"id": "C89", "title": "Approximate validity agrees with exact validity in floating point", "statement": "With every operation rounded, for the same path and objects: a path that is_true accepts in approximate mode is valid in exact mode, and a path that is_false rejects, when no part of the test is NaN, is not valid in exact mode; approximate validity is always a number in [0, 1].", "quantifier": "all paths (NaN and infinities included), scenes of built-in objects, slopes, tolerances, patches, roundings", "why_tests_cant": "Relates two runs over all scenes and all float inputs.", "anchors": ["differt2d/geometry.py:Path.is_valid", "differt2d/geometry.py:segments_intersect", "differt2d/geometry.py:Wall.contains_parametric", "differt2d/logic.py:is_true", "differt2d/logic.py:is_false"]}
{"id": "C90", "title": "Symmetries of segments_intersect survive rounding", "statement": "In floating point, exchanging the two segments, exchanging the two axes, or mirroring an axis gives exactly the same result of segments_intersect, in both modes.", "quantifier": "all float coordinates (NaN and infinities included), tolerances, modes, activations, roundings", "why_tests_cant": "Relates two runs over all float inputs.", "anchors": ["differt2d/geometry.py:segments_intersect"]}
{"id": "C91", "title": "The image method gives finite paths in floating point", "statement": "With every operation rounded and as long as nothing overflows, ImagePath through any walls (degenerate, parallel, through the end points) gives finite interaction points, one per wall, and a finite loss that is not negative. path_length of finite points is never NaN and never negative, overflow or not. A path whose loss is NaN is never valid, in either mode.", "quantifier": "all finite end points, lists of walls, roundings", "why_tests_cant": "Unbounded numbers of walls and all float coordinates, including degenerate ones.", "anchors": ["differt2d/geometry.py:ImagePath.from_tx_objects_rx", "differt2d/geometry.py:path_length", "differt2d/geometry.py:normalize", "differt2d/geometry.py:Path.is_valid"]}
{"id": "C92", "title": "A null MinPath loss means a specular path, and the tolerance bounds the angle", "statement": "Over walls, the objective of MinPath vanishes at a path that has no repeated points and does not run along its walls if and only if the path obeys the law of reflection at every wall, and then its points are those of ImagePath. For a path of any method, a loss below tol means that every outgoing ray makes with the mirror direction an angle of cosine above 1 - tol/2.", "quantifier": "all lists of non-degenerate walls, end points, parameters, tolerances", "why_tests_cant": "Unbounded numbers of walls and a continuum of parameters.", "anchors": ["differt2d/geometry.py:MinPath.from_tx_objects_rx", "differt2d/geometry.py:ImagePath.from_tx_objects_rx", "differt2d/geometry.py:Wall.evaluate_cartesian", "differt2d/geometry.py:Path.is_valid"]}
{"id": "C93", "title": "The Fermat objective has one minimiser, the image path", "statement": "Over walls between which a specular path exists, the parameters of this path are the one and only global minimiser of the path length that FermatPath minimises, so a FermatPath that reaches its minimum equals the ImagePath (points and null loss). The eps that path_length adds to every step acts exactly as if the k-th wall (and the receiver) were moved by k*eps along both axes: the minimiser is the specular path of the moved scene.", "quantifier": "all lists of non-degenerate walls, end points, parameters, eps", "why_tests_cant": "Global minimality over an unbounded-dimensional continuum.", "anchors": ["differt2d/geometry.py:FermatPath.from_tx_objects_rx", "differt2d/geometry.py:path_length", "differt2d/geometry.py:ImagePath.from_tx_objects_rx"]}
{"id": "C94", "title": "The approximation lock never blocks a program for ever", "statement": "Threads that nest with enable_approx / with disable_approx blocks and call set_approx, in any order, raising and catching exceptions, never deadlock: in every reachable configuration some unfinished thread can take a step, a thread that cannot is waiting for a lock that another unfinished thread holds; each thread ends after a number of steps bounded by its own program, under every schedule, and once all have ended the lock is free. A thread may call set_approx or nest blocks inside its own with block without blocking itself.", "quantifier": "all programs of all threads, all initial settings, all schedules and points of interruption", "why_tests_cant": "Deadlocks depend on the schedule; unit tests sample few.", "anchors": ["differt2d/logic.py:enable_approx", "differt2d/logic.py:set_approx", "differt2d/logic.py:disable_approx"]}
{"id": "C95", "title": "The traversals are lazy: one path, or one pair, per next", "statement": "all_paths, all_valid_paths and accumulate_over_paths compute nothing before the first next. Each next on all_paths traces exactly one path, under the setting at that time; items before an exception are delivered, the exception is raised by the call that traces the failing path, and the generator is then finished. all_valid_paths resumes after the last path it returned and examines paths up to the first accepted one. accumulate_over_paths returns one pair per next but traces the first path of the following pair in advance, so an exception there loses the finished pair. With a given approx nothing depends on the setting at each call; under a constant setting the items are those of the complete lists.", "quantifier": "all scenes, path classes, orders, keys, numbers of calls of next, settings at each call, positions of exceptions", "why_tests_cant": "All interleavings of next with changes of the setting, and all crash points.", "anchors": ["differt2d/scene.py:Scene.all_paths", "differt2d/scene.py:Scene.all_valid_paths", "differt2d/scene.py:Scene.accumulate_over_paths"]}
{"id": "C96", "title": "Logic functions on arrays act entry by entry, and only on equal shapes", "statement": "logical_or, logical_and, greater, greater_equal, less, less_equal of two arrays of the same shape return an array of that shape whose every entry is the scalar function of the entries; logical_not, is_true and is_false act entry by entry, but is_true refuses floats when approximation is disabled. Arrays of different shapes raise a type-check error, even if NumPy would broadcast them; an array and a Python scalar work only with jit disabled or for arrays of shape (). logical_all and logical_any with axis=0 combine their arguments entry by entry and never reduce the entries of one array; without axis they raise as soon as an argument is an array that is not a scalar.", "quantifier": "all shapes, all entries, all numbers of arguments, both modes, compiled or not", "why_tests_cant": "Shapes and entries are unbounded; the tests use one shape per function.", "anchors": ["differt2d/logic.py:logical_or", "differt2d/logic.py:logical_and", "differt2d/logic.py:logical_not", "differt2d/logic.py:greater", "differt2d/logic.py:greater_equal", "differt2d/logic.py:less", "differt2d/logic.py:less_equal", "differt2d/logic.py:logical_all", "differt2d/logic.py:logical_any", "differt2d/logic.py:is_true", "differt2d/logic.py:is_false"]}
{"id": "C97", "title": "Approximation is initially on exactly when ENABLE_APPROX is in the environment", "statement": "At import the setting is on if and only if the environment has a variable ENABLE_APPROX, whatever its value (0 and the empty string included); no other variable has an effect, in particular not DISABLE_APPROX. Without it, functions called without approx compute exact Booleans.", "quantifier": "all environments", "why_tests_cant": "All environments; the tests run in one.", "anchors": ["differt2d/logic.py:ENABLE_APPROX"]}
{"id": "C98", "title": "Differentiation does not change values", "statement": "accumulate_on_receivers_grid_over_paths and accumulate_on_transmitters_grid_over_paths with grad=True or value_and_grad=True raise the same exceptions and return, for each name, the same values in arrays of the same shapes as the accumulation without differentiation, in both modes, NaN and infinities included.", "quantifier": "all scenes of walls, all transmitters and receivers, all grids of positions, orders, settings, activations of the library, tolerances, functions of the points of the path", "why_tests_cant": "All scenes and all positions; the tests compare a few grids.", "anchors": ["differt2d/scene.py:Scene.accumulate_on_receivers_grid_over_paths", "differt2d/scene.py:Scene.accumulate_on_transmitters_grid_over_paths", "differt2d/logic.py:activation", "differt2d/utils.py:received_power"]}
{"id": "C99", "title": "In hard mode the returned gradients are the derivatives of the returned values", "statement": "Where no comparison made for a path candidate is tied and every reflection point is determined, the accumulated value is differentiable and each entry returned with grad=True or value_and_grad=True is the vector of its two partial derivatives with respect to the position of the receiver (transmitter); the same holds with respect to any parameters on which the ends and walls depend differentiably. received_power is differentiated rightly unless a step of the path is the opposite of the guard of path_length.", "quantifier": "all scenes of walls, all regular positions, orders, tolerances, differentiable functions of the path; all numbers of walls and bounces", "why_tests_cant": "A derivative is a limit; finite differences at sample points cannot settle it.", "anchors": ["differt2d/scene.py:Scene.accumulate_on_receivers_grid_over_paths", "differt2d/scene.py:Scene.accumulate_on_transmitters_grid_over_paths", "differt2d/geometry.py:ImagePath.from_tx_objects_rx", "differt2d/geometry.py:path_length", "differt2d/utils.py:received_power"]}
{"id": "C100", "title": "In hard mode a gradient is either that of the accepted paths held fixed, or NaN", "statement": "For the received power in hard mode, at every position of the receiver (transmitter): if for every path candidate - accepted or not - each reflection point is determined (no line from an image to the following point is parallel to the wall) and no step is the opposite of the guard of path_length, the returned gradient is that of the sum over the paths accepted at this position, held fixed: it never accounts for paths that appear or disappear. Otherwise both components are NaN, although the value is finite and even if the candidate at fault is not accepted. With one wall this happens where the receiver is as far from the wall as the transmitter, on the other side; with two perpendicular walls and order 3, wherever both are equally far from one of them on the same side.", "quantifier": "all scenes of walls (degenerate walls included), all positions, orders, tolerances; all numbers of walls and bounces", "why_tests_cant": "The exceptional positions have measure zero: random tests never meet them.", "anchors": ["differt2d/scene.py:Scene.accumulate_on_receivers_grid_over_paths", "differt2d/scene.py:Scene.accumulate_on_transmitters_grid_over_paths", "differt2d/geometry.py:ImagePath.from_tx_objects_rx", "differt2d/geometry.py:path_length", "differt2d/utils.py:received_power"]}
{"id": "C101", "title": "In approximate mode a gradient is real or NaN, and which is decided by the geometry alone", "statement": "For the received power in approximate mode, with sigmoid or hard_sigmoid and a positive slope, the value is a real number at every position; both components of the gradient are real if no path candidate in range has two consecutive points that coincide (order one and more) or a step opposite to the guard of path_length, and both are NaN otherwise, whether or not the candidate is a valid path. In particular, if two distinct walls of the scene are on one line and paths of order 2 are considered, every gradient at every position is NaN: so it is for basic_scene.", "quantifier": "all scenes of walls, positions, orders, tolerances, patches, slopes, the two activations of the library; all numbers of walls and bounces", "why_tests_cant": "The NaN of one hidden candidate poisons the sum; in floats rounding hides it most of the time, so tests on samples pass.", "anchors": ["differt2d/scene.py:Scene.accumulate_on_receivers_grid_over_paths", "differt2d/scene.py:Scene.accumulate_on_transmitters_grid_over_paths", "differt2d/geometry.py:ImagePath.from_tx_objects_rx", "differt2d/geometry.py:path_length", "differt2d/geometry.py:Path.is_valid", "differt2d/utils.py:received_power", "differt2d/scene.py:Scene.basic_scene"]}
{"id": "C102", "title": "Either almost all gradients are real, or none is", "statement": "In hard mode, if no wall is reduced to a point: for transmitters (receivers) outside of finitely many lines, the gradients of the received power with respect to the receiver (transmitter) are real at all positions outside of finitely many lines. In approximate mode the same holds if moreover no two walls are on one line, or if paths have at most one bounce. In all other scenes every gradient at every position is NaN. Finitely many lines have measure zero.", "quantifier": "all scenes of walls, positions, orders, tolerances, patches, slopes, the two activations of the library; all numbers of walls and bounces", "why_tests_cant": "Both the exceptional lines and the dichotomy are about all positions; a sampled gradient says nothing about the others.", "anchors": ["differt2d/scene.py:Scene.accumulate_on_receivers_grid_over_paths", "differt2d/scene.py:Scene.accumulate_on_transmitters_grid_over_paths", "differt2d/geometry.py:ImagePath.from_tx_objects_rx", "differt2d/geometry.py:path_length", "differt2d/utils.py:received_power"]}
{"id": "C103", "title": "In approximate mode almost every gradient is the derivative", "statement": "In approximate mode, if no wall is reduced to a point and no two walls are on one line (not needed for at most one bounce), and the patch is more than -1/2: for transmitters (receivers) outside of finitely many lines, the gradient of the accumulated received power with respect to the receiver (transmitter) exists and is what the grid methods return, on a neighbourhood of almost every position (that is, outside of a closed null set). The kinks (minima, maxima, hard sigmoid, ties between coordinates) are met by the program, which returns averages of one-sided derivatives there, but either only at a null set of positions or where both sides agree.", "quantifier": "all scenes of walls, orders, tolerances, patches, slopes, the two activations of the library, almost all positions; all numbers of walls and bounces", "why_tests_cant": "A statement about almost every point of the plane; finite differences at a sample can neither show that the exceptions are negligible nor that the convention at ties is harmless.", "anchors": ["differt2d/scene.py:Scene.accumulate_on_receivers_grid_over_paths", "differt2d/scene.py:Scene.accumulate_on_transmitters_grid_over_paths", "differt2d/logic.py:minimum", "differt2d/logic.py:maximum", "differt2d/logic.py:hard_sigmoid", "differt2d/logic.py:sigmoid", "differt2d/geometry.py:Path.is_valid", "differt2d/utils.py:received_power"]}
{"id": "C104", "title": "Near almost every parameter the results are real analytic", "statement": "Let the points, the objects (walls, RIS with their angle, vertices), the tolerances, the patch, alpha and the constants of the path function depend on parameters in a way that is analytic near almost every parameter. Then, in both modes, all_paths, all_valid_paths and accumulate_over_paths raise the same exception for all parameters or for none; all_paths yields a fixed number of paths with fixed names and candidates; near almost every parameter the points and losses and float validities are real analytic functions (or a constant NaN or infinity), Boolean validities and the list of accepted candidates are constant, and the accumulated sums are analytic. The exceptional parameters form a closed null set. The two activations of the library and received_power, and the image method, are covered.", "quantifier": "all scenes of walls, RIS and vertices, finite-dimensional parameters (positions, walls, angles, settings), orders, filters that do not look at the parameters, both modes", "why_tests_cant": "A statement about almost every parameter of every family of scenes: sampling can neither find the jumps nor show that they are negligible.", "anchors": ["differt2d/scene.py:Scene.all_paths", "differt2d/scene.py:Scene.all_valid_paths", "differt2d/scene.py:Scene.accumulate_over_paths", "differt2d/geometry.py:ImagePath.from_tx_objects_rx", "differt2d/geometry.py:Path.is_valid", "differt2d/geometry.py:segments_intersect", "differt2d/logic.py:is_true", "differt2d/logic.py:sigmoid", "differt2d/logic.py:hard_sigmoid", "differt2d/utils.py:received_power"]}
{"id": "C105", "title": "In hard mode almost every gradient is the derivative", "statement": "In hard mode, if no wall is reduced to a point: for transmitters (receivers) outside of finitely many lines, almost every position of the receiver (transmitter) has a neighbourhood in which the accumulated received power is differentiable and its gradient is what the grid methods return: the set of accepted paths, which the program holds fixed, does not change there.", "quantifier": "all scenes of walls, orders, tolerances, patches, almost all positions; all numbers of walls and bounces", "why_tests_cant": "A statement about almost every point of the plane; the value jumps where paths appear or disappear, and no sample shows that those positions are negligible.", "anchors": ["differt2d/scene.py:Scene.accumulate_on_receivers_grid_over_paths", "differt2d/scene.py:Scene.accumulate_on_transmitters_grid_over_paths", "differt2d/geometry.py:Path.is_valid", "differt2d/utils.py:received_power"]}
{"id": "C106", "title": "The default optimizer cannot run away, and a bad gradient is never hidden", "statement": "minimize with its default optimizer (Adam) from real numbers: no step moves a coordinate by sqrt(370/7) (about 7.27) learning rates or more, whatever the objective; so with the defaults no coordinate of the solution is farther than the number of steps from the initial guess; the first step goes against the sign of the gradient by nearly one learning rate, whatever the size of the gradient. No iterate is ever infinite: a coordinate is a real number as long as all gradients were real in this coordinate, and NaN for ever after the first that was not.", "quantifier": "all objectives, gradients (also NaN and infinite ones), initial guesses, sizes, learning rates, numbers of steps", "why_tests_cant": "A bound over all sequences of gradients; tests run a few objectives.", "anchors": ["differt2d/optimize.py:minimize", "differt2d/optimize.py:minimize_random_uniform", "differt2d/optimize.py:minimize_many_random_uniform"]}
{"id": "C107", "title": "The gradients the minimizing tracers follow are the true ones, or NaN", "statement": "The gradient that FermatPath (resp. MinPath) gives its optimizer is, entry by entry, the partial derivative of the objective with respect to the parameter of a wall or RIS, except where that objective is not smooth for the differentiation rules: the entry is NaN exactly if a step of the path that starts or ends at this wall or RIS is the opposite of the guard added by path_length (Fermat), resp. is a step of length zero looked at by the score of a wall or RIS (MinPath). A singular step between other points does not spoil the entry. Where no entry is NaN, the objective is differentiable in all parameters together and the vector is its gradient. The value computed along the way is the objective itself, for all vectors.", "quantifier": "all lists of walls, RIS and vertices, all endpoints, all vectors of parameters", "why_tests_cant": "A statement about derivatives at every point, including a set of measure zero that random tests never hit.", "anchors": ["differt2d/geometry.py:FermatPath.from_tx_objects_rx", "differt2d/geometry.py:MinPath.from_tx_objects_rx", "differt2d/optimize.py:minimize"]}
{"id": "C108", "title": "A path traced by gradient descent is real, or visibly NaN", "statement": "FermatPath and MinPath with the default optimizer, from real parameters and over objects with real coordinates: if none of the parameters where the gradient was taken is singular (in the sense of C107), all points of the path are real, each lies on its object, at a parameter that has moved by at most sqrt(370/7) learning rates per step; if one of them is singular, the point of a wall or RIS of the path is NaN in both coordinates, and such a path is never valid, whatever the scene, the tolerance and the mode.", "quantifier": "all lists of walls, RIS and vertices, endpoints, random generators with real samples, learning rates, numbers of steps", "why_tests_cant": "Quantifies over all runs of the optimizer.", "anchors": ["differt2d/geometry.py:FermatPath.from_tx_objects_rx", "differt2d/geometry.py:MinPath.from_tx_objects_rx", "differt2d/geometry.py:Path.is_valid", "differt2d/optimize.py:minimize"]}
{"id": "C109", "title": "Where the minimizing tracers come to rest", "statement": "With the default optimizer, the parameters do not move in the first step exactly when the gradient is zero there, and then they never move. For FermatPath the gradient is zero exactly at the global minima of the length that are not singular, so that a tracer at rest has found the shortest path. For MinPath the gradient is zero wherever the loss is zero (and not singular), but not only there: when the receiver is the mirror image of the transmitter in the wall, MinPath returns its random initial guess, whatever it is, with the loss 4.", "quantifier": "all lists of walls, RIS and vertices, endpoints, parameters, learning rates, numbers of steps, random generators with real samples", "why_tests_cant": "Quantifies over all real parameters and all runs of the optimizer.", "anchors": ["differt2d/geometry.py:FermatPath.from_tx_objects_rx", "differt2d/geometry.py:MinPath.from_tx_objects_rx", "differt2d/optimize.py:minimize"]}
{"id": "C110", "title": "Walls are opaque", "statement": "If the walls of a scene separate a transmitter from a receiver (no broken line goes from one to the other without meeting a wall), then in hard mode no path of any order between them is valid: all_valid_paths yields none, and accumulate_over_paths gives zero for the pair, whatever the function. In particular nothing leaves a rectangular room, or any convex room, such as that of Scene.square_scene, and more walls separate at least as much.", "quantifier": "all scenes of walls of non-zero length, positions, orders, tolerances in (0, 1], patches of at least -1/202", "why_tests_cant": "Quantifies over all paths of all orders in all scenes; a leak would be a single path among infinitely many, through a corner or along a wall.", "anchors": ["differt2d/scene.py:Scene.all_valid_paths", "differt2d/scene.py:Scene.accumulate_over_paths", "differt2d/geometry.py:Path.is_valid", "differt2d/geometry.py:segments_intersect"]}
{"id": "C111", "title": "Rays are deterministic: one path per direction", "statement": "In a scene of walls, in hard mode, two different paths that all_valid_paths yields between the same transmitter and the same receiver with the same number of reflections, or with the same length, never leave the transmitter in the same direction and never arrive at the receiver from the same direction. More precisely, physical paths that leave the same point in the same direction (whatever their receivers) name the same walls and go through the same points as far as the shorter one goes, and the longer one then passes through the end of the shorter one.", "quantifier": "all scenes of walls of non-zero length, positions, orders, pairs of paths, tolerances in (0, 1], patches of at least -1/202", "why_tests_cant": "Quantifies over all pairs of paths of all orders in all scenes, including touching walls, corners and rays along walls.", "anchors": ["differt2d/scene.py:Scene.all_valid_paths", "differt2d/geometry.py:Path.is_valid", "differt2d/geometry.py:ImagePath.from_tx_objects_rx", "differt2d/geometry.py:segments_intersect"]}
{"id": "C112", "title": "Paths in a rectangular room are the lines to the mirror images", "statement": "In a scene that is a rectangular room, in hard mode, each path of n reflections that all_valid_paths yields to a receiver in the room leaves towards one of its mirror images (m, m') with |m| + |m'| = n, is exactly as long as the distance to that image, and no other path goes to the same image; hence there are at most 4n paths of n >= 1 reflections per pair. Conversely the path to an image is there when both ends are more than 1/200 of the size of the room away from the walls and the line to the image keeps that far from the corners of the tiling; when it does for all images of order n there are exactly 4n paths, and there are always exactly four of one reflection.", "quantifier": "all rectangular rooms, positions, orders, images, tolerances in (0, 1], patches of at least -1/202", "why_tests_cant": "Quantifies over all orders and positions; the number of candidates grows like 4 * 3^(n-1), of which at most 4n are valid.", "anchors": ["differt2d/scene.py:Scene.all_valid_paths", "differt2d/scene.py:Scene.square_scene", "differt2d/geometry.py:ImagePath.from_tx_objects_rx", "differt2d/geometry.py:Path.is_valid"]}
{"id": "C113", "title": "The power in a rectangular room converges as the order grows", "statement": "In a scene that is a rectangular room, in hard mode, with a reflection coefficient q in [0, 1) and a positive height, the power that accumulate_over_paths gives for each pair, with min_order 0 and max_order N, does not decrease with N and converges, and stopping at order N loses at most 4 q^(N+1) (N + 1 - N q) / ((1 - q)^2 height^2).", "quantifier": "all rectangular rooms, transmitters anywhere, receivers strictly inside, orders N, coefficients in [0, 1), heights, tolerances in (0, 1], patches of at least -1/202", "why_tests_cant": "A statement about a limit over all orders, with an explicit bound on the remainder.", "anchors": ["differt2d/scene.py:Scene.accumulate_over_paths", "differt2d/utils.py:received_power", "differt2d/scene.py:Scene.square_scene"]}
{"id": "C114", "title": "Higher precision gives the exact answer", "statement": "As the floating point format becomes more precise (more bits, larger exponents), the points, the loss and the length of every path traced by the image method tend to those of exact arithmetic; the hard validity of a path is eventually that of exact arithmetic; and the power that accumulate_over_paths computes tends to the exact one, for every transmitter and receiver. The inputs are rounded to the format. Conditions: walls have a non-zero length; the exact path does not pause nor run along the line of a wall that it is tested against; for hard validity, no comparison is a tie in exact arithmetic.", "quantifier": "all families of floating point arithmetics that become exact (IEEE formats among them), scenes of walls, transmitters, receivers, orders, tolerances, patches, coefficients", "why_tests_cant": "Tests run in float32 or float64 only, where a result is one sample of its rounding errors; that errors vanish and do not accumulate, for every scene, order and format, is a statement about limits.", "anchors": ["differt2d/geometry.py:ImagePath.from_tx_objects_rx", "differt2d/geometry.py:Path.is_valid", "differt2d/geometry.py:path_length", "differt2d/utils.py:received_power", "differt2d/scene.py:Scene.accumulate_over_paths"]}
{"id": "C115", "title": "Higher precision gives the exact degrees in approximate mode", "statement": "In approximate mode, as the floating point format becomes more precise, both activation functions tend to their exact values, the degree of validity of every path traced by the image method tends to the exact degree, and the power that accumulate_over_paths computes tends to the exact one. No comparison needs to be far from a tie, in contrast with hard mode.", "quantifier": "all families of floating point arithmetics that become exact, slopes, scenes of walls, transmitters, receivers, orders, tolerances, patches, coefficients", "why_tests_cant": "Tests compare degrees up to a tolerance in one format; convergence for every scene, order and activation is a statement about limits.", "anchors": ["differt2d/logic.py:sigmoid", "differt2d/logic.py:hard_sigmoid", "differt2d/geometry.py:segments_intersect", "differt2d/geometry.py:Path.is_valid", "differt2d/scene.py:Scene.accumulate_over_paths"]}
{"id": "C116", "title": "The received power behaves in floating point", "statement": "In floating point, for a path through finite points, a coefficient in [0, 1] and a height whose square does not underflow, received_power returns a number between 0 and 1/height\u00b2 (rounded), never NaN or infinity, even when the length overflows; a path that is computed to be at least as long, with at least as many interactions, never receives more power. In both modes accumulate_over_paths never decreases when paths are added, whatever the rounding errors; it is never NaN, and it is unchanged to the last bit by paths whose validity is zero.", "quantifier": "all floating point arithmetics that satisfy the contract (float32, float64, IEEE formats), finite points, walls, transmitters, receivers, candidates, tolerances, patches, coefficients in [0, 1], heights", "why_tests_cant": "Rounding, underflow and overflow depend on the input; tests sample a few scenes at ordinary magnitudes.", "anchors": ["differt2d/utils.py:received_power", "differt2d/scene.py:Scene.accumulate_over_paths", "differt2d/geometry.py:path_length"]}
{"id": "C117", "title": "path_length is accurate in floating point", "statement": "For a path of n segments, the length that path_length computes in floating point overflows to plus infinity, or lies between (1-u)^(n+4) L - n\u03b8 and (1+u)^(n+4) (L + n\u03b8), where L is the length of the path, u the unit roundoff and \u03b8 = 3 eps + 11 sqrt(\u03b7), with eps the guard that the code adds to differences and \u03b7 the underflow threshold. In float32, for up to 1000 segments, the error is at most 7e-5 of the length plus 4e-7 for each segment.", "quantifier": "all arithmetics with a relative error u \u2264 1/8 and an absolute error \u03b7 \u2264 1 (IEEE formats), all lists of finite points", "why_tests_cant": "A bound on rounding errors holds for every input, and its dependence on the number of segments cannot be observed by tests.", "anchors": ["differt2d/geometry.py:path_length", "differt2d/geometry.py:Path.length"]}
{"id": "C118", "title": "The received power is accurate in float32", "statement": "In float32 with its machine epsilon, for a coefficient in [0, 1], a height between 2^-20 and 2^40 and path points within 2^40 of the axes, received_power(path) for a path of n <= 1000 segments (n * 4e-6 <= height) is a finite number, off from coef^(n-1) / (height^2 + length^2) by at most (n + 5) * 2.5e-7 + n * 6e-7 / height relatively, plus 2^-90 for underflow. The value that accumulate_over_paths computes with the image method over up to 80000 candidates is the sum, over the traced paths, of their validity times that exact power, with the same relative error plus 8e-8 for each addition, in both modes.", "quantifier": "every path (any number of points up to 1001, any coordinates within bounds), coefficient, height, scene of walls, candidate list and tolerance", "why_tests_cant": "rounding errors depend on all inputs and accumulate along paths and candidates; tests compare a few values with a loose tolerance", "anchors": ["differt2d/utils.py:received_power", "differt2d/geometry.py:path_length", "differt2d/scene.py:Scene.accumulate_over_paths"]}
{"id": "C119", "title": "Rounding errors are proportional to the machine precision", "statement": "Let the coordinates be stored and all operations be carried out in a binary format of precision p. The points, the loss and the length of a path traced by the image method are off from those of exact arithmetic by at most a constant (that depends on the scene, not on p) times 2^-p; and so is, in hard mode, the received power that accumulate_over_paths computes for every transmitter and receiver, when no exact path touches a threshold and no receiver is at a transmitter.", "quantifier": "every scene of walls of non-zero length, candidate, transmitter, receiver, coefficient, height, tolerance, and family of binary formats of growing precision", "why_tests_cant": "a rate is a statement about infinitely many formats; a test runs in one or two", "anchors": ["differt2d/geometry.py:ImagePath.from_tx_objects_rx", "differt2d/geometry.py:path_length", "differt2d/utils.py:received_power", "differt2d/scene.py:Scene.accumulate_over_paths"]}
{"id": "C120", "title": "Approximate validity and power err in proportion to the machine precision", "statement": "In approximate mode, with either built-in activation, the degree of validity of a path and the power accumulated over all paths, computed in floating point with p bits, differ from the exact ones by at most a constant times 2^-p, whenever the exact paths are regular: even when a comparison is at its threshold, and even when a path segment is parallel to a wall.", "quantifier": "all transmitters, receivers (none at a transmitter), walls of non-zero length, orders, tolerances, patches, coefficients, heights, all families of arithmetics with errors of size eps (IEEE formats of growing precision among them), rounded slopes", "why_tests_cant": "a rate of convergence quantifies over all precisions and all scenes", "anchors": ["differt2d/geometry.py:Path.is_valid", "differt2d/geometry.py:segments_intersect", "differt2d/logic.py:activation", "differt2d/scene.py:Scene.accumulate_over_paths"]}
{"id": "C121", "title": "With several trials one singular trial spoils the path", "statement": "FermatPath and MinPath with many >= 2 and the default optimizer, from real parameters and over objects with real coordinates: if no trial takes the gradient at singular parameters (in the sense of C107) before its last step, the path is that of the first of the trials with the least value of the objective before the last step; it is real, each point on its object, if the last step of this trial is not singular either. If one trial does, the path is that of the first such trial: the point of a wall or RIS is NaN (and for MinPath so is the loss), and the path is never valid, whatever the other trials have found.", "quantifier": "all lists of walls, RIS and vertices, endpoints, random generators with real samples, learning rates, numbers of steps and of trials", "why_tests_cant": "Ranges over all trajectories of all trials of a randomised iterative method.", "anchors": ["differt2d/geometry.py:FermatPath.from_tx_objects_rx", "differt2d/geometry.py:MinPath.from_tx_objects_rx", "differt2d/optimize.py:minimize_many_random_uniform"]}
{"id": "C122", "title": "A wall has no direction", "statement": "Drawing walls from their other end (Wall(b, a) instead of Wall(a, b)) changes nothing: all_paths, all_valid_paths, accumulate_over_paths and the maps of the grid methods return exactly the same results with the image method, for any walls (even of zero length), in hard and in approximate mode, with any activation, tolerance and real patch, for every function of the path that does not look at the objects themselves. For a RIS the drawing direction matters, in a known way: drawing it from the other end is the same as adding pi to its angle phi.", "quantifier": "all scenes of walls, all subsets of the walls redrawn, all orders, activations, tolerances, real patches, functions and real grids", "why_tests_cant": "Relates two runs for every scene and every choice of walls.", "anchors": ["differt2d/geometry.py:Wall", "differt2d/geometry.py:RIS", "differt2d/geometry.py:ImagePath.from_tx_objects_rx", "differt2d/geometry.py:Path.is_valid", "differt2d/scene.py:Scene.all_paths"]}
{"id": "C123", "title": "The order of the objects does not matter, in both modes", "statement": "If the objects of a scene are listed in another order, all_paths yields the same tuples in another order, with the candidates renumbered and with exactly the same paths and degrees of validity, in hard and in approximate mode; accumulate_over_paths and both grid methods, values and gradients, return exactly the same results. This holds for any objects, any activation and any path class that does not use its random key and returns one point per object, and any function of the path and its objects.", "quantifier": "all scenes, permutations of the objects, orders, options of is_valid, functions, grids and gradient operators", "why_tests_cant": "Relates two runs for every scene and every permutation.", "anchors": ["differt2d/scene.py:Scene.all_paths", "differt2d/scene.py:Scene.accumulate_over_paths", "differt2d/scene.py:Scene.accumulate_on_receivers_grid_over_paths", "differt2d/geometry.py:Path.is_valid"]}
{"id": "C124", "title": "Symmetric scenes give symmetric maps", "statement": "For a function of the path that is invariant under a rotation, mirroring, translation or scaling A: moving the whole scene by A changes no accumulated value, and the map of the moved scene on the moved grid is the map of the scene on the grid; if moreover the walls are symmetric under A (the moved walls are the same segments, in any order and drawn from any end), then moving only the transmitters and the receivers (the grid) changes nothing. The received power is exactly invariant under translations and under the exchange of the axes (with translations); under the other isometries it changes by at most a multiple of the machine precision eps, because path_length adds eps to both coordinates of each segment: at most the sum over the path candidates of n interactions of |coef|^n (n+1) 2 sqrt(2) eps / height^3. It is not exactly invariant (unless eps were 0).", "quantifier": "all scenes of walls (even degenerate), similarities, orders, grids of any shape, modes, activations, tolerances, real patches", "why_tests_cant": "Relates runs over all scenes, all symmetries and all grids.", "anchors": ["differt2d/scene.py:Scene.accumulate_over_paths", "differt2d/scene.py:Scene.accumulate_on_receivers_grid_over_paths", "differt2d/scene.py:Scene.accumulate_on_transmitters_grid_over_paths", "differt2d/utils.py:received_power", "differt2d/geometry.py:path_length"]}
{"id": "C125", "title": "Walls that touch or coincide", "statement": "In hard mode, listing a wall a second time in a scene removes every reflection on it and changes nothing else: the valid paths are those of the scene that are not reflected by this wall (it still stops rays). More generally no valid path is reflected at a point that also lies on another wall of the same line, even within 1/200 of that wall's length (plus the patch) beyond its ends; and if a path is reflected at a point that is also on some other wall, such as a corner, then the two walls are perpendicular and the path comes along the other wall and goes back along it.", "quantifier": "all scenes of walls of non-zero length, transmitters, receivers, orders, tolerances in (0, 1], patches (non-negative for the duplicate), paths whose points are not all equal", "why_tests_cant": "Ranges over all scenes and all reflection points; the set of valid paths of two scenes is compared.", "anchors": ["differt2d/scene.py:Scene.all_valid_paths", "differt2d/geometry.py:Path.intersects_with_objects", "differt2d/geometry.py:segments_intersect", "differt2d/scene.py:Scene.from_geojson"]}
{"id": "C126", "title": "Vertex diffraction", "statement": "In hard mode, vertex diffraction with FermatPath or MinPath (filter_objects=lambda obj: isinstance(obj, Vertex)) yields exactly the broken lines from a transmitter through the vertices of a candidate to a receiver that no wall and no RIS of the scene stops, with loss 0, whatever the random key, optimizer, number of steps and trials; accumulated values are the sums over these broken lines. A vertex on a wall or RIS that is still in the scene (for instance one of wall.get_vertices()) gives no path, unless the path comes and leaves along that wall, also on paths that mix reflections and diffractions; if every vertex is a corner of two walls of the scene that are not parallel, there is no diffraction path at all between distinct points. The documented remedy of a negative patch works exactly from below -1/202: then a wall never stops a step that starts or ends at one of its own ends; from -1/202 on, its ends are still covered.", "quantifier": "all scenes of walls, RISs and vertices, transmitters, receivers, orders, random keys, optimizers, positive tolerances, patches above -1/2", "why_tests_cant": "The candidates, positions and keys are unbounded, and the obstruction by the own wall of a vertex depends on tolerances that tests do not scan.", "anchors": ["differt2d/geometry.py:Vertex", "differt2d/geometry.py:FermatPath.from_tx_objects_rx", "differt2d/geometry.py:MinPath.from_tx_objects_rx", "differt2d/geometry.py:Path.intersects_with_objects", "differt2d/scene.py:Scene.all_valid_paths", "examples/plot_vertex_diffraction_power_map.py"]}
{"id": "C127", "title": "Optimizing the position of a transmitter", "statement": "In the power optimization (examples/plot_power_optimize.py) the differentiated loss is minus a hundredth of the power of a receiver that gets least, and its gradient is a mean of the gradients of the receivers that get least (the gradient of the receiver that gets least, if there is only one), both in hard and in approximate mode; it is NaN as soon as the gradient of any receiver, even a well served one, is NaN. With optax.chain(adam(lr), zero_nans()) the coordinates of the transmitter stay real for any number of frames and any losses, and move by less than lr*sqrt(370/7) per frame; but a coordinate for which one gradient was NaN or infinite never moves again. In hard mode the transmitter never moves from a position where a receiver gets no power, in particular with max_order=0 from a position that a wall hides from a receiver, such as that of the example; with orders up to 3 or more it does not move either from a position that shares a coordinate with a receiver in a rectangular room, such as that of the example.", "quantifier": "all scenes of walls, receivers, positions, slopes, numbers of frames, learning rates, losses (for the optimizer)", "why_tests_cant": "The positions, the number of frames and the gradients met on the way are unbounded; a NaN on the way is hidden by zero_nans.", "anchors": ["examples/plot_power_optimize.py", "differt2d/scene.py:Scene.accumulate_over_paths", "differt2d/scene.py:Scene.accumulate_on_transmitters_grid_over_paths", "differt2d/utils.py:received_power"]}
{"id": "C128", "title": "What a reconfigurable intelligent surface serves", "statement": "A RIS has a beam: the opposite of its normal, turned by minus its angle phi. For a tolerance up to 1 it accepts a step from one of its points exactly when the next point is in the cone around the beam where the cosine is above 1 - tol/2, wherever the ray comes from. So a valid path of FermatPath or ImagePath leaves each RIS in that cone (for FermatPath, from a point of the segment), and whatever the transmitter, the key, the optimizer and the gradient, a valid path of FermatPath or MinPath that ends with a RIS only reaches receivers in the cone seen from a point of the line of the RIS; unless phi is grazing, no receiver on the line of the RIS or on the side away from the beam is ever served, in the traversal of a scene with filter_objects keeping the RISs too. With MinPath, the points after the transmitter and the loss are the same for all transmitters when the first object is a RIS. For one RIS and a receiver on the side of the beam the objective of MinPath has exactly one minimizer, where the beam hits the receiver, it decreases strictly before and increases strictly after, and the gradient that jax computes is zero nowhere else; the objective is zero on the RIS exactly for the receivers in the strip that the RIS sweeps along its beam. Swapping the ends of a RIS turns its beam around (unlike a wall), which adding pi to phi undoes; a RIS whose beam is the mirror direction of the incoming ray scores like a wall; RISs are not reciprocal.", "quantifier": "all RISs, angles, points, chains of objects, scenes, transmitters, receivers, keys, optimizers, numbers of steps and trials, tolerances up to 1", "why_tests_cant": "The served region is a statement on all receivers, all optimizers and all random keys; a test sees one receiver and one run.", "anchors": ["examples/plot_ris_power_map.py", "differt2d/geometry.py:RIS.evaluate_cartesian", "differt2d/geometry.py:MinPath.from_tx_objects_rx", "differt2d/geometry.py:FermatPath.from_tx_objects_rx", "differt2d/geometry.py:Path.is_valid", "differt2d/scene.py:Scene.all_valid_paths"]}
{"id": "C129", "title": "The interactive application, whatever the user does", "statement": "The interactive example opens on every scene of walls with one transmitter and one receiver, in particular on all the scenes that its command line can choose, and raises an AssertionError on any other number of transmitters or receivers. After every sequence of actions (sliders, boxes, spin boxes, clicks, moves of the mouse) the window shows the map and the paths of its scene with its current settings, and nothing else; every action gives exactly the settings that it asks for, which stay in their ranges; with the image method the picture depends on the settings only, not on the seed or on what was done before, each cell shows in decibels the power accumulated over the paths to a receiver there, and in hard mode the opaque rays are the valid paths and the others are invisible. No action raises, except that a click on the marker of the transmitter or of the receiver always raises an AttributeError (scatter plots have no get_xydata), so the transmitter and the receiver can never be moved. Once its slider was moved, the patch can never be 0 again and the reflection coefficient never 1/2, since these defaults are not among the 100 values (the slope 100 is); the label of the slope says 1 while the slope is 100 until its slider is moved; the map always has 50 columns, whatever the resolution.", "quantifier": "all scenes of walls with one transmitter and one receiver, resolutions, seeds, sequences of actions of any length, path methods, optimizers, graph libraries and random generators", "why_tests_cant": "The claims are about all histories of a graphical session, of any length; a test would replay a few of them, and the example has no tests.", "anchors": ["examples/qt_interactive.py", "differt2d/scene.py:Scene.accumulate_on_receivers_grid_over_paths", "differt2d/scene.py:Scene.all_paths", "differt2d/scene.py:Scene.plot", "differt2d/geometry.py:Point.plot", "differt2d/utils.py:received_power"]}
{"id": "C130", "title": "The higher alpha, the closer to hard mode", "statement": "The documentation says that the higher alpha, the closer the approximate results are to those without approximation. For the validity of every single path with finite points among walls, RISs and vertices, for every loss, tolerance and patch, ties included, this holds: the degree is on the side of the hard verdict (at least 1/2 if the path is valid, at most 1/2 if it is not) and never moves away from it when the slope grows. So a value accumulated in approximate mode (of a non-negative function) is never below half of the hard value, decreases with the slope in the shadow, increases with it where all paths are valid, and gets closer to the hard value with the slope when only the line of sight is used, as in the example. But it is false of totals over several paths (a counterexample at the default settings, between the slopes 1 and 100). And no degree exceeds the activation of the tolerance on the loss: with the default settings, at most 2/3, so that approximate mode underestimates a perfectly clear line of sight by at least a third.", "quantifier": "all slopes a <= b, soft steps (both built-in activations), paths with finite points, losses, tolerances, patches, lists of walls, RISs and vertices, and, for accumulated values, all scenes of walls, orders and non-negative functions", "why_tests_cant": "It compares three runs of the program for every geometry and every pair of slopes, ties included.", "anchors": ["examples/plot_power_profiles.py", "differt2d/logic.py:activation", "differt2d/geometry.py:Path.is_valid", "differt2d/geometry.py:segments_intersect", "differt2d/scene.py:Scene.accumulate_over_paths"]}
{"id": "C131", "title": "Every training sample is a room with turned walls", "statement": "random_samples of the sampler notebook yields, for every key and as often as it is asked, an array that encodes what its documentation describes: a transmitter and a receiver in the unit square, and at least min_num_walls and at most 8 different walls of the square room with an obstacle whose ratio is in the given range, each turned about the centre by its own angle in the range (for a range symmetric about 0, such as the default); sample_2_scene decodes it into the scene with exactly this transmitter, receiver and walls. Turning keeps the length of every wall and its distance to the centre. But a range of angles that is not symmetric is not respected: the walls are turned the other way (by minus the angle drawn).", "quantifier": "all keys and generators that keep the documented contracts of jax.random, all ratios in [0,1], numbers of walls in 0..8, ranges of angles, and any number of samples drawn", "why_tests_cant": "It ranges over all random keys and all draws, and over a generator that never ends.", "anchors": ["docs/source/notebooks/cost20120_helsinki_model.ipynb", "differt2d/scene.py:Scene.square_scene_with_obstacle", "differt2d/geometry.py:Wall.rotate"]}
{"id": "C132", "title": "The reward of a path candidate", "statement": "reward of the sampler notebook, the JIT-compatible variant of the library's path tracing, agrees with the library: for every path that all_paths yields, the reward of its candidate is the validity it is yielded with. Without approximation it is 1 if the candidate has a physical ray path (mirror reflections on the walls, no obstacle) and 0 otherwise, for every list of wall indices; a list with an index out of bounds (such as the filler num_walls) has reward 0 and raises no error. With approximation it is between 0 and 2/3.", "quantifier": "all scenes of walls with one transmitter and one receiver, all candidates (of any length, with repetitions, or out of bounds), all orders, both modes", "why_tests_cant": "It relates two implementations for every scene and candidate, NaN-filled walls included.", "anchors": ["docs/source/notebooks/cost20120_helsinki_model.ipynb", "differt2d/scene.py:Scene.all_paths", "differt2d/geometry.py:ImagePath.from_tx_objects_rx", "differt2d/geometry.py:Path.is_valid"]}
{"id": "C133", "title": "The flows of the sampling network", "statement": "The flow model of the sampler notebook returns, for every scene with finite points and at least one wall and every state, one flow per wall: positive, except 0 for the last wall selected, so that the same wall cannot be selected twice in a row; an index out of bounds (the number of walls) stops no flow. Listing the walls in another order, and renaming the walls selected accordingly, permutes the flows in the same way (also with NaN and infinite coordinates). The flows do not depend on the order in which walls were selected, nor on the position of the scene in the plane (translations). But a negative index, documented as 'no wall was previously selected', stops the flow of a wall: -1 that of the last one.", "quantifier": "all networks (any two functions of the announced sizes; finite on finite inputs where positivity is claimed), states, scenes, indices, permutations of the walls, translations", "why_tests_cant": "It ranges over all weights of the networks, scenes and states.", "anchors": ["docs/source/notebooks/cost20120_helsinki_model.ipynb"]}
{"id": "C134", "title": "The path candidates that the trained model samples", "statement": "The generative model of the sampler notebook returns, for every key, a path candidate of the order asked for among those that the library enumerates: indices of walls, never the same twice in a row. For a random key, each candidate is sampled with the probability the notebook defines: the product over its steps of the flow of the edge over the total flow that leaves the state; it is positive for every candidate, and 0 for every other list. With a single wall and an order of 2 or more, where there is no candidate, the probabilities are NaN and the model returns the wall repeated, without an error.", "quantifier": "all networks without overflow, scenes with finite points, orders, keys; all generators that keep the documented contracts of split and categorical (support for every key; independent draws with the softmax law for a random key)", "why_tests_cant": "It is a statement about the law of a random program for all networks, scenes and orders.", "anchors": ["docs/source/notebooks/cost20120_helsinki_model.ipynb", "differt2d/scene.py:Scene.all_path_candidates"]}
{"id": "C135", "title": "What training the sampler achieves", "statement": "The loss of the sampler notebook, without approximation, samples the same candidates as the model and sums, over the batch, the squared violations of flow consistency along each of them; it is never negative. For all flows, the total flow times the probability of a candidate differs from the reward used at its end by at most the square root of the order times its loss: so for first-order paths, as the loss vanishes, probabilities become proportional to the rewards, as the notebook announces. For higher orders this is false: the reward used is that of the candidate sorted by wall indices. In a corner, for every network, training drives the invalid candidate [1, 0] to the probability of the valid one [0, 1], or, with the walls listed the other way round, the only valid candidate to probability 0. The loss is positive along every candidate without reward.", "quantifier": "all networks without overflow, scenes of walls of non-zero length, orders, batch sizes, keys; all non-negative flows that stop exactly the repeated walls", "why_tests_cant": "It bounds the distance between two quantities for every network, and refutes a property of the limit of training.", "anchors": ["docs/source/notebooks/cost20120_helsinki_model.ipynb"]}
{"id": "C136", "title": "The training loop of the sampler", "statement": "For every network, optimizer, loss, list of samples, number of steps and key, train performs one update per step, in order, with the samples of the iterator in order, and leaves in the iterator exactly the samples it did not use (it ends early if they run out). It reports losses for the multiples of print_every and the last step, in increasing order: the training loss is that of the network before the update, the validation loss the average, for the network after it, over all validation samples. Every update and every validation sample has its own key: no key is used twice, nor derived from another one that is used. On the samples of the notebook, as long as the networks do not overflow, training succeeds and all losses reported are finite and not negative. But the arrays returned do not have steps // print_every elements, as annotated, unless print_every is 1 (1001 and not 1000 by default); and without validation samples, or with print_every = 0, the first step raises a ZeroDivisionError.", "quantifier": "all networks, optimizers, losses, lists of samples, numbers of steps, values of print_every, keys and key generators", "why_tests_cant": "It is an invariant of a loop of any length, for any optimizer.", "anchors": ["docs/source/notebooks/cost20120_helsinki_model.ipynb"]}
{"id": "C137", "title": "The curated training data", "statement": "Without approximation, filter_xys returns True exactly when the scene has a physical ray path with as many reflections as the global variable `order` says, which is 2. So the data curated with it is not what the notebook trains on with order=1: there is a sample of the generator with a valid first-order path that is dropped, and one that is kept although every first-order candidate has the reward 0.", "quantifier": "all graph libraries that keep their contract, scenes of walls of non-zero length, orders; the counterexamples for every graph library", "why_tests_cant": "It ranges over all scenes; the counterexamples need a proof that no path exists.", "anchors": ["docs/source/notebooks/cost20120_helsinki_model.ipynb", "differt2d/scene.py:Scene.all_valid_paths"]}
{"id": "C138", "title": "The patch is mirrored at -1/2", "statement": "Only the distance of patch to -1/2 matters: intersects_cartesian, is_valid, all_paths, all_valid_paths, accumulate_over_paths, both grid maps and what the interactive application shows are the same for the patches p and -1-p, in both modes and for every activation. So the farther patch is from -1/2 in either direction, the fewer paths are valid; below -1/2, decreasing the patch makes walls larger again, and a negative patch need not shorten a wall. In the application the patch -1 of the slider shows what the initial patch 0 shows.", "quantifier": "all scenes of walls, RIS and vertices, finite paths of any path class (all scenes of walls with the image method), orders, keys, activations, tolerances, patches and grids", "why_tests_cant": "It is an identity over a continuum of patches and all scenes, in both modes.", "anchors": ["differt2d/geometry.py:Wall.intersects_cartesian", "differt2d/geometry.py:Path.is_valid", "differt2d/scene.py:Scene.all_paths", "differt2d/scene.py:Scene.accumulate_over_paths"]}
{"id": "C139", "title": "Paths and maps are reciprocal", "statement": "Exchanging the transmitters and the receivers of a scene of walls, with the image method, reverses every tuple of all_paths and changes nothing else: same losses, same validities (booleans in exact mode, truth degrees in approximate mode, for every activation, tolerance and patch). accumulate_over_paths gives the same value for (t, r) and (r, t) for every function that has the same value on a path and on its reverse, and the map over receivers of a transmitter is the map over transmitters of a receiver at the same place. This holds for all positions outside of finitely many lines (exactly where no backward step is guarded; elsewhere it can fail). The received power is reciprocal up to the factor (1 + 2 sqrt 2 (max_order + 1) eps / height)^2, and exactly if eps were 0: path_length adds eps to both coordinates of every segment, which has a direction.", "quantifier": "all scenes of walls of non-zero length, positions outside of finitely many lines, orders, keys, activations, tolerances, patches, direction-blind functions and grids; validity: all finite paths and scenes of walls, RIS and vertices", "why_tests_cant": "It is a symmetry over a continuum of positions, all scenes and all candidates, in both modes.", "anchors": ["differt2d/scene.py:Scene.all_paths", "differt2d/scene.py:Scene.accumulate_over_paths", "differt2d/scene.py:Scene.accumulate_on_receivers_grid_over_paths", "differt2d/scene.py:Scene.accumulate_on_transmitters_grid_over_paths", "differt2d/geometry.py:ImagePath.from_tx_objects_rx", "differt2d/geometry.py:Path.is_valid", "differt2d/utils.py:received_power"]}
{"id": "C140", "title": "Symmetries of the values are symmetries of the gradients", "statement": "The gradients that the grid methods return are determined by the values, almost everywhere: if near almost every position the received powers of one scene are those of another scene at the position moved by an invertible affine map, then at almost every position the gradient of the first is the gradient of the second seen through the map (the same vector for a translation). So gradients do not depend on the order of the walls or on the ends from which they are drawn, and they move with the scene under translations and mirroring at the first diagonal; in both modes, with respect to the receiver and to the transmitter.", "quantifier": "all pairs of scenes of walls (no wall reduced to a point; in approximate mode no two on one line, or at most one bounce), settings, invertible affine maps, fixed points outside of finitely many lines, almost all positions", "why_tests_cant": "It is an almost-everywhere statement about a continuum of positions and all scenes; the reverse-mode program runs different operations in the two scenes.", "anchors": ["differt2d/scene.py:Scene.accumulate_on_receivers_grid_over_paths", "differt2d/scene.py:Scene.accumulate_on_transmitters_grid_over_paths", "differt2d/utils.py:received_power", "differt2d/geometry.py:ImagePath.from_tx_objects_rx"]}
{"id": "C141", "title": "With approximation, gradients vanish only in the dark", "statement": "In approximate mode with lines of sight only (the setting of the examples that place a transmitter), at almost every position the gradient of the received power with respect to the transmitter or to the receiver is the derivative of the power, and it is zero only if the power itself is zero. With sigmoid the power is never zero; with hard_sigmoid (the default) it is zero exactly if the line of sight and some wall cut each other at no less than 3 / alpha - 0.005 of their lengths from their ends (or the tolerance is at most -3 / alpha), hence never if alpha < 5.94. The same holds of the loss of the example, the power of the worst served receiver: almost everywhere its gradient is zero only if the loss is; from almost every start the first frame moves the transmitter unless the loss is zero, in the direction that increases that power; and a transmitter that starts where some receiver gets nothing for each of the alphas never moves, for almost every start.", "quantifier": "all scenes of walls not reduced to points, all transmitters and receivers with distinct names, tolerances, patches above -1/2, alphas > 0, heights > 0, learning rates > 0, both activation functions of the library, grids of any shape, almost all positions", "why_tests_cant": "It is an almost-everywhere statement about a continuum of positions, for all scenes; a test on a grid of positions cannot tell a gradient that is zero from one that is tiny.", "anchors": ["differt2d/scene.py:Scene.accumulate_on_transmitters_grid_over_paths", "differt2d/scene.py:Scene.accumulate_on_receivers_grid_over_paths", "differt2d/utils.py:received_power", "differt2d/geometry.py:Path.is_valid"]}
{"id": "C142", "title": "Without approximation, gradients vanish only in the dark, at any order", "statement": "Without approximation, with any range of orders (reflections included) and for all transmitters (receivers) out of finitely many lines that depend on the walls only, at almost every position of the receiver (transmitter) the gradient of the received power is defined, it is the derivative of the power nearby, and it is zero exactly if the power is zero; with a positive reflection coefficient, the power is zero exactly if all_valid_paths returns no path. Hence the loss of the example that places a transmitter has, at almost every position, a gradient that is zero only if some receiver gets nothing, and otherwise the first frame of the example moves the transmitter.", "quantifier": "all scenes of walls not reduced to points, all ranges of orders that have a candidate, all tolerances, patches, epsilon > 0, reflection coefficients >= 0, heights > 0, learning rates > 0, all transmitters (receivers) with distinct names out of finitely many lines, grids of any shape, almost all positions", "why_tests_cant": "An almost-everywhere statement about a continuum of positions, for all scenes and orders; a test on a grid of positions cannot tell a gradient that is zero from one that is tiny.", "anchors": ["differt2d/scene.py:Scene.accumulate_on_transmitters_grid_over_paths", "differt2d/scene.py:Scene.accumulate_on_receivers_grid_over_paths", "differt2d/scene.py:Scene.all_valid_paths", "differt2d/utils.py:received_power", "differt2d/geometry.py:Path.is_valid"]}
{"id": "C143", "title": "What the figures of the examples and papers show", "statement": "In the power optimization (examples/plot_power_optimize.py, papers/), the map of the objective function shows at each position of the grid the opposite of the loss that is minimized there, for any objects and whatever the keys and the transmitters of the scene; the objective is the power of the worst served receiver over P0, and the loss that is differentiated is that loss, with and without approximation. The maps of the power (examples/plot_power_map.py, papers/eucap2024) show at each position, in decibels relative to P0, the total power that accumulate_over_paths gives for one receiver there; decibels order positions as powers do, and with lines of sight only and one transmitter no cell is above 0 dB. The maps of the gradient (papers/eucap2024/plot_power_map.py) show, without approximation and almost everywhere, the Euclidean norm of the derivative of the total power, and zero exactly if the total power is zero.", "quantifier": "all scenes (objects, distinct names), path classes that do not use their key, orders, options, functions, grids of any shape; for the gradient, all scenes of walls not reduced to points, all transmitters out of finitely many lines, almost all positions", "why_tests_cant": "Relates arrays on grids of any shape to values of functions at all positions; the figures are never compared with anything by tests.", "anchors": ["examples/plot_power_map.py", "examples/plot_power_optimize.py", "papers/eucap2024/plot_power_map.py", "papers/eucap2024/plot_optimize_steps.py", "papers/joss/plot_optimize_steps.py", "differt2d/scene.py:Scene.accumulate_on_transmitters_grid_over_paths", "differt2d/scene.py:Scene.accumulate_on_receivers_grid_over_paths", "differt2d/utils.py:received_power"]}
{"id": "C144", "title": "The gradients of the power point along the rays", "statement": "Without approximation, the gradient that the grid functions compute for the received power, with respect to the receiver, converges (as the guard eps of the lengths tends to zero) to the sum over the valid paths of vectors that point from the receiver back to the last interaction of the path, or to the transmitter for the line of sight; the magnitude of each is 2 coef^n L / (height^2 + L^2)^2 for a path of n reflections and length L. With respect to the transmitter, the vectors point to the first interaction. This requires the reflection points of all candidates to be determined; otherwise the gradient is NaN for every eps. In line of sight only, and for every eps, the gradient is exactly minus (for the receiver) or plus (for the transmitter) twice the square of the value times the vector from the transmitter to the guarded receiver.", "quantifier": "all scenes of walls, all transmitters and receivers, all orders, all grids of any shape, all coefficients and heights, tolerances at most 1 (any tolerance in line of sight), all small eps", "why_tests_cant": "Describes derivatives of a program at every position and every number of reflections, in the limit of a global constant; needs Fermat's principle to the first order.", "anchors": ["differt2d/scene.py:Scene.accumulate_on_receivers_grid_over_paths", "differt2d/scene.py:Scene.accumulate_on_transmitters_grid_over_paths", "differt2d/utils.py:received_power", "papers/eucap2024/plot_power_map.py"]}
{"id": "C145", "title": "FermatPath by plain gradient descent finds the reflection", "statement": "With plain gradient descent (optax.sgd) as optimizer, a path of FermatPath over one wall or one RIS converges, as the number of steps grows, to the only minimum of its length: whatever the random start in [0, 1] and the number of trials, the distance to the limit is at most a constant times the n-th power of a number less than 1, if the learning rate is less than 2 / (W^2 (1/dt + 1/dr)) where W is the length of the object and dt, dr the distances of the transmitter and the receiver (moved by the guard) to its line. For a wall and a zero guard the limit is the specular reflection, the path of ImagePath, and the loss tends to zero, so that the path passes every tolerance after enough steps. The bound is the right one: with the transmitter and the receiver at the same point and any larger rate, there is a start from which the path alternates between two points for ever.", "quantifier": "all walls and RIS, all transmitters and receivers off their line, all guards, all learning rates below (above) the bound, all keys, numbers of trials and of steps", "why_tests_cant": "Convergence is a statement about all numbers of steps and all random starts; tests run a fixed number of steps with a loose tolerance.", "anchors": ["differt2d/optimize.py:minimize", "differt2d/geometry.py:FermatPath.from_tx_objects_rx", "differt2d/optimize.py:minimize_many_random_uniform"]}
{"id": "C146", "title": "FermatPath by plain gradient descent over any number of interactions", "statement": "With plain gradient descent (optax.sgd) as optimizer, over any list of walls, RIS and vertices: if l is a lower bound on the (guarded) steps of the shortest path and the learning rate lr satisfies 2 lr S < l, where S is the sum of the squared lengths of the objects, then whatever the start the parameters never get farther from those of the shortest path and the length tends to its minimum; among the first T steps one is within gap(start, best) sqrt(2 S / (lr (l - 2 lr S) T)) of the minimum. The only exception is a step taken at singular parameters (two consecutive points, moved by the guard, coincide), after which the returned path has a NaN point. From a start whose squared distance to the best parameters is less than l^2 / (2 S), no parameters are singular and every returned path is real; if the shortest path is unique, its parameters are the limit. With a zero guard and walls that have a specular path, the returned paths converge to it, the path of ImagePath, and the losses tend to zero.", "quantifier": "all non-empty lists of walls, RIS and vertices, all transmitters and receivers, all guards, all learning rates below the bound, all starts, all numbers of steps", "why_tests_cant": "Convergence is a statement about all numbers of steps and all starts; tests run a fixed number of steps with a loose tolerance.", "anchors": ["differt2d/optimize.py:minimize", "differt2d/geometry.py:FermatPath.from_tx_objects_rx", "differt2d/optimize.py:minimize_random_uniform"]}
{"id": "C147", "title": "Pointing a RIS by gradient descent", "statement": "For a RIS with distinct ends and any list of three-point paths, the sum of the interaction scores as a function of the angle phi is always a real number, and it is minimal exactly at the angles whose beam points along the sum of the unit vectors of the outgoing steps. Its gradient is always its derivative (never NaN, even for steps of length zero), and it vanishes exactly when the beam points along that sum or exactly away from it. With plain gradient descent at a rate lr with lr R < 1, where R is the length of that sum, minimize converges geometrically from every angle that does not point exactly away, to a best angle less than half a turn from the start, and its loss tends to the minimum; for a single path the RIS therefore ends by accepting the path, whatever the tolerance. A start that points exactly away is returned unchanged. If lr R > 1, some start is reflected across the best angle at every step, for ever.", "quantifier": "all RIS with distinct ends, all lists of paths, all starting angles, all learning rates on either side of the bound, all numbers of steps", "why_tests_cant": "Convergence is a statement about all starts and all numbers of steps; no test of the repository optimizes the angle of a RIS.", "anchors": ["differt2d/geometry.py:RIS.evaluate_cartesian", "differt2d/geometry.py:RIS.phi", "differt2d/optimize.py:minimize"]}
{"id": "C148", "title": "The shadow of the quickstart: dark with one reflection, lit with two", "statement": "The scene that the quickstart builds, the square room with the transmitter at (0.2, 0.2) and a wall added from (0.8, 0.2) to (0.8, 0.8), has the shadow that its text describes. The map that accumulate_on_receivers_grid_over_paths computes with received_power and reduce_all=True (without approximation) is exactly zero, with at most one reflection (the default max_order), in every cell behind the added wall between the line through its lower end from the mirror image of the transmitter in the floor and the line through its upper end from the mirror image in the ceiling. With max_order=2 or more every one of these cells (from x = 0.81 to x = 0.99) has a positive power. With max_order=1 or more the cells on the left of the added wall, and those below and above the shadow (up to a margin of 0.01), have a positive power. With grad=True and at most one reflection, the gradient is exactly zero, and never NaN, in the whole shadow.", "quantifier": "every grid of receivers of any size with finite coordinates, every min_order=0 and max_order >= 0, every reflection coefficient and height above zero, any keys", "why_tests_cant": "a plot shows 300 x 300 receivers in one run; that no ray of order 0 or 1 reaches any point of the region, and that some ray of order 2 always does, are statements about a continuum of receivers", "anchors": ["docs/source/quickstart.md", "differt2d/scene.py:Scene.square_scene", "differt2d/scene.py:Scene.add_objects", "differt2d/scene.py:Scene.accumulate_on_receivers_grid_over_paths", "differt2d/utils.py:received_power"]}
{"id": "C149", "title": "The zero-gradient region of the paper's figure", "statement": "In Scene.square_scene_with_wall(ratio), with its default transmitter, in line of sight (max_order=0) and without approximation - the scene and the call of the figure that marks a region with a null gradient -, the map of the received power and the map of its gradient are known at every receiver. On or beyond the line of the wall, within the angle at which the transmitter sees the wall, both are exactly zero, whatever the distance to the edge of the shadow. Elsewhere in the room (up to the tolerances of the obstruction tests) the power is that of free space, 1 / (height^2 + distance^2), and the gradient is minus twice the square of the power times the vector from the transmitter: never zero (up to the guard eps, the receiver at the transmitter excepted).", "quantifier": "every ratio above zero, every receiver, every grid, every reflection coefficient and height above zero, every activation function, every guard eps > 0", "why_tests_cant": "that a derivative is zero on a whole region and not zero on all of its complement is a statement about a continuum of receivers; a finite grid shows samples", "anchors": ["papers/eucap2024/plot_zero_gradient.py", "differt2d/scene.py:Scene.square_scene_with_wall", "differt2d/scene.py:Scene.accumulate_on_receivers_grid_over_paths", "differt2d/utils.py:received_power", "differt2d/geometry.py:path_length"]}
{"id": "C150", "title": "Placing a transmitter by plain gradient descent", "statement": "In the power optimization (examples/plot_power_optimize.py) without approximation and in line of sight (max_order=0), with plain gradient descent (optax.sgd) instead of adam: if one receiver gets less than all the others, one frame moves the transmitter on the straight line to that receiver, by the fraction lr/50 * power^2 of the distance - so not at all if a wall hides that receiver. With one receiver and lr < 50 height^4, whatever the walls and the start, the transmitter always moves towards the receiver (moved by the guard eps of path_length) and never beyond it; it stops for ever at the first position from which the receiver is hidden; and as long as it is in sight the distance decreases geometrically. If no wall hides the receiver from any point between the start and the receiver, the transmitter reaches the receiver in the limit and the power tends to its maximum 1 / height^2. Were the guard zero, the start decides: the transmitter reaches the receiver if it sees it at the start, and never moves otherwise. With lr > 100 height^4, even without walls, no run that stays real has the receiver as its limit. With zero_nans after it, as in the example, and no wall, every run ends at the receiver in the limit if lr is at most 100 height^4 (with the default height, exactly the learning rate 0.01 of the example), and otherwise only those that meet it exactly.", "quantifier": "every list of walls, receivers out of the lines of the walls, start, number of frames and slopes alpha, activation function, tolerance in (0, 1], patch above -1/2, reflection coefficient, height above zero, guard", "why_tests_cant": "limits over infinitely many frames from a continuum of starts: a run shows finitely many frames from one start", "anchors": ["examples/plot_power_optimize.py", "differt2d/scene.py:Scene.accumulate_over_paths", "differt2d/utils.py:received_power", "differt2d/geometry.py:path_length"]}
{"id": "C151", "title": "Placing a transmitter for several receivers", "statement": "There is exactly one smallest circle around the receivers (moved by the guard eps of path_length); let c be its centre and R its radius. In the power optimization (examples/plot_power_optimize.py) without approximation and in line of sight (max_order=0), the smallest received power is at every position at most 1/(height^2 + R^2), whatever the walls, with equality exactly at c, and only if no receiver is hidden there: the example's loss has no other minimum than c. With plain gradient descent instead of adam, a frame leaves the transmitter where it is if any receiver is hidden. With lr at most 25 (height^2 + R^2)^2, as long as all receivers are in sight and the transmitter is not exactly at a receiver, its squared distance to c is at most lr/(100 (height^2 + R^2)) plus a geometrically decreasing part of the initial one: it ends in a neighbourhood of the best place as small as the learning rate makes it. With zero_nans after it, as in the example, the run never stops being real, and stays for ever at a receiver it meets exactly, wherever c is.", "quantifier": "every non-empty list of receivers out of the lines of the walls, list of walls, start, number of frames and slopes alpha, activation function, tolerance in (0, 1], patch above -1/2, reflection coefficient, height above zero, guard", "why_tests_cant": "a best place among a continuum and a bound over infinitely many frames: a run shows finitely many frames from one start", "anchors": ["examples/plot_power_optimize.py", "differt2d/scene.py:Scene.accumulate_over_paths", "differt2d/utils.py:received_power", "differt2d/geometry.py:path_length"]}
{"id": "C152", "title": "The derivatives of truth values", "statement": "jax.grad of the logic functions, with approximation. The smooth activation sends back its exact derivative alpha s (1 - s), positive and at most alpha/4, reached at zero only. The default (hard) activation sends back its derivative alpha/6 where |x| < 3/alpha and 0 where |x| > 3/alpha; at the two corners, where it has no derivative, alpha/12, the mean of both sides: this is what the figure in the documentation of activation plots. greater and greater_equal are one function, less and less_equal too, and less is one minus greater, in value and gradient. logical_or and logical_and send back the gradient of the operand that decides, the mean of both if they are equal, and logical_all and logical_any the mean over all operands that decide; logical_not the opposite. Negating twice, de Morgan, commutativity and idempotence hold for gradients also. Not so for ties: absorption fails for equal operands, and with three equal operands the gradient of a disjunction depends on the parentheses and is not that of logical_any.", "quantifier": "every operand with a real value and gradient (any differentiated program), every slope alpha above zero, every number of operands, every type of inputs", "why_tests_cant": "a law of the gradients must hold at every real number, in particular at ties and corners, which samples miss", "anchors": ["differt2d/logic.py:activation", "differt2d/logic.py:hard_sigmoid", "differt2d/logic.py:sigmoid", "differt2d/logic.py:greater", "differt2d/logic.py:greater_equal", "differt2d/logic.py:less", "differt2d/logic.py:less_equal", "differt2d/logic.py:logical_or", "differt2d/logic.py:logical_and", "differt2d/logic.py:logical_not", "differt2d/logic.py:logical_all", "differt2d/logic.py:logical_any"]}
