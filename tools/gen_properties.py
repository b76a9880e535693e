#!/usr/bin/env python3
"""Writes /verif/properties.jsonl (one JSON object per line). Plain data, kept as a
script only so that the long strings are easy to edit."""
import json, os
P = []
def p(id, title, statement, quantifier, why, *anchors):
    P.append(dict(id=id, title=title, statement=statement, quantifier=quantifier,
                  why_tests_cant=why, anchors=list(anchors)))
L = "differt2d/logic.py"; G = "differt2d/geometry.py"; S = "differt2d/scene.py"
O = "differt2d/optimize.py"; A = "differt2d/abc.py"; U = "differt2d/utils.py"; D = "differt2d/defaults.py"

# ---------------------------------------------------------------- logic
p("C01", "Hard mode is ordinary logic",
  "With approx=False, logical_or/and/not/all/any and greater/greater_equal/less/less_equal return exactly the Boolean connective or the IEEE comparison of their arguments (a float argument counts as true iff it is not 0, NaN compares false), and explicit approx=False/True never looks at the global setting.",
  "every pair of Boolean or float (incl. NaN, infinities) arguments, every argument list, every global setting",
  "Values range over an infinite set including NaN/inf and over argument lists of any length; tests sample uniform(0,1) arrays.",
  L+":logical_or", L+":logical_and", L+":logical_not", L+":logical_all", L+":logical_any", L+":greater", L+":greater_equal", L+":less", L+":less_equal")
p("C02", "Approximate connectives restrict to Boolean logic on crisp values",
  "With approx=True, on the crisp values 0.0 and 1.0 the connectives logical_or/and/not/all/any return the 0.0/1.0 encoding of the Boolean result, and true_value/false_value are those encodings in both modes.",
  "all crisp argument tuples and lists of any positive length",
  "The list-valued connectives take argument lists of unbounded length.",
  L+":logical_or", L+":logical_and", L+":logical_not", L+":logical_all", L+":logical_any", L+":true_value", L+":false_value")
p("C03", "Fuzzy algebra of the approximate connectives",
  "With approx=True and truth values in [0,1], every connective returns a value in [0,1]; and/or are commutative, associative, idempotent, absorptive; not is an involution; De Morgan's laws hold; logical_all/logical_any return the least/greatest argument and do not depend on argument order.",
  "all truth values in [0,1] and argument lists of any positive length, in any order",
  "Algebraic laws over the real interval and over all permutations.",
  L+":logical_or", L+":logical_and", L+":logical_not", L+":logical_all", L+":logical_any")
p("C04", "Activation functions are valid soft steps",
  "For every alpha>0, sigmoid and hard_sigmoid map every real into [0,1], are nondecreasing, equal 1/2 at 0, are strictly above 1/2 exactly for positive inputs, satisfy s(-x)=1-s(x), send +inf/-inf to 1/0 and NaN to NaN; increasing alpha moves the value away from 1/2; and as alpha grows the value tends to 1 for x>0 and 0 for x<0 (hard_sigmoid reaches it exactly once |alpha*x|>=3).",
  "all reals x, all alpha>0",
  "Continuum of inputs and a limit statement.",
  L+":sigmoid", L+":hard_sigmoid", L+":activation")
p("C05", "Thresholding an approximate comparison recovers the strict comparison",
  "For finite x, y and any alpha>0, is_true(greater(x,y,approx=True),approx=True) holds iff x>y and is_true(less(...)) iff x<y, whichever built-in activation is used; greater_equal and less_equal behave like their strict versions there, so at x==y hard mode says True while approx mode says not-true.",
  "all finite x, y; all alpha>0; both activations",
  "Boundary behaviour over a continuum and for every slope.",
  L+":greater", L+":greater_equal", L+":less", L+":less_equal", L+":is_true")
p("C06", "is_true / is_false are consistent readings of a truth value",
  "With approx=True: for 0<=tol<=1/2 no value is both true and false; for tol=1/2 exactly the value 1/2 and NaN are neither; is_false(x) equals is_true(logical_not(x)); both are monotone in the value. With approx=False is_true returns a Boolean unchanged and rejects a float with a type error, while is_false negates.",
  "all truth values incl. NaN, all tolerances",
  "Continuum of values and tolerances.",
  L+":is_true", L+":is_false")
p("C07", "Approximation setting: nested contexts restore it, also on exceptions",
  "In a single thread, whatever statements run inside `with enable_approx(b)` / `disable_approx(b)` (nested contexts, set_approx calls, an exception at any point), the setting seen at the start of the body is b (resp. not b), and after the block the setting is what it was just before the block.",
  "all programs built from set_approx, nested context managers, reads and raises, any nesting depth",
  "Programs and exception points are unbounded.",
  L+":enable_approx", L+":disable_approx", L+":set_approx")
p("C08", "Approximation setting under threads",
  "While a thread is inside its enable_approx block no other thread can change the setting, and once all threads have left their blocks the setting is back to its initial value.",
  "all thread counts, all programs, all interleavings of the atomic steps",
  "Every interleaving must be covered; a test sees one schedule per run.",
  L+":enable_approx", L+":set_approx", L+":_LOCK")
p("C09", "approx=None is frozen at compilation; explicit approx is history independent",
  "For a jitted function, a call with explicit approx=True/False gives the same mode after any history of set_approx/context/clear_cache/calls; a call with approx=None uses the setting that was current at its first call (with that signature) since the last cache clear; with jit disabled it uses the current setting.",
  "all histories of setting changes, calls with any signature, and cache clears",
  "Unbounded call histories.",
  L+":enable_approx", L+":set_approx", L+":greater", L+":is_true")
# ---------------------------------------------------------------- geometry primitives
p("C10", "segments_intersect decides intersection (hard mode)",
  "With approx=False, segments_intersect(P1,P2,P3,P4,tol) is True iff the supporting lines are not parallel and there is a point P1+a(P2-P1)=P3+b(P4-P3) with a and b both in [-tol,1+tol]; for tol=0 and non-parallel segments this is exactly 'the closed segments share a point'; collinear or degenerate segments are always reported as not intersecting (even when they overlap).",
  "all finite points, all finite tolerances",
  "Four points range over a continuum, with degenerate configurations of measure zero that random tests never hit.",
  G+":segments_intersect")
p("C11", "segments_intersect is symmetric and affine invariant",
  "The result (both modes, every activation/alpha) is unchanged when the two segments are exchanged, or all points are mapped by the same invertible affine map; in hard mode, and in approximate mode, it is unchanged when the endpoints of a segment are exchanged.",
  "all finite points, tolerances, affine maps with nonzero determinant",
  "Invariance over an infinite group.",
  G+":segments_intersect")
p("C12", "Approximate intersection is a truth value and thresholds to the strict test",
  "With approx=True and finite inputs, segments_intersect returns a number in [0,1] (never NaN, parallel segments give exactly 0), and for every alpha>0 it exceeds 1/2 iff the lines are not parallel and both parameters lie strictly inside (-tol,1+tol).",
  "all finite points, all alpha>0, both activations",
  "Continuum of inputs incl. the division-by-zero configurations.",
  G+":segments_intersect")
p("C13", "Path length",
  "path_length is nonnegative and differs from the exact Euclidean polyline length by at most (number of segments)*sqrt(2)*eps; hence it is at least the straight-line distance between its endpoints minus that error; it is translation invariant; a path and its reverse have the same length up to twice that error.",
  "all point lists of any length",
  "Unbounded number of points.",
  G+":path_length", G+":Path.length")
p("C14", "Vector normalization",
  "normalize(v) returns (u,l) with u*l=v always; u has unit norm and l=|v| for v nonzero; for v=0 it returns (0,1). It is idempotent and odd, and invariant under positive scaling.",
  "all finite vectors including zero",
  "Continuum incl. the singular point.",
  G+":normalize")
p("C15", "Nearest point queries",
  "closest_point returns the first index attaining the minimal distance together with that distance; get_closest_transmitter/receiver return the name of a transmitter/receiver at minimal distance (ties go to the earliest in insertion order) and that distance; with no candidates they raise instead of returning something.",
  "all nonempty finite point lists / scenes, all targets",
  "Unbounded lists; ties are measure-zero.",
  G+":closest_point", S+":Scene.get_closest_transmitter", S+":Scene.get_closest_receiver")
p("C16", "Wall images are mirror reflections",
  "Wall.image_of is the mirror reflection in the wall's supporting line: it is an involution, preserves distances, fixes exactly the points of the line, and the segment to the image is orthogonal to the wall and bisected by its line; a zero-length wall leaves every point unchanged.",
  "all finite walls (incl. degenerate) and points",
  "Continuum of walls and points.",
  G+":Wall.image_of", G+":Wall.normal")
p("C17", "Wall normal",
  "Wall.normal is orthogonal to the wall direction, has norm 1 for a non-degenerate wall, is 0 for a zero-length wall, and flips sign when the wall's endpoints are exchanged.",
  "all finite walls", "Continuum incl. degenerate walls.",
  G+":Wall.normal")
p("C18", "Parametric and Cartesian coordinates are inverse on a wall",
  "On a non-degenerate wall cartesian_to_parametric(parametric_to_cartesian(t))=t for all t, and parametric_to_cartesian(cartesian_to_parametric(p)) is the orthogonal projection of p on the wall's line, equal to p iff p is on the line; t=0 and t=1 are the endpoints.",
  "all non-degenerate finite walls, all parameters, all points",
  "Round-trip over a continuum.",
  G+":Wall.parametric_to_cartesian", G+":Wall.cartesian_to_parametric")
p("C19", "Containment on objects",
  "With approx=False, a wall contains a parameter iff it lies in [0,1]; hence for a point of the supporting line of a non-degenerate wall containment of its parameter is equivalent to lying on the closed wall segment. In approximate mode the value is in [0,1] and exceeds 1/2 iff the parameter is strictly inside (0,1). Random samples drawn on an object are contained in it. A vertex contains everything, and a zero-length wall contains every point.",
  "all finite walls, points, parameters, alpha>0, all sample values in [0,1)",
  "Continuum.",
  G+":Wall.contains_parametric", G+":Vertex.contains_parametric", A+":Interactable.sample")
p("C20", "The patch parameter enlarges walls monotonically",
  "Wall.intersects_cartesian(ray,patch) in hard mode tests the wall extended by patch times its length at both ends (plus the 0.005 tolerance); for -1/2<=patch<=patch', a ray hit with patch is also hit with patch'; patch=0 is the wall itself; a vertex is never hit.",
  "all finite walls, rays and patch values",
  "Monotonicity over a continuum.",
  G+":Wall.intersects_cartesian", G+":Vertex.intersects_cartesian", D+":DEFAULT_PATCH")
p("C21", "Documented meaning of patch in (0,1)",
  "The documentation of intersects_cartesian says a patch between 0 and 1 compresses the object (so it can only remove intersections compared with the unpatched object).",
  "all walls, rays and 0<patch<1",
  "Universal claim; needs a proof or a counterexample.",
  A+":Interactable.intersects_cartesian", G+":Wall.intersects_cartesian")
p("C22", "Specular reflection score of a wall",
  "Wall.evaluate_cartesian is never negative, at most 4, and is 0 iff the outgoing unit direction is the mirror image of the incoming unit direction (both possibly zero); it is unchanged when the path is traversed backwards, and under translation, rotation, mirroring and scaling of the configuration.",
  "all finite walls and point triples incl. coincident points",
  "Continuum incl. degenerate triples.",
  G+":Wall.evaluate_cartesian", A+":Interactable.evaluate_cartesian")
p("C23", "RIS score",
  "RIS.evaluate_cartesian is never negative, at most 4 for a non-degenerate RIS, does not depend on the incident point, and is 0 iff the outgoing direction r (unit) satisfies cross(-r,n)=sin(phi) and dot(-r,n)=cos(phi), i.e. makes the constant angle phi with the normal; adding 2*pi to phi changes nothing.",
  "all finite RIS, phi, point triples",
  "Continuum.",
  G+":RIS.evaluate_cartesian")
p("C24", "Ray rotation rotates both endpoints",
  "Ray.rotate(angle, around) returns the ray whose origin and destination are each rotated by angle about the centre.",
  "all rays, angles and centres",
  "Tests only use multiples of pi, where the claim happens to hold.",
  G+":Ray.rotate")
p("C25", "Bounding boxes are tight",
  "The bounding box of a point, ray/wall, path or scene is the smallest axis-aligned box containing all its points: every point lies in it and each of its four sides touches one; center is its midpoint.",
  "all objects, paths and scenes with at least one element",
  "Unbounded scenes.",
  G+":Point.bounding_box", G+":Ray.bounding_box", G+":Path.bounding_box", S+":Scene.bounding_box", A+":Plottable.center")
p("C26", "Locations and grids lie in the bounding box",
  "get_location returns the named side/corner/centre of the bounding box; grid(m,n) returns arrays of n rows and m columns whose points all lie in the bounding box, are evenly spaced, with first/last columns (rows) exactly on the west/east (south/north) sides.",
  "all objects, all m,n, all locations",
  "Unbounded grid sizes.",
  A+":Plottable.get_location", A+":Plottable.grid", A+":Plottable.center")
p("C27", "Stacking and unstacking leaves are inverse",
  "For any nonempty sequence of objects of the same structure and shapes (with at least one leaf), unstack_leaves(stack_leaves(objs)) returns the same objects in order; stacking objects of different structure or shape raises ValueError.",
  "all sequences of any length, any number and shape of leaves",
  "Unbounded lengths and shapes.",
  G+":stack_leaves", G+":unstack_leaves", S+":Scene.stacked_objects", S+":Scene.from_stacked_objects")
# ---------------------------------------------------------------- paths
p("C28", "Every tracing method returns a path with the right endpoints and size",
  "For Path, ImagePath, FermatPath and MinPath, from_tx_objects_rx with k objects returns k+2 points, the first is the transmitter and the last the receiver; with no objects the path is the straight line with loss 0; for the sampling/minimizing methods the i-th inner point lies on the i-th object's supporting line (and is the vertex for a vertex), whatever the optimizer and random key do. ImagePath accepts exactly the lists of walls and the lists of RIS: objects of different classes raise ValueError, and objects of one class that do not mirror points raise AttributeError.",
  "all object lists (walls, RIS, vertices in any mix), all optimizers, steps, keys",
  "Unbounded lists and arbitrary optimizer behaviour.",
  G+":Path.from_tx_objects_rx", G+":ImagePath.from_tx_objects_rx", G+":FermatPath.from_tx_objects_rx", G+":MinPath.from_tx_objects_rx", G+":parametric_to_cartesian")
p("C29", "Parameters are routed to the right object",
  "In the minimizing methods the unknown vector is partitioned: object i receives exactly its parameters_count() consecutive entries starting at the sum of the counts of the objects before it; the slices are disjoint, in order and cover the vector.",
  "all sequences of objects with any mix of parameter counts, all unknown vectors",
  "Unbounded sequences.",
  G+":parametric_to_cartesian", G+":parametric_to_cartesian_from_slice")
p("C30", "Image method: points lie on the walls' lines",
  "If all walls are non-degenerate and no step is parallel (the guarded denominator is non-zero), each interaction point of ImagePath lies on the supporting line of its wall, and lies on the line through the next path point and the corresponding transmitter image.",
  "all wall sequences of any length, all tx and rx",
  "Unbounded number of walls.",
  G+":ImagePath.from_tx_objects_rx")
p("C31", "Image method: the loss is a sum of 0, 1 or 4 and detects non-physical reflections",
  "For finite inputs with walls of any kind (incl. zero-length), every interaction of an ImagePath scores exactly 0, 1 or 4: 0 if previous and next points are strictly on the same side of a wall (a true mirror reflection), 4 if strictly on opposite sides, so the loss is below a tolerance in (0,1] iff it is 0.",
  "all wall sequences of any length, all tx and rx",
  "Unbounded number of walls and degenerate configurations.",
  G+":ImagePath.from_tx_objects_rx", G+":Wall.evaluate_cartesian", G+":Path.is_valid")
p("C32", "Image method returns a path of minimal length",
  "When every interaction of the image path is a proper reflection, no polyline from tx to rx touching the walls' lines in the same order is (Euclidean) shorter than the image path; its length is the distance from the last image of tx to rx.",
  "all wall sequences of any length, all competing polylines",
  "Optimality over all competitors.",
  G+":ImagePath.from_tx_objects_rx")
p("C33", "Image method never produces NaN or infinity",
  "For finite transmitter, receiver and walls (any number, possibly zero-length, parallel or coincident with tx/rx), all coordinates and the loss of ImagePath are finite numbers, and so are the losses of walls for the other methods given finite coordinates.",
  "all finite inputs incl. all degenerate configurations",
  "Degenerate configurations have measure zero.",
  G+":ImagePath.from_tx_objects_rx", G+":normalize", G+":Wall.evaluate_cartesian")
p("C34", "Image method is reciprocal",
  "Exchanging transmitter and receiver and reversing the wall order yields the same path reversed, with the same loss, whenever no guarded denominator vanishes in either direction.",
  "all wall sequences of any length, all tx and rx",
  "Unbounded number of walls.",
  G+":ImagePath.from_tx_objects_rx")
p("C35", "Tracing and validity are invariant under similarity transformations",
  "Moving, rotating, mirroring or uniformly scaling a whole configuration (tx, rx, walls) transforms the image path accordingly and leaves its loss and its validity (both modes) unchanged.",
  "all scenes of walls, all similarity transformations, all path candidates",
  "Infinite group and unbounded scenes.",
  G+":ImagePath.from_tx_objects_rx", G+":Path.is_valid")
p("C36", "on_objects checks every interaction point",
  "With approx=False path.on_objects(objects) is True iff for each i the i-th object contains the (i+1)-th path point; with approx=True it is the minimum of the individual values (1 if there are none).",
  "all paths and object lists of matching length, incl. user defined objects",
  "Unbounded lists.",
  G+":Path.on_objects")
p("C37", "intersects_with_objects checks every segment against every non-adjacent object",
  "With approx=False path.intersects_with_objects(objects, candidate) is True iff some segment i is hit by some object j that is neither the object the segment leaves from nor the one it arrives at; with approx=True it is the maximum of the corresponding values (0 if none). It can only grow when objects are added at the end of the scene.",
  "all paths, scenes and candidates of matching length, incl. user defined objects",
  "Unbounded products of segments and objects.",
  G+":Path.intersects_with_objects")
p("C38", "is_valid is the conjunction of the three documented requirements",
  "With approx=False a path is valid iff all interaction points are on their objects, nothing obstructs it and its loss is < tol. With approx=True the result is always a number in [0,1], never NaN, and at most each of the three individual truth values.",
  "all paths, scenes, candidates, tolerances; incl. NaN coordinates or loss",
  "Unbounded scenes and special float values.",
  G+":Path.is_valid")
p("C39", "Approximate validity agrees with exact validity in generic position, for every alpha",
  "If no comparison made by is_valid is an exact tie, then for every alpha>0 and both activations is_true(is_valid(approx=True)) equals is_valid(approx=False); with hard_sigmoid the approximate value is even exactly 0.0/1.0 for all large enough alpha, and with sigmoid it converges to it.",
  "all paths and scenes of walls, RIS and vertices in generic position, all alpha>0",
  "Universal over scenes, and a limit statement.",
  G+":Path.is_valid", L+":activation")
p("C40", "A path with NaN data is never reported valid",
  "If the loss of a path, or an interaction point on a wall or RIS, is NaN then is_valid is False (hard) or 0 (approximate).",
  "all paths containing NaN, all scenes",
  "Special values in unbounded structures.",
  G+":Path.is_valid")
p("C41", "Fermat objective is convex",
  "The function minimized by FermatPath (path length as a function of the wall parameters) is convex for every list of walls and vertices, so every local minimum is a global one; along the exact lines its infimum cannot be below the direct distance minus the eps error.",
  "all object lists, all parameter vectors",
  "Continuum of parameter vectors.",
  G+":FermatPath.from_tx_objects_rx", G+":path_length")
p("C42", "MinPath objective is nonnegative and vanishes on proper image paths",
  "The function minimized by MinPath is nonnegative everywhere, and when the image path consists of proper reflections it attains 0 at the image path's parameters.",
  "all lists of walls, all parameter vectors",
  "Continuum.",
  G+":MinPath.from_tx_objects_rx")
# ---------------------------------------------------------------- optimize
p("C43", "minimize returns a matching (solution, loss) pair",
  "minimize returns the solution array and the corresponding loss, i.e. the returned loss is the objective at the returned solution.",
  "all objectives, initial guesses, optimizers and step counts",
  "Arbitrary optimizers and objectives.",
  O+":minimize")
p("C44", "minimize performs exactly `steps` optimizer updates",
  "minimize returns the iterate obtained from x0 by exactly `steps` optimizer updates, and the loss recorded by the last step (the objective one update earlier); a stationary starting point is returned unchanged with its own loss by the default Adam optimizer.",
  "all objectives, optimizers, x0, steps>=1",
  "Unbounded steps.",
  O+":minimize")
p("C45", "minimize_many_random_uniform returns the best trial",
  "With many>=2 it returns the (solution, loss) of the first trial with the least loss among the `many` trials, provided no trial loss is NaN; with many=1 it is the single trial started from the given key.",
  "all objectives, keys, many>=1",
  "Unbounded number of trials.",
  O+":minimize_many_random_uniform")
p("C46", "A diverging trial does not spoil minimize_many_random_uniform",
  "If some trial diverges to a NaN loss while another converges, the converged one is returned.",
  "all objectives, keys, many>=2",
  "Needs special values in arbitrary positions.",
  O+":minimize_many_random_uniform")
p("C47", "Random keys are never reused",
  "All keys consumed by one all_paths traversal (one per path), by one grid accumulation (one per candidate), and by the trials of one minimization are pairwise distinct derivations of the user's key.",
  "all scenes and orders; keys treated as free terms of split",
  "Unbounded traversals.",
  S+":Scene.all_paths", S+":Scene.accumulate_on_receivers_grid_over_paths", O+":minimize_many_random_uniform")
# ---------------------------------------------------------------- scene
p("C48", "Transmitter/receiver mappings behave like immutable ordered dicts",
  "PyTreeDict.from_mapping(m) has the same keys, order, length and values as m; indexing a missing key raises KeyError; `in`, iteration and items agree with indexing; mismatched key/value counts are rejected.",
  "all mappings",
  "Unbounded mappings.",
  S+":PyTreeDict")
p("C49", "with_*/update_* replace or merge exactly the named part",
  "with_transmitters/receivers/objects replace only that field; update_* yields the union where new points win and old names keep their position; add_objects appends; filter_objects keeps exactly the objects satisfying the predicate in order; the other fields and the original scene are unchanged, for any sequence of such operations.",
  "all scenes and all sequences of operations",
  "Operation histories of any length.",
  S+":Scene.with_transmitters", S+":Scene.with_receivers", S+":Scene.with_objects", S+":Scene.update_transmitters", S+":Scene.update_receivers", S+":Scene.add_objects", S+":Scene.filter_objects")
p("C50", "Renaming keeps every point",
  "rename_transmitters/receivers keep the number and order of points and each point stays reachable under its new name; unknown old names are ignored.",
  "all scenes, all renamings",
  "Unbounded mappings; collisions.",
  S+":Scene.rename_transmitters", S+":Scene.rename_receivers")
p("C51", "Object lookup",
  "get_object(i) returns the object at index i clamped to the valid range when all objects have one type, and raises when types differ or there is no object; get_interacting_objects(candidate) returns, for every candidate produced by all_path_candidates, exactly the objects at those indices in order, for homogeneous and mixed scenes alike.",
  "all scenes, all indices incl. negative and too large, all candidates",
  "Unbounded scenes.",
  S+":Scene.get_object", S+":Scene.get_interacting_objects")
p("C52", "Negative object indices mean the same thing in every scene",
  "A negative index in a path candidate designates the same object (counted from the end) whether or not the scene's objects all have the same type.",
  "all scenes, negative indices",
  "Universal claim; needs proof or counterexample.",
  S+":Scene.get_interacting_objects", S+":Scene.get_object", "CHANGELOG.md")
p("C53", "Path candidates are sound, complete and duplicate free",
  "all_path_candidates(min_order,max_order) returns exactly the sequences of object indices with length between min_order and max_order and no two equal consecutive indices, each exactly once, in nondecreasing length; there are n*(n-1)^(k-1) of order k>=1 and one of order 0; order=k is the same as min_order=max_order=k.",
  "all scene sizes and orders",
  "Unbounded n and order.",
  S+":all_path_candidates", S+":Scene.all_path_candidates")
p("C54", "Filtering candidates",
  "With filter_objects the candidates are exactly the unfiltered candidates that use only objects satisfying the predicate; a predicate that keeps everything changes nothing.",
  "all scenes, predicates, orders",
  "Unbounded.",
  S+":all_path_candidates", S+":Scene.all_path_candidates")
p("C55", "All transmitter/receiver pairs",
  "all_transmitter_receiver_pairs enumerates the Cartesian product transmitter-major, each pair exactly once.",
  "all scenes", "Unbounded.",
  S+":Scene.all_transmitter_receiver_pairs")
p("C56", "all_paths yields one traced path per pair and candidate",
  "all_paths yields, for each pair in order and each candidate in order, exactly one tuple whose path is the path_cls tracing through the candidate's objects and whose validity is that path's is_valid against all scene objects.",
  "all scenes, path classes, orders, keys",
  "Unbounded.",
  S+":Scene.all_paths")
p("C57", "all_valid_paths is the sublist of true paths",
  "all_valid_paths yields, in order, exactly those tuples of all_paths (without the validity) whose validity is_true, in either mode.",
  "all scenes, modes",
  "Unbounded.",
  S+":Scene.all_valid_paths")
p("C58", "accumulate_over_paths sums validity-weighted values per pair",
  "When there is at least one path candidate, accumulate_over_paths yields one entry for each (transmitter, receiver) pair in order, whose value is the sum over candidates of validity*fun; reduce_all=True returns the sum of the entries.",
  "all scenes, functions, orders",
  "Unbounded sums and grouping.",
  S+":Scene.accumulate_over_paths")
p("C59", "accumulate_over_paths yields an entry for each pair",
  "accumulate_over_paths produces an entry for each (transmitter, receiver) pair, whatever the orders requested.",
  "all scenes, all orders incl. those without any candidate",
  "Universal claim; needs proof or counterexample.",
  S+":Scene.accumulate_over_paths")
p("C60", "Grid accumulations agree pointwise with single-point accumulation",
  "The receivers-grid (transmitters-grid) accumulation has the shape of the grid, one array per transmitter (receiver) in order, and its entry at each grid point equals the accumulate_over_paths value of the scene whose only receiver (transmitter) is placed there (for key-independent path classes); reduce_all gives the sum over transmitters (receivers).",
  "all scenes, grids, functions",
  "Unbounded grids and scenes.",
  S+":Scene.accumulate_on_receivers_grid_over_paths", S+":Scene.accumulate_on_transmitters_grid_over_paths", S+":Scene.accumulate_over_paths")
p("C61", "Invalid paths contribute nothing",
  "A path whose validity is False/0 does not change an accumulated result.",
  "all scenes, functions and paths",
  "Special values (inf/NaN) of fun on invalid paths.",
  S+":Scene.accumulate_over_paths", S+":Scene.accumulate_on_receivers_grid_over_paths")
p("C62", "grad/value_and_grad selection",
  "value_and_grad=True takes precedence over grad=True; the value part equals the plain result and the gradient part equals the grad=True result; reduce_all sums both parts.",
  "all scenes and functions, for any differentiation operator",
  "All flag combinations over arbitrary functions.",
  S+":Scene.accumulate_on_receivers_grid_over_paths", S+":Scene.accumulate_on_transmitters_grid_over_paths")
p("C63", "GeoJSON import",
  "from_geojson creates, for each Polygon feature, the walls joining cyclically consecutive vertices of its outer ring, in order, ignoring features without geometry and non-polygon areas; tx and rx are placed at the requested locations of the bounding box of the walls (or at (0,0),(1,1) if there are none).",
  "all parsed GeoJSON documents",
  "Unbounded documents.",
  S+":Scene.from_geojson")
p("C64", "GeoJSON import creates one wall per ring segment",
  "For a closed GeoJSON ring (first vertex repeated at the end, as the standard requires) from_geojson creates one wall per line segment and no zero-length wall.",
  "all closed rings", "Universal claim; needs proof or counterexample.",
  S+":Scene.from_geojson")
p("C65", "GeoJSON import skips geometries that are not polygons",
  "Features whose geometry is not a Polygon (e.g. a Point) are skipped without error.",
  "all documents", "Universal claim; needs proof or counterexample.",
  S+":Scene.from_geojson")
p("C66", "Random scenes use every random point exactly once",
  "random_uniform_scene(n_tx,n_walls,n_rx) has exactly the requested numbers of elements, with distinct names, and every drawn point is used exactly once (as a transmitter, a wall endpoint or a receiver).",
  "all counts, all drawn arrays",
  "Unbounded counts and index arithmetic.",
  S+":Scene.random_uniform_scene")
p("C67", "Preset scenes",
  "square_scene_with_obstacle(ratio) adds a closed axis-aligned square of side |ratio| centred in the unit room, square_scene_with_wall(ratio) a centred vertical wall of length |ratio|; for |ratio|<=1 and tx, rx in the room the scene's bounding box is the unit square; the outer room is closed.",
  "all ratios and tx/rx positions in the room",
  "Continuum of ratios.",
  S+":Scene.square_scene", S+":Scene.square_scene_with_wall", S+":Scene.square_scene_with_obstacle", S+":Scene.basic_scene")
p("C68", "Received power",
  "For 0<=r_coef<=1 and height>0, received_power is between 0 and 1/height^2 (100 with defaults), does not increase with path length or with the number of interactions, and depends on nothing but the path.",
  "all paths, coefficients, heights",
  "Continuum.",
  U+":received_power", U+":P0")
p("C69", "Scene plotting",
  "Scene.plot returns artists for transmitters, then objects, then receivers, in scene order and only for the enabled groups; annotations add exactly one artist per named point; keyword defaults never override user settings.",
  "all scenes, flags and keyword settings",
  "Unbounded scenes and keyword combinations.",
  S+":Scene.plot", G+":Point.plot")
p("C70", "A composite call uses one mode throughout",
  "A composite function (such as segments_intersect or is_valid) called with approx=None evaluates all its comparisons in the same mode.",
  "all histories of setting changes and earlier calls",
  "Depends on the whole call history through the compilation cache.",
  L+":greater", G+":segments_intersect", G+":Path.is_valid")
p("C71", "The loss of a path is the total score of its own points",
  "The loss of a traced path is the sum of evaluate_cartesian of its objects at the path's own points.",
  "all object lists, end points, optimizers, steps, keys, for the three tracing methods",
  "Quantifies over all optimizers and continuous inputs.",
  G+":ImagePath.from_tx_objects_rx", G+":FermatPath.from_tx_objects_rx", G+":MinPath.from_tx_objects_rx")
p("C72", "unstack_leaves refuses inputs that are not stacked",
  "unstack_leaves raises ValueError when its input is not the result of stacking; otherwise stacking its result gives the input back.",
  "all pytrees, any number, rank and size of leaves",
  "Unbounded shapes and leaf counts.",
  G+":unstack_leaves", G+":stack_leaves")
p("C73", "The image method finds exactly the specular paths",
  "For end points and a sequence of walls of non-zero length: a broken line that reflects on each wall in turn according to the law of reflection (the reflection point is on the wall's line, both neighbours are on the same side, equal angles) is what ImagePath.from_tx_objects_rx returns, with a null loss; conversely every traced path with a loss below one whose points are not all equal (in particular when the ends differ) is such a broken line; there is at most one.",
  "all end points, all wall sequences of any length",
  "Continuous inputs and unbounded numbers of reflections; tests compare a few literals.",
  G+":ImagePath.from_tx_objects_rx", G+":Wall.image_of", G+":Wall.normal")
p("C74", "all_valid_paths yields the physical ray paths",
  "For a scene of walls, in hard mode, with a tolerance in (0, 1]: all_valid_paths succeeds, gives at most one path per transmitter, receiver and candidate, yields every physical ray path of the requested orders (law of reflection on each wall of the candidate, inside the wall, no other wall crossed by the segments), and nothing else (unless all points of the path, including both ends, are equal).",
  "all scenes of walls, orders, settings, patches above -1/2, graph libraries meeting their contract",
  "Quantifies over all scenes and unbounded orders.",
  S+":Scene.all_valid_paths", S+":Scene.all_paths", G+":Path.is_valid", G+":ImagePath.from_tx_objects_rx")
p("C75", "Reciprocity",
  "Exchanging transmitters and receivers in a scene of walls reverses its valid paths: the same points and candidates in the opposite order.",
  "all scenes of walls, orders and settings (hard mode)",
  "Relates two runs over all scenes.",
  S+":Scene.all_valid_paths", G+":ImagePath.from_tx_objects_rx", G+":Path.is_valid")
p("C76", "Moving a scene moves its paths",
  "Translating, rotating, mirroring and scaling the points and walls of a scene moves the points of all_paths and all_valid_paths in the same way, and changes neither their number, their order, their names, their candidates, their validity (in both modes) nor their loss.",
  "all scenes of walls (even degenerate), similarities, orders, tolerances, patches, modes and activations",
  "Relates two runs over all scenes and all similarities.",
  S+":Scene.all_paths", S+":Scene.all_valid_paths", G+":Path.is_valid")
p("C77", "Adding objects never creates a path over the old objects",
  "After add_objects, every valid path whose candidate uses old objects only was already a valid path before (hard mode).",
  "all scenes of any objects, all path classes that ignore their key and trace one point per object",
  "Relates two runs over all scenes.",
  S+":Scene.add_objects", S+":Scene.all_valid_paths", G+":Path.on_objects", G+":Path.intersects_with_objects")
p("C78", "The order of the objects does not matter",
  "Reordering the objects of a scene renumbers the candidates, and all_valid_paths yields the same paths between the same names (hard mode).",
  "all scenes of any objects, all permutations, all path classes that ignore their key and trace one point per object",
  "Relates two runs over all scenes and permutations.",
  S+":Scene.with_objects", S+":Scene.all_valid_paths")
p("C79", "Tolerance and patch act in one direction",
  "A larger tolerance only adds valid paths, and a larger patch (at least -1/2) only removes some; the validity of each path does not decrease, or increase, accordingly.",
  "all scenes, path classes, random keys, orders, tolerances, in both modes; for the patch, all scenes of walls, RIS and vertices, and finite traced points",
  "Relates two runs over all scenes and real parameters.",
  S+":Scene.all_valid_paths", G+":Path.is_valid", G+":Wall.intersects_cartesian")
p("C80", "The approximation is consistent",
  "When every traced path of a scene of walls is in generic position, the values of accumulate_over_paths in approximate mode converge, as the slope alpha grows, to the values it gives in hard mode.",
  "all scenes of walls, orders, soft steps and real functions of the path",
  "A limit over a real parameter, for all scenes.",
  S+":Scene.accumulate_over_paths", G+":Path.is_valid", L+":activation")
p("C81", "The accumulated value is a sum over the physical ray paths",
  "In hard mode, the value of accumulate_over_paths for a pair of points is the sum of the function over the physical ray paths of the requested orders; in particular the received power is the sum of r_coef^n / (height^2 + length^2).",
  "all scenes of walls, orders, real functions, settings",
  "Quantifies over all scenes and unbounded orders.",
  S+":Scene.accumulate_over_paths", U+":received_power")
p("C82", "Accumulated values grow with the orders and the tolerance, and decrease with the patch",
  "With a function that is not negative, the value of every pair does not decrease when the range of orders grows, when the tolerance grows, or when the patch (at least -1/2) shrinks.",
  "all scenes of walls, ranges of orders, non-negative functions, in both modes",
  "Relates two runs over all scenes and ranges.",
  S+":Scene.accumulate_over_paths", S+":Scene.all_path_candidates")
p("C83", "In approximate mode values move continuously",
  "When the points and the walls of a scene move continuously, so do the points and the loss of each traced path, its validity in approximate mode, and the values of accumulate_over_paths in approximate mode (for a continuous function such as the received power), at every regular position.",
  "all scenes of walls, motions over any topological space, orders, continuous activations (sigmoid and hard_sigmoid with any positive slope)",
  "Continuity over a continuum of positions, for all scenes.",
  S+":Scene.accumulate_over_paths", G+":Path.is_valid", L+":activation", G+":ImagePath.from_tx_objects_rx")
p("C84", "In hard mode validity jumps at ties only",
  "In hard mode, the validity of a path does not change near a regular position without ties, and the accumulated values are continuous there.",
  "all scenes of walls, motions over any topological space, orders",
  "Local constancy over a continuum of positions, for all scenes.",
  S+":Scene.accumulate_over_paths", G+":Path.is_valid")
p("C85", "Traced paths and hard-mode values are smooth away from ties",
  "Where the traced path does not stand still, its points and its loss are as many times continuously differentiable, as functions of the positions of the ends and of the walls, as these motions are. In hard mode the values accumulated by accumulate_over_paths are so too, at positions without ties, for every smooth function of the path (in particular the received power).",
  "all scenes of walls, motions parametrised by any normed space, differentiability orders, path orders, functions of the path",
  "Differentiability (what the library is for) is a statement about a continuum of positions; a finite-difference test checks a few of them.",
  S+":Scene.accumulate_over_paths", G+":ImagePath.from_tx_objects_rx", G+":Path.is_valid", U+":received_power")
p("C86", "In approximate mode values are differentiable almost everywhere",
  "In approximate mode the values accumulated by accumulate_over_paths are Lipschitz functions of the positions near every position where no path stands still or runs along the line of a wall it is tested against, even at ties and where a segment is parallel to a wall; hence they are differentiable at almost every such position.",
  "all scenes of walls, motions parametrised by any (finite-dimensional, for the second part) space, orders, activation functions that are locally Lipschitz, also at minus infinity (both of the library)",
  "Lipschitz continuity and almost-everywhere differentiability range over a continuum.",
  S+":Scene.accumulate_over_paths", G+":Path.is_valid", L+":activation", L+":sigmoid", L+":hard_sigmoid")
p("C87", "Truth degrees stay truth degrees in floating point",
  "With every operation rounded, sigmoid and hard_sigmoid stay monotone soft steps (values in [0, 1], 1/2 at 0, NaN passes through) for every positive slope, the approximate comparisons return degrees in [0, 1] (or NaN), logical_not maps degrees to degrees, and De Morgan's laws still hold exactly.",
  "all float inputs (infinities and NaN included), all slopes, every rounding that is monotone, odd and exact on small halves: float32, float64 and all IEEE binary formats",
  "There are 2^64 pairs of float32 inputs for each comparison, and unbounded ranges of formats and slopes.",
  L+":hard_sigmoid", L+":sigmoid", L+":greater", L+":logical_not")
p("C88", "Approximate comparisons never contradict the exact ones in floating point",
  "In floating point, is_true of an approximate comparison implies the strict comparison and is_false the reverse one; the degree of greater is monotone in both arguments. In float32 with hard_sigmoid and a slope of at least 64, numbers that differ by 2^-27 or more are told apart; below, they need not be: 2^-40 > 0 has degree exactly 1/2 with the default settings.",
  "all float inputs, soft steps, roundings",
  "All pairs of floats.",
  L+":greater", L+":greater_equal", L+":less", L+":less_equal", L+":is_true", L+":is_false")
p("C89", "Approximate validity agrees with exact validity in floating point",
  "With every operation rounded, for the same path and objects: a path that is_true accepts in approximate mode is valid in exact mode, and a path that is_false rejects, when no part of the test is NaN, is not valid in exact mode; approximate validity is always a number in [0, 1].",
  "all paths (NaN and infinities included), scenes of built-in objects, slopes, tolerances, patches, roundings",
  "Relates two runs over all scenes and all float inputs.",
  G+":Path.is_valid", G+":segments_intersect", G+":Wall.contains_parametric", L+":is_true", L+":is_false")
p("C90", "Symmetries of segments_intersect survive rounding",
  "In floating point, exchanging the two segments, exchanging the two axes, or mirroring an axis gives exactly the same result of segments_intersect, in both modes.",
  "all float coordinates (NaN and infinities included), tolerances, modes, activations, roundings",
  "Relates two runs over all float inputs.",
  G+":segments_intersect")
p("C91", "The image method gives finite paths in floating point",
  "With every operation rounded and as long as nothing overflows, ImagePath through any walls (degenerate, parallel, through the end points) gives finite interaction points, one per wall, and a finite loss that is not negative. path_length of finite points is never NaN and never negative, overflow or not. A path whose loss is NaN is never valid, in either mode.",
  "all finite end points, lists of walls, roundings",
  "Unbounded numbers of walls and all float coordinates, including degenerate ones.",
  G+":ImagePath.from_tx_objects_rx", G+":path_length", G+":normalize", G+":Path.is_valid")
p("C92", "A null MinPath loss means a specular path, and the tolerance bounds the angle",
  "Over walls, the objective of MinPath vanishes at a path that has no repeated points and does not run along its walls if and only if the path obeys the law of reflection at every wall, and then its points are those of ImagePath. For a path of any method, a loss below tol means that every outgoing ray makes with the mirror direction an angle of cosine above 1 - tol/2.",
  "all lists of non-degenerate walls, end points, parameters, tolerances",
  "Unbounded numbers of walls and a continuum of parameters.",
  G+":MinPath.from_tx_objects_rx", G+":ImagePath.from_tx_objects_rx", G+":Wall.evaluate_cartesian", G+":Path.is_valid")
p("C93", "The Fermat objective has one minimiser, the image path",
  "Over walls between which a specular path exists, the parameters of this path are the one and only global minimiser of the path length that FermatPath minimises, so a FermatPath that reaches its minimum equals the ImagePath (points and null loss). The eps that path_length adds to every step acts exactly as if the k-th wall (and the receiver) were moved by k*eps along both axes: the minimiser is the specular path of the moved scene.",
  "all lists of non-degenerate walls, end points, parameters, eps",
  "Global minimality over an unbounded-dimensional continuum.",
  G+":FermatPath.from_tx_objects_rx", G+":path_length", G+":ImagePath.from_tx_objects_rx")
p("C94", "The approximation lock never blocks a program for ever",
  "Threads that nest with enable_approx / with disable_approx blocks and call set_approx, in any order, raising and catching exceptions, never deadlock: in every reachable configuration some unfinished thread can take a step, a thread that cannot is waiting for a lock that another unfinished thread holds; each thread ends after a number of steps bounded by its own program, under every schedule, and once all have ended the lock is free. A thread may call set_approx or nest blocks inside its own with block without blocking itself.",
  "all programs of all threads, all initial settings, all schedules and points of interruption",
  "Deadlocks depend on the schedule; unit tests sample few.",
  L+":enable_approx", L+":set_approx", L+":disable_approx")
p("C95", "The traversals are lazy: one path, or one pair, per next",
  "all_paths, all_valid_paths and accumulate_over_paths compute nothing before the first next. Each next on all_paths traces exactly one path, under the setting at that time; items before an exception are delivered, the exception is raised by the call that traces the failing path, and the generator is then finished. all_valid_paths resumes after the last path it returned and examines paths up to the first accepted one. accumulate_over_paths returns one pair per next but traces the first path of the following pair in advance, so an exception there loses the finished pair. With a given approx nothing depends on the setting at each call; under a constant setting the items are those of the complete lists.",
  "all scenes, path classes, orders, keys, numbers of calls of next, settings at each call, positions of exceptions",
  "All interleavings of next with changes of the setting, and all crash points.",
  S+":Scene.all_paths", S+":Scene.all_valid_paths", S+":Scene.accumulate_over_paths")
p("C96", "Logic functions on arrays act entry by entry, and only on equal shapes",
  "logical_or, logical_and, greater, greater_equal, less, less_equal of two arrays of the same shape return an array of that shape whose every entry is the scalar function of the entries; logical_not, is_true and is_false act entry by entry, but is_true refuses floats when approximation is disabled. Arrays of different shapes raise a type-check error, even if NumPy would broadcast them; an array and a Python scalar work only with jit disabled or for arrays of shape (). logical_all and logical_any with axis=0 combine their arguments entry by entry and never reduce the entries of one array; without axis they raise as soon as an argument is an array that is not a scalar.",
  "all shapes, all entries, all numbers of arguments, both modes, compiled or not",
  "Shapes and entries are unbounded; the tests use one shape per function.",
  L+":logical_or", L+":logical_and", L+":logical_not", L+":greater", L+":greater_equal", L+":less", L+":less_equal", L+":logical_all", L+":logical_any", L+":is_true", L+":is_false")
p("C97", "Approximation is initially on exactly when ENABLE_APPROX is in the environment",
  "At import the setting is on if and only if the environment has a variable ENABLE_APPROX, whatever its value (0 and the empty string included); no other variable has an effect, in particular not DISABLE_APPROX. Without it, functions called without approx compute exact Booleans.",
  "all environments",
  "All environments; the tests run in one.",
  L+":ENABLE_APPROX")
p("C98", "Differentiation does not change values",
  "accumulate_on_receivers_grid_over_paths and accumulate_on_transmitters_grid_over_paths with grad=True or value_and_grad=True raise the same exceptions and return, for each name, the same values in arrays of the same shapes as the accumulation without differentiation, in both modes, NaN and infinities included.",
  "all scenes of walls, all transmitters and receivers, all grids of positions, orders, settings, activations of the library, tolerances, functions of the points of the path",
  "All scenes and all positions; the tests compare a few grids.",
  S+":Scene.accumulate_on_receivers_grid_over_paths", S+":Scene.accumulate_on_transmitters_grid_over_paths", L+":activation", U+":received_power")
p("C99", "In hard mode the returned gradients are the derivatives of the returned values",
  "Where no comparison made for a path candidate is tied and every reflection point is determined, the accumulated value is differentiable and each entry returned with grad=True or value_and_grad=True is the vector of its two partial derivatives with respect to the position of the receiver (transmitter); the same holds with respect to any parameters on which the ends and walls depend differentiably. received_power is differentiated rightly unless a step of the path is the opposite of the guard of path_length.",
  "all scenes of walls, all regular positions, orders, tolerances, differentiable functions of the path; all numbers of walls and bounces",
  "A derivative is a limit; finite differences at sample points cannot settle it.",
  S+":Scene.accumulate_on_receivers_grid_over_paths", S+":Scene.accumulate_on_transmitters_grid_over_paths", G+":ImagePath.from_tx_objects_rx", G+":path_length", U+":received_power")
p("C100", "In hard mode a gradient is either that of the accepted paths held fixed, or NaN",
  "For the received power in hard mode, at every position of the receiver (transmitter): if for every path candidate - accepted or not - each reflection point is determined (no line from an image to the following point is parallel to the wall) and no step is the opposite of the guard of path_length, the returned gradient is that of the sum over the paths accepted at this position, held fixed: it never accounts for paths that appear or disappear. Otherwise both components are NaN, although the value is finite and even if the candidate at fault is not accepted. With one wall this happens where the receiver is as far from the wall as the transmitter, on the other side; with two perpendicular walls and order 3, wherever both are equally far from one of them on the same side.",
  "all scenes of walls (degenerate walls included), all positions, orders, tolerances; all numbers of walls and bounces",
  "The exceptional positions have measure zero: random tests never meet them.",
  S+":Scene.accumulate_on_receivers_grid_over_paths", S+":Scene.accumulate_on_transmitters_grid_over_paths", G+":ImagePath.from_tx_objects_rx", G+":path_length", U+":received_power")
p("C101", "In approximate mode a gradient is real or NaN, and which is decided by the geometry alone",
  "For the received power in approximate mode, with sigmoid or hard_sigmoid and a positive slope, the value is a real number at every position; both components of the gradient are real if no path candidate in range has two consecutive points that coincide (order one and more) or a step opposite to the guard of path_length, and both are NaN otherwise, whether or not the candidate is a valid path. In particular, if two distinct walls of the scene are on one line and paths of order 2 are considered, every gradient at every position is NaN: so it is for basic_scene.",
  "all scenes of walls, positions, orders, tolerances, patches, slopes, the two activations of the library; all numbers of walls and bounces",
  "The NaN of one hidden candidate poisons the sum; in floats rounding hides it most of the time, so tests on samples pass.",
  S+":Scene.accumulate_on_receivers_grid_over_paths", S+":Scene.accumulate_on_transmitters_grid_over_paths", G+":ImagePath.from_tx_objects_rx", G+":path_length", G+":Path.is_valid", U+":received_power", S+":Scene.basic_scene")
p("C102", "Either almost all gradients are real, or none is",
  "In hard mode, if no wall is reduced to a point: for transmitters (receivers) outside of finitely many lines, the gradients of the received power with respect to the receiver (transmitter) are real at all positions outside of finitely many lines. In approximate mode the same holds if moreover no two walls are on one line, or if paths have at most one bounce. In all other scenes every gradient at every position is NaN. Finitely many lines have measure zero.",
  "all scenes of walls, positions, orders, tolerances, patches, slopes, the two activations of the library; all numbers of walls and bounces",
  "Both the exceptional lines and the dichotomy are about all positions; a sampled gradient says nothing about the others.",
  S+":Scene.accumulate_on_receivers_grid_over_paths", S+":Scene.accumulate_on_transmitters_grid_over_paths", G+":ImagePath.from_tx_objects_rx", G+":path_length", U+":received_power")
p("C103", "In approximate mode almost every gradient is the derivative",
  "In approximate mode, if no wall is reduced to a point and no two walls are on one line (not needed for at most one bounce), and the patch is more than -1/2: for transmitters (receivers) outside of finitely many lines, the gradient of the accumulated received power with respect to the receiver (transmitter) exists and is what the grid methods return, on a neighbourhood of almost every position (that is, outside of a closed null set). The kinks (minima, maxima, hard sigmoid, ties between coordinates) are met by the program, which returns averages of one-sided derivatives there, but either only at a null set of positions or where both sides agree.",
  "all scenes of walls, orders, tolerances, patches, slopes, the two activations of the library, almost all positions; all numbers of walls and bounces",
  "A statement about almost every point of the plane; finite differences at a sample can neither show that the exceptions are negligible nor that the convention at ties is harmless.",
  S+":Scene.accumulate_on_receivers_grid_over_paths", S+":Scene.accumulate_on_transmitters_grid_over_paths", L+":minimum", L+":maximum", L+":hard_sigmoid", L+":sigmoid", G+":Path.is_valid", U+":received_power")
p("C104", "Near almost every parameter the results are real analytic",
  "Let the points, the objects (walls, RIS with their angle, vertices), the tolerances, the patch, alpha and the constants of the path function depend on parameters in a way that is analytic near almost every parameter. Then, in both modes, all_paths, all_valid_paths and accumulate_over_paths raise the same exception for all parameters or for none; all_paths yields a fixed number of paths with fixed names and candidates; near almost every parameter the points and losses and float validities are real analytic functions (or a constant NaN or infinity), Boolean validities and the list of accepted candidates are constant, and the accumulated sums are analytic. The exceptional parameters form a closed null set. The two activations of the library and received_power, and the image method, are covered.",
  "all scenes of walls, RIS and vertices, finite-dimensional parameters (positions, walls, angles, settings), orders, filters that do not look at the parameters, both modes",
  "A statement about almost every parameter of every family of scenes: sampling can neither find the jumps nor show that they are negligible.",
  S+":Scene.all_paths", S+":Scene.all_valid_paths", S+":Scene.accumulate_over_paths", G+":ImagePath.from_tx_objects_rx", G+":Path.is_valid", G+":segments_intersect", L+":is_true", L+":sigmoid", L+":hard_sigmoid", U+":received_power")
p("C105", "In hard mode almost every gradient is the derivative",
  "In hard mode, if no wall is reduced to a point: for transmitters (receivers) outside of finitely many lines, almost every position of the receiver (transmitter) has a neighbourhood in which the accumulated received power is differentiable and its gradient is what the grid methods return: the set of accepted paths, which the program holds fixed, does not change there.",
  "all scenes of walls, orders, tolerances, patches, almost all positions; all numbers of walls and bounces",
  "A statement about almost every point of the plane; the value jumps where paths appear or disappear, and no sample shows that those positions are negligible.",
  S+":Scene.accumulate_on_receivers_grid_over_paths", S+":Scene.accumulate_on_transmitters_grid_over_paths", G+":Path.is_valid", U+":received_power")
p("C106", "The default optimizer cannot run away, and a bad gradient is never hidden",
  "minimize with its default optimizer (Adam) from real numbers: no step moves a coordinate by sqrt(370/7) (about 7.27) learning rates or more, whatever the objective; so with the defaults no coordinate of the solution is farther than the number of steps from the initial guess; the first step goes against the sign of the gradient by nearly one learning rate, whatever the size of the gradient. No iterate is ever infinite: a coordinate is a real number as long as all gradients were real in this coordinate, and NaN for ever after the first that was not.",
  "all objectives, gradients (also NaN and infinite ones), initial guesses, sizes, learning rates, numbers of steps",
  "A bound over all sequences of gradients; tests run a few objectives.",
  O+":minimize", O+":minimize_random_uniform", O+":minimize_many_random_uniform")
p("C107", "The gradients the minimizing tracers follow are the true ones, or NaN",
  "The gradient that FermatPath (resp. MinPath) gives its optimizer is, entry by entry, the partial derivative of the objective with respect to the parameter of a wall or RIS, except where that objective is not smooth for the differentiation rules: the entry is NaN exactly if a step of the path that starts or ends at this wall or RIS is the opposite of the guard added by path_length (Fermat), resp. is a step of length zero looked at by the score of a wall or RIS (MinPath). A singular step between other points does not spoil the entry. Where no entry is NaN, the objective is differentiable in all parameters together and the vector is its gradient. The value computed along the way is the objective itself, for all vectors.",
  "all lists of walls, RIS and vertices, all endpoints, all vectors of parameters",
  "A statement about derivatives at every point, including a set of measure zero that random tests never hit.",
  G+":FermatPath.from_tx_objects_rx", G+":MinPath.from_tx_objects_rx", O+":minimize")
p("C108", "A path traced by gradient descent is real, or visibly NaN",
  "FermatPath and MinPath with the default optimizer, from real parameters and over objects with real coordinates: if none of the parameters where the gradient was taken is singular (in the sense of C107), all points of the path are real, each lies on its object, at a parameter that has moved by at most sqrt(370/7) learning rates per step; if one of them is singular, the point of a wall or RIS of the path is NaN in both coordinates, and such a path is never valid, whatever the scene, the tolerance and the mode.",
  "all lists of walls, RIS and vertices, endpoints, random generators with real samples, learning rates, numbers of steps",
  "Quantifies over all runs of the optimizer.",
  G+":FermatPath.from_tx_objects_rx", G+":MinPath.from_tx_objects_rx", G+":Path.is_valid", O+":minimize")
p("C109", "Where the minimizing tracers come to rest",
  "With the default optimizer, the parameters do not move in the first step exactly when the gradient is zero there, and then they never move. For FermatPath the gradient is zero exactly at the global minima of the length that are not singular, so that a tracer at rest has found the shortest path. For MinPath the gradient is zero wherever the loss is zero (and not singular), but not only there: when the receiver is the mirror image of the transmitter in the wall, MinPath returns its random initial guess, whatever it is, with the loss 4.",
  "all lists of walls, RIS and vertices, endpoints, parameters, learning rates, numbers of steps, random generators with real samples",
  "Quantifies over all real parameters and all runs of the optimizer.",
  G+":FermatPath.from_tx_objects_rx", G+":MinPath.from_tx_objects_rx", O+":minimize")
p("C110", "Walls are opaque",
  "If the walls of a scene separate a transmitter from a receiver (no broken line goes from one to the other without meeting a wall), then in hard mode no path of any order between them is valid: all_valid_paths yields none, and accumulate_over_paths gives zero for the pair, whatever the function. In particular nothing leaves a rectangular room, or any convex room, such as that of Scene.square_scene, and more walls separate at least as much.",
  "all scenes of walls of non-zero length, positions, orders, tolerances in (0, 1], patches of at least -1/202",
  "Quantifies over all paths of all orders in all scenes; a leak would be a single path among infinitely many, through a corner or along a wall.",
  S+":Scene.all_valid_paths", S+":Scene.accumulate_over_paths", G+":Path.is_valid", G+":segments_intersect")
p("C111", "Rays are deterministic: one path per direction",
  "In a scene of walls, in hard mode, two different paths that all_valid_paths yields between the same transmitter and the same receiver with the same number of reflections, or with the same length, never leave the transmitter in the same direction and never arrive at the receiver from the same direction. More precisely, physical paths that leave the same point in the same direction (whatever their receivers) name the same walls and go through the same points as far as the shorter one goes, and the longer one then passes through the end of the shorter one.",
  "all scenes of walls of non-zero length, positions, orders, pairs of paths, tolerances in (0, 1], patches of at least -1/202",
  "Quantifies over all pairs of paths of all orders in all scenes, including touching walls, corners and rays along walls.",
  S+":Scene.all_valid_paths", G+":Path.is_valid", G+":ImagePath.from_tx_objects_rx", G+":segments_intersect")
p("C112", "Paths in a rectangular room are the lines to the mirror images",
  "In a scene that is a rectangular room, in hard mode, each path of n reflections that all_valid_paths yields to a receiver in the room leaves towards one of its mirror images (m, m') with |m| + |m'| = n, is exactly as long as the distance to that image, and no other path goes to the same image; hence there are at most 4n paths of n >= 1 reflections per pair. Conversely the path to an image is there when both ends are more than 1/200 of the size of the room away from the walls and the line to the image keeps that far from the corners of the tiling; when it does for all images of order n there are exactly 4n paths, and there are always exactly four of one reflection.",
  "all rectangular rooms, positions, orders, images, tolerances in (0, 1], patches of at least -1/202",
  "Quantifies over all orders and positions; the number of candidates grows like 4 * 3^(n-1), of which at most 4n are valid.",
  S+":Scene.all_valid_paths", S+":Scene.square_scene", G+":ImagePath.from_tx_objects_rx", G+":Path.is_valid")
p("C113", "The power in a rectangular room converges as the order grows",
  "In a scene that is a rectangular room, in hard mode, with a reflection coefficient q in [0, 1) and a positive height, the power that accumulate_over_paths gives for each pair, with min_order 0 and max_order N, does not decrease with N and converges, and stopping at order N loses at most 4 q^(N+1) (N + 1 - N q) / ((1 - q)^2 height^2).",
  "all rectangular rooms, transmitters anywhere, receivers strictly inside, orders N, coefficients in [0, 1), heights, tolerances in (0, 1], patches of at least -1/202",
  "A statement about a limit over all orders, with an explicit bound on the remainder.",
  S+":Scene.accumulate_over_paths", U+":received_power", S+":Scene.square_scene")
p("C114", "Higher precision gives the exact answer",
  "As the floating point format becomes more precise (more bits, larger exponents), the points, the loss and the length of every path traced by the image method tend to those of exact arithmetic; the hard validity of a path is eventually that of exact arithmetic; and the power that accumulate_over_paths computes tends to the exact one, for every transmitter and receiver. The inputs are rounded to the format. Conditions: walls have a non-zero length; the exact path does not pause nor run along the line of a wall that it is tested against; for hard validity, no comparison is a tie in exact arithmetic.",
  "all families of floating point arithmetics that become exact (IEEE formats among them), scenes of walls, transmitters, receivers, orders, tolerances, patches, coefficients",
  "Tests run in float32 or float64 only, where a result is one sample of its rounding errors; that errors vanish and do not accumulate, for every scene, order and format, is a statement about limits.",
  G+":ImagePath.from_tx_objects_rx", G+":Path.is_valid", G+":path_length", U+":received_power", S+":Scene.accumulate_over_paths")
p("C115", "Higher precision gives the exact degrees in approximate mode",
  "In approximate mode, as the floating point format becomes more precise, both activation functions tend to their exact values, the degree of validity of every path traced by the image method tends to the exact degree, and the power that accumulate_over_paths computes tends to the exact one. No comparison needs to be far from a tie, in contrast with hard mode.",
  "all families of floating point arithmetics that become exact, slopes, scenes of walls, transmitters, receivers, orders, tolerances, patches, coefficients",
  "Tests compare degrees up to a tolerance in one format; convergence for every scene, order and activation is a statement about limits.",
  L+":sigmoid", L+":hard_sigmoid", G+":segments_intersect", G+":Path.is_valid", S+":Scene.accumulate_over_paths")
p("C116", "The received power behaves in floating point",
  "In floating point, for a path through finite points, a coefficient in [0, 1] and a height whose square does not underflow, received_power returns a number between 0 and 1/height² (rounded), never NaN or infinity, even when the length overflows; a path that is computed to be at least as long, with at least as many interactions, never receives more power. In both modes accumulate_over_paths never decreases when paths are added, whatever the rounding errors; it is never NaN, and it is unchanged to the last bit by paths whose validity is zero.",
  "all floating point arithmetics that satisfy the contract (float32, float64, IEEE formats), finite points, walls, transmitters, receivers, candidates, tolerances, patches, coefficients in [0, 1], heights",
  "Rounding, underflow and overflow depend on the input; tests sample a few scenes at ordinary magnitudes.",
  U+":received_power", S+":Scene.accumulate_over_paths", G+":path_length")
p("C117", "path_length is accurate in floating point",
  "For a path of n segments, the length that path_length computes in floating point overflows to plus infinity, or lies between (1-u)^(n+4) L - nθ and (1+u)^(n+4) (L + nθ), where L is the length of the path, u the unit roundoff and θ = 3 eps + 11 sqrt(η), with eps the guard that the code adds to differences and η the underflow threshold. In float32, for up to 1000 segments, the error is at most 7e-5 of the length plus 4e-7 for each segment.",
  "all arithmetics with a relative error u ≤ 1/8 and an absolute error η ≤ 1 (IEEE formats), all lists of finite points",
  "A bound on rounding errors holds for every input, and its dependence on the number of segments cannot be observed by tests.",
  G+":path_length", G+":Path.length")
p("C118", "The received power is accurate in float32",
  "In float32 with its machine epsilon, for a coefficient in [0, 1], a height between 2^-20 and 2^40 and path points within 2^40 of the axes, received_power(path) for a path of n <= 1000 segments (n * 4e-6 <= height) is a finite number, off from coef^(n-1) / (height^2 + length^2) by at most (n + 5) * 2.5e-7 + n * 6e-7 / height relatively, plus 2^-90 for underflow. The value that accumulate_over_paths computes with the image method over up to 80000 candidates is the sum, over the traced paths, of their validity times that exact power, with the same relative error plus 8e-8 for each addition, in both modes.",
  "every path (any number of points up to 1001, any coordinates within bounds), coefficient, height, scene of walls, candidate list and tolerance",
  "rounding errors depend on all inputs and accumulate along paths and candidates; tests compare a few values with a loose tolerance",
  U+":received_power", G+":path_length", S+":Scene.accumulate_over_paths")
p("C119", "Rounding errors are proportional to the machine precision",
  "Let the coordinates be stored and all operations be carried out in a binary format of precision p. The points, the loss and the length of a path traced by the image method are off from those of exact arithmetic by at most a constant (that depends on the scene, not on p) times 2^-p; and so is, in hard mode, the received power that accumulate_over_paths computes for every transmitter and receiver, when no exact path touches a threshold and no receiver is at a transmitter.",
  "every scene of walls of non-zero length, candidate, transmitter, receiver, coefficient, height, tolerance, and family of binary formats of growing precision",
  "a rate is a statement about infinitely many formats; a test runs in one or two",
  G+":ImagePath.from_tx_objects_rx", G+":path_length", U+":received_power", S+":Scene.accumulate_over_paths")
p("C120", "Approximate validity and power err in proportion to the machine precision",
  "In approximate mode, with either built-in activation, the degree of validity of a path and the power accumulated over all paths, computed in floating point with p bits, differ from the exact ones by at most a constant times 2^-p, whenever the exact paths are regular: even when a comparison is at its threshold, and even when a path segment is parallel to a wall.",
  "all transmitters, receivers (none at a transmitter), walls of non-zero length, orders, tolerances, patches, coefficients, heights, all families of arithmetics with errors of size eps (IEEE formats of growing precision among them), rounded slopes",
  "a rate of convergence quantifies over all precisions and all scenes",
  G+":Path.is_valid", G+":segments_intersect", L+":activation", S+":Scene.accumulate_over_paths")
p("C121", "With several trials one singular trial spoils the path",
  "FermatPath and MinPath with many >= 2 and the default optimizer, from real parameters and over objects with real coordinates: if no trial takes the gradient at singular parameters (in the sense of C107) before its last step, the path is that of the first of the trials with the least value of the objective before the last step; it is real, each point on its object, if the last step of this trial is not singular either. If one trial does, the path is that of the first such trial: the point of a wall or RIS is NaN (and for MinPath so is the loss), and the path is never valid, whatever the other trials have found.",
  "all lists of walls, RIS and vertices, endpoints, random generators with real samples, learning rates, numbers of steps and of trials",
  "Ranges over all trajectories of all trials of a randomised iterative method.",
  G+":FermatPath.from_tx_objects_rx", G+":MinPath.from_tx_objects_rx", O+":minimize_many_random_uniform")
p("C122", "A wall has no direction",
  "Drawing walls from their other end (Wall(b, a) instead of Wall(a, b)) changes nothing: all_paths, all_valid_paths, accumulate_over_paths and the maps of the grid methods return exactly the same results with the image method, for any walls (even of zero length), in hard and in approximate mode, with any activation, tolerance and real patch, for every function of the path that does not look at the objects themselves. For a RIS the drawing direction matters, in a known way: drawing it from the other end is the same as adding pi to its angle phi.",
  "all scenes of walls, all subsets of the walls redrawn, all orders, activations, tolerances, real patches, functions and real grids",
  "Relates two runs for every scene and every choice of walls.",
  G+":Wall", G+":RIS", G+":ImagePath.from_tx_objects_rx", G+":Path.is_valid", S+":Scene.all_paths")
p("C123", "The order of the objects does not matter, in both modes",
  "If the objects of a scene are listed in another order, all_paths yields the same tuples in another order, with the candidates renumbered and with exactly the same paths and degrees of validity, in hard and in approximate mode; accumulate_over_paths and both grid methods, values and gradients, return exactly the same results. This holds for any objects, any activation and any path class that does not use its random key and returns one point per object, and any function of the path and its objects.",
  "all scenes, permutations of the objects, orders, options of is_valid, functions, grids and gradient operators",
  "Relates two runs for every scene and every permutation.",
  S+":Scene.all_paths", S+":Scene.accumulate_over_paths", S+":Scene.accumulate_on_receivers_grid_over_paths", G+":Path.is_valid")
p("C124", "Symmetric scenes give symmetric maps",
  "For a function of the path that is invariant under a rotation, mirroring, translation or scaling A: moving the whole scene by A changes no accumulated value, and the map of the moved scene on the moved grid is the map of the scene on the grid; if moreover the walls are symmetric under A (the moved walls are the same segments, in any order and drawn from any end), then moving only the transmitters and the receivers (the grid) changes nothing. The received power is exactly invariant under translations and under the exchange of the axes (with translations); under the other isometries it changes by at most a multiple of the machine precision eps, because path_length adds eps to both coordinates of each segment: at most the sum over the path candidates of n interactions of |coef|^n (n+1) 2 sqrt(2) eps / height^3. It is not exactly invariant (unless eps were 0).",
  "all scenes of walls (even degenerate), similarities, orders, grids of any shape, modes, activations, tolerances, real patches",
  "Relates runs over all scenes, all symmetries and all grids.",
  S+":Scene.accumulate_over_paths", S+":Scene.accumulate_on_receivers_grid_over_paths", S+":Scene.accumulate_on_transmitters_grid_over_paths", U+":received_power", G+":path_length")
p("C125", "Walls that touch or coincide",
  "In hard mode, listing a wall a second time in a scene removes every reflection on it and changes nothing else: the valid paths are those of the scene that are not reflected by this wall (it still stops rays). More generally no valid path is reflected at a point that also lies on another wall of the same line, even within 1/200 of that wall's length (plus the patch) beyond its ends; and if a path is reflected at a point that is also on some other wall, such as a corner, then the two walls are perpendicular and the path comes along the other wall and goes back along it.",
  "all scenes of walls of non-zero length, transmitters, receivers, orders, tolerances in (0, 1], patches (non-negative for the duplicate), paths whose points are not all equal",
  "Ranges over all scenes and all reflection points; the set of valid paths of two scenes is compared.",
  S+":Scene.all_valid_paths", G+":Path.intersects_with_objects", G+":segments_intersect", S+":Scene.from_geojson")
p("C126", "Vertex diffraction",
  "In hard mode, vertex diffraction with FermatPath or MinPath (filter_objects=lambda obj: isinstance(obj, Vertex)) yields exactly the broken lines from a transmitter through the vertices of a candidate to a receiver that no wall and no RIS of the scene stops, with loss 0, whatever the random key, optimizer, number of steps and trials; accumulated values are the sums over these broken lines. A vertex on a wall or RIS that is still in the scene (for instance one of wall.get_vertices()) gives no path, unless the path comes and leaves along that wall, also on paths that mix reflections and diffractions; if every vertex is a corner of two walls of the scene that are not parallel, there is no diffraction path at all between distinct points. The documented remedy of a negative patch works exactly from below -1/202: then a wall never stops a step that starts or ends at one of its own ends; from -1/202 on, its ends are still covered.",
  "all scenes of walls, RISs and vertices, transmitters, receivers, orders, random keys, optimizers, positive tolerances, patches above -1/2",
  "The candidates, positions and keys are unbounded, and the obstruction by the own wall of a vertex depends on tolerances that tests do not scan.",
  G+":Vertex", G+":FermatPath.from_tx_objects_rx", G+":MinPath.from_tx_objects_rx", G+":Path.intersects_with_objects", S+":Scene.all_valid_paths", "examples/plot_vertex_diffraction_power_map.py")
p("C127", "Optimizing the position of a transmitter",
  "In the power optimization (examples/plot_power_optimize.py) the differentiated loss is minus a hundredth of the power of a receiver that gets least, and its gradient is a mean of the gradients of the receivers that get least (the gradient of the receiver that gets least, if there is only one), both in hard and in approximate mode; it is NaN as soon as the gradient of any receiver, even a well served one, is NaN. With optax.chain(adam(lr), zero_nans()) the coordinates of the transmitter stay real for any number of frames and any losses, and move by less than lr*sqrt(370/7) per frame; but a coordinate for which one gradient was NaN or infinite never moves again. In hard mode the transmitter never moves from a position where a receiver gets no power, in particular with max_order=0 from a position that a wall hides from a receiver, such as that of the example; with orders up to 3 or more it does not move either from a position that shares a coordinate with a receiver in a rectangular room, such as that of the example.",
  "all scenes of walls, receivers, positions, slopes, numbers of frames, learning rates, losses (for the optimizer)",
  "The positions, the number of frames and the gradients met on the way are unbounded; a NaN on the way is hidden by zero_nans.",
  "examples/plot_power_optimize.py", S+":Scene.accumulate_over_paths", S+":Scene.accumulate_on_transmitters_grid_over_paths", U+":received_power")
p("C128", "What a reconfigurable intelligent surface serves",
  "A RIS has a beam: the opposite of its normal, turned by minus its angle phi. For a tolerance up to 1 it accepts a step from one of its points exactly when the next point is in the cone around the beam where the cosine is above 1 - tol/2, wherever the ray comes from. So a valid path of FermatPath or ImagePath leaves each RIS in that cone (for FermatPath, from a point of the segment), and whatever the transmitter, the key, the optimizer and the gradient, a valid path of FermatPath or MinPath that ends with a RIS only reaches receivers in the cone seen from a point of the line of the RIS; unless phi is grazing, no receiver on the line of the RIS or on the side away from the beam is ever served, in the traversal of a scene with filter_objects keeping the RISs too. With MinPath, the points after the transmitter and the loss are the same for all transmitters when the first object is a RIS. For one RIS and a receiver on the side of the beam the objective of MinPath has exactly one minimizer, where the beam hits the receiver, it decreases strictly before and increases strictly after, and the gradient that jax computes is zero nowhere else; the objective is zero on the RIS exactly for the receivers in the strip that the RIS sweeps along its beam. Swapping the ends of a RIS turns its beam around (unlike a wall), which adding pi to phi undoes; a RIS whose beam is the mirror direction of the incoming ray scores like a wall; RISs are not reciprocal.",
  "all RISs, angles, points, chains of objects, scenes, transmitters, receivers, keys, optimizers, numbers of steps and trials, tolerances up to 1",
  "The served region is a statement on all receivers, all optimizers and all random keys; a test sees one receiver and one run.",
  "examples/plot_ris_power_map.py", G+":RIS.evaluate_cartesian", G+":MinPath.from_tx_objects_rx", G+":FermatPath.from_tx_objects_rx", G+":Path.is_valid", S+":Scene.all_valid_paths")
p("C129", "The interactive application, whatever the user does",
  "The interactive example opens on every scene of walls with one transmitter and one receiver, in particular on all the scenes that its command line can choose, and raises an AssertionError on any other number of transmitters or receivers. After every sequence of actions (sliders, boxes, spin boxes, clicks, moves of the mouse) the window shows the map and the paths of its scene with its current settings, and nothing else; every action gives exactly the settings that it asks for, which stay in their ranges; with the image method the picture depends on the settings only, not on the seed or on what was done before, each cell shows in decibels the power accumulated over the paths to a receiver there, and in hard mode the opaque rays are the valid paths and the others are invisible. No action raises, except that a click on the marker of the transmitter or of the receiver always raises an AttributeError (scatter plots have no get_xydata), so the transmitter and the receiver can never be moved. Once its slider was moved, the patch can never be 0 again and the reflection coefficient never 1/2, since these defaults are not among the 100 values (the slope 100 is); the label of the slope says 1 while the slope is 100 until its slider is moved; the map always has 50 columns, whatever the resolution.",
  "all scenes of walls with one transmitter and one receiver, resolutions, seeds, sequences of actions of any length, path methods, optimizers, graph libraries and random generators",
  "The claims are about all histories of a graphical session, of any length; a test would replay a few of them, and the example has no tests.",
  "examples/qt_interactive.py", S+":Scene.accumulate_on_receivers_grid_over_paths", S+":Scene.all_paths", S+":Scene.plot", G+":Point.plot", U+":received_power")
p("C130", "The higher alpha, the closer to hard mode",
  "The documentation says that the higher alpha, the closer the approximate results are to those without approximation. For the validity of every single path with finite points among walls, RISs and vertices, for every loss, tolerance and patch, ties included, this holds: the degree is on the side of the hard verdict (at least 1/2 if the path is valid, at most 1/2 if it is not) and never moves away from it when the slope grows. So a value accumulated in approximate mode (of a non-negative function) is never below half of the hard value, decreases with the slope in the shadow, increases with it where all paths are valid, and gets closer to the hard value with the slope when only the line of sight is used, as in the example. But it is false of totals over several paths (a counterexample at the default settings, between the slopes 1 and 100). And no degree exceeds the activation of the tolerance on the loss: with the default settings, at most 2/3, so that approximate mode underestimates a perfectly clear line of sight by at least a third.",
  "all slopes a <= b, soft steps (both built-in activations), paths with finite points, losses, tolerances, patches, lists of walls, RISs and vertices, and, for accumulated values, all scenes of walls, orders and non-negative functions",
  "It compares three runs of the program for every geometry and every pair of slopes, ties included.",
  "examples/plot_power_profiles.py", L+":activation", G+":Path.is_valid", G+":segments_intersect", S+":Scene.accumulate_over_paths")
p("C131", "Every training sample is a room with turned walls",
  "random_samples of the sampler notebook yields, for every key and as often as it is asked, an array that encodes what its documentation describes: a transmitter and a receiver in the unit square, and at least min_num_walls and at most 8 different walls of the square room with an obstacle whose ratio is in the given range, each turned about the centre by its own angle in the range (for a range symmetric about 0, such as the default); sample_2_scene decodes it into the scene with exactly this transmitter, receiver and walls. Turning keeps the length of every wall and its distance to the centre. But a range of angles that is not symmetric is not respected: the walls are turned the other way (by minus the angle drawn).",
  "all keys and generators that keep the documented contracts of jax.random, all ratios in [0,1], numbers of walls in 0..8, ranges of angles, and any number of samples drawn",
  "It ranges over all random keys and all draws, and over a generator that never ends.",
  "docs/source/notebooks/cost20120_helsinki_model.ipynb", S+":Scene.square_scene_with_obstacle", G+":Wall.rotate")
p("C132", "The reward of a path candidate",
  "reward of the sampler notebook, the JIT-compatible variant of the library's path tracing, agrees with the library: for every path that all_paths yields, the reward of its candidate is the validity it is yielded with. Without approximation it is 1 if the candidate has a physical ray path (mirror reflections on the walls, no obstacle) and 0 otherwise, for every list of wall indices; a list with an index out of bounds (such as the filler num_walls) has reward 0 and raises no error. With approximation it is between 0 and 2/3.",
  "all scenes of walls with one transmitter and one receiver, all candidates (of any length, with repetitions, or out of bounds), all orders, both modes",
  "It relates two implementations for every scene and candidate, NaN-filled walls included.",
  "docs/source/notebooks/cost20120_helsinki_model.ipynb", S+":Scene.all_paths", G+":ImagePath.from_tx_objects_rx", G+":Path.is_valid")
p("C133", "The flows of the sampling network",
  "The flow model of the sampler notebook returns, for every scene with finite points and at least one wall and every state, one flow per wall: positive, except 0 for the last wall selected, so that the same wall cannot be selected twice in a row; an index out of bounds (the number of walls) stops no flow. Listing the walls in another order, and renaming the walls selected accordingly, permutes the flows in the same way (also with NaN and infinite coordinates). The flows do not depend on the order in which walls were selected, nor on the position of the scene in the plane (translations). But a negative index, documented as 'no wall was previously selected', stops the flow of a wall: -1 that of the last one.",
  "all networks (any two functions of the announced sizes; finite on finite inputs where positivity is claimed), states, scenes, indices, permutations of the walls, translations",
  "It ranges over all weights of the networks, scenes and states.",
  "docs/source/notebooks/cost20120_helsinki_model.ipynb")
p("C134", "The path candidates that the trained model samples",
  "The generative model of the sampler notebook returns, for every key, a path candidate of the order asked for among those that the library enumerates: indices of walls, never the same twice in a row. For a random key, each candidate is sampled with the probability the notebook defines: the product over its steps of the flow of the edge over the total flow that leaves the state; it is positive for every candidate, and 0 for every other list. With a single wall and an order of 2 or more, where there is no candidate, the probabilities are NaN and the model returns the wall repeated, without an error.",
  "all networks without overflow, scenes with finite points, orders, keys; all generators that keep the documented contracts of split and categorical (support for every key; independent draws with the softmax law for a random key)",
  "It is a statement about the law of a random program for all networks, scenes and orders.",
  "docs/source/notebooks/cost20120_helsinki_model.ipynb", S+":Scene.all_path_candidates")
p("C135", "What training the sampler achieves",
  "The loss of the sampler notebook, without approximation, samples the same candidates as the model and sums, over the batch, the squared violations of flow consistency along each of them; it is never negative. For all flows, the total flow times the probability of a candidate differs from the reward used at its end by at most the square root of the order times its loss: so for first-order paths, as the loss vanishes, probabilities become proportional to the rewards, as the notebook announces. For higher orders this is false: the reward used is that of the candidate sorted by wall indices. In a corner, for every network, training drives the invalid candidate [1, 0] to the probability of the valid one [0, 1], or, with the walls listed the other way round, the only valid candidate to probability 0. The loss is positive along every candidate without reward.",
  "all networks without overflow, scenes of walls of non-zero length, orders, batch sizes, keys; all non-negative flows that stop exactly the repeated walls",
  "It bounds the distance between two quantities for every network, and refutes a property of the limit of training.",
  "docs/source/notebooks/cost20120_helsinki_model.ipynb")
p("C136", "The training loop of the sampler",
  "For every network, optimizer, loss, list of samples, number of steps and key, train performs one update per step, in order, with the samples of the iterator in order, and leaves in the iterator exactly the samples it did not use (it ends early if they run out). It reports losses for the multiples of print_every and the last step, in increasing order: the training loss is that of the network before the update, the validation loss the average, for the network after it, over all validation samples. Every update and every validation sample has its own key: no key is used twice, nor derived from another one that is used. On the samples of the notebook, as long as the networks do not overflow, training succeeds and all losses reported are finite and not negative. But the arrays returned do not have steps // print_every elements, as annotated, unless print_every is 1 (1001 and not 1000 by default); and without validation samples, or with print_every = 0, the first step raises a ZeroDivisionError.",
  "all networks, optimizers, losses, lists of samples, numbers of steps, values of print_every, keys and key generators",
  "It is an invariant of a loop of any length, for any optimizer.",
  "docs/source/notebooks/cost20120_helsinki_model.ipynb")
p("C137", "The curated training data",
  "Without approximation, filter_xys returns True exactly when the scene has a physical ray path with as many reflections as the global variable `order` says, which is 2. So the data curated with it is not what the notebook trains on with order=1: there is a sample of the generator with a valid first-order path that is dropped, and one that is kept although every first-order candidate has the reward 0.",
  "all graph libraries that keep their contract, scenes of walls of non-zero length, orders; the counterexamples for every graph library",
  "It ranges over all scenes; the counterexamples need a proof that no path exists.",
  "docs/source/notebooks/cost20120_helsinki_model.ipynb", S+":Scene.all_valid_paths")
p("C138", "The patch is mirrored at -1/2",
  "Only the distance of patch to -1/2 matters: intersects_cartesian, is_valid, all_paths, all_valid_paths, accumulate_over_paths, both grid maps and what the interactive application shows are the same for the patches p and -1-p, in both modes and for every activation. So the farther patch is from -1/2 in either direction, the fewer paths are valid; below -1/2, decreasing the patch makes walls larger again, and a negative patch need not shorten a wall. In the application the patch -1 of the slider shows what the initial patch 0 shows.",
  "all scenes of walls, RIS and vertices, finite paths of any path class (all scenes of walls with the image method), orders, keys, activations, tolerances, patches and grids",
  "It is an identity over a continuum of patches and all scenes, in both modes.",
  G+":Wall.intersects_cartesian", G+":Path.is_valid", S+":Scene.all_paths", S+":Scene.accumulate_over_paths")
p("C139", "Paths and maps are reciprocal",
  "Exchanging the transmitters and the receivers of a scene of walls, with the image method, reverses every tuple of all_paths and changes nothing else: same losses, same validities (booleans in exact mode, truth degrees in approximate mode, for every activation, tolerance and patch). accumulate_over_paths gives the same value for (t, r) and (r, t) for every function that has the same value on a path and on its reverse, and the map over receivers of a transmitter is the map over transmitters of a receiver at the same place. This holds for all positions outside of finitely many lines (exactly where no backward step is guarded; elsewhere it can fail). The received power is reciprocal up to the factor (1 + 2 sqrt 2 (max_order + 1) eps / height)^2, and exactly if eps were 0: path_length adds eps to both coordinates of every segment, which has a direction.",
  "all scenes of walls of non-zero length, positions outside of finitely many lines, orders, keys, activations, tolerances, patches, direction-blind functions and grids; validity: all finite paths and scenes of walls, RIS and vertices",
  "It is a symmetry over a continuum of positions, all scenes and all candidates, in both modes.",
  S+":Scene.all_paths", S+":Scene.accumulate_over_paths", S+":Scene.accumulate_on_receivers_grid_over_paths", S+":Scene.accumulate_on_transmitters_grid_over_paths", G+":ImagePath.from_tx_objects_rx", G+":Path.is_valid", U+":received_power")
p("C140", "Symmetries of the values are symmetries of the gradients",
  "The gradients that the grid methods return are determined by the values, almost everywhere: if near almost every position the received powers of one scene are those of another scene at the position moved by an invertible affine map, then at almost every position the gradient of the first is the gradient of the second seen through the map (the same vector for a translation). So gradients do not depend on the order of the walls or on the ends from which they are drawn, and they move with the scene under translations and mirroring at the first diagonal; in both modes, with respect to the receiver and to the transmitter.",
  "all pairs of scenes of walls (no wall reduced to a point; in approximate mode no two on one line, or at most one bounce), settings, invertible affine maps, fixed points outside of finitely many lines, almost all positions",
  "It is an almost-everywhere statement about a continuum of positions and all scenes; the reverse-mode program runs different operations in the two scenes.",
  S+":Scene.accumulate_on_receivers_grid_over_paths", S+":Scene.accumulate_on_transmitters_grid_over_paths", U+":received_power", G+":ImagePath.from_tx_objects_rx")
p("C141", "With approximation, gradients vanish only in the dark",
  "In approximate mode with lines of sight only (the setting of the examples that place a transmitter), at almost every position the gradient of the received power with respect to the transmitter or to the receiver is the derivative of the power, and it is zero only if the power itself is zero. With sigmoid the power is never zero; with hard_sigmoid (the default) it is zero exactly if the line of sight and some wall cut each other at no less than 3 / alpha - 0.005 of their lengths from their ends (or the tolerance is at most -3 / alpha), hence never if alpha < 5.94. The same holds of the loss of the example, the power of the worst served receiver: almost everywhere its gradient is zero only if the loss is; from almost every start the first frame moves the transmitter unless the loss is zero, in the direction that increases that power; and a transmitter that starts where some receiver gets nothing for each of the alphas never moves, for almost every start.",
  "all scenes of walls not reduced to points, all transmitters and receivers with distinct names, tolerances, patches above -1/2, alphas > 0, heights > 0, learning rates > 0, both activation functions of the library, grids of any shape, almost all positions",
  "It is an almost-everywhere statement about a continuum of positions, for all scenes; a test on a grid of positions cannot tell a gradient that is zero from one that is tiny.",
  S+":Scene.accumulate_on_transmitters_grid_over_paths", S+":Scene.accumulate_on_receivers_grid_over_paths", U+":received_power", G+":Path.is_valid")
p("C142", "Without approximation, gradients vanish only in the dark, at any order",
  "Without approximation, with any range of orders (reflections included) and for all transmitters (receivers) out of finitely many lines that depend on the walls only, at almost every position of the receiver (transmitter) the gradient of the received power is defined, it is the derivative of the power nearby, and it is zero exactly if the power is zero; with a positive reflection coefficient, the power is zero exactly if all_valid_paths returns no path. Hence the loss of the example that places a transmitter has, at almost every position, a gradient that is zero only if some receiver gets nothing, and otherwise the first frame of the example moves the transmitter.",
  "all scenes of walls not reduced to points, all ranges of orders that have a candidate, all tolerances, patches, epsilon > 0, reflection coefficients >= 0, heights > 0, learning rates > 0, all transmitters (receivers) with distinct names out of finitely many lines, grids of any shape, almost all positions",
  "An almost-everywhere statement about a continuum of positions, for all scenes and orders; a test on a grid of positions cannot tell a gradient that is zero from one that is tiny.",
  S+":Scene.accumulate_on_transmitters_grid_over_paths", S+":Scene.accumulate_on_receivers_grid_over_paths", S+":Scene.all_valid_paths", U+":received_power", G+":Path.is_valid")
p("C143", "What the figures of the examples and papers show",
  "In the power optimization (examples/plot_power_optimize.py, papers/), the map of the objective function shows at each position of the grid the opposite of the loss that is minimized there, for any objects and whatever the keys and the transmitters of the scene; the objective is the power of the worst served receiver over P0, and the loss that is differentiated is that loss, with and without approximation. The maps of the power (examples/plot_power_map.py, papers/eucap2024) show at each position, in decibels relative to P0, the total power that accumulate_over_paths gives for one receiver there; decibels order positions as powers do, and with lines of sight only and one transmitter no cell is above 0 dB. The maps of the gradient (papers/eucap2024/plot_power_map.py) show, without approximation and almost everywhere, the Euclidean norm of the derivative of the total power, and zero exactly if the total power is zero.",
  "all scenes (objects, distinct names), path classes that do not use their key, orders, options, functions, grids of any shape; for the gradient, all scenes of walls not reduced to points, all transmitters out of finitely many lines, almost all positions",
  "Relates arrays on grids of any shape to values of functions at all positions; the figures are never compared with anything by tests.",
  "examples/plot_power_map.py", "examples/plot_power_optimize.py", "papers/eucap2024/plot_power_map.py", "papers/eucap2024/plot_optimize_steps.py", "papers/joss/plot_optimize_steps.py", S+":Scene.accumulate_on_transmitters_grid_over_paths", S+":Scene.accumulate_on_receivers_grid_over_paths", U+":received_power")
p("C144", "The gradients of the power point along the rays",
  "Without approximation, the gradient that the grid functions compute for the received power, with respect to the receiver, converges (as the guard eps of the lengths tends to zero) to the sum over the valid paths of vectors that point from the receiver back to the last interaction of the path, or to the transmitter for the line of sight; the magnitude of each is 2 coef^n L / (height^2 + L^2)^2 for a path of n reflections and length L. With respect to the transmitter, the vectors point to the first interaction. This requires the reflection points of all candidates to be determined; otherwise the gradient is NaN for every eps. In line of sight only, and for every eps, the gradient is exactly minus (for the receiver) or plus (for the transmitter) twice the square of the value times the vector from the transmitter to the guarded receiver.",
  "all scenes of walls, all transmitters and receivers, all orders, all grids of any shape, all coefficients and heights, tolerances at most 1 (any tolerance in line of sight), all small eps",
  "Describes derivatives of a program at every position and every number of reflections, in the limit of a global constant; needs Fermat's principle to the first order.",
  S+":Scene.accumulate_on_receivers_grid_over_paths", S+":Scene.accumulate_on_transmitters_grid_over_paths", U+":received_power", "papers/eucap2024/plot_power_map.py")
p("C145", "FermatPath by plain gradient descent finds the reflection",
  "With plain gradient descent (optax.sgd) as optimizer, a path of FermatPath over one wall or one RIS converges, as the number of steps grows, to the only minimum of its length: whatever the random start in [0, 1] and the number of trials, the distance to the limit is at most a constant times the n-th power of a number less than 1, if the learning rate is less than 2 / (W^2 (1/dt + 1/dr)) where W is the length of the object and dt, dr the distances of the transmitter and the receiver (moved by the guard) to its line. For a wall and a zero guard the limit is the specular reflection, the path of ImagePath, and the loss tends to zero, so that the path passes every tolerance after enough steps. The bound is the right one: with the transmitter and the receiver at the same point and any larger rate, there is a start from which the path alternates between two points for ever.",
  "all walls and RIS, all transmitters and receivers off their line, all guards, all learning rates below (above) the bound, all keys, numbers of trials and of steps",
  "Convergence is a statement about all numbers of steps and all random starts; tests run a fixed number of steps with a loose tolerance.",
  "differt2d/optimize.py:minimize", "differt2d/geometry.py:FermatPath.from_tx_objects_rx", "differt2d/optimize.py:minimize_many_random_uniform")
p("C146", "FermatPath by plain gradient descent over any number of interactions",
  "With plain gradient descent (optax.sgd) as optimizer, over any list of walls, RIS and vertices: if l is a lower bound on the (guarded) steps of the shortest path and the learning rate lr satisfies 2 lr S < l, where S is the sum of the squared lengths of the objects, then whatever the start the parameters never get farther from those of the shortest path and the length tends to its minimum; among the first T steps one is within gap(start, best) sqrt(2 S / (lr (l - 2 lr S) T)) of the minimum. The only exception is a step taken at singular parameters (two consecutive points, moved by the guard, coincide), after which the returned path has a NaN point. From a start whose squared distance to the best parameters is less than l^2 / (2 S), no parameters are singular and every returned path is real; if the shortest path is unique, its parameters are the limit. With a zero guard and walls that have a specular path, the returned paths converge to it, the path of ImagePath, and the losses tend to zero.",
  "all non-empty lists of walls, RIS and vertices, all transmitters and receivers, all guards, all learning rates below the bound, all starts, all numbers of steps",
  "Convergence is a statement about all numbers of steps and all starts; tests run a fixed number of steps with a loose tolerance.",
  "differt2d/optimize.py:minimize", "differt2d/geometry.py:FermatPath.from_tx_objects_rx", "differt2d/optimize.py:minimize_random_uniform")
p("C147", "Pointing a RIS by gradient descent",
  "For a RIS with distinct ends and any list of three-point paths, the sum of the interaction scores as a function of the angle phi is always a real number, and it is minimal exactly at the angles whose beam points along the sum of the unit vectors of the outgoing steps. Its gradient is always its derivative (never NaN, even for steps of length zero), and it vanishes exactly when the beam points along that sum or exactly away from it. With plain gradient descent at a rate lr with lr R < 1, where R is the length of that sum, minimize converges geometrically from every angle that does not point exactly away, to a best angle less than half a turn from the start, and its loss tends to the minimum; for a single path the RIS therefore ends by accepting the path, whatever the tolerance. A start that points exactly away is returned unchanged. If lr R > 1, some start is reflected across the best angle at every step, for ever.",
  "all RIS with distinct ends, all lists of paths, all starting angles, all learning rates on either side of the bound, all numbers of steps",
  "Convergence is a statement about all starts and all numbers of steps; no test of the repository optimizes the angle of a RIS.",
  "differt2d/geometry.py:RIS.evaluate_cartesian", "differt2d/geometry.py:RIS.phi", "differt2d/optimize.py:minimize")
p("C148", "The shadow of the quickstart: dark with one reflection, lit with two",
  "The scene that the quickstart builds, the square room with the transmitter at (0.2, 0.2) and a wall added from (0.8, 0.2) to (0.8, 0.8), has the shadow that its text describes. The map that accumulate_on_receivers_grid_over_paths computes with received_power and reduce_all=True (without approximation) is exactly zero, with at most one reflection (the default max_order), in every cell behind the added wall between the line through its lower end from the mirror image of the transmitter in the floor and the line through its upper end from the mirror image in the ceiling. With max_order=2 or more every one of these cells (from x = 0.81 to x = 0.99) has a positive power. With max_order=1 or more the cells on the left of the added wall, and those below and above the shadow (up to a margin of 0.01), have a positive power. With grad=True and at most one reflection, the gradient is exactly zero, and never NaN, in the whole shadow.",
  "every grid of receivers of any size with finite coordinates, every min_order=0 and max_order >= 0, every reflection coefficient and height above zero, any keys",
  "a plot shows 300 x 300 receivers in one run; that no ray of order 0 or 1 reaches any point of the region, and that some ray of order 2 always does, are statements about a continuum of receivers",
  "docs/source/quickstart.md", "differt2d/scene.py:Scene.square_scene", "differt2d/scene.py:Scene.add_objects", "differt2d/scene.py:Scene.accumulate_on_receivers_grid_over_paths", "differt2d/utils.py:received_power")
p("C149", "The zero-gradient region of the paper's figure",
  "In Scene.square_scene_with_wall(ratio), with its default transmitter, in line of sight (max_order=0) and without approximation - the scene and the call of the figure that marks a region with a null gradient -, the map of the received power and the map of its gradient are known at every receiver. On or beyond the line of the wall, within the angle at which the transmitter sees the wall, both are exactly zero, whatever the distance to the edge of the shadow. Elsewhere in the room (up to the tolerances of the obstruction tests) the power is that of free space, 1 / (height^2 + distance^2), and the gradient is minus twice the square of the power times the vector from the transmitter: never zero (up to the guard eps, the receiver at the transmitter excepted).",
  "every ratio above zero, every receiver, every grid, every reflection coefficient and height above zero, every activation function, every guard eps > 0",
  "that a derivative is zero on a whole region and not zero on all of its complement is a statement about a continuum of receivers; a finite grid shows samples",
  "papers/eucap2024/plot_zero_gradient.py", "differt2d/scene.py:Scene.square_scene_with_wall", "differt2d/scene.py:Scene.accumulate_on_receivers_grid_over_paths", "differt2d/utils.py:received_power", "differt2d/geometry.py:path_length")
p("C150", "Placing a transmitter by plain gradient descent",
  "In the power optimization (examples/plot_power_optimize.py) without approximation and in line of sight (max_order=0), with plain gradient descent (optax.sgd) instead of adam: if one receiver gets less than all the others, one frame moves the transmitter on the straight line to that receiver, by the fraction lr/50 * power^2 of the distance - so not at all if a wall hides that receiver. With one receiver and lr < 50 height^4, whatever the walls and the start, the transmitter always moves towards the receiver (moved by the guard eps of path_length) and never beyond it; it stops for ever at the first position from which the receiver is hidden; and as long as it is in sight the distance decreases geometrically. If no wall hides the receiver from any point between the start and the receiver, the transmitter reaches the receiver in the limit and the power tends to its maximum 1 / height^2. Were the guard zero, the start decides: the transmitter reaches the receiver if it sees it at the start, and never moves otherwise. With lr > 100 height^4, even without walls, no run that stays real has the receiver as its limit. With zero_nans after it, as in the example, and no wall, every run ends at the receiver in the limit if lr is at most 100 height^4 (with the default height, exactly the learning rate 0.01 of the example), and otherwise only those that meet it exactly.",
  "every list of walls, receivers out of the lines of the walls, start, number of frames and slopes alpha, activation function, tolerance in (0, 1], patch above -1/2, reflection coefficient, height above zero, guard",
  "limits over infinitely many frames from a continuum of starts: a run shows finitely many frames from one start",
  "examples/plot_power_optimize.py", "differt2d/scene.py:Scene.accumulate_over_paths", "differt2d/utils.py:received_power", "differt2d/geometry.py:path_length")
p("C151", "Placing a transmitter for several receivers",
  "There is exactly one smallest circle around the receivers (moved by the guard eps of path_length); let c be its centre and R its radius. In the power optimization (examples/plot_power_optimize.py) without approximation and in line of sight (max_order=0), the smallest received power is at every position at most 1/(height^2 + R^2), whatever the walls, with equality exactly at c, and only if no receiver is hidden there: the example's loss has no other minimum than c. With plain gradient descent instead of adam, a frame leaves the transmitter where it is if any receiver is hidden. With lr at most 25 (height^2 + R^2)^2, as long as all receivers are in sight and the transmitter is not exactly at a receiver, its squared distance to c is at most lr/(100 (height^2 + R^2)) plus a geometrically decreasing part of the initial one: it ends in a neighbourhood of the best place as small as the learning rate makes it. With zero_nans after it, as in the example, the run never stops being real, and stays for ever at a receiver it meets exactly, wherever c is.",
  "every non-empty list of receivers out of the lines of the walls, list of walls, start, number of frames and slopes alpha, activation function, tolerance in (0, 1], patch above -1/2, reflection coefficient, height above zero, guard",
  "a best place among a continuum and a bound over infinitely many frames: a run shows finitely many frames from one start",
  "examples/plot_power_optimize.py", "differt2d/scene.py:Scene.accumulate_over_paths", "differt2d/utils.py:received_power", "differt2d/geometry.py:path_length")
p("C152", "The derivatives of truth values",
  "jax.grad of the logic functions, with approximation. The smooth activation sends back its exact derivative alpha s (1 - s), positive and at most alpha/4, reached at zero only. The default (hard) activation sends back its derivative alpha/6 where |x| < 3/alpha and 0 where |x| > 3/alpha; at the two corners, where it has no derivative, alpha/12, the mean of both sides: this is what the figure in the documentation of activation plots. greater and greater_equal are one function, less and less_equal too, and less is one minus greater, in value and gradient. logical_or and logical_and send back the gradient of the operand that decides, the mean of both if they are equal, and logical_all and logical_any the mean over all operands that decide; logical_not the opposite. Negating twice, de Morgan, commutativity and idempotence hold for gradients also. Not so for ties: absorption fails for equal operands, and with three equal operands the gradient of a disjunction depends on the parentheses and is not that of logical_any.",
  "every operand with a real value and gradient (any differentiated program), every slope alpha above zero, every number of operands, every type of inputs",
  "a law of the gradients must hold at every real number, in particular at ties and corners, which samples miss",
  "differt2d/logic.py:activation", "differt2d/logic.py:hard_sigmoid", "differt2d/logic.py:sigmoid", "differt2d/logic.py:greater", "differt2d/logic.py:greater_equal", "differt2d/logic.py:less", "differt2d/logic.py:less_equal", "differt2d/logic.py:logical_or", "differt2d/logic.py:logical_and", "differt2d/logic.py:logical_not", "differt2d/logic.py:logical_all", "differt2d/logic.py:logical_any")
with open(os.path.join(os.path.dirname(__file__), "..", "properties.jsonl"), "w") as f:
    for q in P: f.write(json.dumps(q) + "\n")
print(len(P))
