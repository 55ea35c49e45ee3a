{
 "C01": {
  "note": "All n >= 3 and all resolutions (polygonal domains and DomainCircle); resolution 0 is shown to divide by zero for 3 and 4 sides."
 },
 "C02": {
  "note": "All n >= 3 and all resolutions, polygonal and circle domains."
 },
 "C03": {
  "note": "Also: the boundary is a single simple loop of n*r vertices, and the Euler characteristic is 1."
 },
 "C04": {
  "note": "Both directions; strict interior needs strict convexity and a centre inside (shown necessary hypotheses of the English statement). C04_circle: the disc."
 },
 "C05": {
  "note": "Positive orientation for strictly convex polygons, area sum for arbitrary polygons."
 },
 "C53": {
  "note": ""
 },
 "C54": {
  "note": "Proved for n <= 62 (stronger than stated); overflow witness binomial(63,32)."
 },
 "C55": {
  "note": ""
 },
 "C56": {
  "note": ""
 },
 "C06": {
  "note": "Proved for polygonal domains over all histories. DomainCircle violates it: C06_circle_stale gives a concrete history (n=3,res=3 then n=6,res=2) returning a stale list."
 },
 "C07": {
  "note": ""
 },
 "C08": {
  "note": "Circular domain: strict convexity for positive arcs each shorter than pi (half of the total), centre strictly inside."
 },
 "C09": {
  "note": "Closedness, box and the exact meaning of the coded check are proved; C09_check_misses_reflex is a witness that the check accepts a non-convex polygon (disagreement with the code comment/intention)."
 },
 "C10": {
  "note": "Exact form, with the tolerance as a parameter."
 },
 "C11": {
  "note": "All polygons, points and kinds; nonzero normaliser derived for closed strictly convex polygons (C11_defined)."
 },
 "C12": {
  "note": "All three kinds of coordinates. mapToRibbon of the neighbours is stated outside the tolerance band, where the code divides."
 },
 "C13": {
  "note": "Wachspress and harmonic in the closed polygon; strict positivity for mean value coordinates inside."
 },
 "C14": {
  "note": "Solution property for every polygon; inverse and side values for convex domains; the regular domain is shown to satisfy the tolerance hypotheses."
 },
 "C15": {
  "note": ""
 },
 "C16": {
  "note": "Interconnected, on regular domains also end to end; constrained barycentric."
 },
 "C17": {
  "note": ""
 },
 "C18": {
  "note": "End angles, exact roundtrip on both sides, definedness and bracket in every strictly convex domain; the hypothesis left is that a crossed side is not nearly parallel to the ray (within the tolerance of intersectEdgeWithRay)."
 },
 "C61": {
  "note": " The function may return NaNs (none), which end the loop."
 },
 "C19": {
  "note": "All histories of update and map calls over the listed kinds of parameterization; the returned values equal an uncached computation on the domain of the last update."
 },
 "C20": {
  "note": "Start value without any condition; end value when no grid step falls into the tolerances (C20_end also proves definedness). C20_tiny_curve: curves shorter than the tolerance give a division by zero."
 },
 "C21": {
  "note": "Unit length always; perpendicular exactly outside of the tolerances, and within (resolution+1)*sqrt(eps) in general."
 },
 "C22": {
  "note": "Both compatible ribbons, every handler, multiplier and parameter: the cross derivative is perpendicular to the (unit) normal; after update() with the default fence the normal is always a unit vector (C22_after_update). With an overridden fence this needs the fence to return unit vectors, as the code does not normalize it."
 },
 "C23": {
  "note": "End values of the cross derivative after update(), for the compatible ribbons (with and without handler) and the perpendicular one. At s=1 the frame must reach its end normal exactly, which needs consecutive samples farther than the tolerance (ExactCurve, see C20_tiny_curve for what happens otherwise). C23_defined: update() does not fault when consecutive tangents are not parallel."
 },
 "C24": {
  "note": "Base curve, ruled structure, sequences of control calls against a small specification, value at s=1/2, default handler. Setting the zero vector as handler divides by zero (C24_zero_handler)."
 },
 "C25": {
  "note": "Bottom, left and right side of the Coons ribbon after update() on a closed loop."
 },
 "C28": {
  "note": "Side blends for any parameters; corner blends inside, with one close side, with two adjacent close sides, and the values for several close sides. C28_corner_exceptions: two opposite close sides give sum 0, three close sides of a triangle give sum 3."
 },
 "C29": {
  "note": "Range for parameters in the unit square; exact values and sum 1 at side points that are at the corners or at least the tolerance away from them. C29_band: the exact sum on the whole side, including the tolerance bands."
 },
 "C26": {
  "note": "Orientation step of setupLoop for any curves; after it consecutive end points are the closest choice. Sharing of curve objects is not in this model (see C27). C26_derivative, C26_length: derivatives and lengths of the reversed curves."
 },
 "C27": {
  "note": "Closed loops given in any orientation are reversed to a consistently oriented loop."
 },
 "C30": {
  "note": "For convex angular domains, at points of sides further than the relative tolerance from other sides, and at corners. Curves are exact in the sense of ExactCurve (fence samples well-behaved)."
 },
 "C31": {
  "note": "Whole side, tolerance below sin(2pi/n); for triangles a band of width about the tolerance at the end of the side is excluded."
 },
 "C32": {
  "note": "Whole side, tolerance below sin(2pi/n) sin(pi/n)/2; for triangles a band at the end of the side is excluded."
 },
 "C33": {
  "note": "Whole side, tolerance at most 1/2."
 },
 "C34": {
  "note": "C34_midpoint, C34_midpointCoons: corners and the points at least the tolerance away from them. C34_band, C34_bandCoons: the exact value in the bands (the bands at the start of the sides for both classes; at the end of the sides for the midpoint class with at least four sides). C34_violated: the surfaces do not go through all boundary points near a corner."
 },
 "C35": {
  "note": "C35_whole: whole sides for n >= 4; C35_side: n >= 3 except the band of the tolerance before the end of the side; C35_triangle: the two possible values in this band for triangles. The curves need not be smooth."
 },
 "C37": {
  "note": "For every call history. C37_mesh: transfinite surfaces; C37_gb, C37_hybrid, C37_spatch, C37_superd: surfaces with control points, where the histories contain evaluations of meshes as well. C37_*_defined: success (from the success of the pointwise evaluations, or for all usable objects and resolutions ≥ 1). C37_corner_stale: the code violates the property for the corner-based Generalized Bézier patch (cache of DomainCircle, C06_circle_stale), which is therefore not in the quantifier. C37_corner, C37_corner_later: it holds for this patch as long as all meshes are evaluated with the same number of sides."
 },
 "C64": {
  "note": "For the seven classes of the Patch model (side-based, corner-based, generalized Coons, composite ribbon, midpoint, midpoint Coons, C0 Coons). Side-based requires that the angular domain is a convex polygon. Handlers are nonzero, or the default handler is defined (HasDefault)."
 },
 "C36": {
  "note": "Value at the centre after setMidpoint, after later updates, and of the default midpoint, for both midpoint classes and every number of sides except four; the deficiency at the centre is computed ((n-2)(n-4)/n^2 for the midpoint class) and bounded away from zero; C36_four: no effect for four sides. Tolerance at most 1/200 and at most 2/n."
 },
 "C38": {
  "note": "C38_one: exact equality of states (and of failure) after update() and any calls that change controls of one ribbon only, including queries and midpoint calls; C38_many: several sides, equality up to cache contents, hence of all points."
 },
 "C39": {
  "note": "C39_difference gives the exact difference of the two surfaces for C0 Coons patches at the domain centre; C39_insufficient is the concrete witness on a square with one side re-parameterized."
 },
 "C41": {
  "note": "All call histories without the public setCurves (which desynchronises the net, C41_stale_init): every pair of names of one control point agrees after any sequence of initialisation, writes through setControlPoint, loop setup and evaluation. setIndividualControlPoint is excluded from the consistency claim since breaking it is its documented purpose."
 },
 "C42": {
  "note": "Side variant, degree >= 2, both weight variants, every call history ending in a set-up loop: Bezier curve at least the tolerance away from the corners, exactly the corner control point within it. C42_curve: the curve stored by setupLoop is the Bezier curve of the boundary row, also after orientation. Degree 1 violates the property (C42_degree_one, C42_degree_one_fails)."
 },
 "C43": {
  "note": "C43_sum: eval is the sum of weight() times controlPoint() plus the rest times the central point, both computed by calls on the same object; C43_corner: the same near a corner; C43_affine: affine invariance, including failures."
 },
 "C44": {
  "note": "Interpolation on the whole side for n >= 4 and odd degree (C44_side, C44_curve); triangles violate it (C44_triangle gives the exact difference, C44_triangle_fails a concrete patch). C44_weights: weights explain eval for every n >= 3 in every point. std::fmod enters by its specification on nonnegative arguments."
 },
 "C65": {
  "note": "Boundary values, range and absence of failures; C65_jump proves a defect: for 12 sides a NaN in the bisection makes the parameter discontinuous at the circle."
 },
 "C45": {
  "note": "Over exact reals, with an arbitrary rounding by printing and reading. Files are token lists that can always be opened. C45_surface: the surface is the same if printing is exact and the flag of squared rational weights agrees (it is not stored). C45_before_setup: before setupLoop the file has 0 sides."
 },
 "C46": {
  "note": "For all n, d and f. C46_rest covers the loops started at a later row."
 },
 "C47": {
  "note": "C47_export: the whole file, for every n >= 3, degree >= 1. C47_cells: the faces are exactly the cells of the network, each once."
 },
 "C48": {
  "note": "Exact reals. The elevated patch is again a patch made by public calls, with the same boundary curves and corners; all its control points (none left unset) and the centre lie in every convex set that holds the original ones. C48_side: the two surfaces agree on the domain sides."
 },
 "C49": {
  "note": "C49_rows: for every solver result and every sample set; the original may be of either kind. C49_third_row and C49_degree_two record disagreements: 3 fixed rows do not keep the third row (it becomes the origin), and degree 2 reads out of range. The linear solver of Eigen is an arbitrary function."
 },
 "C66": {
  "note": "Exact reals; the solver is an arbitrary function, so the theorem is about the system and the patch made from any candidate solution, not about the quality of Eigen's solution. Samples are in the closed domain, either exactly in a corner or where no two consecutive side distances are both below epsilon."
 },
 "C50": {
  "note": "For every history of calls with initNetwork, setControlPoint (with valid labels), setupLoop and eval. The depth is at most 20 (the factorials do not fit in 64 bits above that: C50_deep). Missing control points are treated as in the code (they count as zero). lround(tgamma(n+1)) is taken to be the exact factorial. Exact arithmetic."
 },
 "C51": {
  "note": "Exact over the reals, for every history of calls. The English claim 'fullness 1 reaches the control point' is refined: the inner control points are at the edge point, the curve itself is not (C51_fullness_one: weight 7/8 in the middle). For n >= 7, within the tolerance of a corner the value is the mean of two points of the curve (C51_side)."
 },
 "C59": {
  "note": "Model of optimize of nelder-mead.cc for an arbitrary function, over an ordered field (exact arithmetic; function values that are NaN or infinite are not modelled). Every iteration is proved to be one step of the Nelder-Mead method given by an independent specification; the result is never worse than any vertex of any earlier simplex; true is returned only if the variance of the final values is below the tolerance; the number of function evaluations is at most n+1 plus n+2 per iteration."
 },
 "C57": {
  "note": "Over an arbitrary field (evaluation, reversal, convex hull over ordered fields) and the reals (derivatives of all orders as iteratedDeriv of the coordinate functions; arc length). The default constructor, which leaves the degree uninitialised, is not modelled."
 },
 "C58": {
  "note": "The numbers returned by the optimizer are an arbitrary function of the degree. Division by zero when normalizing is a distinct outcome (in the C++ code it gives NaN coordinates). Matrix3x3::rotation of libgeom is assumed to be the usual rotation matrix. Recursion is modelled with fuel, 7 levels are proved enough."
 },
 "C67": {
  "note": "Same model as C58. The map is stated as an additive, scalar-product preserving map times a number."
 },
 "C63": {
  "note": "Exact reals. Caches of the two parameterizations are handled by the Fresh predicate (any history of queries after update)."
 },
 "C68": {
  "note": "Exact reals."
 },
 "C52": {
  "note": "Whole objects with any history. The linear solver is an arbitrary function. Real arithmetic."
 },
 "C69": {
  "note": "The energy is the integral of the squared second derivative of the cubics with the given end data (strip_ends in Lemmas/Elastic.lean). Assumes that the solver (Eigen's QR) solves solvable 3x3 systems."
 },
 "C62": {
  "note": "Character-level model of the istringstream with its failbit; number conversion is an arbitrary function. The disagreements with the OBJ format are proved (C62_normals, C62_texture, C62_slashes, C62_no_faces). C62_white: which characters are white space."
 },
 "C60": {
  "note": "C60_update: update() succeeds. C60_harmonic: success, topology, boundary vertices and unique minimization of the Dirichlet energy, for every history with an up-to-date domain and closed loop. Trusted: SparseLU is a function that solves regular systems (the system is proved to be regular); sparse storage is not modelled; exact arithmetic."
 },
 "C70": {
  "note": "C70_planar: the vertices are in the plane of the loop. C70_affine: affine precision. Both for every history with an up-to-date domain; same trusted base as C60."
 },
 "C40": {
  "note": "Proved for the Generalized Bezier classes (side and corner based): C40_deep is the simulation of programs without changes of side counts by surfaces with their own data; C40_shared is what happens otherwise. The ribbons of the transfinite patches, which are shared as well, are not in this model."
 },
 "C71": {
  "note": "C71_side: interpolation for every up-to-date object; C71_curves: the curves after setupLoop; C71_built: a history of calls that succeeds; C71_outer: the outer layers have no effect. Nothing is claimed for 0 < s < eps and 1 - eps < s < 1, where the weights are those of the corner."
 },
 "C72": {
  "note": "C72_side gives the exact value on the sides, C72_corner at the corners, C72_interpolation characterizes when a polynomial boundary curve is interpolated, and C72_not_interpolating is a concrete counterexample to boundary interpolation (the direction D1p in polarRibbon is not normalized)."
 },
 "C73": {
  "note": "C73_biharmonic and C73_update. The Eigen factorization is a parameter that solves regular square systems (Harmonic.Solver); that the two systems are regular is proved (energy argument). The minimum is over all mesh functions with the same boundary values."
 },
 "C74": {
  "note": "C74_partition (positivity and sum), C74_circumcenter and C74_obtuse (the geometry), C74_mesh (whole mesh)."
 },
 "C75": {
  "note": "C75_plane and C75_affine."
 },
 "C76": {
  "note": "One-sided derivative of the surface along any path, exactly in the plane of the ribbon; square with fences as example."
 },
 "C77": {
  "note": "Derivative in the plane of the ribbon up to the error of the finite-difference twists, which is bounded by the change of the twist within 1/10000."
 },
 "C78": {
  "note": "As C77, interconnected parameters."
 },
 "C79": {
  "note": "As C77, composite ribbons."
 },
 "C80": {
  "note": "As C77; the central control point has no influence."
 },
 "C81": {
  "note": "Fences give smooth ribbons (C81_fences), the tangent planes are perpendicular to the fence up to the error (C81_plane), and such surfaces can be built (C81_built)."
 },
 "C82": {
  "note": "Numbers are read by an arbitrary function from tokens; the constructor of BSCurve (libgeom) is represented by its arguments. Memory is never exhausted."
 },
 "C83": {
  "note": "The contents of the file are given as lines of tokens."
 },
 "C84": {
  "note": "For n + d <= 63, where the binomial coefficient is computed without overflow (C54)."
 },
 "C85": {
  "note": "For patches with at least three sides."
 },
 "C86": {
  "note": "parameterizePoints: C86_points (one parameter per point, from the vertices of the closest triangle), C86_point (formula of the weights), C86_convex, C86_domain (in the domain), C86_inside (linear interpolation), C86_vertex (mesh vertices are reproduced), C86_degenerate (division by zero), C86_outside (witness for points that are not above the triangle). TriMesh::closestTriangle is external: any function that gives triangles of the mesh."
 },
 "C87": {
  "note": "C87_history (same faults, same domain and parameterization, moved curves), C87_eval, C87_rotation (rotations about the origin: no conditions), C87_mesh, C87_ribbon. For the seven classes of the Patch model. arcLength of a curve is an input of the model, the same for the moved curve. Exact arithmetic: in floating point this holds up to rounding. The condition ClearPoint is needed for translations, since the weights of the corners sum to 1 only then (C28_corner_several shows the other case)."
 },
 "C88": {
  "note": "C88_plane (eval), C88_origin (planes through the origin: no condition on the point or the number of sides), C88_mesh, C88_ribbon (fence, cross derivative, ribbon). C88_fold and C88_reflex are the disagreement for loops with a reflex corner: the rotation minimizing frame starts with the normal N at one end and ends with -N at the other, so the fence turns by pi about the curve; a pentagon with a reflex corner and handlers N gives a midpoint surface leaving the plane. Exact arithmetic."
 },
 "C89": {
  "note": "Relation between two runs of the Patch model, preserved by every call; over the reals, so sums in another order are equal. Classes with regular domains; the side-based class has an angular domain, whose convexity check depends on the direction of the first side (C09_check_misses_reflex), so the claim is not made for it."
 },
 "C90": {
  "note": "jacobiSvd, the formatting of the area, triangulate and the sparse solver are external parameters with the contracts stated in the theorems (Principal, Triangulation, Solver)."
 },
 "C91": {
  "note": "Real numbers instead of doubles; std::sort is modelled by a merge sort, but only that the result is sorted and a permutation is used. The text of the picture is not modelled, only the heights of the bars. The middle number is not the median and the histogram miscounts sparse values: C91_median and C91_gap are witnesses."
 },
 "C92": {
  "note": "closestTriangle is external (libgeom): any function that finds a triangle of the mesh with an area. The distance is underestimated for points that are not above the triangle: C92_outside is a witness."
 },
 "C93": {
  "note": "Exact arithmetic. The tangential test (test.cc 125-152), the writing of the files and the time measurement are not modelled. The side-based class is excluded from the zero error (see C30 for its conditions); the ribbon mesh is proved for the classes with handlers."
 },
 "C94": {
  "note": "RMF.C94_frame is the exact condition, RMF.C94_unit the threshold of the unit of length; C94_tiny is about update() after any history, C94_loop and C94_polygon about whole surfaces made from a loop. The C++ code does not stop at the division by 0 but continues with NaN normals; in the model this is the fault divZero. The positive part of C94_polygon excludes side-based surfaces, whose angular domain needs further hypotheses (C64)."
 },
 "C95": {
  "note": "Props/GenBezierTangent.lean, Lemmas/TangentGB.lean, Spec/GBTangent.lean. Exact arithmetic; derivative = one-sided derivative at t = 0 along paths in the domain. Degrees 1 and 2 have one layer only, so there is no second row. The corner-based variant (GeneralizedBezierCorner) is not covered."
 },
 "C96": {
  "note": "The limit is proved at inner parameters (0 < s < 1) only: at corners the second point can be outside of the domain (C96_corner, C96_triangle). Exact arithmetic: the rounding error of the numerical derivative is not modelled."
 },
 "C97": {
  "note": "Derivative along every path of the domain, for every reachable updated state; C97_derivative gives the exact value also for non-squared weights; C97_squared shows that squared weights are the default in every history; C97_fences and C97_plane give the case of normal fences, C97_built constructs such objects."
 },
 "C98": {
  "note": "C98_derivative, C98_normal: derivative and tangent plane on the sides. C98_smooth: tangent plane continuous joins. C98_mixed: 4 sides next to 5 sides fails (concrete patches). C98_vertex: no effect of the vertex control point with more than 4 sides."
 },
 "C99": {
  "note": "C99_gb (any ordered field, both classes, all uv including failures), C99_superd, C99_spatch (complete networks), C99_missing (points that were not set stay at zero, so such an S-patch is not translated with its control points). The maps are Mathlib's affine maps. The two patches may have different histories; only their final control points are related."
 },
 "C100": {
  "note": "C100_spatch, C100_superd (3 or 4 sides), C100_gb (sum of weights at most 1), C100_gb_inside (centre of cubic patches with at least 4 sides), C100_gb_centre (effect of the central control point, all n); negative: C100_superd_many (5 sides), C100_superd_full (fullness 2), C100_gb_triangle (3 sides). The hull is Mathlib's convexHull of the points returned by the getters. Corner-based GB patches are not included."
 },
 "C101": {
  "note": "C101_spatch, C101_superd, C101_grid (the control net of a four-sided GB patch is a grid, which exists and is unique), C101_gb (outside of the corner zones), C101_gb_corner (in the corner zones), C101_gb_quadratic (negation for degree 2)."
 },
 "C102": {
  "note": "C102_coons (exact value), C102_cubic (cubic boundaries), C102_differs (witness: a square with one side traversed unevenly)."
 },
 "C103": {
  "note": "C103_even (no change), C103_odd (exact difference), C103_centre (no change after setting the central control point), C103_changes (witness: a cubic patch whose centre moves from height 36 to 33.75)."
 },
 "C104": {
  "note": "C104_spatch, C104_superd, C104_gb (side-based; also shows that every point of the closed domain has a value), C104_corner. The curve-based surfaces are C98."
 },
 "C105": {
  "note": "C105_curve, C105_ends, C105_deviation, C105_root, C105_nan, C105_touch, C105_centre. C61 relates the result of the bisection to sign changes of the deviation; continuity of the deviation in h is not proved (it is not continuous: see C65_jump)."
 },
 "C106": {
  "note": "C106_gamma, C106_fullness, C106_squared, C106_hybrid."
 },
 "C107": {
  "note": "Interleaving semantics (sequentially consistent). A data race is a state where the next steps of two threads access the same object and one of them writes it; in C++ the behaviour is undefined then. C107_race is an equivalence. C107_values treats each lookup, call of mapToRibbon and insertion as one step, so it describes the code with locks around these, not the code as it is. C107_static and C107_wrong are about the code as it is. The mesh cache of the domain (domain.hh 53) is not part of the model of threads."
 },
 "C108": {
  "note": "Exact reals. C108_spatch: whole closed domain. C108_side: outside the corner tolerance, for tolerances up to sin^2(2 pi/n) sin(pi/n)/2 (regular domain of the library). C108_superd: outside the tolerance of the sides. C108_jump, C108_jumps: the discontinuity at the border of the corner tolerance, with a concrete patch."
 },
 "C109": {
  "note": "Exact arithmetic over ℝ. The comment in the source claims that the second formula is valid only for Wachspress coordinates in regular domains; it is proved for all strictly convex domains. The negative part is proved for mean value and discrete harmonic coordinates."
 },
 "C110": {
  "note": "Exact arithmetic over ℝ. The distances are the local parameters d (the second coordinates); the behaviour of the side blends with two near sides is given by a counterexample."
 },
 "C111": {
  "note": "C111_rotation: linear part only, every history. C111_motion: with translation, if all control points of the two networks correspond after the calls of the first part and the later part has no initNetwork(). Arc length is an input of the model that is assumed invariant. C111_central: changing the central control point moves the surface point by its weight times the change. C111_unset: the error when the central control point is not moved. C111_square: the weight for four sides. C111_stays: the negation for an unset central control point, a quartic patch with a square boundary whose midpoint stays behind by 9/64 of the translation."
 }
}