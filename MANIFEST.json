{
 "claims": [
  {
   "property": "C01",
   "status": "proved",
   "theorems": [
    "Transfinite.C01_mesh_counts",
    "Transfinite.C01_params_count",
    "Transfinite.C01_params_zero",
    "Transfinite.C01_circle_counts"
   ],
   "note": "All n >= 3 and all resolutions (polygonal domains and DomainCircle); resolution 0 is shown to divide by zero for 3 and 4 sides."
  },
  {
   "property": "C02",
   "status": "proved",
   "theorems": [
    "Transfinite.C02_oriented_manifold",
    "Transfinite.C02_circle_manifold",
    "Transfinite.C02_edge_sharing"
   ],
   "note": "All n >= 3 and all resolutions, polygonal and circle domains."
  },
  {
   "property": "C03",
   "status": "proved",
   "theorems": [
    "Transfinite.C03_boundary_loop",
    "Transfinite.C03_onEdge_iff",
    "Transfinite.C03_circle_onEdge_iff",
    "Transfinite.C03_euler"
   ],
   "note": "Also: the boundary is a single simple loop of n*r vertices, and the Euler characteristic is 1."
  },
  {
   "property": "C04",
   "status": "proved",
   "theorems": [
    "Transfinite.C04_circle",
    "Transfinite.C04_onEdge_is_edgePoint",
    "Transfinite.C04_not_onEdge_inside",
    "Transfinite.C04_edgePoint_is_vertex"
   ],
   "note": "Both directions; strict interior needs strict convexity and a centre inside (shown necessary hypotheses of the English statement). C04_circle: the disc."
  },
  {
   "property": "C05",
   "status": "proved",
   "theorems": [
    "Transfinite.C05_positive_area",
    "Transfinite.C05_area_sum"
   ],
   "note": "Positive orientation for strictly convex polygons, area sum for arbitrary polygons."
  },
  {
   "property": "C06",
   "status": "proved",
   "theorems": [
    "Transfinite.C06_cache_transparent",
    "Transfinite.C06_circle_stale"
   ],
   "note": "Proved for polygonal domains over all histories. DomainCircle violates it: C06_circle_stale gives a concrete history (n=3,res=3 then n=6,res=2) returning a stale list."
  },
  {
   "property": "C07",
   "status": "proved",
   "theorems": [
    "Transfinite.C07_local_inverse",
    "Transfinite.C07_local_endpoints",
    "Transfinite.C07_local_positive"
   ],
   "note": ""
  },
  {
   "property": "C08",
   "status": "proved",
   "theorems": [
    "Transfinite.C08_regular",
    "Transfinite.C08_regular_update",
    "Transfinite.C08_circular_arcs",
    "Transfinite.C08_circular_convex",
    "Transfinite.C08_center_inside",
    "Transfinite.C08_circular_update",
    "Transfinite.C08_regular_normal",
    "Transfinite.C08_update_normal",
    "Transfinite.C08_circular_normal"
   ],
   "note": "Circular domain: strict convexity for positive arcs each shorter than pi (half of the total), centre strictly inside."
  },
  {
   "property": "C09",
   "status": "proved",
   "theorems": [
    "Transfinite.C09_closed",
    "Transfinite.C09_box",
    "Transfinite.C09_check_iff",
    "Transfinite.C09_fallback",
    "Transfinite.C09_check_misses_reflex"
   ],
   "note": "Closedness, box and the exact meaning of the coded check are proved; C09_check_misses_reflex is a witness that the check accepts a non-convex polygon (disagreement with the code comment/intention)."
  },
  {
   "property": "C10",
   "status": "proved",
   "theorems": [
    "Transfinite.C10_hit",
    "Transfinite.C10_miss"
   ],
   "note": "Exact form, with the tolerance as a parameter."
  },
  {
   "property": "C11",
   "status": "proved",
   "theorems": [
    "Transfinite.C11_partition_precision",
    "Transfinite.C11_defined"
   ],
   "note": "All polygons, points and kinds; nonzero normaliser derived for closed strictly convex polygons (C11_defined)."
  },
  {
   "property": "C12",
   "status": "proved",
   "theorems": [
    "Transfinite.C12_coordinates",
    "Transfinite.C12_wachspress_condition",
    "Transfinite.C12_map_side"
   ],
   "note": "All three kinds of coordinates. mapToRibbon of the neighbours is stated outside the tolerance band, where the code divides."
  },
  {
   "property": "C13",
   "status": "proved",
   "theorems": [
    "Transfinite.C13_unit_square",
    "Transfinite.C13_meanvalue_positive"
   ],
   "note": "Wachspress and harmonic in the closed polygon; strict positivity for mean value coordinates inside."
  },
  {
   "property": "C14",
   "status": "proved",
   "theorems": [
    "Transfinite.C14_solves",
    "Transfinite.C14_inverts",
    "Transfinite.C14_side",
    "Transfinite.C14_regular"
   ],
   "note": "Solution property for every polygon; inverse and side values for convex domains; the regular domain is shown to satisfy the tolerance hypotheses."
  },
  {
   "property": "C15",
   "status": "proved",
   "theorems": [
    "Transfinite.C15_parallel",
    "Transfinite.C15_range"
   ],
   "note": ""
  },
  {
   "property": "C16",
   "status": "proved",
   "theorems": [
    "Transfinite.C16_interconnected",
    "Transfinite.C16_interconnected_side",
    "Transfinite.C16_interconnected_regular",
    "Transfinite.C16_constrained"
   ],
   "note": "Interconnected, on regular domains also end to end; constrained barycentric."
  },
  {
   "property": "C17",
   "status": "proved",
   "theorems": [
    "Transfinite.C17_complementary",
    "Transfinite.C17_odd"
   ],
   "note": ""
  },
  {
   "property": "C18",
   "status": "proved",
   "theorems": [
    "Transfinite.C18_ends",
    "Transfinite.C18_bisection",
    "Transfinite.C18_side_roundtrip",
    "Transfinite.C18_inverse"
   ],
   "note": "End angles, exact roundtrip on both sides, definedness and bracket in every strictly convex domain; the hypothesis left is that a crossed side is not nearly parallel to the ray (within the tolerance of intersectEdgeWithRay)."
  },
  {
   "property": "C19",
   "status": "proved",
   "theorems": [
    "Transfinite.C19_transparent",
    "Transfinite.C19_elements"
   ],
   "note": "All histories of update and map calls over the listed kinds of parameterization; the returned values equal an uncached computation on the domain of the last update."
  },
  {
   "property": "C20",
   "status": "proved",
   "theorems": [
    "Transfinite.C20_start",
    "Transfinite.C20_end",
    "Transfinite.C20_tiny_curve"
   ],
   "note": "Start value without any condition; end value when no grid step falls into the tolerances (C20_end also proves definedness). C20_tiny_curve: curves shorter than the tolerance give a division by zero."
  },
  {
   "property": "C21",
   "status": "proved",
   "theorems": [
    "Transfinite.C21_unit",
    "Transfinite.C21_perpendicular",
    "Transfinite.C21_defined",
    "Transfinite.C21_negative",
    "Transfinite.C21_exact"
   ],
   "note": "Unit length always; perpendicular exactly outside of the tolerances, and within (resolution+1)*sqrt(eps) in general."
  },
  {
   "property": "C22",
   "status": "proved",
   "theorems": [
    "Transfinite.C22_perpendicular",
    "Transfinite.C22_after_update",
    "Transfinite.C22_defined"
   ],
   "note": "Both compatible ribbons, every handler, multiplier and parameter: the cross derivative is perpendicular to the (unit) normal; after update() with the default fence the normal is always a unit vector (C22_after_update). With an overridden fence this needs the fence to return unit vectors, as the code does not normalize it."
  },
  {
   "property": "C23",
   "status": "proved",
   "theorems": [
    "Transfinite.C23_start",
    "Transfinite.C23_end",
    "Transfinite.C23_defined",
    "Transfinite.C23_perpendicular"
   ],
   "note": "End values of the cross derivative after update(), for the compatible ribbons (with and without handler) and the perpendicular one. At s=1 the frame must reach its end normal exactly, which needs consecutive samples farther than the tolerance (ExactCurve, see C20_tiny_curve for what happens otherwise). C23_defined: update() does not fault when consecutive tangents are not parallel."
  },
  {
   "property": "C24",
   "status": "proved",
   "theorems": [
    "Transfinite.C24_base",
    "Transfinite.C24_ruled",
    "Transfinite.C24_controls",
    "Transfinite.C24_zero_handler",
    "Transfinite.C24_middle",
    "Transfinite.C24_default_handler"
   ],
   "note": "Base curve, ruled structure, sequences of control calls against a small specification, value at s=1/2, default handler. Setting the zero vector as handler divides by zero (C24_zero_handler)."
  },
  {
   "property": "C25",
   "status": "proved",
   "theorems": [
    "Transfinite.C25_bottom",
    "Transfinite.C25_left",
    "Transfinite.C25_right",
    "Transfinite.C25_top",
    "Transfinite.C25_defined"
   ],
   "note": "Bottom, left and right side of the Coons ribbon after update() on a closed loop."
  },
  {
   "property": "C26",
   "status": "proved",
   "theorems": [
    "Transfinite.C26_length",
    "Transfinite.C26_derivative",
    "Transfinite.C26_orients",
    "Transfinite.C26_closed",
    "Transfinite.C26_oriented",
    "Transfinite.C26_surface"
   ],
   "note": "Orientation step of setupLoop for any curves; after it consecutive end points are the closest choice. Sharing of curve objects is not in this model (see C27). C26_derivative, C26_length: derivatives and lengths of the reversed curves."
  },
  {
   "property": "C27",
   "status": "proved",
   "theorems": [
    "Transfinite.C27_total",
    "Transfinite.C27_idempotent",
    "Transfinite.C27_surface"
   ],
   "note": "Closed loops given in any orientation are reversed to a consistently oriented loop."
  },
  {
   "property": "C28",
   "status": "proved",
   "theorems": [
    "Transfinite.C28_side",
    "Transfinite.C28_corner_inside",
    "Transfinite.C28_corner_side",
    "Transfinite.C28_corner_corner",
    "Transfinite.C28_corner_several",
    "Transfinite.C28_corner_exceptions"
   ],
   "note": "Side blends for any parameters; corner blends inside, with one close side, with two adjacent close sides, and the values for several close sides. C28_corner_exceptions: two opposite close sides give sum 0, three close sides of a triangle give sum 3."
  },
  {
   "property": "C29",
   "status": "proved",
   "theorems": [
    "Transfinite.C29_range",
    "Transfinite.C29_side",
    "Transfinite.C29_band"
   ],
   "note": "Range for parameters in the unit square; exact values and sum 1 at side points that are at the corners or at least the tolerance away from them. C29_band: the exact sum on the whole side, including the tolerance bands."
  },
  {
   "property": "C30",
   "status": "proved",
   "theorems": [
    "Transfinite.C30_side",
    "Transfinite.C30_corner"
   ],
   "note": "For convex angular domains, at points of sides further than the relative tolerance from other sides, and at corners. Curves are exact in the sense of ExactCurve (fence samples well-behaved)."
  },
  {
   "property": "C31",
   "status": "proved",
   "theorems": [
    "Transfinite.C31_side"
   ],
   "note": "Whole side, tolerance below sin(2pi/n); for triangles a band of width about the tolerance at the end of the side is excluded."
  },
  {
   "property": "C32",
   "status": "proved",
   "theorems": [
    "Transfinite.C32_side"
   ],
   "note": "Whole side, tolerance below sin(2pi/n) sin(pi/n)/2; for triangles a band at the end of the side is excluded."
  },
  {
   "property": "C33",
   "status": "proved",
   "theorems": [
    "Transfinite.C33_side"
   ],
   "note": "Whole side, tolerance at most 1/2."
  },
  {
   "property": "C34",
   "status": "proved",
   "theorems": [
    "Transfinite.C34_midpoint",
    "Transfinite.C34_midpointCoons",
    "Transfinite.C34_band",
    "Transfinite.C34_bandCoons",
    "Transfinite.C34_violated"
   ],
   "note": "C34_midpoint, C34_midpointCoons: corners and the points at least the tolerance away from them. C34_band, C34_bandCoons: the exact value in the bands (the bands at the start of the sides for both classes; at the end of the sides for the midpoint class with at least four sides). C34_violated: the surfaces do not go through all boundary points near a corner."
  },
  {
   "property": "C35",
   "status": "proved",
   "theorems": [
    "Transfinite.C35_side",
    "Transfinite.C35_whole",
    "Transfinite.C35_triangle"
   ],
   "note": "C35_whole: whole sides for n >= 4; C35_side: n >= 3 except the band of the tolerance before the end of the side; C35_triangle: the two possible values in this band for triangles. The curves need not be smooth."
  },
  {
   "property": "C36",
   "status": "proved",
   "theorems": [
    "Transfinite.C36_set",
    "Transfinite.C36_kept",
    "Transfinite.C36_default",
    "Transfinite.C36_four"
   ],
   "note": "Value at the centre after setMidpoint, after later updates, and of the default midpoint, for both midpoint classes and every number of sides except four; the deficiency at the centre is computed ((n-2)(n-4)/n^2 for the midpoint class) and bounded away from zero; C36_four: no effect for four sides. Tolerance at most 1/200 and at most 2/n."
  },
  {
   "property": "C37",
   "status": "proved",
   "theorems": [
    "Transfinite.GB.C37_corner",
    "Transfinite.GB.C37_corner_later",
    "Transfinite.GB.C37_corner_stale",
    "Transfinite.C37_mesh",
    "Transfinite.C37_defined",
    "Transfinite.C37_gb",
    "Transfinite.C37_hybrid",
    "Transfinite.C37_spatch",
    "Transfinite.C37_superd",
    "Transfinite.C37_hybrid_defined",
    "Transfinite.C37_gb_defined",
    "Transfinite.C37_spatch_defined",
    "Transfinite.C37_superd_defined"
   ],
   "note": "For every call history. C37_mesh: transfinite surfaces; C37_gb, C37_hybrid, C37_spatch, C37_superd: surfaces with control points, where the histories contain evaluations of meshes as well. C37_*_defined: success (from the success of the pointwise evaluations, or for all usable objects and resolutions ≥ 1). C37_corner_stale: the code violates the property for the corner-based Generalized Bézier patch (cache of DomainCircle, C06_circle_stale), which is therefore not in the quantifier. C37_corner, C37_corner_later: it holds for this patch as long as all meshes are evaluated with the same number of sides."
  },
  {
   "property": "C38",
   "status": "proved",
   "theorems": [
    "Transfinite.Patch.C38_one",
    "Transfinite.Patch.C38_many"
   ],
   "note": "C38_one: exact equality of states (and of failure) after update() and any calls that change controls of one ribbon only, including queries and midpoint calls; C38_many: several sides, equality up to cache contents, hence of all points."
  },
  {
   "property": "C39",
   "status": "proved",
   "theorems": [
    "Transfinite.C39_difference",
    "Transfinite.C39_insufficient"
   ],
   "note": "C39_difference gives the exact difference of the two surfaces for C0 Coons patches at the domain centre; C39_insufficient is the concrete witness on a square with one side re-parameterized."
  },
  {
   "property": "C40",
   "status": "proved",
   "theorems": [
    "Transfinite.C40_deep",
    "Transfinite.C40_shared"
   ],
   "note": "Proved for the Generalized Bezier classes (side and corner based): C40_deep is the simulation of programs without changes of side counts by surfaces with their own data; C40_shared is what happens otherwise. The ribbons of the transfinite patches, which are shared as well, are not in this model."
  },
  {
   "property": "C41",
   "status": "proved",
   "theorems": [
    "Transfinite.GB.C41_names",
    "Transfinite.GB.C41_map",
    "Transfinite.GB.C41_write",
    "Transfinite.GB.C41_consistent",
    "Transfinite.GB.C41_stale_init"
   ],
   "note": "All call histories without the public setCurves (which desynchronises the net, C41_stale_init): every pair of names of one control point agrees after any sequence of initialisation, writes through setControlPoint, loop setup and evaluation. setIndividualControlPoint is excluded from the consistency claim since breaking it is its documented purpose."
  },
  {
   "property": "C42",
   "status": "proved",
   "theorems": [
    "Transfinite.GB.C42_side",
    "Transfinite.GB.C42_corner",
    "Transfinite.GB.C42_curve",
    "Transfinite.GB.C42_degree_one",
    "Transfinite.GB.C42_degree_one_fails"
   ],
   "note": "Side variant, degree >= 2, both weight variants, every call history ending in a set-up loop: Bezier curve at least the tolerance away from the corners, exactly the corner control point within it. C42_curve: the curve stored by setupLoop is the Bezier curve of the boundary row, also after orientation. Degree 1 violates the property (C42_degree_one, C42_degree_one_fails)."
  },
  {
   "property": "C43",
   "status": "proved",
   "theorems": [
    "Transfinite.GB.C43_sum",
    "Transfinite.GB.C43_corner",
    "Transfinite.GB.C43_affine"
   ],
   "note": "C43_sum: eval is the sum of weight() times controlPoint() plus the rest times the central point, both computed by calls on the same object; C43_corner: the same near a corner; C43_affine: affine invariance, including failures."
  },
  {
   "property": "C44",
   "status": "proved",
   "theorems": [
    "Transfinite.GB.C44_side",
    "Transfinite.GB.C44_curve",
    "Transfinite.GB.C44_triangle",
    "Transfinite.GB.C44_triangle_fails",
    "Transfinite.GB.C44_weights"
   ],
   "note": "Interpolation on the whole side for n >= 4 and odd degree (C44_side, C44_curve); triangles violate it (C44_triangle gives the exact difference, C44_triangle_fails a concrete patch). C44_weights: weights explain eval for every n >= 3 in every point. std::fmod enters by its specification on nonnegative arguments."
  },
  {
   "property": "C45",
   "status": "proved",
   "theorems": [
    "Transfinite.GB.C45_roundtrip",
    "Transfinite.GB.C45_surface",
    "Transfinite.GB.C45_before_setup"
   ],
   "note": "Over exact reals, with an arbitrary rounding by printing and reading. Files are token lists that can always be opened. C45_surface: the surface is the same if printing is exact and the flag of squared rational weights agrees (it is not stored). C45_before_setup: before setupLoop the file has 0 sides."
  },
  {
   "property": "C46",
   "status": "proved",
   "theorems": [
    "Transfinite.GB.C46_enumeration",
    "Transfinite.GB.C46_rest"
   ],
   "note": "For all n, d and f. C46_rest covers the loops started at a later row."
  },
  {
   "property": "C47",
   "status": "proved",
   "theorems": [
    "Transfinite.GB.C47_export",
    "Transfinite.GB.C47_cells"
   ],
   "note": "C47_export: the whole file, for every n >= 3, degree >= 1. C47_cells: the faces are exactly the cells of the network, each once."
  },
  {
   "property": "C48",
   "status": "proved",
   "theorems": [
    "Transfinite.GB.C48_elevate",
    "Transfinite.GB.C48_side"
   ],
   "note": "Exact reals. The elevated patch is again a patch made by public calls, with the same boundary curves and corners; all its control points (none left unset) and the centre lie in every convex set that holds the original ones. C48_side: the two surfaces agree on the domain sides."
  },
  {
   "property": "C49",
   "status": "proved",
   "theorems": [
    "Transfinite.GB.C49_rows",
    "Transfinite.GB.C49_third_row",
    "Transfinite.GB.C49_degree_two"
   ],
   "note": "C49_rows: for every solver result and every sample set; the original may be of either kind. C49_third_row and C49_degree_two record disagreements: 3 fixed rows do not keep the third row (it becomes the origin), and degree 2 reads out of range. The linear solver of Eigen is an arbitrary function."
  },
  {
   "property": "C50",
   "status": "proved",
   "theorems": [
    "Transfinite.SPatch.C50_weights",
    "Transfinite.SPatch.C50_side",
    "Transfinite.SPatch.C50_interpolates",
    "Transfinite.SPatch.C50_precision",
    "Transfinite.SPatch.C50_setupLoop",
    "Transfinite.SPatch.C50_setCurves",
    "Transfinite.SPatch.C50_control",
    "Transfinite.SPatch.C50_boundary",
    "Transfinite.SPatch.C50_deep",
    "Transfinite.SPatch.C50_complete"
   ],
   "note": "For every history of calls with initNetwork, setControlPoint (with valid labels), setupLoop and eval. The depth is at most 20 (the factorials do not fit in 64 bits above that: C50_deep). Missing control points are treated as in the code (they count as zero). lround(tgamma(n+1)) is taken to be the exact factorial. Exact arithmetic."
  },
  {
   "property": "C51",
   "status": "proved",
   "theorems": [
    "Transfinite.SuperD.C51_side",
    "Transfinite.SuperD.C51_interpolates",
    "Transfinite.SuperD.C51_fullness_zero",
    "Transfinite.SuperD.C51_fullness_one",
    "Transfinite.SuperD.C51_defined",
    "Transfinite.SuperD.C51_control",
    "Transfinite.SuperD.C51_setupLoop",
    "Transfinite.SuperD.C51_planar",
    "Transfinite.SuperD.C51_complete"
   ],
   "note": "Exact over the reals, for every history of calls. The English claim 'fullness 1 reaches the control point' is refined: the inner control points are at the edge point, the curve itself is not (C51_fullness_one: weight 7/8 in the middle). For n >= 7, within the tolerance of a corner the value is the mean of two points of the curve (C51_side)."
  },
  {
   "property": "C52",
   "status": "proved",
   "theorems": [
    "Transfinite.C52_boundary",
    "Transfinite.C52_side",
    "Transfinite.C52_near",
    "Transfinite.C52_default"
   ],
   "note": "Whole objects with any history. The linear solver is an arbitrary function. Real arithmetic."
  },
  {
   "property": "C53",
   "status": "proved",
   "theorems": [
    "Transfinite.C53_bernstein_table",
    "Transfinite.C53_bernstein_sum",
    "Transfinite.C53_bernstein_nonneg",
    "Transfinite.C53_bernstein_agree",
    "Transfinite.C53_bernstein_oob"
   ],
   "note": ""
  },
  {
   "property": "C54",
   "status": "proved",
   "theorems": [
    "Transfinite.C54_binomial_correct",
    "Transfinite.C54_binomial_small",
    "Transfinite.C54_binomial_overflow"
   ],
   "note": "Proved for n <= 62 (stronger than stated); overflow witness binomial(63,32)."
  },
  {
   "property": "C55",
   "status": "proved",
   "theorems": [
    "Transfinite.C55_hermite_sum",
    "Transfinite.C55_hermite_symm",
    "Transfinite.C55_hermite_values",
    "Transfinite.C55_hermite_derivs",
    "Transfinite.C55_hermite_mono"
   ],
   "note": ""
  },
  {
   "property": "C56",
   "status": "proved",
   "theorems": [
    "Transfinite.C56_bezierElevate",
    "Transfinite.C56_bezierElevate_empty"
   ],
   "note": ""
  },
  {
   "property": "C57",
   "status": "proved",
   "theorems": [
    "Transfinite.BCurve.C57_eval",
    "Transfinite.BCurve.C57_reverse",
    "Transfinite.BCurve.C57_hull",
    "Transfinite.BCurve.C57_derivatives",
    "Transfinite.BCurve.C57_arc_bounds",
    "Transfinite.BCurve.C57_arc_exact",
    "Transfinite.BCurve.C57_arc_reverse"
   ],
   "note": "Over an arbitrary field (evaluation, reversal, convex hull over ordered fields) and the reals (derivatives of all orders as iteratedDeriv of the coordinate functions; arc length). The default constructor, which leaves the degree uninitialised, is not modelled."
  },
  {
   "property": "C58",
   "status": "proved",
   "theorems": [
    "Transfinite.BCurve.C58_fit",
    "Transfinite.BCurve.C58_terminates",
    "Transfinite.BCurve.C58_degree_zero",
    "Transfinite.BCurve.C58_degree_one"
   ],
   "note": "The numbers returned by the optimizer are an arbitrary function of the degree. Division by zero when normalizing is a distinct outcome (in the C++ code it gives NaN coordinates). Matrix3x3::rotation of libgeom is assumed to be the usual rotation matrix. Recursion is modelled with fuel, 7 levels are proved enough."
  },
  {
   "property": "C59",
   "status": "proved",
   "theorems": [
    "Transfinite.NelderMead.C59_step",
    "Transfinite.NelderMead.C59_optimize",
    "Transfinite.NelderMead.C59_monotone",
    "Transfinite.NelderMead.C59_tolerance",
    "Transfinite.NelderMead.C59_evaluations"
   ],
   "note": "Model of optimize of nelder-mead.cc for an arbitrary function, over an ordered field (exact arithmetic; function values that are NaN or infinite are not modelled). Every iteration is proved to be one step of the Nelder-Mead method given by an independent specification; the result is never worse than any vertex of any earlier simplex; true is returned only if the variance of the final values is below the tolerance; the number of function evaluations is at most n+1 plus n+2 per iteration."
  },
  {
   "property": "C60",
   "status": "proved",
   "theorems": [
    "Transfinite.Harmonic.C60_update",
    "Transfinite.Harmonic.C60_harmonic"
   ],
   "note": "C60_update: update() succeeds. C60_harmonic: success, topology, boundary vertices and unique minimization of the Dirichlet energy, for every history with an up-to-date domain and closed loop. Trusted: SparseLU is a function that solves regular systems (the system is proved to be regular); sparse storage is not modelled; exact arithmetic."
  },
  {
   "property": "C61",
   "status": "proved",
   "theorems": [
    "Transfinite.C61_in_bracket",
    "Transfinite.C61_sign_change"
   ],
   "note": " The function may return NaNs (none), which end the loop."
  },
  {
   "property": "C62",
   "status": "proved",
   "theorems": [
    "Transfinite.OBJ.C62_white",
    "Transfinite.C62_read",
    "Transfinite.C62_complete",
    "Transfinite.C62_no_faces",
    "Transfinite.C62_normals",
    "Transfinite.C62_texture",
    "Transfinite.C62_slashes"
   ],
   "note": "Character-level model of the istringstream with its failbit; number conversion is an arbitrary function. The disagreements with the OBJ format are proved (C62_normals, C62_texture, C62_slashes, C62_no_faces). C62_white: which characters are white space."
  },
  {
   "property": "C63",
   "status": "proved",
   "theorems": [
    "Transfinite.C63_ribbon",
    "Transfinite.C63_only3",
    "Transfinite.C63_three",
    "Transfinite.C63_value",
    "Transfinite.C63_side3",
    "Transfinite.C63_not_interpolating",
    "Transfinite.C63_left"
   ],
   "note": "Exact reals. Caches of the two parameterizations are handled by the Fresh predicate (any history of queries after update)."
  },
  {
   "property": "C64",
   "status": "proved",
   "theorems": [
    "Transfinite.C64_call",
    "Transfinite.C64_history",
    "Transfinite.C64_built"
   ],
   "note": "For the seven classes of the Patch model (side-based, corner-based, generalized Coons, composite ribbon, midpoint, midpoint Coons, C0 Coons). Side-based requires that the angular domain is a convex polygon. Handlers are nonzero, or the default handler is defined (HasDefault)."
  },
  {
   "property": "C65",
   "status": "proved",
   "theorems": [
    "Transfinite.Param.C65_side",
    "Transfinite.Param.C65_range",
    "Transfinite.Param.C65_jump"
   ],
   "note": "Boundary values, range and absence of failures; C65_jump proves a defect: for 12 sides a NaN in the bisection makes the parameter discontinuous at the circle."
  },
  {
   "property": "C66",
   "status": "proved",
   "theorems": [
    "Transfinite.GB.C66_equations"
   ],
   "note": "Exact reals; the solver is an arbitrary function, so the theorem is about the system and the patch made from any candidate solution, not about the quality of Eigen's solution. Samples are in the closed domain, either exactly in a corner or where no two consecutive side distances are both below epsilon."
  },
  {
   "property": "C67",
   "status": "proved",
   "theorems": [
    "Transfinite.BCurve.C67_polygon",
    "Transfinite.BCurve.C67_matrix"
   ],
   "note": "Same model as C58. The map is stated as an additive, scalar-product preserving map times a number."
  },
  {
   "property": "C68",
   "status": "proved",
   "theorems": [
    "Transfinite.Param.C68_perpPolar",
    "Transfinite.Param.C68_side"
   ],
   "note": "Exact reals."
  },
  {
   "property": "C69",
   "status": "proved",
   "theorems": [
    "Transfinite.C69_energy"
   ],
   "note": "The energy is the integral of the squared second derivative of the cubics with the given end data (strip_ends in Lemmas/Elastic.lean). Assumes that the solver (Eigen's QR) solves solvable 3x3 systems."
  },
  {
   "property": "C70",
   "status": "proved",
   "theorems": [
    "Transfinite.Harmonic.C70_planar",
    "Transfinite.Harmonic.C70_affine"
   ],
   "note": "C70_planar: the vertices are in the plane of the loop. C70_affine: affine precision. Both for every history with an up-to-date domain; same trusted base as C60."
  },
  {
   "property": "C71",
   "status": "proved",
   "theorems": [
    "Transfinite.Hybrid.C71_side",
    "Transfinite.Hybrid.C71_curves",
    "Transfinite.Hybrid.C71_built",
    "Transfinite.Hybrid.C71_outer"
   ],
   "note": "C71_side: interpolation for every up-to-date object; C71_curves: the curves after setupLoop; C71_built: a history of calls that succeeds; C71_outer: the outer layers have no effect. Nothing is claimed for 0 < s < eps and 1 - eps < s < 1, where the weights are those of the corner."
  },
  {
   "property": "C72",
   "status": "proved",
   "theorems": [
    "Transfinite.C72_side",
    "Transfinite.C72_corner",
    "Transfinite.C72_interpolation",
    "Transfinite.C72_not_interpolating"
   ],
   "note": "C72_side gives the exact value on the sides, C72_corner at the corners, C72_interpolation characterizes when a polynomial boundary curve is interpolated, and C72_not_interpolating is a concrete counterexample to boundary interpolation (the direction D1p in polarRibbon is not normalized)."
  },
  {
   "property": "C73",
   "status": "proved",
   "theorems": [
    "Transfinite.Biharmonic.C73_biharmonic",
    "Transfinite.Biharmonic.C73_update"
   ],
   "note": "C73_biharmonic and C73_update. The Eigen factorization is a parameter that solves regular square systems (Harmonic.Solver); that the two systems are regular is proved (energy argument). The minimum is over all mesh functions with the same boundary values."
  },
  {
   "property": "C74",
   "status": "proved",
   "theorems": [
    "Transfinite.Biharmonic.C74_partition",
    "Transfinite.Biharmonic.C74_circumcenter",
    "Transfinite.Biharmonic.C74_obtuse",
    "Transfinite.Biharmonic.C74_mesh"
   ],
   "note": "C74_partition (positivity and sum), C74_circumcenter and C74_obtuse (the geometry), C74_mesh (whole mesh)."
  },
  {
   "property": "C75",
   "status": "proved",
   "theorems": [
    "Transfinite.Biharmonic.C75_plane",
    "Transfinite.Biharmonic.C75_affine"
   ],
   "note": "C75_plane and C75_affine."
  },
  {
   "property": "C76",
   "status": "proved",
   "theorems": [
    "Transfinite.C76_side"
   ],
   "note": "One-sided derivative of the surface along any path, exactly in the plane of the ribbon; square with fences as example."
  },
  {
   "property": "C77",
   "status": "proved",
   "theorems": [
    "Transfinite.C77_side"
   ],
   "note": "Derivative in the plane of the ribbon up to the error of the finite-difference twists, which is bounded by the change of the twist within 1/10000."
  },
  {
   "property": "C78",
   "status": "proved",
   "theorems": [
    "Transfinite.C78_side"
   ],
   "note": "As C77, interconnected parameters."
  },
  {
   "property": "C79",
   "status": "proved",
   "theorems": [
    "Transfinite.C79_side"
   ],
   "note": "As C77, composite ribbons."
  },
  {
   "property": "C80",
   "status": "proved",
   "theorems": [
    "Transfinite.C80_midpoint",
    "Transfinite.C80_midpointCoons"
   ],
   "note": "As C77; the central control point has no influence."
  },
  {
   "property": "C81",
   "status": "proved",
   "theorems": [
    "Transfinite.C81_fences",
    "Transfinite.C81_plane",
    "Transfinite.C81_built"
   ],
   "note": "Fences give smooth ribbons (C81_fences), the tangent planes are perpendicular to the fence up to the error (C81_plane), and such surfaces can be built (C81_built)."
  },
  {
   "property": "C82",
   "status": "proved",
   "theorems": [
    "Transfinite.C82_read",
    "Transfinite.C82_count",
    "Transfinite.C82_truncated",
    "Transfinite.C82_empty"
   ],
   "note": "Numbers are read by an arbitrary function from tokens; the constructor of BSCurve (libgeom) is represented by its arguments. Memory is never exhausted."
  },
  {
   "property": "C83",
   "status": "proved",
   "theorems": [
    "Transfinite.C83_lines",
    "Transfinite.C83_short"
   ],
   "note": "The contents of the file are given as lines of tokens."
  },
  {
   "property": "C84",
   "status": "proved",
   "theorems": [
    "Transfinite.C84_read",
    "Transfinite.C84_only",
    "Transfinite.C84_complete",
    "Transfinite.C84_exception",
    "Transfinite.C84_missing"
   ],
   "note": "For n + d <= 63, where the binomial coefficient is computed without overflow (C54)."
  },
  {
   "property": "C85",
   "status": "proved",
   "theorems": [
    "Transfinite.C85_read"
   ],
   "note": "For patches with at least three sides."
  },
  {
   "property": "C86",
   "status": "proved",
   "theorems": [
    "Transfinite.C86_point",
    "Transfinite.C86_convex",
    "Transfinite.C86_inside",
    "Transfinite.C86_degenerate",
    "Transfinite.C86_outside",
    "Transfinite.C86_points",
    "Transfinite.C86_vertex",
    "Transfinite.C86_domain"
   ],
   "note": "parameterizePoints: C86_points (one parameter per point, from the vertices of the closest triangle), C86_point (formula of the weights), C86_convex, C86_domain (in the domain), C86_inside (linear interpolation), C86_vertex (mesh vertices are reproduced), C86_degenerate (division by zero), C86_outside (witness for points that are not above the triangle). TriMesh::closestTriangle is external: any function that gives triangles of the mesh."
  },
  {
   "property": "C87",
   "status": "proved",
   "theorems": [
    "Transfinite.C87_history",
    "Transfinite.C87_eval",
    "Transfinite.C87_rotation",
    "Transfinite.C87_mesh",
    "Transfinite.C87_ribbon"
   ],
   "note": "C87_history (same faults, same domain and parameterization, moved curves), C87_eval, C87_rotation (rotations about the origin: no conditions), C87_mesh, C87_ribbon. For the seven classes of the Patch model. arcLength of a curve is an input of the model, the same for the moved curve. Exact arithmetic: in floating point this holds up to rounding. The condition ClearPoint is needed for translations, since the weights of the corners sum to 1 only then (C28_corner_several shows the other case)."
  },
  {
   "property": "C88",
   "status": "proved",
   "theorems": [
    "Transfinite.C88_plane",
    "Transfinite.C88_origin",
    "Transfinite.C88_mesh",
    "Transfinite.C88_ribbon",
    "Transfinite.C88_fold",
    "Transfinite.C88_reflex"
   ],
   "note": "C88_plane (eval), C88_origin (planes through the origin: no condition on the point or the number of sides), C88_mesh, C88_ribbon (fence, cross derivative, ribbon). C88_fold and C88_reflex are the disagreement for loops with a reflex corner: the rotation minimizing frame starts with the normal N at one end and ends with -N at the other, so the fence turns by pi about the curve; a pentagon with a reflex corner and handlers N gives a midpoint surface leaving the plane. Exact arithmetic."
  },
  {
   "property": "C89",
   "status": "proved",
   "theorems": [
    "Transfinite.C89_history",
    "Transfinite.C89_eval",
    "Transfinite.C89_ribbons",
    "Transfinite.C89_params"
   ],
   "note": "Relation between two runs of the Patch model, preserved by every call; over the reals, so sums in another order are equal. Classes with regular domains; the side-based class has an angular domain, whose convexity check depends on the direction of the first side (C09_check_misses_reflex), so the claim is not made for it."
  },
  {
   "property": "C90",
   "status": "proved",
   "theorems": [
    "Transfinite.Biharmonic.C90_plane",
    "Transfinite.Biharmonic.C90_biharmonic",
    "Transfinite.Biharmonic.C90_flat",
    "Transfinite.Biharmonic.C90_direction",
    "Transfinite.Biharmonic.C90_tiny"
   ],
   "note": "jacobiSvd, the formatting of the area, triangulate and the sparse solver are external parameters with the contracts stated in the theorems (Principal, Triangulation, Solver)."
  },
  {
   "property": "C91",
   "status": "proved",
   "theorems": [
    "Transfinite.C91_moments",
    "Transfinite.C91_quartiles",
    "Transfinite.C91_position",
    "Transfinite.C91_lower",
    "Transfinite.C91_short",
    "Transfinite.C91_median",
    "Transfinite.C91_histogram",
    "Transfinite.C91_bars",
    "Transfinite.C91_gap"
   ],
   "note": "Real numbers instead of doubles; std::sort is modelled by a merge sort, but only that the result is sorted and a permutation is used. The text of the picture is not modelled, only the heights of the bars. The middle number is not the median and the histogram miscounts sparse values: C91_median and C91_gap are witnesses."
  },
  {
   "property": "C92",
   "status": "proved",
   "theorems": [
    "Transfinite.C92_plane",
    "Transfinite.C92_triangle",
    "Transfinite.C92_outside",
    "Transfinite.C92_degenerate",
    "Transfinite.C92_points"
   ],
   "note": "closestTriangle is external (libgeom): any function that finds a triangle of the mesh with an area. The distance is underestimated for points that are not above the triangle: C92_outside is a witness."
  },
  {
   "property": "C93",
   "status": "proved",
   "theorems": [
    "Transfinite.Demo.C93_meaning",
    "Transfinite.Demo.C93_zero",
    "Transfinite.Demo.C93_midpoint",
    "Transfinite.Demo.C93_fence",
    "Transfinite.Demo.C93_ribbons",
    "Transfinite.Demo.C93_resolution"
   ],
   "note": "Exact arithmetic. The tangential test (test.cc 125-152), the writing of the files and the time measurement are not modelled. The side-based class is excluded from the zero error (see C30 for its conditions); the ribbon mesh is proved for the classes with handlers."
  },
  {
   "property": "C94",
   "status": "proved",
   "theorems": [
    "Transfinite.RMF.C94_frame",
    "Transfinite.RMF.C94_unit",
    "Transfinite.C94_tiny",
    "Transfinite.C94_loop",
    "Transfinite.C94_polygon"
   ],
   "note": "RMF.C94_frame is the exact condition, RMF.C94_unit the threshold of the unit of length; C94_tiny is about update() after any history, C94_loop and C94_polygon about whole surfaces made from a loop. The C++ code does not stop at the division by 0 but continues with NaN normals; in the model this is the fault divZero. The positive part of C94_polygon excludes side-based surfaces, whose angular domain needs further hypotheses (C64)."
  },
  {
   "property": "C95",
   "status": "proved",
   "theorems": [
    "Transfinite.GB.C95_derivative",
    "Transfinite.GB.C95_tangent",
    "Transfinite.GB.C95_squared",
    "Transfinite.GB.C95_normal",
    "Transfinite.GB.C95_individual"
   ],
   "note": "Props/GenBezierTangent.lean, Lemmas/TangentGB.lean, Spec/GBTangent.lean. Exact arithmetic; derivative = one-sided derivative at t = 0 along paths in the domain. Degrees 1 and 2 have one layer only, so there is no second row. The corner-based variant (GeneralizedBezierCorner) is not covered."
  },
  {
   "property": "C96",
   "status": "proved",
   "theorems": [
    "Transfinite.Demo.C96_meaning",
    "Transfinite.Demo.C96_limit",
    "Transfinite.Demo.C96_exact",
    "Transfinite.Demo.C96_reversed",
    "Transfinite.Demo.C96_corner",
    "Transfinite.Demo.C96_triangle",
    "Transfinite.Demo.C96_bezier"
   ],
   "note": "The limit is proved at inner parameters (0 < s < 1) only: at corners the second point can be outside of the domain (C96_corner, C96_triangle). Exact arithmetic: the rounding error of the numerical derivative is not modelled."
  },
  {
   "property": "C97",
   "status": "proved",
   "theorems": [
    "Transfinite.Hybrid.C97_derivative",
    "Transfinite.Hybrid.C97_side",
    "Transfinite.Hybrid.C97_squared",
    "Transfinite.Hybrid.C97_normal",
    "Transfinite.Hybrid.C97_fences",
    "Transfinite.Hybrid.C97_plane",
    "Transfinite.Hybrid.C97_built"
   ],
   "note": "Derivative along every path of the domain, for every reachable updated state; C97_derivative gives the exact value also for non-squared weights; C97_squared shows that squared weights are the default in every history; C97_fences and C97_plane give the case of normal fences, C97_built constructs such objects."
  },
  {
   "property": "C98",
   "status": "proved",
   "theorems": [
    "Transfinite.SuperD.C98_derivative",
    "Transfinite.SuperD.C98_normal",
    "Transfinite.SuperD.C98_vertex",
    "Transfinite.SuperD.C98_smooth",
    "Transfinite.SuperD.C98_mixed"
   ],
   "note": "C98_derivative, C98_normal: derivative and tangent plane on the sides. C98_smooth: tangent plane continuous joins. C98_mixed: 4 sides next to 5 sides fails (concrete patches). C98_vertex: no effect of the vertex control point with more than 4 sides."
  },
  {
   "property": "C99",
   "status": "proved",
   "theorems": [
    "Transfinite.GB.C99_gb",
    "Transfinite.SuperD.C99_superd",
    "Transfinite.SPatch.C99_spatch",
    "Transfinite.SPatch.C99_missing"
   ],
   "note": "C99_gb (any ordered field, both classes, all uv including failures), C99_superd, C99_spatch (complete networks), C99_missing (points that were not set stay at zero, so such an S-patch is not translated with its control points). The maps are Mathlib's affine maps. The two patches may have different histories; only their final control points are related."
  },
  {
   "property": "C100",
   "status": "proved",
   "theorems": [
    "Transfinite.SPatch.C100_spatch",
    "Transfinite.SuperD.C100_superd",
    "Transfinite.SuperD.C100_superd_many",
    "Transfinite.SuperD.C100_superd_full",
    "Transfinite.GB.C100_gb_centre",
    "Transfinite.GB.C100_gb_triangle",
    "Transfinite.GB.C100_gb",
    "Transfinite.GB.C100_gb_inside"
   ],
   "note": "C100_spatch, C100_superd (3 or 4 sides), C100_gb (sum of weights at most 1), C100_gb_inside (centre of cubic patches with at least 4 sides), C100_gb_centre (effect of the central control point, all n); negative: C100_superd_many (5 sides), C100_superd_full (fullness 2), C100_gb_triangle (3 sides). The hull is Mathlib's convexHull of the points returned by the getters. Corner-based GB patches are not included."
  },
  {
   "property": "C101",
   "status": "proved",
   "theorems": [
    "Transfinite.SPatch.C101_spatch",
    "Transfinite.SuperD.C101_superd",
    "Transfinite.GB.C101_grid",
    "Transfinite.GB.C101_gb",
    "Transfinite.GB.C101_gb_corner",
    "Transfinite.GB.C101_gb_quadratic"
   ],
   "note": "C101_spatch, C101_superd, C101_grid (the control net of a four-sided GB patch is a grid, which exists and is unique), C101_gb (outside of the corner zones), C101_gb_corner (in the corner zones), C101_gb_quadratic (negation for degree 2)."
  },
  {
   "property": "C102",
   "status": "proved",
   "theorems": [
    "Transfinite.C102_coons",
    "Transfinite.C102_cubic",
    "Transfinite.C102_differs"
   ],
   "note": "C102_coons (exact value), C102_cubic (cubic boundaries), C102_differs (witness: a square with one side traversed unevenly)."
  },
  {
   "property": "C103",
   "status": "proved",
   "theorems": [
    "Transfinite.GB.C103_even",
    "Transfinite.GB.C103_odd",
    "Transfinite.GB.C103_centre",
    "Transfinite.GB.C103_changes"
   ],
   "note": "C103_even (no change), C103_odd (exact difference), C103_centre (no change after setting the central control point), C103_changes (witness: a cubic patch whose centre moves from height 36 to 33.75)."
  },
  {
   "property": "C104",
   "status": "proved",
   "theorems": [
    "Transfinite.SPatch.C104_spatch",
    "Transfinite.SuperD.C104_superd",
    "Transfinite.GB.C104_gb",
    "Transfinite.GB.C104_corner"
   ],
   "note": "C104_spatch, C104_superd, C104_gb (side-based; also shows that every point of the closed domain has a value), C104_corner. The curve-based surfaces are C98."
  },
  {
   "property": "C105",
   "status": "proved",
   "theorems": [
    "Transfinite.Param.C105_curve",
    "Transfinite.Param.C105_ends",
    "Transfinite.Param.C105_deviation",
    "Transfinite.Param.C105_root",
    "Transfinite.Param.C105_nan",
    "Transfinite.Param.C105_centre",
    "Transfinite.Param.C105_touch"
   ],
   "note": "C105_curve, C105_ends, C105_deviation, C105_root, C105_nan, C105_touch, C105_centre. C61 relates the result of the bisection to sign changes of the deviation; continuity of the deviation in h is not proved (it is not continuous: see C65_jump)."
  },
  {
   "property": "C106",
   "status": "proved",
   "theorems": [
    "Transfinite.C106_gamma",
    "Transfinite.C106_fullness",
    "Transfinite.C106_squared",
    "Transfinite.C106_hybrid"
   ],
   "note": "C106_gamma, C106_fullness, C106_squared, C106_hybrid."
  },
  {
   "property": "C107",
   "status": "proved",
   "theorems": [
    "Transfinite.Param.C107_values",
    "Transfinite.Param.C107_race",
    "Transfinite.Param.C107_warm",
    "Transfinite.Param.C107_alone",
    "Transfinite.RMF.C107_lock",
    "Transfinite.RMF.C107_eval",
    "Transfinite.RMF.C107_static",
    "Transfinite.C107_wrong"
   ],
   "note": "Interleaving semantics (sequentially consistent). A data race is a state where the next steps of two threads access the same object and one of them writes it; in C++ the behaviour is undefined then. C107_race is an equivalence. C107_values treats each lookup, call of mapToRibbon and insertion as one step, so it describes the code with locks around these, not the code as it is. C107_static and C107_wrong are about the code as it is. The mesh cache of the domain (domain.hh 53) is not part of the model of threads."
  },
  {
   "property": "C108",
   "status": "proved",
   "theorems": [
    "Transfinite.SPatch.C108_spatch",
    "Transfinite.SuperD.C108_superd",
    "Transfinite.GB.C108_side",
    "Transfinite.GB.C108_jump",
    "Transfinite.GB.C108_jumps"
   ],
   "note": "Exact reals. C108_spatch: whole closed domain. C108_side: outside the corner tolerance, for tolerances up to sin^2(2 pi/n) sin(pi/n)/2 (regular domain of the library). C108_superd: outside the tolerance of the sides. C108_jump, C108_jumps: the discontinuity at the border of the corner tolerance, with a concrete patch."
  },
  {
   "property": "C109",
   "status": "proved",
   "theorems": [
    "Transfinite.Param.C109_wachspress",
    "Transfinite.Param.C109_smooth",
    "Transfinite.Param.C109_parallelogram",
    "Transfinite.Param.C109_meanvalue_jump",
    "Transfinite.Param.C109_harmonic_jump"
   ],
   "note": "Exact arithmetic over ℝ. The comment in the source claims that the second formula is valid only for Wachspress coordinates in regular domains; it is proved for all strictly convex domains. The negative part is proved for mean value and discrete harmonic coordinates."
  },
  {
   "property": "C110",
   "status": "proved",
   "theorems": [
    "Transfinite.Surf.C110_side_exact",
    "Transfinite.Surf.C110_side_near",
    "Transfinite.Surf.C110_corner_exact",
    "Transfinite.Surf.C110_corner_near",
    "Transfinite.Surf.C110_side_corner",
    "Transfinite.Surf.C110_sideBased",
    "Transfinite.Surf.C110_cornerBased",
    "Transfinite.SuperD.C110_superd"
   ],
   "note": "Exact arithmetic over ℝ. The distances are the local parameters d (the second coordinates); the behaviour of the side blends with two near sides is given by a counterexample."
  },
  {
   "property": "C111",
   "status": "proved",
   "theorems": [
    "Transfinite.Hybrid.C111_square",
    "Transfinite.Hybrid.C111_stays",
    "Transfinite.Hybrid.C111_rotation",
    "Transfinite.Hybrid.C111_motion",
    "Transfinite.Hybrid.C111_central",
    "Transfinite.Hybrid.C111_unset"
   ],
   "note": "C111_rotation: linear part only, every history. C111_motion: with translation, if all control points of the two networks correspond after the calls of the first part and the later part has no initNetwork(). Arc length is an input of the model that is assumed invariant. C111_central: changing the central control point moves the surface point by its weight times the change. C111_unset: the error when the central control point is not moved. C111_square: the weight for four sides. C111_stays: the negation for an unset central control point, a quartic patch with a square boundary whose midpoint stays behind by 9/64 of the translation."
  }
 ]
}