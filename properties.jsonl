{"id": "C01", "title": "Mesh counts and index validity", "statement": "domain()->meshTopology(r) has meshSize(r) points and exactly r*r (3 sides), 2*r*r (4 sides) or n*r*r (otherwise) triangles, parameters(r) has meshSize(r) entries, and every triangle uses three distinct indices that are all valid indices into the point list.", "quantifier": "every number of sides n>=3 and every resolution r", "why_tests_cant": "Sizes are unbounded; a test fixes a few (n, r) pairs.", "anchors": ["src/transfinite/domain.cc:Domain::meshSize", "src/transfinite/domain.cc:Domain::meshTopology", "src/transfinite/domain.cc:Domain::parametersImpl"]}
{"id": "C02", "title": "Mesh is a consistently oriented manifold", "statement": "In the triangle mesh no directed edge is used by two triangles (so every undirected edge belongs to at most two triangles, which traverse it in opposite directions).", "quantifier": "every n>=3, every r, every pair of triangles", "why_tests_cant": "Needs all resolutions and side counts; wrap-around at the last side is a classic off-by-one spot.", "anchors": ["src/transfinite/domain.cc:Domain::meshTopology", "src/transfinite/domain-circle.cc:DomainCircle::meshTopology"]}
{"id": "C03", "title": "onEdge marks exactly the mesh boundary", "statement": "A mesh vertex is an endpoint of an edge that belongs to only one triangle if and only if onEdge(r, index) is true.", "quantifier": "every n>=3, r>=1, index < meshSize(r)", "why_tests_cant": "onEdge uses closed-form index arithmetic (perfect-square test, moduli) independent from the topology loops; only a proof covers all indices.", "anchors": ["src/transfinite/domain.cc:Domain::onEdge", "src/transfinite/domain.cc:Domain::meshTopology", "src/transfinite/domain-circle.cc:DomainCircle::onEdge"]}
{"id": "C04", "title": "onEdge vertices lie on the domain polygon's boundary and only those", "statement": "If onEdge(r, index) then parameters(r)[index] equals edgePoint(i, s) for some side i and s in [0,1]; if not onEdge (and the polygon is strictly convex with its centre inside) then the parameter point is strictly inside every side. On the disc (DomainCircle) there is a point for every index of the mesh; the onEdge ones are exactly the edge points k, i/resolution, and all others have a radius below 1.", "quantifier": "every polygon, n>=3, r>=1, index", "why_tests_cant": "Universal over polygons and indices.", "anchors": ["src/transfinite/domain.cc:Domain::onEdge", "src/transfinite/domain.cc:Domain::parametersImpl", "src/transfinite/domain.cc:Domain::edgePoint"]}
{"id": "C05", "title": "The parameter mesh tiles the domain", "statement": "In parameter space all mesh triangles have the same orientation, none is degenerate when the polygon is strictly convex, and their signed areas sum up to the signed area of the polygon.", "quantifier": "every polygon with n>=3 sides, every r>=1", "why_tests_cant": "Universal over polygons and resolutions.", "anchors": ["src/transfinite/domain.cc:Domain::meshTopology", "src/transfinite/domain.cc:Domain::parametersImpl"]}
{"id": "C06", "title": "Mesh parameter cache is transparent", "statement": "For polygonal domains, after any history of update() and parameters(r) calls, parameters(r) returns exactly what a fresh computation for the current polygon would return.", "quantifier": "every finite history of setSides/update/parameters calls, every r", "why_tests_cant": "The cache is keyed only by the number of points; one needs injectivity of meshSize in r and an invariant over all histories.", "anchors": ["src/transfinite/domain.cc:Domain::parameters", "src/transfinite/domain.cc:Domain::update", "src/transfinite/domain-circle.cc:DomainCircle::update"]}
{"id": "C07", "title": "Local side coordinates", "statement": "toLocal and fromLocal of a side are inverse linear maps; the endpoints of side i get local coordinates (0,0) and (1,0); in a strictly convex polygon every vertex not on the side, the centre and all interior points get a positive second coordinate.", "quantifier": "every polygon, side and vector", "why_tests_cant": "Universal over real vectors and polygons.", "anchors": ["src/transfinite/domain.cc:Domain::update", "src/transfinite/domain.cc:Domain::toLocal", "src/transfinite/domain.cc:Domain::fromLocal"]}
{"id": "C08", "title": "Regular, circular and fallback domains are strictly convex", "statement": "A regular domain with n>=3 sides is a strictly convex counterclockwise polygon (the square for n=4); a circular domain is strictly convex whenever all boundary curves have positive length and each is shorter than the sum of the others times one (n>=3), and its arcs are proportional to curve lengths.", "quantifier": "every n>=3; every list of positive lengths", "why_tests_cant": "Universal over n and real lengths; trigonometric.", "anchors": ["src/transfinite/domain-regular.cc:DomainRegular::update", "src/transfinite/domain-circular.cc:DomainCircular::update"]}
{"id": "C09", "title": "Angular domain is closed, in the unit box, and its convexity check", "statement": "The angular domain polygon closes at its last vertex, fits in [-1,1]x[-1,1], and is replaced by the circular domain when it is not convex. (The coded check ignores a reflex corner that follows an exactly horizontal side.)", "quantifier": "every list of positive lengths and angles", "why_tests_cant": "Universal over real data; the flaw only shows on a measure-zero set of inputs.", "anchors": ["src/transfinite/domain-angular.cc:DomainAngular::update"]}
{"id": "C10", "title": "Ray-edge intersection", "statement": "When intersectEdgeWithRay returns true its result is a point of the closed edge that lies on the line of the ray (up to the clamping tolerance); when it returns false the line is parallel up to tolerance or misses the edge.", "quantifier": "every polygon side, point and direction", "why_tests_cant": "Universal over real inputs.", "anchors": ["src/transfinite/domain.cc:Domain::intersectEdgeWithRay"]}
{"id": "C11", "title": "Barycentric coordinates: partition of unity and linear precision", "statement": "For Wachspress, mean value and harmonic coordinates, whenever the normalising sum is nonzero, the coordinates returned for uv sum to 1 and reproduce uv as the weighted sum of the domain vertices.", "quantifier": "every polygon with n>=3, every point, all three kinds", "why_tests_cant": "Universal over n and real points.", "anchors": ["src/transfinite/parameterization-barycentric.cc:ParameterizationBarycentric::barycentric"]}
{"id": "C12", "title": "Barycentric mapping reproduces the sides", "statement": "At edgePoint(i,s) of a strictly convex domain the Wachspress coordinates are 1-s and s at the two ends of side i and 0 elsewhere; hence mapToRibbon(i) is (s,0), the neighbours get (1,s) and (0,1-s), every other side gets d=1.", "quantifier": "every strictly convex polygon n>=3, side i, s in [0,1]", "why_tests_cant": "Universal over n, polygons and s.", "anchors": ["src/transfinite/parameterization-barycentric.cc:ParameterizationBarycentric::mapToRibbon", "src/transfinite/parameterization-barycentric.cc:ParameterizationBarycentric::barycentric"]}
{"id": "C13", "title": "Barycentric parameters stay in the unit square", "statement": "For every point of a strictly convex domain the Wachspress coordinates are nonnegative, so both local parameters of every side are in [0,1].", "quantifier": "every strictly convex polygon and every point in it", "why_tests_cant": "Universal over polygons and points.", "anchors": ["src/transfinite/parameterization-barycentric.cc:ParameterizationBarycentric::mapToRibbon"]}
{"id": "C14", "title": "Bilinear mapping solves the bilinear equation", "statement": "The (s,d) computed by the bilinear parameterization satisfies uv = (1-s)(1-d)v1 + s(1-d)v2 + (1-s)d v0 + s d v3 whenever the quadratic has a nonnegative discriminant handled without tolerance; side points map to (s,0).", "quantifier": "every polygon, side and point (outside the tolerance bands)", "why_tests_cant": "Universal over real inputs.", "anchors": ["src/transfinite/parameterization-bilinear.cc:ParameterizationBilinear::mapToRibbon"]}
{"id": "C15", "title": "Parallel distance parameter", "statement": "The distance parameter of the parallel parameterization vanishes exactly on the line of its side, is affine in uv, lies in [0,1] on the polygon and attains 1 at the farthest vertex.", "quantifier": "every strictly convex polygon, side, point", "why_tests_cant": "Universal over polygons.", "anchors": ["src/transfinite/parameterization-parallel.cc:ParameterizationParallel::mapToRibbon", "src/transfinite/parameterization-parallel.cc:ParameterizationParallel::updateMultipliers"]}
{"id": "C16", "title": "Interconnected and constrained parameterizations meet their side constraints", "statement": "d_i is 0 on side i, equals 1-s of the previous side where s_i=0, and equals s of the next side where s_i=1.", "quantifier": "every side and point satisfying the stated local values", "why_tests_cant": "Universal over local parameter values.", "anchors": ["src/transfinite/parameterization-interconnected.cc", "src/transfinite/parameterization-constrained-barycentric.cc"]}
{"id": "C17", "title": "Overlap parameterization is complementary", "statement": "For even n, the overlap parameters of opposite sides i and i+n/2 sum to 1; for odd n the call asserts.", "quantifier": "every even n, side, point", "why_tests_cant": "Universal over n.", "anchors": ["src/transfinite/parameterization-overlap.cc:ParameterizationOverlap::mapToRibbon"]}
{"id": "C18", "title": "Polar parameterization inverse", "statement": "inverse(i,(0,d)) and inverse(i,(1,d)) are the points of the two base sides at parameter d; for other angles the result lies on the segment from the vertex to the intersection point, and after 20 bisection steps the final bracket has width 2^-20.", "quantifier": "every polygon, side, (angle, d)", "why_tests_cant": "Universal over real inputs and the monotone function bisected.", "anchors": ["src/transfinite/parameterization-polar.cc:ParameterizationPolar::inverse"]}
{"id": "C19", "title": "Parameter caches are transparent", "statement": "After any history of mapToRibbons/mapToRibbon/barycentric queries and update() calls, mapToRibbons(uv)[i] equals mapToRibbon(i,uv) and equals what a fresh object over the same domain would compute.", "quantifier": "every finite history of queries and updates, every uv and side", "why_tests_cant": "Caches are history dependent; interconnected overrides mapToRibbons on top of a virtual call.", "anchors": ["src/transfinite/parameterization.cc:Parameterization::mapToRibbons", "src/transfinite/parameterization.cc:Parameterization::update", "src/transfinite/parameterization-interconnected.cc:ParameterizationInterconnected::mapToRibbons", "src/transfinite/parameterization-barycentric.cc:ParameterizationBarycentric::update"]}
{"id": "C20", "title": "Normal fence interpolates its end normals", "statement": "The rotation minimizing frame evaluated at 0 gives the prescribed start normal and at 1 the prescribed end normal.", "quantifier": "every curve with nonzero tangents for which no step of the frame falls into the tolerances (C20_end); every unit normal perpendicular to the start tangent (C20_start); curves shorter than the tolerance violate it (C20_tiny_curve)", "why_tests_cant": "Universal over curves; depends on rotation sign selection.", "anchors": ["src/transfinite/rmf.cc:RMF::update", "src/transfinite/rmf.cc:RMF::eval"]}
{"id": "C21", "title": "Normal fence stays unit length and perpendicular", "statement": "The normal returned for every parameter in [0,1] has unit length, and its deviation from being perpendicular to the curve tangent is bounded by the accumulated tolerance (zero if no reflection falls into the tolerance band).", "quantifier": "every curve, start normal and parameter", "why_tests_cant": "Invariant over all 100 reflection steps and all curves.", "anchors": ["src/transfinite/rmf.cc:RMF::nextFrame", "src/transfinite/rmf.cc:RMF::rotateFrame"]}
{"id": "C22", "title": "Cross derivatives lie in the tangent plane", "statement": "crossDerivative(s) of the compatible ribbons (with and without handler) is perpendicular to the unit normal(s) for every s, for every handler and multiplier.", "quantifier": "every ribbon state, s, handler, multiplier", "why_tests_cant": "Universal over real vectors.", "anchors": ["src/transfinite/ribbon-compatible.cc", "src/transfinite/ribbon-compatible-with-handler.cc"]}
{"id": "C23", "title": "Ribbons are compatible at the corners", "statement": "crossDerivative(0) is minus the end derivative of the previous curve and crossDerivative(1) is the start derivative of the next curve, after update() on a loop whose consecutive end tangents are not parallel.", "quantifier": "every loop of curves, every handler and multiplier", "why_tests_cant": "Chains RMF end conditions and projections for all curves.", "anchors": ["src/transfinite/ribbon-compatible.cc", "src/transfinite/ribbon-compatible-with-handler.cc", "src/transfinite/ribbon.cc:Ribbon::update"]}
{"id": "C24", "title": "Ribbon base and controls", "statement": "eval(s,0) of a ribbon is its boundary curve point; setHandler stores the normalized vector, reset() restores multiplier 1 and no handler; at s=1/2 the cross derivative with handler is the handler's projection times the multiplier times the mean tangent length.", "quantifier": "every ribbon, s, handler, multiplier and sequence of control calls", "why_tests_cant": "Universal over states.", "anchors": ["src/transfinite/ribbon.cc", "src/transfinite/ribbon-compatible-with-handler.cc"]}
{"id": "C25", "title": "Coons ribbon interpolates its sides", "statement": "eval of the Coons ribbon is the boundary curve at d=0, the previous curve backwards at s=0, and the next curve at s=1 (with parameters clamped to [0,1]).", "quantifier": "every closed loop of n>=3 curves and every parameter", "why_tests_cant": "Universal over curves.", "anchors": ["src/transfinite/ribbon-coons.cc"]}
{"id": "C26", "title": "setupLoop orients the loop head to tail", "statement": "Given n>=3 curves where consecutive curves share an endpoint (each in arbitrary direction) and the corners are pairwise distinct, after setupLoop() the end of every curve is the start of the next one and each curve is either unchanged or reversed. The lengths of the curves are kept, and their derivatives remain derivatives of the points.", "quantifier": "every n>=3, every choice of directions, all curves", "why_tests_cant": "2^n orientation patterns for unbounded n.", "anchors": ["src/transfinite/surface.cc:Surface::setupLoop"]}
{"id": "C27", "title": "setupLoop is idempotent, and reverses shared curve objects in place", "statement": "A second setupLoop() changes nothing. Because curves are held by shared pointers, running setupLoop() on another surface that traverses a shared curve in the opposite direction breaks the first surface's loop.", "quantifier": "every loop; two-surface histories", "why_tests_cant": "History/aliasing property.", "anchors": ["src/transfinite/surface.cc:Surface::setupLoop", "src/transfinite/surface.cc:Surface::setCurves"]}
{"id": "C28", "title": "Singular side and corner blends form a partition of unity", "statement": "The blending values are nonnegative and sum to 1 for all local parameters with nonnegative distances: side blends always, corner blends unless two non-adjacent (or three) sides are simultaneously within tolerance.", "quantifier": "every n>=3 and every list of local parameters", "why_tests_cant": "Universal over n and reals; tolerance branches.", "anchors": ["src/transfinite/surface.cc:Surface::blendCorner", "src/transfinite/surface.cc:Surface::blendSideSingular"]}
{"id": "C29", "title": "Deficient corner blends", "statement": "The deficient corner blends are in [0,1] for parameters in the unit square. On the boundary they sum to 1 at the corners and at the points farther from the corners than the tolerance; within the tolerance of a corner (parameter s from it) they sum to 1 + s^2(3-2s).", "quantifier": "every n>=3 and local parameters", "why_tests_cant": "Universal over n and reals.", "anchors": ["src/transfinite/surface.cc:Surface::blendCornerDeficient"]}
{"id": "C30", "title": "Side-based patch interpolates its boundary", "statement": "eval(edgePoint(i,s)) is the point of curve i at s, for side points away from the corners by the tolerance and at the corners.", "quantifier": "every closed loop of n>=3 curves, every s", "why_tests_cant": "Universal over curves, n and s.", "anchors": ["src/transfinite/surface-side-based.cc"]}
{"id": "C31", "title": "Corner-based patch interpolates its boundary", "statement": "eval(edgePoint(i,s)) is the point of curve i at s.", "quantifier": "every closed loop of n>=3 curves with non-parallel corner tangents, every s in [0,1] (for n=3 except for eps <= 1-s < eps/sin(2pi/3)), every tolerance at most 1/2 and sin(2pi/n)", "why_tests_cant": "Universal over curves, n and s.", "anchors": ["src/transfinite/surface-corner-based.cc"]}
{"id": "C32", "title": "Generalized Coons patch interpolates its boundary", "statement": "eval(edgePoint(i,s)) is the point of curve i at s.", "quantifier": "every closed loop of n>=3 curves with non-parallel corner tangents, every s in [0,1] (for n=3 except for 0 < 1-s < eps/sin(2pi/3)), every tolerance at most sin(2pi/n)sin(pi/n)/2", "why_tests_cant": "Universal over curves, n and s.", "anchors": ["src/transfinite/surface-generalized-coons.cc"]}
{"id": "C33", "title": "Composite ribbon patch interpolates its boundary", "statement": "eval(edgePoint(i,s)) is the point of curve i at s.", "quantifier": "every closed loop of n>=3 curves with non-parallel corner tangents, every s in [0,1], every tolerance at most 1/2", "why_tests_cant": "Universal over curves, n and s.", "anchors": ["src/transfinite/surface-composite-ribbon.cc"]}
{"id": "C34", "title": "Midpoint and Midpoint Coons patches interpolate their boundary", "statement": "eval(edgePoint(i,s)) is the point p of curve i at s, whatever midpoint is set, at the corners and at the points farther from them than the tolerance. Within the tolerance of a corner this is violated: the value is p + w(p - q), where q is the central control point and w = s^2(3-2s) (or the same with 1-s) is at most three times the squared tolerance; so neither surface goes through both of two different points there.", "quantifier": "every closed loop of n>=3 curves with non-parallel corner tangents, every s in [0,1] (the last-tolerance band before the end of the side: only for the midpoint class with n>=4), every midpoint, every small tolerance", "why_tests_cant": "Universal over curves, n, s and midpoints.", "anchors": ["src/transfinite/surface-midpoint.cc", "src/transfinite/surface-midpoint-coons.cc"]}
{"id": "C35", "title": "C0 Coons patch interpolates its boundary", "statement": "eval(edgePoint(i,s)) is the point of curve i at s.", "quantifier": "every closed loop of n>=4 curves and every s in [0,1]; for n=3 within the tolerance of the end of the side the value may be off by (1-s)/2 times the difference of the points at distance 1-s from the corner on the two sides (C35_triangle)", "why_tests_cant": "Universal over curves, n and s.", "anchors": ["src/transfinite/surface-c0coons.cc", "src/transfinite/ribbon-coons.cc"]}
{"id": "C36", "title": "Midpoint can be prescribed", "statement": "After setMidpoint(p) the surface point at the domain centre is p, provided the blend deficiency there is not (nearly) zero; after unsetMidpoint() it is the average of the ribbons' (1/2,1/2) points. For 4-sided patches the deficiency is zero and setMidpoint has no effect on that point.", "quantifier": "every up-to-date state of the surface, every point p, every tolerance at most 1/200 and 2/n", "why_tests_cant": "Universal over states and points.", "anchors": ["src/transfinite/surface-midpoint.cc:SurfaceMidpoint::setMidpoint", "src/transfinite/surface-midpoint.cc:SurfaceMidpoint::updateCentralControlPoint"]}
{"id": "C37", "title": "Mesh evaluation is pointwise evaluation", "statement": "eval(resolution) is the domain's mesh with every point equal to eval of the corresponding parameter, and it does not change the values of later evaluations; this does not depend on what has been done with the object before (evaluations of other meshes, changes of the number of sides, of control points or ribbons).", "quantifier": "every surface over a polygonal domain (Patch classes, Generalized Bézier, hybrid, S-patch, SuperD), every history of calls and resolution", "why_tests_cant": "Universal over resolution and histories of calls.", "anchors": ["src/transfinite/surface.cc:Surface::eval", "src/transfinite/domain.cc:Domain::parameters"]}
{"id": "C38", "title": "Partial update suffices for ribbon controls", "statement": "If a fully updated surface has only ribbon i's multiplier, handler or normal fence changed, update(i) leaves the surface in the same state as update().", "quantifier": "every n, i, every change of controls", "why_tests_cant": "History property over states.", "anchors": ["src/transfinite/surface.cc:Surface::update", "src/transfinite/surface.cc:Surface::updateCorner"]}
{"id": "C39", "title": "Partial update does not suffice after a curve change", "statement": "After setCurve(i, ...) and setupLoop(), update(i) alone leaves neighbouring ribbons stale, so the result may differ from update().", "quantifier": "existence of a state and curve", "why_tests_cant": "The failing interleaving is a history.", "anchors": ["src/transfinite/surface.cc:Surface::update", "src/transfinite/surface.cc:Surface::setCurve"]}
{"id": "C40", "title": "Copies of a surface share domain and parameterization", "statement": "Copying (or assigning) a Generalized Bezier surface does not copy its domain and parameterization. If the copy gets another number of sides and is set up, then the original keeps its control points, curves and number of sides but has the domain of the copy, and it cannot be evaluated anywhere if the copy has fewer sides. In programs where surfaces do not change their number of sides once they are set up, and only such surfaces are copied, the sharing cannot be observed: control points, curves, domains, evaluations and weights are as with deep copies, and the same calls fail.", "quantifier": "every program over any number of surfaces, with construction, copying, assignment and all public calls in any order", "why_tests_cant": "Aliasing over histories.", "anchors": ["src/transfinite/surface.hh:Surface", "src/transfinite/surface-generalized-bezier.hh"]}
{"id": "C41", "title": "Generalized Bezier control net is consistent", "statement": "controlPoint after setControlPoint behaves like a map in which each control point of the overlapping corner regions has two names (i,j,k) and (i-1,d-k,j): writing under one name is visible under both, other points are unaffected; consistency is preserved by every sequence of setControlPoint calls.", "quantifier": "every n>=2, degree, index and sequence of writes", "why_tests_cant": "History property over unbounded networks.", "anchors": ["src/transfinite/surface-generalized-bezier.cc:SurfaceGeneralizedBezier::setControlPoint", "src/transfinite/surface-generalized-bezier.cc:SurfaceGeneralizedBezier::controlPoint"]}
{"id": "C42", "title": "Generalized Bezier patch interpolates its boundary curves", "statement": "eval(edgePoint(i,s)) is the Bezier curve of the control points (i,0..d,0) at s (and exactly the corner control point within the corner tolerance).", "quantifier": "every n>=3, degree>=2 network, side and s, both weight variants (degree 1 violates it: see C42_degree_one)", "why_tests_cant": "Universal over n, degree, networks.", "anchors": ["src/transfinite/surface-generalized-bezier.cc:SurfaceGeneralizedBezier::eval"]}
{"id": "C43", "title": "Generalized Bezier weights explain the evaluator", "statement": "eval(uv) equals the sum of weight(i,j,k,uv)*controlPoint(i,j,k) plus the central control point times the remaining weight (away from or exactly at corners); total weight is one, so the surface is affinely invariant.", "quantifier": "every n, degree, network and uv", "why_tests_cant": "Two independent code paths must agree for all inputs.", "anchors": ["src/transfinite/surface-generalized-bezier.cc:SurfaceGeneralizedBezier::eval", "src/transfinite/surface-generalized-bezier.cc:SurfaceGeneralizedBezier::weight"]}
{"id": "C44", "title": "Corner-based GB patch interpolates its boundary curves", "statement": "For odd degree the corner-variant patch evaluated on side i reproduces the Bezier boundary curve of that side, and weight() explains eval().", "quantifier": "every n>=4, odd degree, network, side and s (n=3 violates it, see C44_triangle); the weights for every n>=3 and uv", "why_tests_cant": "Universal over n and degree.", "anchors": ["src/transfinite/surface-generalized-bezier-corner.cc"]}
{"id": "C45", "title": "Saved Generalized Bezier patch loads back", "statement": "saveBezier followed by loadBezier yields the same side count, degree, central and all other control points up to number formatting.", "quantifier": "every consistent network of every size", "why_tests_cant": "Round trip over unbounded networks.", "anchors": ["src/utils/io.cc:saveBezier", "src/utils/io.cc:loadBezier"]}
{"id": "C46", "title": "Control point enumeration is a bijection", "statement": "The (side,col,row) loop used by load, save, export and fitting visits every control point exactly once up to the double naming, visits n*(1+d/2)*((d+1)/2) points, all within range, and the first n*(d+1-f)*f of them are exactly those of the first f rows.", "quantifier": "every n>=1, degree d, f", "why_tests_cant": "Index arithmetic over unbounded sizes.", "anchors": ["src/utils/io.cc:loadBezier", "src/utils/gb-fit.cc:fitWithOriginal"]}
{"id": "C47", "title": "Exported control mesh faces are valid", "statement": "Every face index written by writeBezierControlPoints is the 1-based index of the vertex line holding that control point.", "quantifier": "every n, degree>=1", "why_tests_cant": "Index arithmetic over unbounded sizes.", "anchors": ["src/utils/io.cc:writeBezierControlPoints"]}
{"id": "C48", "title": "Degree elevation keeps boundary curves", "statement": "elevateDegree returns a patch of degree d+1 whose boundary Bezier curves are pointwise the same, whose corner points are unchanged, and never reads outside the network.", "quantifier": "every n>=3, degree>=1, network", "why_tests_cant": "Universal over sizes and points.", "anchors": ["src/utils/gb-fit.cc:elevateDegree"]}
{"id": "C49", "title": "Fitting keeps the boundary rows", "statement": "fitWithOriginal returns a patch whose first two rows of control points are those of the original, whatever the solver returns (fixed_rows = 2).", "quantifier": "every n, degree>=3, sample set, smoothing, solver result", "why_tests_cant": "Independent of numerical solver.", "anchors": ["src/utils/gb-fit.cc:fitWithOriginal"]}
{"id": "C50", "title": "S-patch weights and boundary", "statement": "With a complete network the S-patch weights sum to 1 and are nonnegative inside, and on the boundary the patch is the Bezier curve of the boundary control points; the curve stored as side i is traversed on domain side i+1.", "quantifier": "every n>=3, depth at most 20 (above that the factorials overflow: C50_deep), network, point", "why_tests_cant": "Universal over n and depth.", "anchors": ["src/transfinite/surface-spatch.cc"]}
{"id": "C51", "title": "SuperD patch interpolates its quartic boundary", "statement": "For a SuperD patch whose updateRibbons was called after the last change of its control points, eval(edgePoint(i,s)) is the quartic Bezier curve generated from the face/edge/face points of side i (for n >= 7: except within the tolerance of a corner, where it is the mean of two points of this curve); fullness 0 gives the polygon chord, and fullness 1 moves all inner control points of the curve to the edge point; evaluation never fails in the domain; coplanar control points give a planar patch; setupLoop stores these curves.", "quantifier": "every n>=3, every history of calls with initNetwork(n), setupLoop and a final updateRibbons, all control points and fullness, every s in [0,1], every tolerance 0 < eps <= min(1/4, sin(2pi/n), rho/2) with rho the scale of the distance parameter", "why_tests_cant": "Universal over n and points.", "anchors": ["src/transfinite/surface-superd.cc"]}
{"id": "C52", "title": "Elastic patch on and near the boundary", "statement": "On a side point edgePoint(i, s) the elastic patch returns a boundary curve point whose domain preimage is within the domain tolerance, and exactly curve i at s unless an earlier side is within the tolerance; evaluation at any domain point succeeds; strictly inside, if the foot on some side is within the tolerance, the value is the point of that (first) side's curve at the parameter of the foot.", "quantifier": "all histories of calls and evaluations followed by an update, all loops of n >= 3 curves, all sides, all s in [0,1], all domain points, all solvers, all positive tolerances, epsilon <= sin(2 pi/n)", "why_tests_cant": "Universal over curves.", "anchors": ["src/transfinite/surface-elastic.cc"]}
{"id": "C53", "title": "Bernstein evaluation", "statement": "The table version returns n+1 values equal to C(n,j)u^j(1-u)^(n-j), which sum to 1 and are nonnegative on [0,1]; the single value version returns the same j-th value.", "quantifier": "every n, j<=n, u", "why_tests_cant": "Universal over n and u.", "anchors": ["src/transfinite/utilities.cc:bernstein"]}
{"id": "C54", "title": "Binomial coefficients", "statement": "binomial(n,k) is the binomial coefficient whenever the intermediate products fit in 64 bits, in particular for all n<=58; it is wrong for some larger arguments.", "quantifier": "every n,k", "why_tests_cant": "64-bit wrap-around over a huge domain.", "anchors": ["src/transfinite/utilities.cc:binomial"]}
{"id": "C55", "title": "Hermite blending functions", "statement": "hermite(0,t)+hermite(3,t)=1, hermite(i,t) has the Hermite end values and end derivatives, is monotone in [0,1], and hermite(0,1-t)=hermite(3,t).", "quantifier": "every real t", "why_tests_cant": "Universal over reals.", "anchors": ["src/transfinite/utilities.cc:hermite"]}
{"id": "C56", "title": "Bezier degree elevation keeps the curve", "statement": "bezierElevate turns n control points into n+1 control points of the same curve with the same end points.", "quantifier": "every nonempty list of points, every parameter", "why_tests_cant": "Universal over lists.", "anchors": ["src/transfinite/utilities.cc:bezierElevate"]}
{"id": "C57", "title": "Bezier curve evaluation and derivatives", "statement": "BCurve::eval is the Bezier curve of its control points: it interpolates the end control points and stays in the convex hull on [0,1]; the derivative array has nr_der+1 elements, which are the true derivatives of all orders; reverse() reverses the parameterization; arcLength is non-negative, 0 for an empty interval, within the bounds given by the speed, exact when the speed is a linear function of the parameter, and independent of the direction of the curve.", "quantifier": "every non-empty control polygon, parameter, interval and derivative order", "why_tests_cant": "Universal over degree and order.", "anchors": ["src/utils/bezier.cc"]}
{"id": "C58", "title": "Class A fitting hits its end points", "statement": "Whatever the optimizer returns, fitClassA gives a curve starting at pa and ending at pb, with start tangent a positive multiple of va (unless its final degree is 1, when it is the line from pa to pb); it terminates for every degree >= 1 with a final degree degree*2^k, below 100 if k > 0; with degree 0 it writes outside of the control point vector.", "quantifier": "every end points and tangents, every degree, every optimizer result", "why_tests_cant": "Independent of optimizer.", "anchors": ["src/utils/bezier.cc:BCurve::fitClassA"]}
{"id": "C59", "title": "Nelder-Mead never returns a worse point", "statement": "optimize(f, x, max_iteration, tolerance, step) returns in x a point whose function value is at most the value at the starting point and at all vertices of the starting simplex; every iteration is a reflection, expansion, contraction or shrinking step of the Nelder-Mead method; a larger iteration limit never gives a worse value; it stops after at most max_iteration iterations using at most n+1 + max_iteration*(n+2) function evaluations; it returns true only if the variance of the values at the final simplex is below the tolerance.", "quantifier": "every function, dimension, start, iteration limit, tolerance and step", "why_tests_cant": "Universal over functions and iteration counts.", "anchors": ["src/utils/nelder-mead.cc:optimize"]}
{"id": "C60", "title": "Harmonic patch: boundary and energy", "statement": "Whatever was done with a harmonic patch before, if its curves form a closed loop and its domain is up to date, then eval(resolution) succeeds; the triangles are those of the domain mesh; each vertex on the boundary of the domain is the point of the right boundary curve at the right parameter; and the mesh is the unique minimizer of the Dirichlet energy (over the domain mesh) among the meshes with the same boundary vertices. update() succeeds for at least three curves.", "quantifier": "every history of calls, every closed loop of n >= 3 curves, every resolution >= 1, every solver that solves regular linear systems, every tolerance in (0, 1]", "why_tests_cant": "Universal over histories, curves, side counts and resolutions; minimality is over all meshes.", "anchors": ["src/transfinite/surface-harmonic.cc", "src/transfinite/surface.cc", "src/transfinite/domain-regular.cc"]}
{"id": "C61", "title": "Bisection stays in its bracket", "statement": "The bisection used by the circular parameterization returns a value inside the initial bracket and, if the function changes sign, keeps a sign change in its bracket, halving it in each step.", "quantifier": "every function and bracket", "why_tests_cant": "Universal over functions.", "anchors": ["src/transfinite/parameterization-circular.cc:bisect"]}
{"id": "C62", "title": "OBJ reading", "statement": "For a file of vertex lines, triangular face lines and other lines, with a face, readOBJ returns the vertices before the first face as points and all faces as triangles with indices decreased by one (so nothing is lost when all vertices come first); a file without faces gives no points; lines starting with v and another character are read like vertices; a texture line (vt u v) makes all later faces copies of the face before it and all later vertices copies of one point; a face with slashes gets index 2^64-1 and is repeated for all later faces.", "quantifier": "every file as a list of lines, every number scanner, every initial value of the uninitialized variables", "why_tests_cant": "Universal over files.", "anchors": ["src/utils/io.cc:readOBJ"]}
{"id": "C63", "title": "N-sided experimental patch reads only ribbon 3", "statement": "SurfaceNSided::eval returns ribbon 3's point at the perpendicular-polar parameters of side 3 whatever the other ribbons are (so it interpolates side 3 but not the others), it is out of range for three-sided loops, and without prescribed normals it is out of range left of the strip of side 3.", "quantifier": "every strictly convex domain, loop, point, and history of queries of the two parameterizations", "why_tests_cant": "Memory-safety precondition over all n.", "anchors": ["src/transfinite/surface-nsided.cc:SurfaceNSided::eval"]}
{"id": "C64", "title": "No call of the usual cycle fails", "statement": "For a good loop (closed, regular, consecutive end tangents not parallel) a surface of any class is built by setCurves, setupLoop, ribbon controls and update, and then every sequence of ribbon control, update, mesh, eval (at points of the closed domain) and midpoint calls succeeds: no out-of-range access, no division by zero, no null pointer, no exception.", "quantifier": "every class, every number of sides, every loop, every call sequence, every resolution >= 1, every point of the domain", "why_tests_cant": "Universal over call histories and domain points, including points on or within tolerance of the sides.", "anchors": ["src/transfinite/surface.cc:Surface::update", "src/transfinite/surface.cc:Surface::eval", "src/transfinite/parameterization-bilinear.cc:ParameterizationBilinear::mapToRibbon", "src/transfinite/ribbon-handler.cc:RibbonHandler::update"]}
{"id": "C65", "title": "Circular parameterization: boundary values and range", "statement": "On side i of the disc (edgePoint(i,s)) the circular parameterization gives distance 0 for side i, 1-s and s for the next and previous sides, and 1 for all others; everywhere it returns two equal parameters in [0,1] and does not fail.", "quantifier": "every n>=3, side, s in [0,1]; range: every point of the plane and every n>=1", "why_tests_cant": "The wrap-around of fmod depends on n, i, j and s; a sampled grid misses the equality cases at the ends of the sides.", "anchors": ["src/transfinite/parameterization-circular.cc:ParameterizationCircular::mapToRibbon", "src/transfinite/domain-circle.cc:DomainCircle::edgePoint"]}
{"id": "C66", "title": "The fitted patch solves the advertised least-squares problem", "statement": "The linear system built by fitWithOriginal has one equation per sample whose residual, for every candidate solution, is the difference of the resulting patch at that parameter and the sample; one equation per movable control point whose residual is the smoothing factor times the difference of the point and the mean of its four neighbours; and one for the centre. Minimizing the residuals thus minimizes the distance of the surface from the samples plus the smoothing term.", "quantifier": "every n>=3, degree>=3, network, number of fixed rows, smoothing, sample set in the domain, candidate solution of the system", "why_tests_cant": "Row and column indices of the system depend on the numbering of the control points and the number of fixed rows; a wrong column gives a plausible but wrong surface.", "anchors": ["src/utils/gb-fit.cc:fitWithOriginal", "src/utils/gb-fit.cc:findControlPoint"]}
{"id": "C67", "title": "Class A control polygons", "statement": "The control polygon computed by fitClassA (except its replaced last point) is generated by a single rotation and scaling; before its replacement the last point is as far from pa as pb, within 4.5% of this distance from pb unless the degree limit is reached, and the last leg is parallel to vb if the angle found by the optimizer has a non-negative cosine. The matrix is defined for all end directions that are not parallel.", "quantifier": "every end points and tangents, every degree, every optimizer result", "why_tests_cant": "Universal over directions and over all numbers the optimizer may return; repeated application of a matrix.", "anchors": ["src/utils/bezier.cc:BCurve::fitClassA"]}
{"id": "C68", "title": "Perpendicular-polar parameters", "statement": "ParameterizationPerpPolar::mapToRibbon(i, uv) is defined for every point of the plane. In the strip of side i it returns the coordinates in the frame of the side (so (s,0) on the side itself); left of the strip it returns minus the angle from the inner normal and the distance from the left end divided by the side length; right of the strip one plus the angle from the outer normal and the relative distance from the right end.", "quantifier": "every strictly convex counterclockwise domain, side and point of the plane", "why_tests_cant": "Trigonometric identity over a continuum of points and polygons.", "anchors": ["src/transfinite/parameterization-perp-polar.cc:ParameterizationPerpPolar::mapToRibbon"]}
{"id": "C69", "title": "Elastic patch minimizes bending energy", "statement": "At a point strictly inside the domain whose feet on the sides are at least the tolerance away, the elastic patch returns the end point of the unique system of cubic rods (from the feet, starting at the boundary curve points with the ribbons' cross derivatives, ending in a common point and tangent plane) with the least total bending energy.", "quantifier": "all histories of calls and evaluations followed by an update, all loops of n >= 3 curves, all interior points (for triangles: not within the tolerance of a vertex), all linear solvers that solve solvable systems", "why_tests_cant": "Tests compare sample points with a reference implementation; minimality over all competing positions and derivatives, and its uniqueness, for all curves is a statement about infinitely many candidates.", "anchors": ["src/transfinite/surface-elastic.cc:27-68"]}
{"id": "C70", "title": "Harmonic patches of flat loops", "statement": "The harmonic patch of a closed loop in a plane is in that plane, and the harmonic patch of a loop whose curves are the images of the domain sides by an affine map is the image of the domain mesh by that map.", "quantifier": "every history, plane, affine map, closed loop of n >= 3 curves, resolution >= 1, solver of regular systems", "why_tests_cant": "Universal over planes, affine maps, side counts and resolutions.", "anchors": ["src/transfinite/surface-harmonic.cc"]}
{"id": "C71", "title": "Hybrid patches: boundary interpolation and the role of the outer control points", "statement": "A SurfaceHybrid object of degree at least 2 whose boundary curves form a closed loop and which has been brought up to date by update() evaluates at domain()->edgePoint(i, s) to the point of boundary curve i at s, for every s outside of the corner tolerance and at both corners, whatever the control points are changed to later. The curves made by setupLoop() are the Bézier curves of the first rows of control points. Between two setupLoop() calls, setControlPoint(i, j, k, p) with k < 2 does not change any point of the surface: the two outer layers are replaced by the ribbons.", "quantifier": "all n >= 3, degrees d >= 2, tolerances 0 < eps <= 1/2, histories of calls, control networks, sides i and parameters s in [eps, 1-eps] or s = 0, 1; for the outer layers: all reachable objects over any ordered field, all points uv (also failing evaluations), all names of points in the two outer layers", "why_tests_cant": "A test checks some networks and some points; the surface is a blend of ribbons, inner control points and the central point with rational weights that must sum to the right values on every side for every network, and stale data can only be seen in special histories of calls.", "anchors": ["src/transfinite/surface-hybrid.cc:13-47", "src/transfinite/surface-generalized-bezier.cc:141-159", "src/transfinite/surface-generalized-bezier.cc:197-243", "src/transfinite/surface.cc:36-76"]}
{"id": "C72", "title": "Boundary of polar patches", "statement": "SurfacePolar evaluated at a corner of the domain returns the common end point of the two boundary curves. Evaluated at domain()->edgePoint(i, s) it returns F(s) + s(1-s)^2/(s^2+(1-s)^2) * G, where F is the polynomial curve of degree max(1, max_degree) that agrees with boundary curve i at 0, 1/m, ..., 1, and G is a vector that depends only on the end points of the curves i-1 and i. So (against expectation) a polynomial boundary curve of at most the maximal degree is interpolated inside the side exactly when the chords of the two curves meeting at the start of the side are orthogonal or parallel; for a skew quadrilateral with straight sides the boundary is not interpolated with any maximal degree.", "quantifier": "all strictly convex domains, closed loops of n >= 3 curves with different ends, sides i, parameters 0 < s < 1 outside of the corner tolerance (and such that the line from each other vertex meets the side transversally compared to the tolerance), maximal degrees, solvers of regular linear systems", "why_tests_cant": "The formula is universal over curves, degrees, corner angles and side counts; tests on planar or right-angled models do not show the error.", "anchors": ["src/transfinite/surface-polar.cc:24-116", "src/transfinite/parameterization-polar.cc"]}
{"id": "C73", "title": "Biharmonic patches solve the discrete biharmonic equation", "statement": "SurfaceBiharmonic::eval(resolution) of an up-to-date patch over a closed loop returns a mesh with the topology of the domain mesh. Its vertices on the sides of the domain are the points of the boundary curves at the corresponding parameters, on every side and at the corners. Inside, the vertices are the solution of the discrete biharmonic (cotangent Laplacian over Voronoi areas) equation taken on the intermediate surface V, where V and the normals Z are the unique mesh functions with the given boundary values that minimize the discrete bending energy over the planar domain mesh, and the right hand side is the Laplacian of the mean curvature vectors obtained from V and Z. The evaluation succeeds exactly when the intermediate surface has no degenerate triangle. Evaluation does not change the patch (it stays up to date for any later resolution). update() establishes up-to-dateness for any loop of regular curves, with the normals of the normal fence (if overridden) on the sides.", "quantifier": "all n >= 3, strictly convex domains, closed loops of curves, tolerances 0 < eps <= 1, resolutions >= 1, normal fences, linear solvers that solve regular square systems; update: all loops of regular curves whose domain can be constructed", "why_tests_cant": "The minimality, the uniqueness and the success condition are statements about all loops, all resolutions and all competing meshes; a test can only look at residuals of some systems.", "anchors": ["src/transfinite/surface-biharmonic.cc:49-184", "src/transfinite/surface-biharmonic.cc:312-386"]}
{"id": "C74", "title": "Voronoi areas partition the mesh", "statement": "For a triangle that is not degenerate, the three values voronoiArea gives to its corners are positive and add up to the area of the triangle. Without an obtuse angle, the value at p is the area of the part of the triangle closer to p, bounded by the midpoints of the sides and the circumcenter; next to an obtuse angle it is the triangle cut off by the perpendicular bisector. The areas of the vertices of a mesh are nonnegative, positive for the vertices of triangles, and add up to the area of the mesh.", "quantifier": "all triangles of 3D points with nonzero area; all meshes of triangles with three different valid indices", "why_tests_cant": "The formulas with cotangents and three cases have to agree with the geometry for every shape, also on the boundary of the cases.", "anchors": ["src/transfinite/surface-biharmonic.cc:91-129"]}
{"id": "C75", "title": "Flat biharmonic patches", "statement": "When the boundary curves of a biharmonic patch are in a plane and the normal vectors of its ribbons are all the same vector, all the vertices of the result of eval(resolution) are in that plane. When moreover the curves are the images of the sides of the domain under an affine map of rank 2, eval(resolution) succeeds and returns the affine image of the domain mesh.", "quantifier": "all n >= 3, convex domains, tolerances 0 < eps <= 1, resolutions >= 1, planes, affine maps, constant normals, solvers of regular systems", "why_tests_cant": "Reproduction of planes holds for all loops in all positions and all resolutions; it depends on the right hand side vanishing and the systems being regular, both for every mesh.", "anchors": ["src/transfinite/surface-biharmonic.cc:131-156", "src/transfinite/surface-biharmonic.cc:312-386"]}
{"id": "C76", "title": "Side-based surface: exact tangent planes on the sides", "statement": "On a loop of smooth curves with smooth cross derivatives T (agreeing with the adjacent curves in the corners), the side-based surface (SurfaceSideBased) starts, along every path of the domain that leaves a point s of side i, at the point c_i(s) of the boundary curve, and its one-sided derivative is alpha*c_i'(s) + beta*T_i(s), with beta > 0 when the path leaves the side. So its tangent plane on the side is exactly that of the ribbon.", "quantifier": "all closed loops with n >= 3 curves, all up-to-date objects whatever calls made them, all convex domains, sides, interior side points (away from the other sides by the tolerance) and differentiable paths", "why_tests_cant": "Tests compare finite differences at samples; the claim is a limit, for all loops, points and directions.", "anchors": ["src/transfinite/surface-side-based.cc:21-34", "src/transfinite/surface.cc:223-248", "src/transfinite/parameterization-parallel.cc:11-38", "src/transfinite/ribbon.cc:90-93"]}
{"id": "C77", "title": "Corner-based surface: tangent planes on the sides", "statement": "As C76 for SurfaceCornerBased: the derivative along a path starting at a side is alpha*c' + beta*(T + e), where e is at most the change of the twist of the ribbons within 1/10000 of the corners (the corner twists are finite differences in Surface::updateCorner).", "quantifier": "all closed loops with n >= 3 curves, all up-to-date objects, all sides, side points with 3*epsilon below the distances to the ends (relative to sin(2*pi/n)), all differentiable paths of the regular domain", "why_tests_cant": "A limit statement, for all loops, points and directions; the size of the error of the finite differences is a bound over all inputs.", "anchors": ["src/transfinite/surface-corner-based.cc:21-34", "src/transfinite/surface.cc:164-221", "src/transfinite/surface.cc:266-306", "src/transfinite/parameterization-bilinear.cc:11-61"]}
{"id": "C78", "title": "Generalized Coons surface: tangent planes on the sides", "statement": "As C77 for SurfaceGeneralizedCoons with the interconnected parameterization.", "quantifier": "as C77", "why_tests_cant": "As C77.", "anchors": ["src/transfinite/surface-generalized-coons.cc:21-37", "src/transfinite/surface.cc:164-221", "src/transfinite/surface.cc:266-306", "src/transfinite/parameterization-interconnected.cc:12-31"]}
{"id": "C79", "title": "Composite ribbon surface: tangent planes on the sides", "statement": "As C77 for SurfaceCompositeRibbon with the barycentric parameterization.", "quantifier": "as C77 (side points with 3*epsilon < s, 3*epsilon < 1-s)", "why_tests_cant": "As C77.", "anchors": ["src/transfinite/surface-composite-ribbon.cc:22-47", "src/transfinite/surface.cc:164-221", "src/transfinite/surface.cc:266-306", "src/transfinite/parameterization-barycentric.cc:18-41"]}
{"id": "C80", "title": "Midpoint and midpoint Coons surfaces: tangent planes on the sides", "statement": "As C77 for SurfaceMidpoint and SurfaceMidpointCoons, whatever the midpoint is set to: the central term does not change the tangent planes on the sides.", "quantifier": "as C77, all midpoints", "why_tests_cant": "As C77.", "anchors": ["src/transfinite/surface-midpoint.cc:36-91", "src/transfinite/surface-midpoint-coons.cc:24-37", "src/transfinite/surface.cc:250-306", "src/transfinite/parameterization-constrained-barycentric.cc:11-40"]}
{"id": "C81", "title": "Overridden normal fences fix the tangent planes", "statement": "When overrideNormalFence gives each side a differentiable unit normal field, perpendicular to the adjacent curves in the corners, then update() works for every class with handlers, the cross derivatives of the ribbons are perpendicular to the fence everywhere, the ribbons are smooth (so C76-C80 apply, with an error bounded by the sizes of the tangents, handlers and fence derivatives), and the derivatives of the surface along all paths starting at the side are perpendicular to the fence, up to 3*delta/(m-2*delta) of their length; two patches with a common curve and fence have the same tangent plane within this error (exactly for the side-based class). The surface is regular on the side: paths leaving the side do not continue along the tangent of the curve.", "quantifier": "all good loops, all normal fences with bounded Lipschitz derivatives, all handlers, all sides, side points and paths", "why_tests_cant": "Watertight smooth joins are wanted for all fences and paths, not for samples; the bound depends on all inputs.", "anchors": ["src/transfinite/ribbon.cc:56-64", "src/transfinite/ribbon.cc:95-100", "src/transfinite/ribbon-compatible-with-handler.cc:8-29", "src/transfinite/surface.cc:88-91"]}
{"id": "C82", "title": "Reading curve loops", "statement": "readLOP returns the curves in a LOP file, in the order of the file, each with its degree, knots and control points; tokens after the last curve do not matter. The number of the returned curves is always the number at the beginning of the file (0 when that is not a number, or when there is no file) and no error is ever reported: when the file ends after at least one curve but before the promised number of curves, the last curve is silently repeated. For an empty file the result is determined by uninitialised variables.", "quantifier": "for all files (lists of tokens), all ways of reading numbers from tokens, all numbers of curves, knots and control points, and all initial values of the uninitialised variables", "why_tests_cant": "Tests read a few well-formed files; what happens for a file cut at an arbitrary place, or to the state of the vectors that are reused from curve to curve, needs an argument over all files.", "anchors": ["src/utils/io.cc:10-38"]}
{"id": "C83", "title": "Writing parameterized point clouds", "statement": "writePCP writes the number of the parameter points in the first line, and then in line i+1 the three coordinates of point i and its two parameters. Further points are ignored; with fewer points than parameters there is a read out of bounds.", "quantifier": "for all lists of parameters and of points, and all ways of printing numbers", "why_tests_cant": "The pairing of points and parameters, and the fault for short lists, is for lists of any length.", "anchors": ["src/utils/io.cc:81-97"]}
{"id": "C84", "title": "Loading S-patches", "statement": "Loading the file of an S-patch gives the same object as initNetwork, setControlPoint for all entries of the file, and setupLoop. It succeeds only if the file begins with the right number of labelled control points: a missing file, one that ends early or one with a wrong token leads to an exception, never to an incomplete patch. When the labels are distinct and their sum is the depth, every control point of the patch is the one in the file, so the patch is the S-patch described by C50. Labels are not checked: with a missing label the control point on the boundary is silently zero.", "quantifier": "for all files, all ways of reading numbers, all numbers of sides n >= 3 and depths d with n + d <= 63, all orders of the entries", "why_tests_cant": "The number of the control points is a binomial coefficient, and that the right number of distinct labels covers all labels is a counting argument over all n and d; failures concern all prefixes of all files.", "anchors": ["src/utils/io.cc:235-254", "src/transfinite/surface-spatch.cc:51-90", "src/utils/utilities.cc:17-25"]}
{"id": "C85", "title": "Loading SuperD models", "statement": "Every patch loaded from the file of a SuperD model has the face, edge and vertex control points in the file and fullness 1/2, and it is in the state reached by initNetwork, the setters, setupLoop and updateRibbons, so C51 applies to it. When the file has fewer patches than it says, no error is reported; the missing patches are made from uninitialised variables.", "quantifier": "for all files, all ways of reading numbers, all numbers of patches and of sides n >= 3, and all values of the uninitialised variables", "why_tests_cant": "It is about all models, and about memory contents that a test does not control.", "anchors": ["src/utils/io.cc:256-286", "src/transfinite/surface-superd.cc:123-182"]}
{"id": "C86", "title": "Parameters of points near a surface", "statement": "parameterizePoints gives one parameter for every point when the closest triangles (of the mesh with resolution 15) have an area. Each is a convex combination of the parameters of the vertices of the triangle, so it is in the domain; for a point that is above its triangle it is the linear interpolation at the foot of the perpendicular, and for a vertex of the mesh it is the parameter of the vertex, so evaluating the surface there gives the point back. A triangle without an area leads to a division by zero, and for a point that is not above its triangle the result is not the parameter of the closest point (the weights are absolute values of the barycentric coordinates).", "quantifier": "for all surfaces of the modelled classes after any history of calls, all lists of points, and all choices of the closest triangle", "why_tests_cant": "It is about all points and all triangles, including those where the point is not above the triangle.", "anchors": ["src/utils/gb-fit.cc:68-86", "src/transfinite/surface.cc:142-153", "src/transfinite/domain.cc:103-142"]}
{"id": "C87", "title": "Moving the input moves the surface", "statement": "When the curves, handlers, normal fences and midpoints given to a surface are rotated and translated, every call fails in the same way as before or has the moved result: the domain and the parameterization are unchanged, eval gives the moved point, the mesh has the same triangles and moved vertices, ribbons are moved and their normals and cross derivatives are rotated. For translations, eval is moved when update() was called since the curves last changed, and, in the classes that blend corners (corner-based, generalized Coons, composite ribbon), when the sides within the tolerance of the point are at most one side or two neighbouring sides; otherwise the weights do not sum to 1 (see C28).", "quantifier": "for the seven classes of the Patch model, all histories of calls, all curves and normal fences, all rotations and translations, all parameters and mesh resolutions, 0 < epsilon <= 1, at least three sides", "why_tests_cant": "It compares two runs for all inputs and all motions.", "anchors": ["src/transfinite/surface.cc:15-184", "src/transfinite/ribbon.cc:20-95", "src/transfinite/rmf.cc:10-96", "src/transfinite/domain-angular.cc:1-81", "src/transfinite/surface-corner-based.cc:1-36", "src/transfinite/surface-midpoint.cc:18-80"]}
{"id": "C88", "title": "A surface on a flat convex loop is flat", "statement": "When all boundary curves are in a plane and the loop turns in the same direction at every corner, then after update() every evaluated point of the surface, every mesh vertex and every point of a ribbon is in the plane, the normal fences are the unit normal of the plane and the cross derivatives are parallel to the plane. This holds for arbitrary handlers and multipliers, for midpoints set in the plane, and for overridden normal fences that are perpendicular to the plane. (With a reflex corner it does not hold: the two normal fences next to the corner make half a turn about their curves, and the surface can leave the plane.)", "quantifier": "for the seven classes of the Patch model, all histories of calls leading to such an input, all planar curves (straight or not) turning to the same side at the corners, all planes, all handlers, all parameters and resolutions; for planes not through the origin with 0 < epsilon <= 1 and the condition of C87 on points near three sides", "why_tests_cant": "It is about all planar inputs, all handlers and all points; the failure appears only for loops with reflex corners, which the sample models do not have.", "anchors": ["src/transfinite/ribbon.cc:20-95", "src/transfinite/rmf.cc:10-96", "src/transfinite/surface.cc:60-184", "src/transfinite/ribbon-compatible.cc:14-40", "src/transfinite/ribbon-compatible-with-handler.cc:18-45"]}
{"id": "C89", "title": "It does not matter which boundary curve is the first one", "statement": "When the same closed loop of curves is given starting k curves later, and all side numbers in the other calls are shifted accordingly, then the same calls fail, the ribbons are the same ones counted from another side, and the surfaces are the same: eval(uv) of the second surface is eval of the first one at uv rotated about the origin by k times the central angle of a side (with the same multipliers, handlers, fences, midpoints, partial and full updates in between). The local parameters of a side at uv are those of the corresponding side at the rotated point.", "quantifier": "for the six Patch classes with regular domains (corner-based, generalized Coons, composite ribbon, midpoint, midpoint Coons, C0 Coons), all n >= 3, all shifts k, all closed loops with curves in any direction (gaps up to a quarter of the distances of corners), all sequences of corresponding calls, all uv, epsilon <= 1", "why_tests_cant": "It compares two runs for all inputs, all histories and all shifts.", "anchors": ["src/transfinite/surface.cc:25-184", "src/transfinite/domain-regular.cc:8-30", "src/transfinite/parameterization.cc:16-34", "src/transfinite/parameterization-barycentric.cc:18-113", "src/transfinite/surface-midpoint.cc:24-88"]}
{"id": "C90", "title": "Biharmonic patches with the Triangle library", "statement": "When the library is compiled with Triangle, SurfaceBiharmonic::eval(resolution) samples every boundary curve at resolution points, projects the samples to a plane such that no plane has a smaller sum of squared distances to them, and asks Triangle for a mesh of this polygon with triangles not larger than a regular triangle over the average distance of the samples. If the answer is a triangulation of the polygon with new vertices only inside, then the result has the triangles of the answer; its first n*resolution vertices are the points of the boundary curves i at the parameters k/resolution, in the order of the loop; the inner vertices solve the same discrete biharmonic equation as in C73, and the evaluation succeeds exactly when the intermediate surface has no degenerate triangle. For planar loops with constant normals the result is a congruent copy of the planar mesh. The orientation of the triangles with respect to the loop is not determined: it changes with the sign of the singular vectors. As the maximal area is printed with six decimals, a loop with an average sample distance below about 0.001 gives zero, and the evaluation fails if Triangle refuses that.", "quantifier": "all n >= 1, resolutions >= 1, boundary curves and normals, answers of the library that are triangulations, singular value decompositions, solvers of regular systems", "why_tests_cant": "Needs the external library; the statement is about every loop and every mesh that the library may return, and about degenerate scales.", "anchors": ["src/transfinite/surface-biharmonic.cc:185-211", "src/transfinite/surface-biharmonic.cc:229-305", "src/transfinite/surface-biharmonic.cc:311-385"]}
{"id": "C91", "title": "What the statistics of the deviations say", "statement": "For at least four values printStatistics succeeds: the mean is the average; the standard deviation is that of a sample (n-1); the five numbers are in increasing order, the first and last are the least and the greatest value, the i-th is at position floor(n*i/4) + (n mod 4)/4 in the sorted order, so at least n*i/4 values are not greater and at most n*i/4+1 are less (at most n*i/4 when 4 divides n). The position is n/4 for the lower quartile, but the middle number is not a median in general: for 0,0,0,1,1 three of the five values are less than it. The histogram has 25 bins between the lower and the upper quartile; its bars are proportional to the counts, rounded down, and the highest is 15. When each value above the lower quartile has a lesser one nearer than the width of a bin, the count of each bin is the number of the values in it; otherwise values are counted in wrong bins. For less than four values the function reads outside of the vector or divides by zero.", "quantifier": "for all lists of real numbers of any length", "why_tests_cant": "The numbers are only printed; the claim is about all lists of values, and the errors for gaps and for lengths not divisible by four are silent.", "anchors": ["src/test/test.cc:359-417"]}
{"id": "C92", "title": "The deviation is the distance from a plane", "statement": "deviationFromMesh gives one number for each vertex of the mesh; it is the distance of the vertex from the plane of the triangle of the surface mesh (resolution 30) that is found: no point of the plane is nearer, and some point is at this distance. For a vertex above the triangle this is the distance from the triangle; otherwise it can be less: there is a triangle and a point with deviation 0 whose distance from the triangle is 1. A triangle without an area is a division by zero.", "quantifier": "for all surfaces of the patch model, all points, all triangles and all results of the external search for the closest triangle", "why_tests_cant": "The claim quantifies over all triangles and points, and the underestimation is a plausible number that no test of single values would question.", "anchors": ["src/test/test.cc:419-432"]}
{"id": "C93", "title": "The checks and meshes of the test program", "statement": "The positional error that the test program prints for a surface is the largest distance between the surface at 41 evenly spaced points of each side and the boundary curve at the same parameter, and it is attained. For the six surface classes on a regular domain, on a closed loop of regular curves, it is exactly zero. The midpoint error of the two midpoint classes is zero unless the surface has four sides. The fence mesh of the program is one closed band: column k starts on the boundary curve and ends at distance |scaling| along the unit normal, and the last column is joined with the first; the ribbon mesh is one open band per side, from the boundary curve to the curve plus ribbon length times cross derivative. All triangle indices are valid. With resolution 0 the loop of the fence does not end and the ribbons divide by zero.", "quantifier": "for all numbers of sides n >= 3, all good loops of curves, all histories of calls leading to an up-to-date surface, all resolutions, scalings and ribbon lengths; tolerance at most 1/50 and sin(2*pi/n)^2 sin(pi/n)/2 for the positional error, 1/200 and 2/n for the midpoint error", "why_tests_cant": "Running the program on some models shows small numbers for these models only; it cannot show that the exact value is zero for every loop, nor that the band closes for every resolution.", "anchors": ["src/test/test.cc:38-87", "src/test/test.cc:114-123", "src/test/test.cc:181-189"]}
{"id": "C94", "title": "update() depends on the unit of length: too small curves have no frame", "statement": "The rotation minimizing frame of a boundary curve can be computed exactly when at least one of the 101 sampled points of the curve is not within the tolerance of the starting point of the curve (squared distance at least epsilon). Consequently there is for every curve a threshold for the unit of length: scaled by a factor at least the threshold the frame exists, scaled by less it does not (the angle correction is divided by the accumulated length, which is 0). update() of a surface of any class fails when one of its curves is too small in this sense, whatever calls were made before. In particular, for every polygon without straight corners, a surface of any class (with given normals) can be made with a working domain when the polygon is large enough, and of no class when it is small enough, although the two inputs differ in the unit of length only.", "quantifier": "all regular curves, resolutions, tolerances > 0, units of length, starting and final normals; all surface classes and histories of calls; all polygons (side-based surfaces excepted in the positive part)", "why_tests_cant": "A test uses models of a given size. That there is a threshold for every curve, that it is exactly determined by the samples, and that no history of calls helps is a statement about all curves, scales and executions.", "anchors": ["src/transfinite/rmf.cc:26-49", "src/transfinite/rmf.cc:89-108", "src/transfinite/ribbon.cc", "src/transfinite/surface.cc"]}
{"id": "C95", "title": "Generalized Bezier patches: the tangent planes on a side are those of its first two rows", "statement": "For a (side-based) generalized Bezier patch of degree at least 3 and with at least 3 sides, the derivative of eval along any path of the domain starting at a point s of a side (more than the tolerance from the corners) is a combination of the derivative of the boundary Bezier curve (first row of control points) and the derivative of the tensor product patch of the first two rows, with a positive factor of the latter when the path leaves the side. So the tangent plane and the oriented normal vector on a side depend on the first two rows of control points of this side only: neither on the other sides, nor on the other rows, nor on the central control point. This holds with both kinds of weights when the points are set by setControlPoint, and with squared weights also when copies of a point were set differently by setIndividualControlPoint. With the other weights the derivative is given for any points (it has two terms for the 2x2 corner regions where copies differ), and a patch with one corner copy moved individually has another tangent plane, although all points of the side are in one plane.", "quantifier": "all numbers of sides n >= 3, degrees d >= 3, control points and central points, both weights, all sequences of calls after which the patch is usable, all points of all sides farther than the tolerance from the corners, all paths with a derivative", "why_tests_cant": "The derivative is a limit and the claim is about all control networks and paths. The negative part (individual points need squared weights, as a comment in the code says) is a statement on all degrees and numbers of sides.", "anchors": ["src/transfinite/surface-generalized-bezier.cc:56-108", "src/transfinite/surface-generalized-bezier.cc:161-196"]}
{"id": "C96", "title": "The tangential test: what the reported angle means and when it tends to zero", "statement": "The tangential test of the test program returns, when it returns, the largest of the angles taken at the 41 parameters j/40 of every side: the angle between the normal of the ribbon and the cross product of the numerical derivative along the boundary curve and the difference towards the interior. At an inner parameter of a side of a surface with the tangent property (C86-C89, C95) the angle is computed without error for small steps and has a limit as the step tends to zero: 0 when the cross derivative is exact, at most arccos((m - 2d)/(m + 2d)) when the cross derivative deviates by at most d from one of size m. With a normal of the opposite orientation the limit is 180 degrees although the tangent plane is right. In a corner with an acute angle, thus at every corner of a regular triangle, the point that the test evaluates for the sample 0 is outside of the domain for every step. For generalized Bezier surfaces built by regular calls the angle tends to zero.", "quantifier": "every number of sides, every convex domain, every loop of curves, every updated patch, every history of queries before the test, every step size (limit for the step towards zero), every inner parameter; for generalized Bezier surfaces every degree >= 3 and every control net with independent derivatives.", "why_tests_cant": "The test has a fixed step size and a fixed set of surfaces; that the angle measures only the step size for correct surfaces, and that it tells a wrong one for others, is a statement on limits over all surfaces.", "anchors": ["src/test/test.cc:88-110", "src/test/test.cc:125-156"]}
{"id": "C97", "title": "Hybrid patches have the tangent planes of their ribbons", "statement": "Along every side of an updated SurfaceHybrid of degree at least 3 with squared weights (the default), the surface has the tangent plane of the side's ribbon: starting at an inner point of the side, the one-sided derivative of eval() along any differentiable path of the domain is a combination of the derivative of the boundary curve and the cross derivative of the ribbon, with a positive factor of the latter when the path leaves the side. The control points (any of them, changed in any way after the update) do not matter. With overridden normal fences the derivative is exactly perpendicular to the fence. If the user switches squared weights off, there is an error term that depends on the points of the two adjacent ribbons.", "quantifier": "all numbers of sides n >= 3, degrees d >= 3, control networks, histories of calls with an update() after the last change of boundary or fences, all differentiable boundary curves and ribbons, all points of the sides outside of the corner tolerance, all paths of the domain", "why_tests_cant": "A limit for all paths at all points of the sides, for all networks and ribbons; a finite difference on samples cannot establish G1 continuity.", "anchors": ["src/transfinite/surface-hybrid.cc:13-47", "src/transfinite/surface-generalized-bezier.cc:197-243", "src/transfinite/surface.cc:166-171"]}
{"id": "C98", "title": "SuperD patches have the tangent planes of their ribbons; smooth joins between patches", "statement": "At every point of a side that is outside of the corner tolerance, the derivative of a SuperD patch along any path of its domain that starts there is a combination of the derivative of the quartic boundary curve and the cross derivative of the quartic ribbon of that side, with a positive factor of the latter if the path leaves the side. Hence two patches with a common side have common tangent planes there (and lie on different sides of the curve) when the face points are between the adjacent edge points with a common ratio and both have more than 4 sides, or both have at most 4 sides and the edge point is also between the vertex control points with this ratio. A patch with 4 sides next to a patch with 5 sides does not have this property even in the symmetric position, and with more than 4 sides the vertex control point has no effect on the patch at all.", "quantifier": "for all histories of calls that leave a usable object, all numbers of sides n >= 3, control points, fullness values, tolerances, sides, points of the side outside of the tolerance, and paths in the domain; all pairs of patches with a common side", "why_tests_cant": "The derivative at the boundary is a limit over all paths of the domain, and the connection of two patches depends on all control points, the fullness and the numbers of sides of both; sampled meshes show only finite differences.", "anchors": ["src/transfinite/surface-superd.cc:26-121", "src/transfinite/parameterization-superd.cc:11-18"]}
{"id": "C99", "title": "Affine maps of the control points", "statement": "For Generalized Bézier patches (side-based and corner-based), SuperD patches and S-patches: if all control points of a patch are transformed by an affine map (translation, rotation, scaling, projection, ...), then every point that eval() returns is transformed by the same map, and evaluation fails for the same parameters as before. For Generalized Bézier patches this includes the central control point, whatever the control points are (also when the copies of a point on two sides differ). For S-patches all control points of the network must have been set: points inside that were not set count as zero and do not move with the others, so if the other points are translated by t, a point of the patch moves by (1 - w) t, where w is the sum of the weights of the missing points.", "quantifier": "All affine maps of the space (including singular ones), all patches after any history of calls with n ≥ 1 sides and degree ≥ 1 (Generalized Bézier), n ≥ 3 sides (SuperD, with updateRibbons after the last change), n ≥ 3 sides and depth ≤ 20 (S-patches); all parameters uv, also outside of the domain.", "why_tests_cant": "A test transforms one patch by one map and compares a few points with a tolerance; the statement is about all maps, patches and parameters, and includes the parameters where evaluation fails.", "anchors": ["src/transfinite/surface-generalized-bezier.cc:56-108", "src/transfinite/surface-generalized-bezier-corner.cc:34-55", "src/transfinite/surface-spatch.cc:41-49", "src/transfinite/surface-superd.cc:26-121"]}
{"id": "C100", "title": "Convex hull of the control points", "statement": "Every point of an S-patch (whose control points have all been set with setControlPoint) is in the convex hull of its control points. The same holds for SuperD patches with 3 or 4 sides and a fullness in [0,1]; with 5 sides, or a fullness above 1, the surface may leave the hull. A Generalized Bezier patch is in the hull of its control points (including the central one) wherever the values of weight() do not sum to more than 1. For a cubic patch moving the central control point by t moves the centre of the surface by (n-2)(n-4)/n^2 t: for n = 3 the surface moves in the opposite direction, and leaves the hull.", "quantifier": "all call histories that lead to a usable patch, all control points, all points of the closed domain; all n >= 3 for the effect of the central control point; concrete witnesses for the negative parts", "why_tests_cant": "Containment has to hold for all control points and all parameters; tests only see some of them, and the exceptions (3-sided GB, more than 4 sided SuperD) depend on the number of sides.", "anchors": ["src/transfinite/surface-spatch.cc:24-48", "src/transfinite/surface-superd.cc:26-121", "src/transfinite/surface-generalized-bezier.cc:56-108"]}
{"id": "C101", "title": "Classical special cases: Bezier triangles and tensor product surfaces", "statement": "A three-sided S-patch of depth d is the Bezier triangle of degree d with the same control points. A four-sided SuperD patch is, over the whole domain, the biquartic tensor product Bezier surface obtained from its 3 x 3 grid of control points (corners, edges, vertex). A four-sided side-based Generalized Bezier patch of degree d >= 3 is the tensor product Bezier surface of degree d x d of its control grid, outside the corner zones of size epsilon, where it takes the value of the corner; for odd degrees the central control point has no effect, for even degrees it is the middle of the grid. For degree 2 this fails: there are control points for which the centre of the patch is at twice the height of the tensor product surface.", "quantifier": "all call histories leading to a usable patch, all control points, all fullness values, all depths up to 20 (S-patch), all degrees >= 3 (Generalized Bezier), all points of the domain; a concrete witness for degree 2", "why_tests_cant": "Equality with the classical surface is a polynomial identity in all control points and parameters and all degrees; sampling can only compare single points.", "anchors": ["src/transfinite/surface-spatch.cc:24-49", "src/transfinite/surface-superd.cc:26-121", "src/transfinite/surface-generalized-bezier.cc:39-108"]}
{"id": "C102", "title": "Four-sided C0 Coons patches and the classical Coons patch", "statement": "An up-to-date four-sided C0 Coons surface is, at every point of its domain, the bilinearly blended Coons patch of its boundary curves plus u(1-u)/2 and w(1-w)/2 times the differences between the boundary curves and the cubic Hermite curves with the same ends (which the ribbons use in the place of the opposite sides). In particular, when all boundary curves are cubic, the surface is exactly the bilinearly blended Coons patch; for other curves it may be different, even at the centre and even when all curves are straight.", "quantifier": "all closed loops of four curves, all call histories leading to an up-to-date surface, all points of the domain; a concrete witness for the last part", "why_tests_cant": "An identity for all curves and all parameters; tests with cubic (or linear) boundaries cannot see the deviation that appears for other curves.", "anchors": ["src/transfinite/ribbon-coons.cc:10-51", "src/transfinite/surface-c0coons.cc:22-29", "src/transfinite/parameterization-barycentric.cc:18-66"]}
{"id": "C103", "title": "Degree elevation of four-sided Generalized Bezier patches", "statement": "elevateDegree() on a four-sided Generalized Bezier patch of even degree (at least 4) does not change the surface: at every point of the domain both patches have the same value. For odd degrees (at least 3) it does change it: outside of the corner zones the elevated surface differs from the original by B(u) B(w) (d-1)/(2(d+1)) times the difference between the mean of the eight control points around the four middle ones and the mean of the middle ones, B being the middle Bernstein polynomial of degree d+1. When the central control point of the elevated patch is then set to the mean of the four middle control points of the original, the surface is the same as the original.", "quantifier": "all call histories leading to a usable four-sided patch with a consistent network, all control points, all degrees >= 3, all points of the domain; a concrete cubic patch for the change of the surface", "why_tests_cant": "Invariance for all networks, degrees and parameters; with a flat or symmetric network, or an even degree, a test sees no difference.", "anchors": ["src/utils/gb-fit.cc:8-66", "src/transfinite/surface-generalized-bezier.cc:56-108"]}
{"id": "C104", "title": "The first side of a control net does not matter", "statement": "Two control-point surfaces of the same kind with the same control points, where side i of the second one is side i+s of the first one, are the same surface: the value of the first one at a point of the domain turned by s sides (2 pi s / n) is the value of the second one at the original point. This holds for S-patches (the labels of the control points are rotated), SuperD patches, and for both the side-based and the corner-based Generalized Bezier patches. For the Generalized Bezier patches both evaluations always succeed in the closed domain; for S-patches and SuperD patches one succeeds exactly if the other does.", "quantifier": "all n >= 3, all s, all call histories leading to usable surfaces, all control points; S-patches: depth <= 20, any point of the plane; SuperD: any point; side-based: any point of the closed domain, 0 < epsilon <= 1/2; corner-based: any radius, any angle >= 0", "why_tests_cant": "Every index of the code is taken modulo n, with offsets depending on the side; an error at one seam is only seen with particular n and control points, and the claim is over all of them.", "anchors": ["src/transfinite/surface-spatch.cc", "src/transfinite/surface-superd.cc", "src/transfinite/surface-generalized-bezier.cc", "src/transfinite/surface-generalized-bezier-corner.cc", "src/transfinite/parameterization-circular.cc:43-76"]}
{"id": "C105", "title": "Curves of constant distance of the circular parameterization", "statement": "In the circular parameterization the points of distance h from a side are on the circle through the two boundary points at the angles +-(2h+1) pi/n from the middle of the side, crossing the boundary at angle h pi (for h = 0 and h = 1 this is the boundary itself), or on the vertical line through these points where the direction there is nearly vertical. The function whose root mapToRibbon looks for is the horizontal difference between the point and this curve (to the rightmost point not beyond 1), or for h > 0.8 the distance from the circle; hence a point where it vanishes is on the curve. It is not a number exactly when h <= 0.8 and the circle is lower than the point. In every point of a side the curves of the two neighboring sides through this point touch each other (distances h and 1-h). In the centre of a four-sided disc all parameters are exactly 1/2.", "quantifier": "all n >= 4, all h in [0,1], all points, all epsilon > 0 (ends: epsilon <= the sine of the arc angle; centre: epsilon <= 1/10)", "why_tests_cant": "The curves are only visible through the result of a bisection that never reports the residual; sign errors show only in special places (the nearly vertical line) and for special n.", "anchors": ["src/transfinite/parameterization-circular.cc:15-23", "src/transfinite/parameterization-circular.cc:57-75"]}
{"id": "C106", "title": "Default settings", "statement": "A new curve-based surface uses the gamma function in its blends, a new SuperD patch has fullness 0.5, a new Generalized Bezier patch uses the plain (not squared) rational weights, and a new hybrid patch uses the squared ones: calling setGamma(true), setFullness(0.5), useSquaredRationalWeights(false) or, for the hybrid patch, useSquaredRationalWeights(true) as the first call makes no difference to anything that follows.", "quantifier": "all kinds of surfaces, all later call histories", "why_tests_cant": "Equality of all later observations.", "anchors": ["src/transfinite/surface.cc:13-16", "src/transfinite/surface-superd.cc:17", "src/transfinite/surface-generalized-bezier.cc:23", "src/transfinite/surface-hybrid.cc"]}
{"id": "C107", "title": "Evaluation in several threads", "statement": "The evaluation functions are const, but not safe to call from several threads. Calls of mapToRibbons on one parameterization object (as in evaluations of a surface and its copies) are free of data races, whatever the interleaving, exactly if all the points are in the cache already; it is enough to evaluate them once in a single thread before. If the accesses to the caches were protected by locks, every interleaving would give the results of single calls. The evaluation of normal fences (RMF::eval) of any two ribbons, also of independent surfaces, is a data race on a static matrix, and one of the calls may get its normal rotated with the matrix of the other one, so that it is in the direction of the curve; calls that are not interrupted by others are right, whatever happened before.", "quantifier": "every number of threads, every interleaving, all points, all classes of parameterization, after every history of calls; for the matrix all axes, angles and vectors", "why_tests_cant": "Races depend on the schedule and are not reproducible; a test run sees a few of the interleavings.", "anchors": ["src/transfinite/parameterization.cc:22-35", "src/transfinite/parameterization-barycentric.cc:49-113", "src/transfinite/rmf.cc:51-87"]}
{"id": "C108", "title": "Smoothness of the control point based surfaces", "statement": "An S-patch (of depth at most 20) is an analytic function of the two domain coordinates in the whole closed domain, up to and including sides and corners. A Generalized Bezier patch (side-based) is analytic at every point of the closed domain where no two adjacent distance parameters sum to less than the tolerance, including the points of the sides; in particular the change between the two formulas of the side parameter (small coordinates) is not visible in the surface. A SuperD patch is analytic at every point that is not within the tolerance of a side. At the border of the tolerance of a corner a Generalized Bezier patch is not continuous: along a side it stays in the corner point and then jumps onto the boundary curve.", "quantifier": "all numbers of sides (at least 3), degrees, networks of control points, histories of calls and points of the domain; all tolerances below the given bound", "why_tests_cant": "Smoothness is a statement on limits at all points; finite differences in samples cannot tell a small jump from a large derivative.", "anchors": ["src/transfinite/surface-spatch.cc:24-50", "src/transfinite/surface-generalized-bezier.cc:52-108", "src/transfinite/surface-superd.cc:101-121", "src/transfinite/parameterization-barycentric.cc:17-113"]}
{"id": "C109", "title": "The workaround for far sides agrees with the barycentric ratio for Wachspress coordinates, and jumps for the other coordinates", "statement": "ParameterizationBarycentric::mapToRibbon uses one formula when the two coordinates of the side sum up to at least the tolerance, and another one (distances from the neighbouring sides weighted by the sines of the angles) below it. With Wachspress coordinates both give the same value in every point of every strictly convex domain, so the result does not depend on the tolerance (as long as the tolerance does not exceed the weighted distance from the neighbouring sides); with at least four sides the parameters are analytic functions on the whole closed domain for every small tolerance. With mean value coordinates the side parameter is discontinuous already in the regular four-sided domain, for every tolerance up to 1/4; with discrete harmonic coordinates it is discontinuous in every parallelogram that is not a rectangle.", "quantifier": "for all strictly convex domains, all their points, all sides and all tolerances (Wachspress); for all tolerances up to 1/4 and all side parameters except 1/2 that are not within the tolerance of the ends (mean value, square); for all parallelograms (harmonic)", "why_tests_cant": "The second formula is used only in a strip of the width of the tolerance at the far sides, and the agreement is an identity over a continuum of polygons and points; a jump of the size of a few percent inside of this strip is not visible on sampled meshes.", "anchors": ["src/transfinite/parameterization-barycentric.cc:18-41", "src/transfinite/parameterization-barycentric.cc:24-26", "src/transfinite/domain.cc:219-229"]}
{"id": "C110", "title": "Error of the singular blends caused by the tolerance", "statement": "The exact singular blends (products of the squared distances from the other sides, normalized) are continuous up to the sides; the library evaluates another formula within the tolerance of a side. Away from all sides blendSideSingular and blendCorner return exactly the exact blends. Within the tolerance ε of one side only, with the others at least m away, every side blend differs from the exact one by at most (n-1)(ε/m)², and (with distances at most 1) every corner blend by at most (n-2)ε²/(2m⁴); so the jump at the border of the tolerance is of this order. In the corners there is no such bound for the side blends: two sides within the tolerance get 1/2 each, also where the exact blends are 1 and 0. Hence the points of side-based and SuperD surfaces within the tolerance of one side are at most ((n-1)ε/m)²D, and those of corner-based surfaces at most (n-1)(n-2)ε²D/(2m⁴), away from the points given by the exact blends, where D bounds the distances of the interpolants from that of this side.", "quantifier": "for all numbers of sides, all local parameters with these distances and all positive tolerances", "why_tests_cant": "The bound is for a continuum of points in the strip of width ε (1e-8 in practice), where sampling does not see the difference from the exact blends; the quadratic dependence on ε is a statement about all tolerances.", "anchors": ["src/transfinite/surface.cc:186-221", "src/transfinite/surface.cc:223-248"]}
{"id": "C111", "title": "Moving the control points of a hybrid patch moves the surface", "statement": "Apply a rotation (or another linear isometry of determinant 1) to all 3D arguments of a history of calls of SurfaceHybrid: the control points, the central control point and the normals. Then the same calls fail, and eval() at the same parameter point gives the rotated surface point. For a motion with a translation the same holds when every control point was set by setControlPoint() before setupLoop() and the central control point was set as well, since the points that were not set stay at the origin. When only the central control point was not set, the result is the moved point plus the weight of the central control point times its missing movement; this weight does not depend on where the central control point is. For four sides and degree at least 3 it is the middle tensor product Bernstein function when the degree is even (so that the surface is really not translated), and zero when it is odd. The length of the Bezier curves given by libgeom is assumed not to change by motions.", "quantifier": "all histories, numbers of sides, degrees, motions, tolerances and parameter points", "why_tests_cant": "A test compares a few points of a few patches; histories with failing calls, repeated initNetwork() or setupLoop() calls and all motions cannot be covered by examples.", "anchors": ["src/transfinite/surface-hybrid.cc:13-47", "src/transfinite/surface-generalized-bezier.cc:120-195"]}
