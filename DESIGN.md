# Formal model of salvipeter/transfinite — design

## Trusted base

* The Lean 4.33.0 kernel; axioms `propext`, `Classical.choice`, `Quot.sound` (the usual Mathlib ones).
  No own axioms, no `sorry`, no `native_decide`, no `bv_decide`.
* That the Lean definitions transcribe the C++ text. Each definition cites file and lines in /repo.
* **Numbers.** `double` is modelled by an exact linearly ordered field `K` (`ℝ` where square roots or
  trigonometric functions matter). Floating point rounding and infinities are not modelled; a NaN is modelled only where the square root
  of a negative number can occur (`circleDeviation`, `bisect`: the value `none`).
  A division by zero is not given a value: it is the distinct outcome `Fault.divZero`.
* **Integers.** `size_t` is `ℕ`; expressions that may wrap (`degree_ - 2`, `binomial`) are modelled
  modulo 2^64 explicitly where the wrap-around is relevant, otherwise the range side condition is a hypothesis.
* **Undefined behaviour.** Every vector access is checked (`Fault.oob`), so a theorem concluding
  `... = .ok v` also claims absence of out-of-range accesses and divisions by zero.
* **libgeom** (`src/geom` is an empty submodule at this commit) is external: `Point2D/3D`, `Vector2D/3D`,
  `BSplineCurve`, `TriMesh`, `Matrix3x3` are modelled by their obvious meaning (component-wise arithmetic, dot and
  cross product; a curve is a pair of functions point/derivative, plus arc length, and `reverse`
  reparameterizes by `1-u`). The constant `epsilon` is an arbitrary `ε > 0`.
* **Eigen** solvers are external: theorems quantify over *every* possible solver result (or every solution).
* **Not modelled:** file system and stream internals (files are lists of tokens/lines), number printing
  (an abstract format/parse pair), `std::chrono`/debug output, compilation of templates, memory allocation failure.

## Method

* `Verif/Prelude.lean`: faults, checked access, loops. `Verif/Geom.lean`: points.
* `Verif/Model/*.lean`: the code, function by function.
* `Verif/Spec/*.lean`: small independent specifications.
* `Verif/Lemmas/*.lean`: helper lemmas.
* `Verif/Props/*.lean`: the property theorems with non-vacuity examples.

Each property below: what is modelled and how it is proved.

## Properties

* **C01 Mesh counts and index validity.** `meshSize`, `meshTopology`, `parametersImpl` as lists built by the same nested loops. Induction on the loops; arithmetic for index bounds.
* **C02 Mesh is a consistently oriented manifold.** Directed edges of the triangle list; injectivity of (row, column, side, kind) → directed edge, by an explicit decoding of triangular-number indices.
* **C03 onEdge marks exactly the mesh boundary.** `onEdge` with its perfect square test; unpaired directed edges characterised by row; both directions.
* **C04 onEdge vertices lie on the domain polygon's boundary and only those.** Explicit formula of `parameters[index]`; convex combination for edge points; strict positivity of all side functions for interior ones.
* **C05 The parameter mesh tiles the domain.** Each triangle's signed area is a constant fraction of the corresponding fan triangle; sum over the triangles by counting.
* **C06 Mesh parameter cache is transparent.** State machine (polygon, cache) with operations; invariant by induction over histories; `DomainCircle` counterexample (n=3,r=3 and n=6,r=2 collide).
* **C07 Local side coordinates.** `Domain::update` on arbitrary vertex lists; linear algebra.
* **C08 Regular, circular and fallback domains are strictly convex.** Over ℝ with sin/cos; sum-to-product formulas.
* **C09 Angular domain is closed, in the unit box, and its convexity check.** Over ℝ: closing by distribution of the error and rescaling; convexity check as a boolean function; witness for the missed corner.
* **C10 Ray-edge intersection.** Over a field; case analysis of the branches.
* **C11 Barycentric coordinates: partition of unity and linear precision.** Weights as in the code, for all three kinds; algebraic identity with cyclic sums.
* **C12 Barycentric mapping reproduces the sides.** Boundary evaluation of the products of areas.
* **C13 Barycentric parameters stay in the unit square.** Sign analysis of the same products.
* **C14 Bilinear mapping solves the bilinear equation.** Quadratic formula over ℝ.
* **C15 Parallel distance parameter.** Affine function and maximum over vertices.
* **C16 Interconnected and constrained parameterizations meet their side constraints.** Direct algebra on the formulas.
* **C17 Overlap parameterization is complementary.** Direct algebra on barycentric sums.
* **C18 Polar parameterization inverse.** Bisection loop invariant.
* **C19 Parameter caches are transparent.** Object state = (domain, cache); invariant by induction over histories.
* **C20 Normal fence interpolates its end normals.** RMF frames over ℝ; angle via acos; Rodrigues formula.
* **C21 Normal fence stays unit length and perpendicular.** Invariant through the 100 double reflection steps.
* **C22 Cross derivatives lie in the tangent plane.** Vector algebra, unit normal.
* **C23 Ribbons are compatible at the corners.** Uses C20 and orthogonality; vector algebra.
* **C24 Ribbon base and controls.** Direct.
* **C25 Coons ribbon interpolates its sides.** Direct, from closed loop hypotheses.
* **C26 setupLoop orients the loop head to tail.** Loop model with a list of curves; induction with an invariant on the prefix.
* **C27 setupLoop is idempotent, and reverses shared curve objects in place.** Idempotence from C26's characterisation; heap of curve objects for the aliasing part (counterexample).
* **C28 Singular side and corner blends form a partition of unity.** List sums; rational functions.
* **C29 Deficient corner blends.** Polynomial inequalities; boundary values.
* **C30 Side-based patch interpolates its boundary.** Composition: blends at boundary + ribbon base.
* **C31 Corner-based patch interpolates its boundary.** Composition: corner blends + corner interpolants at d=0.
* **C32 Generalized Coons patch interpolates its boundary.** As C31 with side correction.
* **C33 Composite ribbon patch interpolates its boundary.** As C31 with composite ribbons.
* **C34 Midpoint and Midpoint Coons patches interpolate their boundary.** `C34_midpoint`, `C34_midpointCoons` from the blends on a side (C29) and the agreement of the corner interpolants. Props/SideBand.lean treats the points within the tolerance of a corner: `blendCornerDeficient` sets the blend of the near corner to 1 there and leaves the other one unchanged, so the sum is 1 + `bump`, and the central control point gets the weight -`bump`.
* **C35 C0 Coons patch interpolates its boundary.** All three ribbons with a nonzero weight on side i give the point of curve i. The ribbon of the previous side needs its parameter to be 1; `bary_sideParams_four` proves this for n >= 4 also in the tolerance band; for triangles `bary_prev_cases` leaves 1 or 0.
* **C36 Midpoint can be prescribed.** Algebra: central control point is solved from the deficiency; deficiency at the centre of the regular domain computed.
* **C37 Mesh evaluation is pointwise evaluation.** Map over the parameter list. `Surface::eval(resolution)` is modelled once more (Model/SurfaceMesh.lean) over an arbitrary virtual `eval(uv)` for the classes with control points; `Mesh.eval_ok` needs only that objects that differ in caches give the same points, which is shown for each class from C19 (for hybrid patches the cache is threaded through three loops: `evalNet_agree`). The states are all those reachable by the calls of the class and by the evaluation of meshes (`Reached`). The property does not hold for the corner-based Generalized Bézier patch, whose `DomainCircle` keeps stale parameters (C06): `C37_corner_stale` gives a history of calls after which a point of the mesh is not the point at its parameter; `C37_corner` shows the property when all earlier meshes were evaluated with the same number of sides.
* **C38 Partial update suffices for ribbon controls.** State with per-ribbon data; update functions; equality of states.
* **C39 Partial update does not suffice after a curve change.** Concrete witness on the C38 model.
* **C40 Copies of a surface.** Model/Sharing.lean has a heap with the objects behind `domain_` and `param_`, and programs that create, copy, assign and call surfaces. Spec/Copies.lean has the same programs on surfaces by value. C40_deep is a simulation: shared parameterizations differ only in their caches, and these do not change any result (C19). C40_shared follows the addresses for arbitrary programs.
* **C41 Generalized Bezier control net is consistent.** Network as a function of (i,j,k); operations; induction on write sequences.
* **C42 Generalized Bezier patch interpolates its boundary curves.** Sum over the network at boundary values.
* **C43 Generalized Bezier weights explain the evaluator.** Rearrangement of sums using twin involution.
* **C44 Corner-based GB patch interpolates its boundary curves.** As C42/C43.
* **C45 Saved Generalized Bezier patch loads back.** Token list writer/reader; reader ∘ writer = id using C46.
* **C46 Control point enumeration is a bijection.** Counting and injectivity of the loop.
* **C47 Exported control mesh faces are valid.** Map from control point to running index; range checks.
* **C48 Degree elevation keeps boundary curves.** Formulae of the elevation; curve equality from C56-like identity.
* **C49 Fitting keeps the boundary rows.** Order of copying; independence from the solver output.
* **C50 S-patch weights and boundary.** Multinomial theorem over compositions; boundary restriction.
* **C51 SuperD patch interpolates its quartic boundary.** Invariants over call histories; the three known sides of every ribbon; local parameters of the side points of a regular polygon with the scale of `ParameterizationSuperD`; singular blends.
* **C52 Elastic patch on the boundary.** `Model/Elastic.lean` models `eval` with its early return; the state is that of a corner-based `Patch` (same domain, parameterization and ribbon classes). `Elastic.Reached` / `Elastic.Current` describe all histories of calls and elastic evaluations. `C52_boundary`: evaluation is defined on the whole closed domain, and returns a boundary curve point with preimage within the tolerance, or all feet are farther. `C52_side`: side points. `C52_near`: exact value near the boundary.
* **C53 Bernstein evaluation.** Loop invariant of the triangular scheme.
* **C54 Binomial coefficients.** Model modulo 2^64; divisibility argument; witness.
* **C55 Hermite blending functions.** Polynomials over a field; derivative over ℝ.
* **C56 Bezier degree elevation keeps the curve.** Algebra of Bernstein sums.
* **C57 Bezier curve evaluation and derivatives.** The loops are computed in closed form over a field; derivatives of Bernstein sums by Mathlib's `bernsteinPolynomial`, iterated; the quadrature is written as four values of the speed.
* **C58 Class A fitting hits its end points.** Optimizer as an arbitrary function of the degree; recursion by fuel; a successful call is opened up by `fit_spec`.
* **C59 Nelder-Mead never returns a worse point.** Iteration invariant y=f(S) and monotone minimum; each iteration is compared with the relation `Spec.NMStep`, which is written with sums over coordinates and without the code's helper functions.
* **C60 Harmonic patch: boundary and energy.** Model/Harmonic.lean follows `eval(resolution)`: the choice of the boundary side (arg max of the barycentric coordinates), the cotangent weights, the constraint rows with multipliers, and the linear solver as a parameter which solves regular systems. The specification (Spec/Dirichlet.lean) defines the gradient of a piecewise linear function and its Dirichlet energy without cotangents. Regularity of the system is proved (a function of zero energy that vanishes at the boundary is zero, since the mesh has no closed part).
* **C61 Bisection stays in its bracket.** Loop invariant.
* **C62 OBJ reading.** `Model/OBJ.lean` models the loop over lines with the shared `std::istringstream` (`ss.str` does not clear the state; `seekg` clears only the eofbit). Specification: `Says` relates the text of a line to a vertex, a face or neither, through an arbitrary relation between texts and numbers (`Writes`). `C62_read`, `C62_complete`, `C62_no_faces`: what is read from well-formed files. `C62_normals`, `C62_texture`, `C62_slashes`: what happens with the usual lines of OBJ files that the reader does not know.
* **C63 N-sided experimental patch reads only ribbon 3.** `Model/NSided.lean` composes the two cached parameterizations with `Surf.nsided`. Proved: value = ribbon 3 at its parameters (n ≥ 4); out of range for n = 3; explicit value as image of the side frame; interpolation of side 3; of two loops sharing ribbon 3 at most one is interpolated at other sides; out of range left of the strip with computed normals.
* **C64 No call of the usual cycle fails.** The `Patch` object model (state, calls, histories); every partial operation shown to succeed on an invariant (`Ready`, `Handlers`) that is preserved by every allowed call; `C64_built` establishes the invariant from a new object.
* **C65 Circular parameterization.** `circularMap` over ℝ with `fmod` given by its specification; the local angle is an integer plus a linear function of `s`, the integer is determined by the range of `fmod`.
* **C66 The fitted patch solves the advertised least-squares problem.** The matrix and the right hand side are computed in closed form (`Lemmas/GBFit*`); sums over names are regrouped to sums over points (`Lemmas/GenBezierGroup`), which gives the residual of each equation in terms of the evaluation of the resulting patch (C43).
* **C67 Class A control polygons.** Rotations around a unit axis form a one-parameter group (`rotate_iterate`); the angle between the projections of the end directions is divided by degree-1.
* **C68 Perpendicular-polar parameters.** `perpPolarMap` over the reals; stated with the independent `Spec.framePoint`.
* **C69 Elastic patch minimizes bending energy.** Specification (`Spec/Elastic.lean`): rods are cubic polynomials over the segments from the feet, energy = integral of squared second derivative, computed with Mathlib's interval integral. `C69_energy`: the returned point is the end point of the unique minimizer over all end points and partial derivatives. Regularity of the 3x3 system is proved, not assumed: strictly inside a convex polygon the feet on three sides cannot be collinear with the point (`spread_inside`). Assumption: `Solver` (the solver returns a solution when there is one). Not covered: conditioning of the QR decomposition in floating point.
* **C70 Harmonic patches of flat loops.** Consequences of the minimality in C60: the projection to the plane has a smaller energy, and linear functions are orthogonal to the functions that vanish at the boundary.
* **C71 Hybrid patches.** `Model/Hybrid.lean` models surface-hybrid.cc: the control network of a GB patch and a surface object with the domain, parameterization and ribbons of a composite ribbon patch. `eval` follows the three loops with the parameterization object (and its caches) passed through every weight() call. Histories consist of network calls, surface calls (without `setCurve(s)`), `setupLoop` and `eval`. Proof: invariant (fresh parameterization, regular domain, shape of the network), sums over the three loops as a sum in the product of the three accumulators, and the weights on a side (as in C42/C43). `C71_outer` compares two evaluations step by step; control points in the outer layers also have names in the layers k >= 2 of the neighbouring sides, but with weight 0 there.
* **C72 Boundary of polar patches.** Model/Polar follows surface-polar.cc line by line (refit systems, degree elevation rounds, the base line, the sum over the corners); the linear solver is a parameter that solves regular square systems (Spec/Polar `Solver`; one exists, `exists_solver`). Lemmas/Polar shows by induction on the degree that the left and right curves are the unique polynomial interpolants and that at angle 0 (1) the middle curve is the left (right) one, up to a linear error term; Lemmas/PolarRibbon computes this term. For the corners not on the side only success is needed, it follows from the inverse of the polar parameterization (C18). Disagreement with the expectation (boundary interpolation): see the findings.
* **C73 Biharmonic patches.** Model/Biharmonic follows surface-biharmonic.cc: laplaceMatrix, computeAngle, voronoiArea(s), computeCurvatures, prepareSolver (as the list of the triplets of the system), the two stages of eval(resolution), and the ribbons of the compatible kind. The sparse factorization is a parameter; the angle of two vectors and its cotangent are expressed by dot and cross products (cot(acos x) identity, Libm). Spec/Biharmonic gives the cotangent Laplacian, the Voronoi area, the bending energy and the curvature vector directly on the triangle list. The proof reduces the triplet sums to these, shows by the discrete Green formula that the system is the normal equation of the bending energy, and that the energy is definite on functions vanishing on the boundary (zero energy means a harmonic function with zero Dirichlet energy, constant on every triangle, so zero by connectedness to the boundary), so the system is regular (Lemmas/BiharmonicSolve, `Rim`).
* **C74 Voronoi areas.** With A, B, C the dot products at the corners and D twice the area, D² = AB+BC+CA, and all three cases become identities of rational functions. The circumcenter is characterized by being in the plane of the triangle with equal distances.
* **C75 Flat patches.** For constant normals the integral around every vertex is a closed polygon (with the boundary edges added for the vertices on the boundary), so the mean curvature is 0 (`ring_zero`, `rhs_zero`); this uses that the domain mesh is an oriented manifold (C05). Then uniqueness (C73) gives the result.
* **C76 Tangent planes of the side-based surface.** Spec/Tangent.lean defines one-sided derivatives, paths of the polygon that start on a side, and how fast they leave it. Props/Tangent.lean states the loop and the smooth cross derivatives (`SmoothRibbons`) in terms of the values returned by `crossDerivative`, and the claim (`TangentAt`) in terms of `eval`. Proof: derivatives of the local parameters along the path (Lemmas/TangentParallel), of the blends (Lemmas/TangentBlend: they vanish to second order on the other sides) and of the side interpolants; the surface formula is differentiated in Lemmas/TangentSurfaces. The result does not need the twists. Paths that run along the side are included (beta = 0). Curve derivatives are part of the model of a curve (`der`), their being the derivatives of `pt` is a hypothesis.
* **C77 Tangent planes of the corner-based surface.** As C76 with the bilinear parameters. The corner correction subtracts the twist, which `Surface::updateCorner` computes as a difference quotient with step 0.0001; the theorem bounds the resulting error of the tangent plane by the change of the derivative of the cross derivative over that step (mean value theorem in Lemmas/TangentPatch). So the surface is G1 with its ribbon only up to this error: the source code does not achieve exact tangency when the twist varies near the corner.
* **C78 Tangent planes of the generalized Coons surface.** As C77 with interconnected parameters, whose denominators need the tolerance to be small compared to the polygon.
* **C79 Tangent planes of the composite ribbon surface.** As C77 with barycentric parameters.
* **C80 Tangent planes of the midpoint surfaces.** As C77; the blend of the central point is one minus the sum of the other blends and vanishes to second order on the boundary.
* **C81 Normal fences.** `FencedLoop` is the specification of a loop with normals. Proof: closed form of the cross derivative with a fence (Lemmas/TangentFence), its derivative, and Lipschitz bounds for it, which give the constant of C77-C80. The tangent plane bound is elementary. Objects are built by the calls curves, setupLoop, overrideNormalFence, setHandler, update. Example: a square with normals (0,0,1) and handlers (1,2,3).
* **C82 Reading curve loops.** `Model/FileIO.lean`: `readLOP` with its uninitialised variables as arbitrary parameters and the vectors `knots` and `cpts` reused from curve to curve. The format of the file is specified separately in `Spec/FileIO.lean` (`IsLOP`), as a relation between tokens and curves. `C82_read`, `C82_count`, `C82_truncated`, `C82_empty`.
* **C83 Writing parameterized point clouds.** `writePCP` as the list of the lines of the file. `C83_lines`, `C83_short`.
* **C84 Loading S-patches.** `loadSPatch`, on a stream with exceptions. `C84_read` gives the equality with a history of calls as in C50, `C84_only` is the converse, `C84_exception` says that everything else is an exception. `C84_complete` proves that distinct labels cover all labels by counting them (`card_labels`), so the hypotheses of C50 hold. `C84_missing` is about files with a missing label.
* **C85 Loading SuperD models.** `loadSuperD`, with uninitialised variables. `C85_read` relates the result to the file (`IsSuperD`) and to histories of calls as in C51, also for truncated files.
* **C86 Parameters of points near a surface.** `paramPoint` and `parameterizePoints`, with the external `closestTriangle` as an arbitrary function. `C86_point` computes the weights, using that the areas are the absolute values of the barycentric coordinates (`exists_bary` gives these for any point); `C86_points` combines this with C37 on mesh evaluation and the transparency of the domain's cache; `C86_vertex`, `C86_domain` are the consequences that a user relies on.
* **C87 Moving the input moves the surface.** `Spec.Motion` is a linear map that respects scalar and vector products (so a rotation, not a reflection) and a shift. `Agree r x y` says that two computations fail in the same way or have results related by `r`; it composes along binds and loops, so the model is followed function by function (Lemmas/Motion for curves, rotation minimizing frames, ribbons and the surfaces, Lemmas/MotionPatch for objects and histories). Points that are sums of weighted points are related by `W g w`, where `w` is the sum of the weights; Lemmas/MotionSides shows w = 1 from the partition of unity (C26 to C29). The square and its image by a quarter turn and a translation are the examples.
* **C88 A surface on a flat convex loop is flat.** `Spec.FlatLoop` says that curves and tangents are in the plane N·p = k and that the mixed product of N and the derivatives at each corner is positive. Lemmas/Flat follows the code with the subspace N·p = 0: frames keep the normal N, the end normals are N, so the correction angle is arccos 1 = 0, cross derivatives are in the subspace, and ribbons, corner corrections and all evaluations are combinations of such vectors. Other planes are moved to the origin by C87, which gives the conditions of C87. The square at any height, with handlers (1,2,3), is the example. C88_fold and C88_reflex show what happens with a reflex corner.
* **C89 It does not matter which boundary curve is the first one.** `Spec/Shift.lean` defines corresponding calls (`SameCall`) and the rotation of the parameter plane; `Lemmas/Shift*.lean` prove that every function of the model maps shifted data to shifted data (`Alike`: both fail, or both succeed with related results). The curves may be given in any direction: the orientation found by `setupLoop` is unique by C26. `C89_history` (the same histories fail), `C89_ribbons`, `C89_params`, `C89_eval`. Queries may be part of the histories (evaluation and local parameters at corresponding points); mesh queries and the replacement of single curves are left out, and side numbers are below n. Over the reals the order of summation is irrelevant; with doubles the results agree up to rounding only. Not claimed for the side-based class, whose convexity check of the angular domain depends on which side is horizontal.
* **C90 Biharmonic patches with the Triangle library.** Model/BiharmonicLib follows the part of surface-biharmonic.cc under `HAVE_LIBTRIANGLE`: sampling, projectToLSQPlane, the flat input lists with the closing segment, reading of the answer, vertex_boundary and on_edge of this variant. The external calls are the fields of `Lib`. Spec/Triangulation says what a triangulation of a polygon is (polygon first, positive triangles, connected manifold with the polygon as its boundary) and what principal directions are. `C90_plane` is the least squares property, by Parseval's identity in the frame of the singular vectors. `C90_biharmonic` reduces to the equations of C73 (`surfacePoints_eq` holds for any mesh with `Rim`). `C90_flat` by uniqueness, as in C75, with the residual of the fitting plane zero. `C90_direction` compares the sum of the signed areas of the triangles with the area of the polygon (discrete Stokes). `C90_tiny` is the rounding of the area. Example: square with one inner vertex.
* **C91 What the statistics of the deviations say.** Model/Statistics.lean models printStatistics (test.cc 359-417) returning the numbers that are written: mean, standard deviation, the five numbers, the counts of the bins and the heights of the bars. Spec/Statistics.lean has the independent notions: a ranking of the data (a sorted permutation), the value at a fractional position in it, the interval of a bin, and the number of values with a property. The positions follow from the index arithmetic (four cases of n mod 4), order and counting from sortedness. The histogram is by induction on the sorted values with the invariant that the previous value is in the current bin; this needs that consecutive values are at most a bin width apart, since the code advances by at most one bin for each value. Negative results: C91_short (n < 4), C91_median, C91_gap.
* **C92 The deviation is the distance from a plane.** Model/Statistics.lean models deviationFromMesh (test.cc 419-432). Every point is written as a combination of the vertices plus a multiple of the normal (exists_bary of C86); the result is the norm of this multiple, and orthogonality gives that it is minimal in the plane. C92_outside is the witness for the underestimation.
* **C93 The checks and meshes of the test program.** Model/Demo.lean follows `ribbonTest`, the positional test of `showDeviations` and the midpoint test of `surfaceTest` loop by loop; the surface object is passed through the loops, because each evaluation fills its caches. `C93_meaning` proves that the result is the maximum of the distances (an upper bound, and attained) for the original object, whatever the caches contain; `C93_zero` combines this with C31-C35, whose tolerance conditions hold at the parameters j/40. `C93_midpoint` follows from C36 and C64. `C93_fence` and `C93_ribbons` give the points by index and the triangles as the lists `closedBand` and `openBands` of Spec/Demo.lean. `C93_resolution` is the behaviour for resolution 0.
* **C94 Too small curves.** Model: `RMF.update`, `RMF.nextFrame` (Model/RMF), the calls of `Patch`. Specification (Props/Scale): `Reaches` (a sample that is not within the tolerance of the start), `Curve.inUnit` (change of the unit of length), `Regular` (nonzero derivatives at the samples, positive length of proper arcs), `polygonLoop`, `makeSurface`. Proof: while no step is taken, the frame remains the starting one with accumulated length 0, and the test of `nextFrame` compares with the starting point; after a step the length is positive and stays so. Hence the final division fails exactly if `Reaches` does not hold. For surfaces, `update()` updates every ribbon, and so needs the frame of every curve, whatever the state is. `C94_polygon` combines this with C64 (sides of length at least 100 sqrt(epsilon)).
* **C95 Tangent planes of generalized Bezier patches.** `GB.C95_derivative` computes the one-sided derivative of `eval` along every path of the domain (`DomainPath`) from a point of a side, for arbitrary values of the control points: `α • (derivative of the first row) + β • T` with `β ≥ 0`, and `β > 0` when the path leaves the side; `T` is the derivative of the tensor product patch of the first two rows (`rowDer`), minus two terms (`copyError`) that compare the copies of the 2x2 corner points if the weights are not squared. `C95_tangent` (points set by regular calls: the copies agree), `C95_squared` (any points), `C95_normal` (the cross product with the tangent of the boundary is a positive multiple of the cross product of the first two rows) follow. `C95_individual` is the negative part: all points in z = 0, one copy of a corner moved individually; the derivative in the middle of the next side leaves the plane. The specification (Spec/GBTangent.lean) uses Bernstein polynomials only. The proof differentiates the weights (Lemmas/TangentGB.lean): rows k ≥ 2 have derivative 0 (h^2), the other sides contribute only in columns 0, 1 (or d, d-1), where the rational factors make the sum of the two copies one up to first order.
* **C96 The tangential test: what the reported angle means and when it tends to zero.** Model: Model/DemoTangent.lean (the loop of test.cc 126-152, for patches and for generalized Bezier surfaces, with the boundary curve evaluated by innerCurve). Specification: Spec/DemoTangent.lean (the inner unit normal of a polygon side and the cosine of an angle, without the code's normalisations) and the predicate AngleAt in Props/TangentTest.lean. Proofs: C96_meaning by an invariant of the maximum loop with the state changed by queries only; C96_limit, C96_exact and C96_reversed from the tangent property TangentAt of C86 (a right derivative of the surface along the inner normal) by continuity of the cosine and of arccos; C96_corner from the sign of the previous side's half plane; C96_bezier from C95. Examples: a fenced square with side-based ribbons (limit 0, and limit pi with the fence reversed), corner-based surface with the bound arccos(5/6), and a triangular generalized Bezier surface of degree 3.
* **C97 Hybrid patches have the tangent planes of their ribbons.** Model: Model/Hybrid.lean, Model/GenBezier.lean. Spec: `Hybrid.UpdatedNet` (history), `SmoothNet` (differentiable curves and cross derivatives), `DerivativeAt` (derivative along every path of the polygon). Proof: Lemmas/TangentHybrid.lean writes `eval` as a weighted sum of control points and ribbon points (`eval_all`) and differentiates it along the paths of C78-C80 (`patch_der`), using the derivative of the weights of C95. C97_derivative: the derivative for both kinds of weights; C97_side: squared weights give the derivative of the ribbon exactly; C97_squared: squared weights are on in every history that does not switch them off; C97_normal: normal vectors; C97_fences, C97_plane: patches with normal fences are perpendicular to these; C97_built: such objects can be built.
* **C98 Tangent planes of SuperD patches.** Near the inner part of side i the distance parameter of i is below the tolerance and all others are above it, so `blendSideSingular` gives the weight 1 to ribbon i (C28), and the patch is locally the biquartic ribbon at the bilinear parameter and the scaled distance. Lemmas/TangentSuperD.lean differentiates it (`biquartic_der`) and computes the first two rows of control points from `generateRibbon` (`row_cross`), which gives the cross derivative of Spec/SuperDTangent.lean: towards the quartic curve of the vertex control point and the adjacent edge points for n <= 4, linear between the adjacent boundary curves for n > 4. Paths are those of Spec/Tangent.lean (one-sided derivative, inside of the polygon). C98_smooth compares the cross derivatives of two patches; C98_mixed evaluates the triple product of the three tangents for concrete control points; C98_vertex compares the ribbons generated with two vertex control points. Not covered: points within the tolerance of the corners (there two ribbons are averaged, C51).
* **C99 Affine maps of the control points.** Two patches of the same kind and size, built by any histories, whose control points are related by an affine map (Mathlib's `→ᵃ`). The domains are the same, as these are determined by the number of sides
* **C100 Convex hull of the control points.** Statement in terms of Mathlib's `convexHull` of the set of points returned by the getters. S-patches: C50_weights. SuperD: the quartic control points are convex combinations for 0 <= f <= 1, the parameters are in the unit square (in a triangle and a square no point is farther from a side than the ends of the adjacent sides) and the blends are a partition of unity. GB: C43_sum away from the corners, `sideEval_near` in the corners. Centre of cubic patches: all parameters are (1/2, 1 - 2/n), all weights are computed. Witnesses: 5-sided SuperD patch with edge points at height 1 and the others at 0; 3-sided GB patch with only the central control point nonzero.
* **C101 Classical special cases.** Spec/Tensor.lean defines the tensor product Bezier surface, the Bezier triangle, the place of a GB control point in the grid of a four-sided patch, and the biquartic surface of a 3 x 3 grid, all independent of the model. Lemmas/Square.lean computes the regular four-sided domain (the square with corners (+-1,+-1)), its bilinear and barycentric parameters: the point (1 - 2w, 2u - 1) has the side parameters and distances u, w, 1 - u, 1 - w. Props/Tensor.lean: for S-patches the Wachspress coordinates of a triangle are its barycentric coordinates (C09), and the labels are summed as triples. For SuperD the weights of the ribbons of opposite sides are shown to recombine to the Bernstein polynomials. For GB patches the rational factors of a control point named by two sides sum to 1, so that every control point of the grid gets its full tensor product weight; the central control point gets the rest, which is the middle weight for even degrees and 0 for odd ones.
* **C102 Four-sided C0 Coons patches.** Spec/Coons.lean defines the bilinearly blended Coons patch of four curves and cubic Hermite curves. In a square the Wachspress parameterization gives s_i = d_(i-1), d_i the distance from side i (Lemmas/Square.lean), so the blends (1 - d_i)/2 sum to 1; opposite ribbons together give the classical patch, with the opposite curve replaced by its Hermite interpolant. The theorem is about any up-to-date object (UpToDate of C30-C35).
* **C103 Degree elevation of four-sided patches.** Spec/Tensor.lean defines the control points of the elevated tensor product surface (elevGrid), independent of the model. Lemmas/TensorElevate.lean lists the writes of elevateDegree; each of them is shown to be the point of elevGrid at its place in the grid (in the rotated coordinates of its side, with the middle row of even degrees read from the adjacent side, or the central control point), so the network of the result is the elevated grid, except for the central control point of even results, which is computed as the mean of the four neighbours. C101 then gives the values of both surfaces.
* **C104 The first side of a control net does not matter.** Spec/Shift.lean `turned` is the rotation of the plane by s sides. Lemmas/ShiftParam.lean already shows that the parameterizations commute with it; Props/ShiftNet.lean carries this through the caches (Fresh.alike) and the sums over labels, ribbons and control points. For side-based patches there is at most one corner zone around a point (zone_unique), where both patches take the value of the corner point. For corner-based patches the domain is in polar coordinates, and fmod is periodic (fmod_periodic) by its specification IsFmod.
* **C105 Curves of constant distance of the circular parameterization.** Props/CircleCurves.lean: Spec.CurveOf describes the circle by what it has to satisfy (passing through the ends of the arc, crossing angle); curveOf_unique shows that this determines it, and C105_curve that hcircle returns it. C105_deviation states what the lambda `deviation` computes in these terms. C105_touch: the crossing angles h pi and (1-h) pi of the curves of the two neighbors are supplementary, so both have the same tangent in the common point of the boundary. C105_centre follows the bisection through its three steps.
* **C106 Default settings.** Props/Defaults.lean: from the constructors, running a history that starts with the setter of the default value is the same as running the rest. Added after the mutation test that turned off gamma in the constructor survived.
* **C107 Evaluation in several threads.** Model/Threads.lean has the steps of mapToRibbons (lookup, sides, insertion) and of rotateFrame (nine assignments to the static matrix, nine readings), and executions as lists of thread numbers. Props/Threads.lean: the invariant is that the caches contain only right values (the one of C19) and that the partial results of the threads are right; a rank counts the remaining steps, so C107_values covers termination as well. C107_race: if a point is not in the cache, its thread is run alone until the insertion, where it is in conflict with the lookup of any other thread; if all are in the cache then nobody writes. C107_static runs the assignments of one thread, those of the other one, and then the readings of the first.
* **C108 Smoothness of the control point based surfaces.** Spec/Smooth.lean: SmoothAt is ContDiffAt of order omega (analytic) of the coordinates, as a function on a full neighbourhood in R x R; the theorems give one function Q that is the value of eval at all points of the region and is smooth at each of them. Lemmas/Smooth.lean: Wachspress coordinates are quotients of polynomials with positive denominator in the closed domain; in a regular domain the first local parameter is the ratio of the distances from the neighbouring sides in both branches of the code (regF_eq: quotient of coordinates, and distances when the coordinates are small), so the change of the branch cannot be seen. For three sides the second branch is active only in the opposite corner, which is in the tolerance. The blends of SuperD are 1/d^2 normalised when no side is within the tolerance. C108_jump: C42_corner before the border and C42_side at it. Not covered: the corner-based patch, and the values in a neighbourhood that is within the tolerance of a side for SuperD (there the blend is constant; a jump of the order of the tolerance occurs at the border).
* **C109 The workaround for far sides in the barycentric parameterization.** `baryMapWith` (Model/Barycentric.lean) contains both formulas. The specification (Spec/SideRatio.lean) is the ratio `sideRatio` of the areas spanned by the point and the two neighbouring sides, weighted by the areas of the corner triangles. `Branch.angle_sin` shows that the sine of `Domain::angle` is the corner area over the product of the lengths of the two sides, so the second formula is `sideRatio`; `Branch.first` shows the same for the ratio of two Wachspress coordinates. `C109_wachspress`: no dependence on the tolerance; `C109_smooth`: analytic up to the boundary for at least four sides (the weighted distance is bounded below, since it is affine and positive at the vertices). `C109_parallelogram`: for any coordinates in a parallelogram, the parameter at the border of the strip agrees with that inside of it iff the sums of the radii `r` (1, distance, squared distance) at opposite vertices are equal; `C109_meanvalue_jump` and `C109_harmonic_jump` are its consequences.
* **C110 Error of the singular blends caused by the tolerance.** Spec/ExactBlend.lean defines the blends as quotients of products, without singularities on the sides. `C110_side_exact` and `C110_corner_exact`: the blends of the model (`blendSideSingular`, `blendCorner` in Model/Surface.lean) are these when no side is within the tolerance. `C110_side_near` and `C110_corner_near`: bounds of the difference when one side is within the tolerance; the numerators are expressed relative to that of the near side, and the remaining terms sum up to at most (n-1)(ε/m)² or (n-2)ε²/m⁴. `C110_side_corner`: the counterexample with two near sides. `Surf.C110_sideBased`, `Surf.C110_cornerBased` and `SuperD.C110_superd` (Props/BlendTolSurf.lean): the consequence for the points of the surfaces, by a bound on the difference of two affine combinations of the same points; the interpolants are hypotheses given by their values, so all ribbon types are covered.
* **C111 Moving the control points of a hybrid patch moves the surface.** Model: `Hybrid.run` and `Hybrid.eval`; `Motion.hybridCall` (Spec/MotionHybrid.lean) moves the 3D arguments of a call. Proof: a relation between the two objects (`Motion.Hyb`: the networks, the curves, the ribbons and the normals correspond and the domains and parameterizations are equal) is kept by every call; evaluation adds a weighted sum of moved ribbon points and moved control points and the central point with the rest of the weights, so that the weights sum to one. For a translation the points at the origin that were never set do not move, hence the hypothesis on the getters. The examples evaluate a side of a square whose quintic network is turned (and translated). `C111_central` compares two evaluations of the same object with different central points; `C111_unset` combines it with `C111_motion` for histories extended by a setCentralControlPoint() call. `C111_square` uses the tensor product identity of C101 for the sum of the weights; `C111_stays` is the witness that a translation of all arguments is not enough.
(`Usable.dom_eq`; for the corner-based patch the "circle" domain has only zero vertices), and the parameterizations return the same values by C19. For Generalized Bézier patches the loops are compared step by step
(`evalWith_image`): the two sums of weights are equal, and the sums of points differ by the map, with the translation multiplied by the sum of weights; adding the central point with the remaining weight gives the image.
No property of the weights is needed, so this holds for all parameters. For SuperD patches the generated ribbons are images (`ribbon_image`), and the blends and the Bernstein polynomials sum to 1. For S-patches
the multinomial weights sum to 1 when all points are there; `C99_missing` computes what happens when some are not.

## Disagreements and findings

Places where the code does not do what the property list (or a user) would expect. Those with a theorem name are proved in the model.

* **Angular domain (C09).** The convexity check looks at one coordinate only and misses a reflex corner after a horizontal side: `C09_check_misses_reflex`.
* **Parameter cache of the circular domain (C06).** The cache is keyed by the number of points, so a domain whose number of sides changes from 3 (resolution 3) to 6 (resolution 2) returns stale parameters (both have 19 points). As a consequence, the mesh of a corner-based Generalized Bézier patch is wrong after such a change (`C37_corner_stale`).
* **Barycentric side parameter (C13).** In the last-tolerance band the previous side may get `s = 0` instead of `1` for triangles.
* **Bilinear parameters (C14).** When the quadratic coefficient is between 0 and the tolerance, the linear formula is used and the result is only approximate.
* **Normal fence (C20).** A curve shorter than the tolerance gives zero RMF steps and a division by zero.
* **Ribbons (C24).** A zero handler vector makes `update()` divide by zero (`C24_zero_handler`); the default handler divides by zero when the sum of the neighbouring unit tangents is parallel to the normal in the middle; `reset()` keeps an overridden normal fence.
* **Corner blends (C28).** Two close non-adjacent sides give a zero sum, three close sides of a triangle a sum of 3: `C28_corner_exceptions`.
* **Deficient blends (C29).** In the tolerance band near a corner they do not sum to 1 on the side.
* **`gamma` (C30).** The function is not defined at -1/2 and positive below it.
* **`setCurve` after `setupLoop`** leaves expired neighbour pointers; `update()` then dereferences null. `update(i)` before any `update()` reads the empty corner data.
* **Partial update (C39).** After `setCurve(i, ...)` and `setupLoop()`, `update(i)` leaves the neighbouring ribbons (and, for Coons ribbons, those further away) computed from the old curve: `C39_insufficient`.
* **Midpoint (C36).** For four sides the deficiency at the centre is zero, so `setMidpoint` has no effect there.
* **`SurfaceNSided::eval` (C63)** returns the point of ribbon 3 only; for three sides this is out of range.
* **Resolution 0** divides by zero in the parameters of triangular and quadrilateral meshes.
* **Binomial coefficients (C54)** overflow 64 bits, first at (63,32)-like arguments.
* **Public `setCurves` on a Generalized Bezier patch (C41)** changes `n_`, so a following `initNetwork` with the same numbers returns early and leaves the old network; the next access is out of range: `C41_stale_init`.
* **Generalized Bezier patches of degree 1 (C42).** `degree_ - 2` wraps around, so the weights of both end columns are multiplied by `alpha`; the surface does not interpolate its boundary: `C42_degree_one`, `C42_degree_one_fails`.
* **Corner-based Generalized Bezier patches with three sides (C44)** do not interpolate their boundary: the corner opposite to the side keeps a weight there (both of its distance parameters are below 1). `C44_triangle` (exact difference), `C44_triangle_fails`.
* **Circular parameterization (C65).** In `deviation` the argument of the square root may be negative; the NaN ends the bisection at its current midpoint. For 12 sides the parameter is 2/5 arbitrarily near to points of the circle where it is 1: `C65_jump`. (The model represents this NaN by `none`.)
* **`DomainCircle::update`** never computes `center_`, and returns true always; its parameter cache is not cleared.
* **`saveBezier` (C45)** takes the number of sides from the domain, so before `setupLoop` it writes a file with 0 sides and no network (`C45_before_setup`). The kind of rational weights is not stored in the file.
* **`writeBezierControlPoints` (C47)** with degree 0: `l - 1` wraps around and the loop practically never ends.
* **`fitWithOriginal` (C49)** always copies two rows: with `fixed_rows = 3` the third row of the result is the origin (`C49_third_row`); for degree 2 the second row of the original is read although there is only one (`C49_degree_two`).
* **S-patches (C50).** `setupLoop` reads the network with `net_[...]`, so missing boundary control points are created (as the origin): `C50_setupLoop`. Missing control points count as zero in `eval`, the weights of the rest do not sum to 1. Curve `i` of the surface is on side `i + 1` of the domain (`C50_interpolates`). The factorials are stored in 64 bits, so a depth over 20 cannot be evaluated: `C50_deep`. `depth_` is not initialized by the constructor.
* **SuperD patches (C51).** With fullness 1 the boundary curve does not go through the edge control point: only its inner control points do (`C51_fullness_one`, 7/8 weight in the middle). For `n >= 7` the distance parameter of the next vertex is not 1 but `rho < 1`, so the ribbons adjacent in a corner have different parameters there; within the tolerance of a corner the value on the boundary is the mean of the points `B(s)` and `B(rho s)` of the boundary curve (`C51_side`). `eval` uses the ribbons generated by the last `updateRibbons`, not the current control points; the curves are those of the last `setupLoop`.
* **Nelder-Mead (C59).** The search for the second highest vertex (`nelder-mead.cc`, the loop over the values) compares with the current `second` only when the value is not above `high`, and starts with `second = 0`, as does `high`. If vertex 0 is the highest, `second` stays 0, so the "second highest" value is the highest one (example after `C59_step`: values 5, 3, 4). The reflected point is then accepted in more cases than in the textbook method; the result is still never worse.
* **`fitClassA` (C58).** Degree 0 writes `cp_[1]` of a one-element vector (`C58_degree_zero`). With degree 1 and `pb - pa` almost parallel to `va` (error at most 0.001) the result is the straight line, whose tangent is not parallel to `va` (example in Props/ClassA.lean); the requested statement holds only for final degree at least 2. The end tangent of the final curve is in general not parallel to `vb`, because the last control point is moved to `pb` (C67 bounds this move). Parallel directions give NaN (the code has a TODO).
* **`RMF::eval` (C21_negative, C63_left)** with a negative parameter (however small) decrements `begin()`; `SurfaceNSided` does this for every point left of the strip of side 3 unless a normal fence is prescribed; for points right of the strip it evaluates the fence at `1 + angle`, beyond the end of the curve.
* **Perpendicular-polar parameters (C68)** jump from 1 to nearly 1 + π across the perpendicular line at the right end; the n-sided ribbon compensates for this (C63_ribbon), but the parameters themselves are not continuous.
* readOBJ (io.cc 40-79): `vn` and `vp` lines are read as vertices, so they shift the indices of the faces (C62_normals).
* readOBJ: a `vt u v` line sets the failbit of the shared string stream, which is never cleared; all later vertices and faces are copies of the previous values (C62_texture).
* readOBJ: faces with slashes (`f 1/1 2/2 3/3`) give the index 2^64 - 1 and break the rest of the file (C62_slashes).
* readOBJ: vertices after the first face are dropped, and a file without faces (a point cloud) gives no points (C62_read, C62_no_faces).
* C40: `Surface` is copyable (surface.hh 21-23) but `domain_`, `param_` and `ribbons_` are shared pointers: after `auto copy = surface; copy.initNetwork(m, d); copy.setupLoop();` the original has a domain with `m` sides, and `eval` of the original reads outside of the vector of parameters when `m` is smaller than its number of sides (C40_shared).
* Sharing of ribbons: a copy of a transfinite patch shares its `Ribbon` objects, so `setRibbonMultiplier`/`setRibbonHandler` on the copy also changes the original; and `setupLoop` reverses the curves in place, so a curve given to two surfaces can be reversed by one of them behind the back of the other. (Not modelled.)
* SurfaceHybrid: after setupLoop() the control points of the two outer layers are not used by eval(), so setControlPoint on the boundary has no effect until the next setupLoop() (C71_outer); for degrees up to 4 there are no other layers and eval() depends on the ribbons and the central control point only.
* C72: `surface-polar.cc` line 82 computes `D1p = N ^ D1` with `N = D1 ^ D2` not normalized, so `|D1p| = sin θ` where θ is the angle of the chords at the corner. The end of the base line at psi = 1 is therefore not `P2` unless θ is 0, 90 or 180 degrees, and the patch leaves the boundary by `s(1-s)²/(s²+(1-s)²) · |P2-P|(1-sin θ)(cos θ D1 - D2)`; C72_not_interpolating is a witness with straight sides. Normalizing `D1p` would repair it.
* Polar patches use the boundary curves only at the parameters `k/max_degree`: a curve that is not a polynomial of this degree is interpolated only there (C72_side).
* `ParameterizationPolar::inverse` intersects lines (not rays) with the far sides; a line almost parallel to the far side it hits (cross product below the tolerance) leaves `q` at its default value.
* Coons ribbons and rotation minimizing frames keep pointers to the curves, so a curve reversed in place by `setupLoop()` is seen by the old ribbons before `update()`.
* The parameterization caches are keyed by the point only: if the domain object changes without `update()` of the parameterization, stale values are returned (C17 assumes `update()`).
* C73: `surface-biharmonic.cc` line 371 multiplies the curvature vectors by `L` where the normal equation would need `L.transpose()`; because the rows of `L` are divided by the Voronoi areas these are different, C73 states what is computed (the Laplacian of the mean curvature vector divided by the area).
* C73: the mean curvature computed by `computeCurvatures` is the length of a vector, so it is never negative; the direction of the curvature vector depends on the orientation of the normals only, and a patch whose boundary and normals bend the other way gets a curvature of the wrong sign.
* C73: a degenerate triangle in the intermediate surface gives a division by zero (NaN in the C++ code, a fault in the model): success of `eval(resolution)` is equivalent to the intermediate surface having no degenerate triangle.
* Triangles with bilinear or interconnected parameterization: for 1-s < 2 eps/sqrt(3) the tolerance band of the third side is entered too (see C14).
* The default central point of midpoint patches weights by the gamma-transformed distance 1/4 of the center.
* `update(j)` after `setCurve(i, ...)` with j not adjacent to i works in the C++ code with the old ribbon pointers; the model reports a fault (`linked = false`) because the neighbours are looked up in the list.
* Tangent planes on the sides are those of the ribbons only up to the error of the difference quotients used for the corner twists (all classes except side-based), C77-C80.
* C82: `readLOP` does not look at the state of the stream: a LOP file that is cut after some complete curves gives the promised number of curves, with copies of the last complete one (`C82_truncated`); an empty file gives a number of curves that is read from an uninitialised variable (`C82_empty`).
* C84: `loadSPatch` accepts repeated or invalid labels; missing boundary control points are then zero (`C84_missing`), and missing inner control points have no weight at all.
* C85: `loadSuperDModel` does not look at the state of the stream either: the missing patches of a truncated file are made from uninitialised variables (`C85_read`).
* C86: `parameterizePoints` uses unsigned areas, so a point whose projection is outside the closest triangle does not get the parameter of the closest point, but one that is further inside (`C86_outside`); a degenerate closest triangle leads to a division by zero (`C86_degenerate`).
* **C88** (`ribbon.cc:67-87`, normals at the ends of a ribbon are the cross products of the tangents at the corners): at a reflex corner of a planar loop the cross product points to the other side, and nothing makes the normals of the loop consistent. The fence of each of the two sides at the corner then turns by 180 degrees along the side (`C88_fold`), so the ribbon is twisted like a half-turned strip although a constant fence exists, and the surface leaves the plane of its boundary (`C88_reflex`: midpoint surface on a pentagon with one reflex corner).
* C90 (`surface-biharmonic.cc:204-205, 281-282`): with the Triangle library the orientation of the mesh depends on the arbitrary signs of the singular vectors, so the triangles may be oriented against the boundary loop (`C90_direction`), unlike the meshes of all other surfaces (C02). The maximal area is printed by `std::fixed` with six decimals: for small patches or high resolutions (average sample distance below about 0.001) the switch becomes `a0.000000`, which the library refuses (`C90_tiny`).
* `printStatistics` (test.cc 370-379): the weights of the interpolation depend on n mod 4 instead of n*i mod 4, so the second and third quartiles are shifted: the "median" of 0,0,0,1,1 is 0.25 (C91_median). For n = 1, 2, 3 `sorted[n * i / 4 + 1]` is out of the vector (C91_short).
* `printStatistics` (test.cc 392-402): `current_bin` advances by at most one for each value, so after a gap of several bins values are counted in wrong bins: for 0,0,1,25 the value 25 is counted in bin 1 instead of bin 24 (C91_gap).
* `deviationFromMesh` (test.cc 427-429) computes the distance from the plane of the closest triangle, not from the triangle: a point in the plane of the triangle but outside of it has deviation 0 (C92_outside).
* C93: with the resolution 0 `ribbonTest` (test.cc 55) compares with `size - 2` in unsigned arithmetic, which wraps around for `size = 0`: the loop adds triangles until memory is exhausted.
* C94: rmf.cc 48 divides by the accumulated length `f.s`, which remains 0 when every sample is within sqrt(epsilon) of the start (rmf.cc 95-96 returns the previous frame). The normals of the ribbon are then NaN, and `update()` gives no error. The library thus depends on the unit of length: the same model works in millimetres and does not in kilometres. Scaling the tolerance by the size of the model, or using `f.s == 0` as a special case, would avoid it.
* C95: the comment in surface-generalized-bezier.cc:192-193 (different control points at the 2x2 corner regions need squared rational weights) is confirmed: with squared weights the tangent planes are right for any individual points, with the other weights they are not.
* C96: in acute corners - always for three-sided surfaces on the regular triangle - the tangential test (test.cc 143-146) evaluates the surface outside of its domain at the corner samples, where no property of the surface is guaranteed (C96_corner, C96_triangle).
* C96: the tangential test takes the orientation of the ribbon's normal into account: with a fence or a handler directed outwards it reports 180 degrees although the tangent planes agree (C96_reversed).
* SuperD (C98): for more than 4 sides `generateRibbon` does not use the vertex control point, so `setVertexControlPoint` has no effect on such patches, and their cross derivatives are linear along the side while those of patches with 3 or 4 sides are quartic. Consequently a 4-sided and a 5-sided patch with a common side do not share tangent planes even if all control points are in the symmetric position that makes two 4-sided or two 5-sided patches smooth (`C98_mixed`).
* C99: an S-patch whose inner control points were not all set is not translated with its control points: missing points silently count as the origin (surface-spatch.cc 45-48 sums over the entries of the map). With 3 sides and depth 3 and the middle point missing, translating all other points by t moves the centre only by 7/9 t.
* C100: in a 3-sided cubic Generalized Bezier patch the central control point has the weight -1/9 at the centre of the surface: `setCentralControlPoint` moves the surface in the opposite direction, and the surface leaves the convex hull of its control points. (With 4 sides the weight is 0, with n sides it is (n-2)(n-4)/n^2.)
* C100: SuperD patches with more than 4 sides may leave the convex hull of their control points with any fullness (the ribbons are sums of differences, surface-superd.cc 86-92); `setFullness` does not check its argument, and above 1 also the boundary curves leave the hull.
* C101: for degree 2 (allowed by setDegree), the control points in the middle of the sides have j = 1 < 2, so `weight` multiplies them by the rational factor of the left corner although there is no second name that would supply the rest. A four-sided patch of degree 2 is therefore not the biquadratic tensor product surface (C101_gb_quadratic: height 2 instead of 1 at the centre); for all degrees above 2 it is.
* C103: elevateDegree() from an odd to an even degree changes the interior of the surface even for four-sided patches, where an exact elevation exists: the central control point is the mean of the innermost control points of the result, which is not the same as the mean of the four middle control points of the original (C103_changes). From even to odd degrees the elevation is exact.
* **Deficient blends near the corners (C29, C34).** surface.cc 254-257 sets the blend of a corner to 1 when both of its sides are within the tolerance, but the blend of the other corner of the side is not set to 0; the sum is then 1 + s^2(3-2s) on the side, and the midpoint surfaces are off their boundary curves by this times the distance from the central control point (below 3 epsilon^2 times this distance).
* C107: `RMF::rotationMatrix` returns a reference to a function-local static matrix (rmf.cc 62), so two surfaces that have nothing in common cannot be evaluated in two threads: the normal of one may be rotated with the matrix of the other (C107_static, C107_wrong). `Parameterization::mapToRibbons` and `ParameterizationBarycentric::barycentric` are `const` but insert into `mutable` maps without a lock; evaluations of a surface in two threads are free of races only when all points were evaluated before (C107_race, C107_warm). (Even with a lock inside of `barycentric` the reference it returns could be overwritten by a thread that missed the same point, when lookup and insertion are locked separately; lines 50 and 111.)
* C108: a Generalized Bezier patch is not continuous: within the tolerance of a corner it is the corner point, at the border it jumps to the regular formula, e.g. onto the boundary curve at parameter epsilon (C108_jump, C108_jumps). The jump is of the order of the tolerance.
* C109: the comment in parameterization-barycentric.cc 24-26 ("valid only for WACHSPRESS with DomainRegular; for all other cases it will be discontinuous") is right about the other coordinates (proved: mean value coordinates jump in the regular four-sided domain, discrete harmonic coordinates in every parallelogram that is not a rectangle), but too pessimistic about domains: with Wachspress coordinates the two formulas agree in every strictly convex domain, and discrete harmonic coordinates do not jump in rectangles.
* C111: translating all arguments of the calls on a hybrid patch does not translate the surface, when the central control point (or another control point) was never set: these stay at the origin. The error is exactly the weight of the central control point times the translation (`C111_unset`).
* C111: for even degrees the midpoint of a four-sided hybrid patch stays behind when all arguments of the calls are translated but the central control point was never set (`C111_stays`, quartic patch with a square boundary: by 9/64 of the translation).
