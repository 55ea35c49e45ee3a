import Verif.Model.Harmonic

/-! # Model of `surface-biharmonic.cc` (compiled without the external library `triangle`, see lines 306-307) -/

namespace Transfinite

variable {K : Type} [Field K] [LinearOrder K] [Libm K]

/-- The state of a `SurfaceBiharmonic`: `domain_`, `param_`, `ribbons_` and `corner_data_` (surface.hh 55-58). -/
structure Biharmonic (K : Type) where
  dom : Domain.Cached (Domain K) K
  param : Param.Obj K
  surf : Surf K

namespace Biharmonic

/-- surface-biharmonic.cc 54, 67, 122, 136: `for (auto x : l) f(x)` acting on a state. -/
def forEach {α σ : Type} (f : α → σ → M σ) : List α → σ → M σ
  | [], s => .ok s
  | a :: l, s => do
    let s ← f a s
    forEach f l s

/-- surface-biharmonic.cc 44-47, `eval(uv)`. -/
def eval (_ : Biharmonic K) (_ : P2 K) : M (P3 K) := .error .exception

/-- surface-biharmonic.cc 68-85: the coefficients of triangle `t`, for a matrix of size `N`. -/
def addTriangle (N : ℕ) (pts : List (P3 K)) (t : Domain.Tri) (A : ℕ → ℕ → K) : M (ℕ → ℕ → K) := do
  let p1 ← vget pts t.1
  let p2 ← vget pts t.2.1
  let p3 ← vget pts t.2.2
  let a := p3 - p2
  let b := p1 - p3
  let c := p2 - p1
  let area := (P3.cross b c).norm
  let v1 ← fdiv (-(1 / 2) * P3.dot c b) area
  let v2 ← fdiv (-(1 / 2) * P3.dot c a) area
  let v3 ← fdiv (-(1 / 2) * P3.dot a b) area
  let A ← Harmonic.addTo N t.1 t.1 (v3 + v2) A
  let A ← Harmonic.addTo N t.1 t.2.1 (-v3) A
  let A ← Harmonic.addTo N t.1 t.2.2 (-v2) A
  let A ← Harmonic.addTo N t.2.1 t.1 (-v3) A
  let A ← Harmonic.addTo N t.2.1 t.2.1 (v3 + v1) A
  let A ← Harmonic.addTo N t.2.1 t.2.2 (-v1) A
  let A ← Harmonic.addTo N t.2.2 t.1 (-v2) A
  let A ← Harmonic.addTo N t.2.2 t.2.1 (-v1) A
  Harmonic.addTo N t.2.2 t.2.2 (v2 + v1) A

/-- surface-biharmonic.cc 49-89, `laplaceMatrix(mesh, uvs)`; the memory management of the sparse matrix (lines 52-64) is not modelled. -/
def laplaceMatrix (ts : List Domain.Tri) (pts : List (P3 K)) : M (ℕ → ℕ → K) :=
  forEach (addTriangle pts.length pts) ts (fun _ _ => 0)

/-- surface-biharmonic.cc 91-94, `computeAngle(u, v)`. -/
def computeAngle (u v : P3 K) : M K := do
  let u ← u.normalize
  let v ← v.normalize
  .ok (Libm.acos (min (max (P3.dot u v) (-1)) 1))

/-- surface-biharmonic.cc 101, 103, 109: `std::tan(x)`. -/
def tan (x : K) : M K := fdiv (Libm.sin x) (Libm.cos x)

/-- surface-biharmonic.cc 96-117, `voronoiArea(p1, p2, p3)`. -/
def voronoiArea (p1 p2 p3 : P3 K) : M K := do
  let a2 := P3.normSqr (p3 - p2)
  let b2 := P3.normSqr (p1 - p3)
  let c2 := P3.normSqr (p2 - p1)
  let alpha ← computeAngle (p2 - p1) (p3 - p1)
  if a2 + b2 < c2 then do
    let t ← tan alpha
    .ok (1 / 8 * b2 * t)
  else if a2 + c2 < b2 then do
    let t ← tan alpha
    .ok (1 / 8 * c2 * t)
  else if b2 + c2 < a2 then do
    let b := Libm.sqrt b2
    let c := Libm.sqrt c2
    let total := 1 / 2 * b * c * Libm.sin alpha
    let beta ← computeAngle (p1 - p2) (p3 - p2)
    let gamma ← computeAngle (p1 - p3) (p2 - p3)
    let tg ← tan gamma
    let tb ← tan beta
    .ok (total - 1 / 8 * (b2 * tg + c2 * tb))
  else do
    let r2 ← fdiv (1 / 4 * a2) (Libm.sin alpha ^ 2)
    let area := fun x2 : K => 1 / 8 * Libm.sqrt x2 * Libm.sqrt (max (4 * r2 - x2) 0)
    .ok (area b2 + area c2)

/-- surface-biharmonic.cc 124-126: `areas[i] += x`. -/
def addAt (i : ℕ) (x : K) (l : List K) : M (List K) := do
  let y ← vget l i
  vset l i (y + x)

/-- surface-biharmonic.cc 123-126: the body of the loop. -/
def addAreas (pts : List (P3 K)) (t : Domain.Tri) (areas : List K) : M (List K) := do
  let p1 ← vget pts t.1
  let p2 ← vget pts t.2.1
  let p3 ← vget pts t.2.2
  let x1 ← voronoiArea p1 p2 p3
  let areas ← addAt t.1 x1 areas
  let x2 ← voronoiArea p2 p3 p1
  let areas ← addAt t.2.1 x2 areas
  let x3 ← voronoiArea p3 p1 p2
  addAt t.2.2 x3 areas

/-- surface-biharmonic.cc 119-129, `voronoiAreas(mesh, uvs)`. -/
def voronoiAreas (ts : List Domain.Tri) (pts : List (P3 K)) : M (List K) :=
  forEach (addAreas pts) ts (List.replicate pts.length 0)

/-- Eigen's `normalized()` (surface-biharmonic.cc 142, 144, 146, 352): a zero vector is left as it is. -/
def normalized (v : P3 K) : P3 K := if 0 < P3.normSqr v then v.norm⁻¹ • v else v

/-- surface-biharmonic.cc 137-147: `addComponent(i1, i2, i3)`; `mean` is given by its rows. -/
def addComponent (onEdge : ℕ → Bool) (points normals : ℕ → P3 K) (i1 i2 i3 : ℕ) (mean : ℕ → P3 K) : ℕ → P3 K :=
  let m1 := if onEdge i1 = true ∧ onEdge i2 = true then
      Function.update mean i1 (mean i1 + P3.cross (normalized ((2 : K) • normals i1 + normals i2)) (points i2 - points i1)) else mean
  let m2 := if onEdge i1 = true ∧ onEdge i3 = true then
      Function.update m1 i1 (m1 i1 + P3.cross (normalized ((2 : K) • normals i1 + normals i3)) (points i1 - points i3)) else m1
  Function.update m2 i1 (m2 i1 + P3.cross (normalized (normals i1 + normals i2 + normals i3)) (points i3 - points i2))

/-- surface-biharmonic.cc 148-150. -/
def addComponents (onEdge : ℕ → Bool) (points normals : ℕ → P3 K) (t : Domain.Tri) (mean : ℕ → P3 K) : ℕ → P3 K :=
  addComponent onEdge points normals t.2.2 t.1 t.2.1
    (addComponent onEdge points normals t.2.1 t.2.2 t.1 (addComponent onEdge points normals t.1 t.2.1 t.2.2 mean))

/-- surface-biharmonic.cc 131-156, `computeCurvatures(mesh, areas, on_edge, points, normals)`; the triangles are those of the domain mesh, so the row indices are in
range (simplified: they are not checked). -/
def computeCurvatures (ts : List Domain.Tri) (areas : List K) (onEdge : ℕ → Bool) (points normals : ℕ → P3 K) : M (List K) :=
  let mean := ts.foldl (fun m t => addComponents onEdge points normals t m) (fun _ => 0)
  forLoop areas.length (fun i l => do
    let a ← vget areas i
    let x ← fdiv (mean i).norm (2 * a)
    .ok (l ++ [x])) []

/-- surface-biharmonic.cc 167-168: `M1` after the hack, as a function of the inverse areas. -/
def hacked (boundary : List ℕ) (m : List K) : List K :=
  (List.range m.length).map fun i => if i ∈ boundary then 0 else m.getD i 0

/-- `M.asDiagonal().inverse()` (surface-biharmonic.cc 166, 364) -/
def inverses (areas : List K) : M (List K) :=
  forLoop areas.length (fun i l => do
    let a ← vget areas i
    let x ← fdiv 1 a
    .ok (l ++ [x])) []

/-- surface-biharmonic.cc 176-180: the Lagrange multiplier part, for `N` points. -/
def addMultipliers (N : ℕ) (boundary : List ℕ) (A : ℕ → ℕ → K) : M (ℕ → ℕ → K) :=
  forLoop boundary.length (fun j A => do
    let i ← vget boundary j
    let A ← Harmonic.setTo (N + boundary.length) (N + j) i 1 A
    Harmonic.setTo (N + boundary.length) i (N + j) 1 A) A

/-- surface-biharmonic.cc 158-183, `prepareSolver(mesh, points, boundary, propagation)`. Matrices are given by their entries; the resized matrix (line 173) is filled with
zeros. -/
def prepareSolver (ts : List Domain.Tri) (pts : List (P3 K)) (boundary : List ℕ) (propagation : Bool) : M (ℕ → ℕ → K) := do
  let N := pts.length
  let Ls ← laplaceMatrix ts pts
  let areas ← voronoiAreas ts pts
  let M0 ← inverses areas
  let M1 := hacked boundary M0
  let L := fun i j => M1.getD i 0 * Ls i j
  let A := fun i j => if i < N ∧ j < N then
      (if propagation then ∑ k ∈ Finset.range N, Ls i k * L k j else ∑ k ∈ Finset.range N, L k i * L k j) else 0
  addMultipliers N boundary A

/-- surface-biharmonic.cc 219-225: `vertex_boundary` for the barycentric coordinates `bc` of a vertex. -/
def vertexBoundary (n : ℕ) (bc : List K) : M (ℕ × K) := do
  let j ← Harmonic.maxIndex bc
  let a ← vget bc (nextIx n j)
  let b ← vget bc (prevIx n j)
  let i := if b < a then nextIx n j else j
  let s ← vget bc i
  .ok (i, s)

/-- The variables `points` and `normals` of surface-biharmonic.cc 319-320, and the cache of the parameterization. -/
structure Fill (K : Type) where
  points : List (P3 K)
  normals : List (P3 K)
  param : Param.Obj K

/-- surface-biharmonic.cc 331-333: the body of the loop. -/
def fillStep (ε : K) (rs : List (Ribbon K)) (uvs : List (P2 K)) (i : ℕ) (st : Fill K) : M (Fill K) := do
  let uv ← vget uvs i
  let r ← Param.baryCached ε .wachspress uv st.param
  let ju ← vertexBoundary rs.length r.1
  let rib ← vget rs ju.1
  let points ← vset st.points i (rib.curve.pt ju.2)
  let nr ← rib.normal ε ju.2
  let normals ← vset st.normals i nr
  .ok ⟨points, normals, r.2⟩

/-- The right hand sides of surface-biharmonic.cc 341-343, 347-349, 374-377: `top` in the first `N` rows, then the values of `f` in the boundary vertices. -/
def rhs (N : ℕ) (boundary : List ℕ) (top f : ℕ → P3 K) (k : ℕ) : P3 K :=
  if k < N then top k else f (boundary.getD (k - N) 0)

/-- surface-biharmonic.cc 336-381: the computation of the points of the mesh from the points and normals of the boundary vertices. `solve m A b` is the solution of a system
of size `m` by `SparseLU` (an external function). -/
def surfacePoints (solve : ℕ → (ℕ → ℕ → K) → (ℕ → P3 K) → ℕ → P3 K) (ts : List Domain.Tri) (uvs3d : List (P3 K)) (onEdge : ℕ → Bool) (boundary : List ℕ)
    (points normals : List (P3 K)) : M (ℕ → P3 K) := do
  let N := uvs3d.length
  let A ← prepareSolver ts uvs3d boundary true
  let V := solve (N + boundary.length) A (rhs N boundary (fun _ => 0) (fun i => points.getD i 0))
  let Nst := solve (N + boundary.length) A (rhs N boundary (fun _ => 0) (fun i => normals.getD i 0))
  let Nstar := fun i => normalized (Nst i)
  let points := (List.range N).map V
  let A2 ← prepareSolver ts points boundary false
  let Ls ← laplaceMatrix ts points
  let areas ← voronoiAreas ts points
  let M0 ← inverses areas
  let mean ← computeCurvatures ts areas onEdge V Nstar
  let H := fun i => -(mean.getD i 0 • Nstar i)
  let LH := fun i => ∑ j ∈ Finset.range N, (M0.getD i 0 * Ls i j) • H j
  .ok (solve (N + boundary.length) A2 (rhs N boundary LH V))

/-- surface-biharmonic.cc 311-385, `eval(resolution)`, with `generateDomainOld` (lines 213-227): the points and the triangles. -/
def evalMesh (ε : K) (solve : ℕ → (ℕ → ℕ → K) → (ℕ → P3 K) → ℕ → P3 K) (res : ℕ) (B : Biharmonic K) : M ((List (P3 K) × List Domain.Tri) × Biharmonic K) := do
  let topo ← Domain.meshTopology B.dom.dom.n res
  let uvs ← Domain.parameters (fun d => Domain.meshSize d.n) Domain.parametersImpl B.dom res
  let N := uvs.1.length
  let onEdge := Domain.onEdge B.dom.dom.n res
  let boundary := (List.range N).filter onEdge
  let st ← forEach (fillStep ε B.surf.ribbons uvs.1) boundary ⟨List.replicate N 0, List.replicate N 0, B.param⟩
  let x ← surfacePoints solve topo.2 (uvs.1.map Harmonic.from2D) onEdge boundary st.points st.normals
  .ok (((List.range N).map x, topo.2), { B with dom := uvs.2, param := st.param })

/-- surface.cc 117-125, `update()`, after `setupLoop()`; the angular domain is always recomputed (domain-angular.cc 12-79). -/
def update (ε : K) (B : Biharmonic K) : M (Biharmonic K) := do
  let d ← Domain.angularUpdate (B.surf.ribbons.map fun r => r.curve)
  let o ← Param.update (.bary .wachspress) d
  let S ← B.surf.updateAll ε
  .ok ⟨⟨d, []⟩, o, S⟩

end Biharmonic

end Transfinite
