import Verif.Model.Patch

/-! # Model of `surface-harmonic.cc` -/

namespace Transfinite

variable {K : Type} [Field K] [LinearOrder K] [Libm K]

/-- The state of a `SurfaceHarmonic`: `domain_`, `param_` (surface.hh 55-58), the curves of `ribbons_` (which are of type `RibbonDummy`, surface-harmonic.cc 15-17),
and the length of `corner_data_`, which is never read. -/
structure Harmonic (K : Type) where
  dom : Domain.Cached (Domain K) K
  param : Param.Obj K
  curves : List (Curve K)
  corners : ℕ

namespace Harmonic

/-- surface-harmonic.cc 19-23, surface.cc 13-15. -/
def new : Harmonic K := { dom := ⟨⟨0, 0, [], [], []⟩, []⟩, param := ⟨⟨0, 0, [], [], []⟩, [], [], []⟩, curves := [], corners := 0 }

/-- surface-harmonic.cc 33-36, `from2D(p)`. -/
def from2D (p : P2 K) : P3 K := ⟨p.x, p.y, 0⟩

/-- surface-harmonic.cc 56: the position of the (first) largest element, by `std::max_element`. -/
def maxIndex (l : List K) : M ℕ :=
  forLoop l.length (fun k j => do
    let a ← vget l j
    let b ← vget l k
    .ok (if a < b then k else j)) 0

/-- surface-harmonic.cc 56-59: the point of a boundary vertex with the barycentric coordinates `bc`. -/
def boundaryPoint (curves : List (Curve K)) (bc : List K) : M (P3 K) := do
  let j ← maxIndex bc
  let a ← vget bc (nextIx curves.length j)
  let b ← vget bc (prevIx curves.length j)
  let i := if b < a then nextIx curves.length j else j
  let c ← vget curves i
  let s ← vget bc i
  .ok (c.pt s)

/-- The variables of surface-harmonic.cc 43-60: `points`, the cache of the parameterization, and `n_boundary`. -/
structure Fill (K : Type) where
  points : List (P3 K)
  param : Param.Obj K
  boundary : ℕ

/-- surface-harmonic.cc 54-61: the body of the loop. -/
def fillStep (ε : K) (n res : ℕ) (curves : List (Curve K)) (uvs : List (P2 K)) (i : ℕ) (st : Fill K) : M (Fill K) :=
  if Domain.onEdge n res i then do
    let uv ← vget uvs i
    let r ← Param.baryCached ε .wachspress uv st.param
    let p ← boundaryPoint curves r.1
    let points ← vset st.points i p
    .ok ⟨points, r.2, st.boundary + 1⟩
  else .ok st

/-- surface-harmonic.cc 84-94: `A.coeffRef(i, j) += x` for a matrix of size `N`, represented by its entries. -/
def addTo (N i j : ℕ) (x : K) (A : ℕ → ℕ → K) : M (ℕ → ℕ → K) :=
  if i < N ∧ j < N then .ok fun k l => if k = i ∧ l = j then A k l + x else A k l else .error .oob

/-- surface-harmonic.cc 100-101: `A.coeffRef(i, j) = x`. -/
def setTo (N i j : ℕ) (x : K) (A : ℕ → ℕ → K) : M (ℕ → ℕ → K) :=
  if i < N ∧ j < N then .ok fun k l => if k = i ∧ l = j then x else A k l else .error .oob

/-- surface-harmonic.cc 78-94: the coefficients of triangle `t`. -/
def addTriangle (N : ℕ) (uvs : List (P2 K)) (t : Domain.Tri) (A : ℕ → ℕ → K) : M (ℕ → ℕ → K) := do
  let q1 ← vget uvs t.1
  let q2 ← vget uvs t.2.1
  let q3 ← vget uvs t.2.2
  let p1 := from2D q1
  let p2 := from2D q2
  let p3 := from2D q3
  let area := (P3.cross (p2 - p1) (p3 - p1)).norm
  let v1 ← fdiv (1 / 2 * P3.dot (p2 - p1) (p3 - p1)) area
  let v2 ← fdiv (1 / 2 * P3.dot (p1 - p2) (p3 - p2)) area
  let v3 ← fdiv (1 / 2 * P3.dot (p2 - p3) (p1 - p3)) area
  let A ← addTo N t.1 t.1 (v3 + v2) A
  let A ← addTo N t.1 t.2.1 (-v3) A
  let A ← addTo N t.1 t.2.2 (-v2) A
  let A ← addTo N t.2.1 t.1 (-v3) A
  let A ← addTo N t.2.1 t.2.1 (v3 + v1) A
  let A ← addTo N t.2.1 t.2.2 (-v1) A
  let A ← addTo N t.2.2 t.1 (-v2) A
  let A ← addTo N t.2.2 t.2.1 (-v1) A
  addTo N t.2.2 t.2.2 (v2 + v1) A

/-- surface-harmonic.cc 77-95. -/
def addTriangles (N : ℕ) (uvs : List (P2 K)) : List Domain.Tri → (ℕ → ℕ → K) → M (ℕ → ℕ → K)
  | [], A => .ok A
  | t :: ts, A => do
    let A ← addTriangle N uvs t A
    addTriangles N uvs ts A

/-- The linear system, with the rows of `b` as points, and the variable `j` of surface-harmonic.cc 98. -/
structure Sys (K : Type) where
  A : ℕ → ℕ → K
  b : ℕ → P3 K
  j : ℕ

/-- surface-harmonic.cc 99-104: the body of the loop, for `N` points and a matrix of size `N + B`. -/
def constrain (N B n res : ℕ) (points : List (P3 K)) (i : ℕ) (S : Sys K) : M (Sys K) :=
  if Domain.onEdge n res i then do
    let A ← setTo (N + B) (N + S.j) i 1 S.A
    let A ← setTo (N + B) i (N + S.j) 1 A
    let p ← vget points i
    .ok ⟨A, fun k => if k = N + S.j then p else S.b k, S.j + 1⟩
  else .ok S

/-- surface-harmonic.cc 64-104: the system; the memory management of the sparse matrix is not modelled. -/
def system (n res : ℕ) (uvs : List (P2 K)) (tris : List Domain.Tri) (st : Fill K) : M (Sys K) := do
  let A ← addTriangles (uvs.length + st.boundary) uvs tris (fun _ _ => 0)
  forLoop uvs.length (constrain uvs.length st.boundary n res st.points) ⟨A, fun _ => 0, 0⟩

/-- surface-harmonic.cc 39-116, `eval(resolution)`: the points and the triangles. `solve N A b` is the solution of a system of size `N` by `SparseLU` (an external
function). -/
def evalMesh (ε : K) (solve : ℕ → (ℕ → ℕ → K) → (ℕ → P3 K) → ℕ → P3 K) (res : ℕ) (H : Harmonic K) : M ((List (P3 K) × List Domain.Tri) × Harmonic K) := do
  let topo ← Domain.meshTopology H.dom.dom.n res
  let uvs ← Domain.parameters (fun d => Domain.meshSize d.n) Domain.parametersImpl H.dom res
  let st ← forLoop uvs.1.length (fillStep ε H.dom.dom.n res H.curves uvs.1) ⟨List.replicate uvs.1.length 0, H.param, 0⟩
  let S ← system H.dom.dom.n res uvs.1 topo.2 st
  .ok (((List.range uvs.1.length).map (solve (uvs.1.length + st.boundary) S.A S.b), topo.2), { H with dom := uvs.2, param := st.param })

/-- surface.cc 25-34, `setCurve(i, curve)`; simplified as in `Patch.setCurve`. -/
def setCurve (H : Harmonic K) (i : ℕ) (c : Curve K) : M (Harmonic K) :=
  if H.curves.length < i then .error .nullPtr
  else .ok { H with curves := H.curves.take i ++ [c] ++ H.curves.drop (i + 1) }

/-- surface.cc 48-76, `setupLoop()`. -/
def setupLoop (H : Harmonic K) : M (Harmonic K) := do
  let cs ← orientLoop H.curves
  .ok { H with curves := cs }

/-- surface.cc 110-111 = 119-120. -/
def updateDomain (H : Harmonic K) : M (Harmonic K) := do
  let r ← Domain.regularUpdate H.dom.dom H.curves.length
  if r.2 then do
    let o ← Param.update (.bary .wachspress) r.1
    .ok { H with dom := ⟨r.1, []⟩, param := o }
  else .ok H

/-- surface.cc 117-125, `update()`; the ribbons do nothing (ribbon-dummy.hh 10). -/
def update (H : Harmonic K) : M (Harmonic K) := do
  let H ← H.updateDomain
  .ok { H with corners := H.curves.length }

/-- surface.cc 108-115, `update(i)`. -/
def updateSide (H : Harmonic K) (i : ℕ) : M (Harmonic K) := do
  let H ← H.updateDomain
  if i < H.curves.length ∧ i < H.corners ∧ prevIx H.curves.length i < H.corners then .ok H else .error .oob

/-- The public calls (surface.hh 20-39), and the queries of `domain()` and `parameterization()` that fill caches. (Calls on handlers, fences and multipliers have no
effect on this class, and `eval(uv)` always throws an exception, see surface-harmonic.cc 28-31.) -/
inductive Call (K : Type) where
  | curve (i : ℕ) (c : Curve K)
  | curves (cs : List (Curve K))
  | loop
  | update
  | updateSide (i : ℕ)
  | mesh (res : ℕ)
  | domainParams (res : ℕ)
  | mapSide (i : ℕ) (uv : P2 K)
  | mapSides (uv : P2 K)
  | bary (uv : P2 K)

/-- The effect of one call on the object (surface.hh 24-40, surface-harmonic.hh 13-14). -/
def step (ε : K) (solve : ℕ → (ℕ → ℕ → K) → (ℕ → P3 K) → ℕ → P3 K) (H : Harmonic K) : Call K → M (Harmonic K)
  | .curve i c => H.setCurve i c
  | .curves cs => .ok { H with curves := cs }
  | .loop => H.setupLoop
  | .update => H.update
  | .updateSide i => H.updateSide i
  | .mesh res => do let r ← H.evalMesh ε solve res; .ok r.2
  | .domainParams res => do
    let r ← Domain.parameters (fun d => Domain.meshSize d.n) Domain.parametersImpl H.dom res
    .ok { H with dom := r.2 }
  | .mapSide i uv => do let r ← Param.mapToRibbon ε (.bary .wachspress) i uv H.param; .ok { H with param := r.2 }
  | .mapSides uv => do let r ← Param.mapToRibbons ε (.bary .wachspress) uv H.param; .ok { H with param := r.2 }
  | .bary uv => do let r ← Param.baryCached ε .wachspress uv H.param; .ok { H with param := r.2 }

/-- A history of calls (surface.hh 24-40). -/
def run (ε : K) (solve : ℕ → (ℕ → ℕ → K) → (ℕ → P3 K) → ℕ → P3 K) : Harmonic K → List (Call K) → M (Harmonic K)
  | H, [] => .ok H
  | H, c :: cs => do
    let H' ← H.step ε solve c
    run ε solve H' cs

end Harmonic

end Transfinite
