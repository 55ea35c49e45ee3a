import Verif.Geom

/-! # Model of `src/transfinite/domain.cc` and `domain-circle.cc`

The object state is the structure `Domain`; the parameter cache is modelled separately
(`Verif/Model/DomainCache.lean`). -/

namespace Transfinite

/-- The data members of `Domain` (domain.hh 46-50), without the curves and the cache. -/
structure Domain (K : Type*) where
  n : ℕ
  center : P2 K
  vertices : List (P2 K)
  du : List (P2 K)
  dv : List (P2 K)

namespace Domain

section field
variable {K : Type*} [Field K]

/-- domain.cc 214-217, `Domain::edgePoint(i, s)`. -/
def edgePoint (d : Domain K) (i : ℕ) (s : K) : M (P2 K) := do
  let q ← vget d.vertices i
  let p ← vget d.vertices (prevIx d.n i)
  .ok (s • q + (1 - s) • p)

/-- domain.cc 56-59, `Domain::fromLocal(i, v)`. -/
def fromLocal (d : Domain K) (i : ℕ) (v : P2 K) : M (P2 K) := do
  let du ← vget d.du i
  let dv ← vget d.dv i
  .ok (v.x • du + v.y • dv)

/-- domain.cc 51-54, `Domain::toLocal(i, v)`; division by the squared length of the side. -/
def toLocal [DecidableEq K] (d : Domain K) (i : ℕ) (v : P2 K) : M (P2 K) := do
  let du ← vget d.du i
  let dv ← vget d.dv i
  let x ← fdiv (P2.dot v du) (P2.dot du du)
  let y ← fdiv (P2.dot v dv) (P2.dot du du)
  .ok ⟨x, y⟩

/-- domain.cc 37-42: the body of the loop computing `du_[i]` and `dv_[i]`
(the flip makes `dv_` point towards the centre). -/
def localFrame [LinearOrder K] (n : ℕ) (center : P2 K) (vertices : List (P2 K)) (i : ℕ) :
    M (P2 K × P2 K) := do
  let v ← vget vertices i
  let p ← vget vertices (prevIx n i)
  let du := v - p
  let dv : P2 K := ⟨du.y, -du.x⟩
  if P2.dot (center - v) dv < 0 then .ok (du, -dv) else .ok (du, dv)

/-- domain.cc 31-44, `Domain::update()` after the (virtual) `computeCenter()` gave `center`. -/
def updateFrom [LinearOrder K] (vertices : List (P2 K)) (center : P2 K) : M (Domain K) := do
  let n := vertices.length
  let fr ← forLoop n (fun i (l : List (P2 K × P2 K)) => do
    let f ← localFrame n center vertices i
    .ok (l ++ [f])) []
  .ok ⟨n, center, vertices, fr.map (·.1), fr.map (·.2)⟩

/-- domain.cc 231-241, `Domain::computeCenter()`: the edge-length weighted average. -/
def computeCenter [Libm K] [DecidableEq K] (vertices : List (P2 K)) : M (P2 K) := do
  let n := vertices.length
  let lengths ← forLoop n (fun i (l : List K) => do
    let v ← vget vertices i
    let p ← vget vertices (prevIx n i)
    .ok (l ++ [(v - p).norm])) []
  let c ← forLoop n (fun i (c : P2 K) => do
    let v ← vget vertices i
    let a ← vget lengths i
    let b ← vget lengths (nextIx n i)
    .ok (c + (a + b) • v)) 0
  let x ← fdiv c.x (lengths.sum * 2)
  let y ← fdiv c.y (lengths.sum * 2)
  .ok ⟨x, y⟩

/-- domain.cc 31-44, `Domain::update()` with the default `computeCenter()`. -/
def update [Libm K] [LinearOrder K] (vertices : List (P2 K)) : M (Domain K) := do
  let c ← computeCenter vertices
  updateFrom vertices c

/-- domain.cc 61-78, `Domain::intersectEdgeWithRay(i, p, v, result)`;
`none` is the return value `false`. -/
def intersectEdgeWithRay [LinearOrder K] (ε : K) (d : Domain K) (i : ℕ) (p v : P2 K) :
    M (Option (P2 K)) := do
  let q1 ← vget d.vertices (prevIx d.n i)
  let q2 ← vget d.vertices i
  let denom := v.x * (q2.y - q1.y) - v.y * (q2.x - q1.x)
  if |denom| < ε then .ok none
  else do
    let t ← fdiv (v.x * (p.y - q1.y) - v.y * (p.x - q1.x)) denom
    if t < -ε ∨ 1 + ε < t then .ok none
    else
      let t := max 0 (min t 1)
      .ok (some ((1 - t) • q1 + t • q2))

end field

/-! ### Mesh -/

/-- A triangle of `TriMesh` (domain.cc 172-175; libgeom, external), as three vertex indices. -/
abbrev Tri := ℕ × ℕ × ℕ

/-- domain.cc 85-92, `Domain::meshSize(resolution)`. -/
def meshSize (n res : ℕ) : ℕ :=
  if n = 3 then (res + 1) * (res + 2) / 2
  else if n = 4 then (res + 1) * (res + 1)
  else 1 + n * res * (res + 1) / 2

/-- domain.cc 149-152: `size_t root = std::round(std::sqrt(n)); return root * root == n`, where
`round(sqrt n)` is computed exactly (true for double arithmetic as long as `n < 2^52`). -/
def isSquare (n : ℕ) : Bool :=
  let s := Nat.sqrt n
  let root := if s * s + s < n then s + 1 else s
  root * root == n

/-- domain.cc 144-161, `Domain::onEdge(resolution, index)`. -/
def onEdge (n res index : ℕ) : Bool :=
  if n = 3 then
    if index ≥ meshSize n res - res - 1 then true
    else isSquare (index * 8 + 1) || isSquare (index * 8 + 1 + 8)
  else if n = 4 then
    decide (index ≤ res) || decide (index ≥ (res + 1) * res) ||
      decide (index % (res + 1) = 0) || decide (index % (res + 1) = res)
  else decide (index ≥ meshSize n res - n * res)

/-- domain.cc 168-178, the 3-sided part of `meshTopology`; the state is `(triangles, prev, current)`. -/
def topology3 (res : ℕ) : M (List Tri) := do
  let st ← forLoop res (fun i (st : List Tri × ℕ × ℕ) => do
    let prev := st.2.1
    let current := st.2.2
    let m ← forLoop i (fun j (m : List Tri) =>
      .ok (m ++ [(current + j, current + j + 1, prev + j)] ++
        [(current + j + 1, prev + j + 1, prev + j)])) st.1
    let m := m ++ [(current + i, current + i + 1, prev + i)]
    .ok (m, current, current + (i + 2))) ([], 0, 1)
  .ok st.1

/-- domain.cc 179-185, the 4-sided part of `meshTopology`. -/
def topology4 (res : ℕ) : M (List Tri) :=
  forLoop res (fun i (m : List Tri) =>
    forLoop res (fun j (m : List Tri) =>
      let index := i * (res + 1) + j
      .ok (m ++ [(index, index + res + 1, index + 1)] ++
        [(index + 1, index + res + 1, index + res + 2)])) m) []

/-- domain.cc 192-201: the `while(true)` loop, with `fuel` steps before it is declared
non-terminating; `last` is the condition `side == n_ - 1`.
The state is `(mesh, inner_vert, outer_vert)` with the local `vert`. -/
def ringLoop (last : Bool) (layer innerStart outerStart : ℕ) :
    (fuel vert : ℕ) → List Tri × ℕ × ℕ → M (List Tri × ℕ × ℕ)
  | 0, _, _ => .error .diverge
  | fuel + 1, vert, (m, inner, outer) =>
    let next := if last && vert == layer - 1 then outerStart else outer + 1
    let m := m ++ [(inner, outer, next)]
    let outer := outer + 1
    let vert := vert + 1
    if vert = layer then .ok (m, inner, outer)
    else
      let innerNext := if last && vert == layer - 1 then innerStart else inner + 1
      let m := m ++ [(inner, next, innerNext)]
      ringLoop last layer innerStart outerStart fuel vert (m, innerNext, outer)

/-- domain.cc 187-204 = domain-circle.cc 43-60, the general part of `meshTopology`;
the state of the outer loop is `(mesh, inner_start, outer_vert)`. -/
def topologyN (n res : ℕ) : M (List Tri) := do
  let st ← forLoop res (fun l (st : List Tri × ℕ × ℕ) => do
    let layer := l + 1
    let innerStart := st.2.1
    let outerStart := st.2.2
    let st' ← forLoop n (fun side (s : List Tri × ℕ × ℕ) =>
      ringLoop (side == n - 1) layer innerStart outerStart layer 0 s) (st.1, innerStart, outerStart)
    .ok (st'.1, outerStart, st'.2.2)) ([], 0, 1)
  .ok st.1

/-- domain.cc 163-207, `Domain::meshTopology(resolution)`: the number of points and the triangles. -/
def meshTopology (n res : ℕ) : M (ℕ × List Tri) := do
  let t ← if n = 3 then topology3 res else if n = 4 then topology4 res else topologyN n res
  .ok (meshSize n res, t)

section params
variable {K : Type*} [Field K] [DecidableEq K]

/-- domain.cc 108-117, the 3-sided part of `parametersImpl`. -/
def params3 (vertices : List (P2 K)) (res : ℕ) : M (List (P2 K)) :=
  forLoop (res + 1) (fun j (l : List (P2 K)) => do
    let u ← fdiv (j : K) (res : K)
    let v0 ← vget vertices 0
    let v1 ← vget vertices 1
    let v2 ← vget vertices 2
    let p := u • v0 + (1 - u) • v2
    let q := u • v1 + (1 - u) • v2
    forLoop (j + 1) (fun k (l : List (P2 K)) => do
      let v ← if j = 0 then .ok 1 else fdiv (k : K) (j : K)
      .ok (l ++ [(1 - v) • p + v • q])) l) []

/-- domain.cc 118-127, the 4-sided part of `parametersImpl`. -/
def params4 (vertices : List (P2 K)) (res : ℕ) : M (List (P2 K)) :=
  forLoop (res + 1) (fun j (l : List (P2 K)) => do
    let u ← fdiv (j : K) (res : K)
    let v0 ← vget vertices 0
    let v1 ← vget vertices 1
    let v2 ← vget vertices 2
    let v3 ← vget vertices 3
    let p := (1 - u) • v0 + u • v1
    let q := (1 - u) • v3 + u • v2
    forLoop (res + 1) (fun k (l : List (P2 K)) => do
      let v ← fdiv (k : K) (res : K)
      .ok (l ++ [(1 - v) • p + v • q])) l) []

/-- domain.cc 128-140, the general part of `parametersImpl`. -/
def paramsN (n : ℕ) (center : P2 K) (vertices : List (P2 K)) (res : ℕ) : M (List (P2 K)) :=
  forLoop res (fun l (ps : List (P2 K)) => do
    let j := l + 1
    let u ← fdiv (j : K) (res : K)
    forLoop n (fun k (ps : List (P2 K)) =>
      forLoop j (fun i (ps : List (P2 K)) => do
        let v ← fdiv (i : K) (j : K)
        let a ← vget vertices (prevIx n k)
        let b ← vget vertices k
        let ep := (1 - v) • a + v • b
        .ok (ps ++ [(1 - u) • center + u • ep])) ps) ps) [center]

/-- domain.cc 103-142, `Domain::parametersImpl(resolution)`. -/
def parametersImpl (d : Domain K) (res : ℕ) : M (List (P2 K)) :=
  if d.n = 3 then params3 d.vertices res
  else if d.n = 4 then params4 d.vertices res
  else paramsN d.n d.center d.vertices res

end params

/-! ### `DomainCircle` -/

/-- domain-circle.cc 15-18, `DomainCircle::meshSize`. -/
def circleMeshSize (n res : ℕ) : ℕ := 1 + n * res * (res + 1) / 2

/-- domain-circle.cc 64-68, `DomainCircle::onEdge`. -/
def circleOnEdge (n res index : ℕ) : Bool := decide (index ≥ circleMeshSize n res - n * res)

/-- domain-circle.cc 38-62, `DomainCircle::meshTopology`. -/
def circleTopology (n res : ℕ) : M (ℕ × List Tri) := do
  let t ← topologyN n res
  .ok (circleMeshSize n res, t)

/-- domain-circle.cc 20-36, `DomainCircle::parametersImpl` (points are polar coordinates). -/
def circleParams {K : Type*} [Field K] [DecidableEq K] [Libm K] (n res : ℕ) : M (List (P2 K)) :=
  forLoop res (fun l (ps : List (P2 K)) => do
    let j := l + 1
    let r ← fdiv (j : K) (res : K)
    forLoop n (fun k (ps : List (P2 K)) =>
      forLoop j (fun i (ps : List (P2 K)) => do
        let f ← fdiv (i : K) (j : K)
        let phi ← fdiv ((k + f) * 2 * Libm.pi) (n : K)
        .ok (ps ++ [⟨r, phi⟩])) ps) ps) [0]

/-- domain-circle.cc 75-78, `DomainCircle::edgePoint`. -/
def circleEdgePoint {K : Type*} [Field K] [DecidableEq K] [Libm K] (n i : ℕ) (s : K) : M (P2 K) := do
  let phi ← fdiv ((i + s) * 2 * Libm.pi) (n : K)
  .ok ⟨1, phi⟩

end Domain

end Transfinite
