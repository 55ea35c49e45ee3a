import Verif.Model.Biharmonic

/-! # Model of `surface-biharmonic.cc` compiled with the external library `triangle` (lines 232-305) -/

namespace Transfinite

variable {K : Type} [Field K] [LinearOrder K] [Libm K]

namespace Biharmonic

/-- The fields of `struct triangulateio out` that are read in surface-biharmonic.cc 285-291. -/
structure Triangulated (K : Type) where
  numberofpoints : ℕ
  pointlist : List K
  numberoftriangles : ℕ
  trianglelist : List ℕ

/-- The external functions of this variant: `jacobiSvd` of the matrix with the given rows (the first two columns of `matrixV()`, surface-biharmonic.cc 200-205), the number
that is printed by `<< std::fixed` with the default precision (line 281), and `triangulate` (line 282) for the input points, the segments and the maximal area
(the other switches are constant). -/
structure Lib (K : Type) where
  svd : List (P3 K) → P3 K × P3 K
  fixed : K → K
  triangulate : List K → ℕ → List ℕ → ℕ → K → M (Triangulated K)

/-- surface-biharmonic.cc 185-211, `projectToLSQPlane(pv)`. -/
def projectToLSQPlane (svd : List (P3 K) → P3 K × P3 K) (pv : List (P3 K)) : M (List (P2 K)) := do
  let centroid ← Ribbon.vdiv pv.sum (pv.length : K)
  let uv := svd (pv.map fun p => p - centroid)
  .ok (pv.map fun p => ⟨P3.dot (p - centroid) uv.1, P3.dot (p - centroid) uv.2⟩)

/-- surface-biharmonic.cc 233-242: `points3d` and the sum of the arc lengths; `n` is `domain_->size()`. -/
def samples (n res : ℕ) (rs : List (Ribbon K)) : M (List (P3 K) × K) :=
  forLoop n (fun i s => do
    let r ← vget rs i
    let pts ← forLoop res (fun j l => do
      let u ← fdiv (j : K) (res : K)
      .ok (l ++ [r.curve.pt u])) s.1
    .ok (pts, s.2 + r.curve.arc 0 1)) ([], 0)

/-- surface-biharmonic.cc 248-254: `points`. -/
def pointList (l : List (P2 K)) : List K := l.flatMap fun p => [p.x, p.y]

/-- surface-biharmonic.cc 256-262: `segments`, for `n` points; without points `segments.back()` is undefined. -/
def segmentList (n : ℕ) : M (List ℕ) := do
  let l ← forLoop n (fun i l => .ok (l ++ [i] ++ [i + 1])) []
  if l.length = 0 then .error .oob else vset l (l.length - 1) 0

/-- The results of surface-biharmonic.cc 231-305, `generateDomain(resolution)`: the triangles, the parameters, and `n`, which is the number of points given to `triangulate`. -/
structure Generated (K : Type) where
  mesh : List Domain.Tri
  uvs : List (P2 K)
  count : ℕ

/-- surface-biharmonic.cc 243-246, 281: the maximal area of a triangle, for the sum of the arc lengths, before it is printed. -/
def maxArea (n res : ℕ) (total : K) : M K := do
  let length ← fdiv total ((res * n : ℕ) : K)
  .ok (length * length * Libm.sqrt 3 / 4)

/-- surface-biharmonic.cc 284-291: the parameters and triangles in the answer of `triangulate`. -/
def readAnswer (out : Triangulated K) : M (List (P2 K) × List Domain.Tri) := do
  let uvs ← forLoop out.numberofpoints (fun i l => do
    let x ← vget out.pointlist (2 * i)
    let y ← vget out.pointlist (2 * i + 1)
    .ok (l ++ [⟨x, y⟩])) []
  let mesh ← forLoop out.numberoftriangles (fun i l => do
    let a ← vget out.trianglelist (3 * i + 0)
    let b ← vget out.trianglelist (3 * i + 1)
    let c ← vget out.trianglelist (3 * i + 2)
    .ok (l ++ [(a, b, c)])) []
  .ok (uvs, mesh)

/-- surface-biharmonic.cc 229-305, `generateDomain(resolution)`; the memory of the structures `in` and `out` is not modelled. -/
def generateDomain (L : Lib K) (res : ℕ) (B : Biharmonic K) : M (Generated K) := do
  let n := B.dom.dom.n
  let s ← samples n res B.surf.ribbons
  let area ← maxArea n res s.2
  let projected ← projectToLSQPlane L.svd s.1
  let segments ← segmentList projected.length
  let out ← L.triangulate (pointList projected) projected.length segments projected.length (L.fixed area)
  let um ← readAnswer out
  .ok ⟨um.2, um.1, projected.length⟩

/-- surface-biharmonic.cc 294-298: `vertex_boundary(i)`. -/
def vertexBoundaryLib (res i : ℕ) : M (ℕ × K) :=
  if res = 0 then .error .divZero else do
    let j := i / res
    let u ← fdiv ((i - j * res : ℕ) : K) (res : K)
    .ok (j, u)

/-- surface-biharmonic.cc 331-333: the body of the loop, on the variables `points` and `normals`. -/
def fillStepLib (ε : K) (rs : List (Ribbon K)) (res i : ℕ) (st : List (P3 K) × List (P3 K)) : M (List (P3 K) × List (P3 K)) := do
  let ju ← vertexBoundaryLib res i
  let rib ← vget rs ju.1
  let points ← vset st.1 i (rib.curve.pt ju.2)
  let nr ← rib.normal ε ju.2
  let normals ← vset st.2 i nr
  .ok (points, normals)

/-- surface-biharmonic.cc 311-385, `eval(resolution)`, with `generateDomain` of this variant: the points and the triangles; line 293 is `on_edge`. -/
def evalLib (ε : K) (L : Lib K) (solve : ℕ → (ℕ → ℕ → K) → (ℕ → P3 K) → ℕ → P3 K) (res : ℕ) (B : Biharmonic K) : M (List (P3 K) × List Domain.Tri) := do
  let g ← generateDomain L res B
  let N := g.uvs.length
  let onEdge := fun i => decide (i < g.count)
  let boundary := (List.range N).filter onEdge
  let st ← forEach (fillStepLib ε B.surf.ribbons res) boundary (List.replicate N 0, List.replicate N 0)
  let x ← surfacePoints solve g.mesh (g.uvs.map Harmonic.from2D) onEdge boundary st.1 st.2
  .ok ((List.range N).map x, g.mesh)

end Biharmonic

end Transfinite
