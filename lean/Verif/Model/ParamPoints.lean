import Verif.Model.Patch

/-! # Model of `parameterizePoints` in gb-fit.cc -/

namespace Transfinite

variable {K : Type} [Field K] [LinearOrder K] [Libm K]

/-- gb-fit.cc 77-82: the parameters of the point `p`, by the triangle with vertices `a`, `b`, `c` and parameters `ua`, `ub`, `uc`. -/
def paramPoint (a b c : P3 K) (ua ub uc : P2 K) (p : P3 K) : M (P2 K) := do
  let n ← (P3.cross (b - a) (c - a)).normalize
  let q := p + P3.dot (a - p) n • n
  let x := (P3.cross (b - q) (c - q)).norm
  let y := (P3.cross (a - q) (c - q)).norm
  let z := (P3.cross (a - q) (b - q)).norm
  let r ← fdiv 1 (x + y + z)
  .ok (r • (x • ua + y • ub + z • uc))

/-- gb-fit.cc 74-83: the loop on the points. `closest` is `TriMesh::closestTriangle` (libgeom, external). -/
def paramLoop (closest : List (P3 K) → List Domain.Tri → P3 K → Domain.Tri) (vertices : List (P3 K)) (ts : List Domain.Tri) (params : List (P2 K)) (points : List (P3 K)) : M (List (P2 K)) :=
  forLoop points.length (fun i (result : List (P2 K)) => do
    let p ← vget points i
    let tri := closest vertices ts p
    let a ← vget vertices tri.1
    let b ← vget vertices tri.2.1
    let c ← vget vertices tri.2.2
    let ua ← vget params tri.1
    let ub ← vget params tri.2.1
    let uc ← vget params tri.2.2
    let uv ← paramPoint a b c ua ub uc p
    .ok (result ++ [uv])) []

/-- gb-fit.cc 68-86, `parameterizePoints(surf, points)`, for the surfaces modelled by `Patch`. -/
def parameterizePoints (ε : K) (closest : List (P3 K) → List Domain.Tri → P3 K → Domain.Tri) (points : List (P3 K)) (P : Patch K) : M (List (P2 K) × Patch K) := do
  let m ← P.evalMesh ε 15
  let params ← Domain.parameters (fun d => Domain.meshSize d.n) Domain.parametersImpl m.2.dom 15
  let r ← paramLoop closest m.1.1 m.1.2 params.1 points
  .ok (r, { m.2 with dom := params.2 })

end Transfinite
