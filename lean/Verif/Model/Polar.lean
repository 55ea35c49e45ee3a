import Verif.Model.Parameterization
import Verif.Model.Ribbon
import Verif.Model.GenBezier

/-! # Model of `surface-polar.cc`

The curves of the ribbons are the only data of the ribbons used by this surface, so the model takes the list of curves. The caches of the
parameterization (transparent, C19) are left out. -/

namespace Transfinite

namespace Polar

variable {K : Type} [Field K]

/-- surface-polar.cc 44-58: the matrix (by rows) and the right hand side of the system of `bezierRefit`. -/
def refitSystem (cpts : List (P3 K)) (u : List K) (p : List (P3 K)) : M (List (List K) × List (P3 K)) :=
  let d := usub cpts.length 1
  forLoop (usub d 1) (fun i (st : List (List K) × List (P3 K)) => do
    let ui ← vget u i
    let coeff ← bernsteinAll d ui
    let row ← forLoop (usub d 1) (fun j (row : List K) => do
      let x ← vget coeff (j + 1)
      .ok (row ++ [x])) []
    let pi ← vget p i
    let c0 ← vget cpts 0
    let b0 ← vget coeff 0
    let cd ← vget cpts d
    let bd ← vget coeff d
    .ok (st.1 ++ [row], st.2 ++ [pi - b0 • c0 - bd • cd])) ([], [])

/-- surface-polar.cc 44-62, `bezierRefit(cpts, u, p)`. `solve` is Eigen's `A.fullPivLu().solve(b)`, an arbitrary function here. -/
def bezierRefit (solve : List (List K) → List (P3 K) → List (P3 K)) (cpts : List (P3 K)) (u : List K) (p : List (P3 K)) :
    M (List (P3 K)) := do
  let S ← refitSystem cpts u p
  let x := solve S.1 S.2
  forLoop (usub (usub cpts.length 1) 1) (fun i c => do
    let q ← vget x i
    vset c (i + 1) q) cpts

/-- The three polygons of surface-polar.cc 88. -/
structure Polygons (K : Type) where
  curve : List (P3 K)
  left : List (P3 K)
  right : List (P3 K)

/-- The vectors of surface-polar.cc 95-96. -/
structure Samples (K : Type) where
  uniform : List K
  positions : List K
  samples : List (P3 K)
  left : List (P3 K)
  right : List (P3 K)

variable [LinearOrder K] [Libm K]

/-- surface-polar.cc 97-109: the samples; `inv t` is `param_->inverse(i, Point2D(psi, t))`, `cl` and `cr` are the curves of side
`i` and `next(i)`. The loop variable `j` of the code is `j+1`. -/
def takeSamples (inv : K → M (P2 K)) (cl cr : K → P3 K) (p : P2 K) (l psi : K) (degree : ℕ) (st : Polygons K) : M (Samples K) :=
  forLoop (degree - 1) (fun j (S : Samples K) => do
    let u ← fdiv ((j + 1 : ℕ) : K) (degree : K)
    let qu ← inv (1 - u)
    let pos ← fdiv (qu - p).norm l
    let sl := cl (1 - u)
    let ql ← Ribbon.bezierPt st.left u
    let sr := cr u
    let qr ← Ribbon.bezierPt st.right u
    let displacement := (1 - psi) • (sl - ql) + psi • (sr - qr)
    let qc ← Ribbon.bezierPt st.curve pos
    .ok ⟨S.uniform ++ [u], S.positions ++ [pos], S.samples ++ [qc + displacement], S.left ++ [sl], S.right ++ [sr]⟩)
    ⟨[], [], [], [], []⟩

/-- surface-polar.cc 91-113: one round of the degree elevation. -/
def round (solve : List (List K) → List (P3 K) → List (P3 K)) (inv : K → M (P2 K)) (cl cr : K → P3 K) (p : P2 K) (l psi : K) (degree : ℕ)
    (st : Polygons K) : M (Polygons K) := do
  let curve ← bezierElevate st.curve
  let left ← bezierElevate st.left
  let right ← bezierElevate st.right
  let S ← takeSamples inv cl cr p l psi degree ⟨curve, left, right⟩
  let left ← bezierRefit solve left S.uniform S.left
  let right ← bezierRefit solve right S.uniform S.right
  let curve ← bezierRefit solve curve S.positions S.samples
  .ok ⟨curve, left, right⟩

/-- surface-polar.cc 76-87: the linear base interpolant: the points `P`, `Q`, and the length `l` (`P1` and `P2` are arguments). -/
def base (d : Domain K) (i i1 : ℕ) (psi : K) (p q : P2 K) (P P1 P2 : P3 K) : M (P3 K × K) := do
  let l1 ← d.edgeLength i
  let l2 ← d.edgeLength i1
  let D1 ← (P1 - P).normalize
  let D2 ← (P2 - P).normalize
  let N := P3.cross D1 D2
  let D1p := P3.cross N D1
  let angle := psi * Libm.acos (Domain.clamp (P3.dot D1 D2) (-1) 1)
  let D := Libm.cos angle • D1 + Libm.sin angle • D1p
  let l := (q - p).norm
  let a ← fdiv ((1 - psi) * (P1 - P).norm) l1
  let b ← fdiv (psi * (P2 - P).norm) l2
  .ok (P + (l * (a + b)) • D, l)

/-- surface-polar.cc 65-117, `SurfacePolar::polarRibbon(i, pd)`. `q0` is the default constructed point in
`ParameterizationPolar::inverse` (see `Param.polarInverse`). -/
def ribbon (ε : K) (q0 : P2 K) (solve : List (List K) → List (P3 K) → List (P3 K)) (maxDegree : ℕ) (d : Domain K) (cs : List (Curve K))
    (i : ℕ) (pd : P2 K) : M (P3 K) := do
  let psi := pd.x
  let dist := Domain.clamp pd.y 0 1
  let i1 := nextIx cs.length i
  let ci ← vget cs i
  let cn ← vget cs i1
  let p ← vget d.vertices i
  let q ← Param.polarInverse ε q0 d i ⟨psi, 0⟩
  let B ← base d i i1 psi p q (ci.pt 1) (ci.pt 0) (cn.pt 1)
  let st ← forLoop (maxDegree - 1) (fun k st =>
      round solve (fun t => Param.polarInverse ε q0 d i ⟨psi, t⟩) ci.pt cn.pt p B.2 psi (k + 2) st)
    ⟨[ci.pt 1, B.1], [ci.pt 1, ci.pt 0], [ci.pt 1, cn.pt 1]⟩
  Ribbon.bezierPt st.curve (1 - dist)

/-- surface-polar.cc 26-36: the sum over the corners, given the value `pds` of `mapToRibbons`. -/
def evalWith (ε : K) (q0 : P2 K) (solve : List (List K) → List (P3 K) → List (P3 K)) (maxDegree : ℕ) (d : Domain K) (cs : List (Curve K))
    (pds : List (P2 K)) : M (P3 K) := do
  let s ← forLoop cs.length (fun i (st : P3 K × K) => do
    let pd ← vget pds i
    let r ← ribbon ε q0 solve maxDegree d cs i pd
    .ok (st.1 + pd.y ^ 2 • r, st.2 + pd.y ^ 2)) (0, 0)
  Ribbon.vdiv s.1 s.2

/-- surface-polar.cc 24-37, `SurfacePolar::eval(uv)`; `mapToRibbons` is parameterization.cc 23-36 with the polar map. -/
def eval (ε : K) (q0 : P2 K) (solve : List (List K) → List (P3 K) → List (P3 K)) (maxDegree : ℕ) (d : Domain K) (cs : List (Curve K))
    (uv : P2 K) : M (P3 K) := do
  let pds ← forLoop d.vertices.length (fun i (l : List (P2 K)) => do
    let sd ← Param.polarMap ε d i uv
    .ok (l ++ [sd])) []
  evalWith ε q0 solve maxDegree d cs pds

end Polar

end Transfinite
