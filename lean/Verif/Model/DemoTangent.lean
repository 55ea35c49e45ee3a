import Verif.Model.Demo
import Verif.Model.GenBezier

/-! # Model of the tangential test of `showDeviations` in test.cc -/

namespace Transfinite

namespace Demo

variable {K : Type} [Field K] [LinearOrder K] [Libm K]

/-- test.cc 129-133: the unit normal vector `perp` of side `i` of the domain, turned to the center. -/
def sidePerp (D : Domain K) (i : ℕ) : M (P2 K) := do
  let a ← vget D.vertices i
  let b ← vget D.vertices ((i + D.n - 1) % D.n)
  let perp : P2 K := ⟨(a - b).y, -(a - b).x⟩
  let perp := if P2.dot (D.center - a) perp < 0 then -perp else perp
  perp.normalize

/-- test.cc 136-149 for a surface that is not a generalized Bézier surface: the angle between the estimated normal vector of the surface and the
normal fence at the parameter `s` of side `i`. `step` is 1e-4 in the program (line 93). Simplified: `perp` is computed for each parameter again. -/
def tangentialAngle (ε step : K) (i : ℕ) (s : K) (P : Patch K) : M (K × Patch K) := do
  let perp ← sidePerp P.dom.dom i
  let uv ← P.dom.dom.edgePoint i s
  let p ← P.eval ε uv
  let q ← p.2.eval ε (uv + step • perp)
  let r ← vget q.2.surf.ribbons i
  let surfNormal ← (P3.cross (r.curve.der s) (q.1 - p.1)).normalize
  let normal ← r.normal ε s
  .ok (Libm.acos (P3.dot surfNormal normal), q.2)

/-- test.cc 135-150: the body of the loops; the state is `max_tan_error` and the surface (with its caches). -/
def tangentialStep (ε step : K) (i j : ℕ) (st : K × Patch K) : M (K × Patch K) := do
  let s ← fdiv (j : K) 40
  let a ← tangentialAngle ε step i s st.2
  .ok (max st.1 a.1, a.2)

/-- test.cc 126-152: the tangential error computed by `showDeviations` (in radians). -/
def tangentialError (ε step : K) (P : Patch K) : M (K × Patch K) :=
  forLoop P.dom.dom.n (fun i st => forLoop 41 (fun j st => tangentialStep ε step i j st) st) (0, P)

/-- test.cc 107-109: the curve of the second row of control points of side `i` of a generalized Bézier surface. -/
def innerCurve (arc : List (P3 K) → K → K → K) (G : GB K) (i : ℕ) : M (Curve K) := do
  let cpts ← forLoop (G.degree + 1) (fun j (l : List (P3 K)) => do
    let p ← G.controlPoint i j 1
    .ok (l ++ [p])) []
  .ok (bezierCurve arc cpts)

/-- test.cc 136-149 for a generalized Bézier surface. Simplified: the inner curve is computed for each parameter again. -/
def bezierAngle (ε : K) (arc : List (P3 K) → K → K → K) (step : K) (i : ℕ) (s : K) (G : GB K) : M (K × GB K) := do
  let inner ← innerCurve arc G i
  let perp ← sidePerp G.dom.dom i
  let uv ← G.dom.dom.edgePoint i s
  let p ← G.eval ε uv
  let q ← p.2.eval ε (uv + step • perp)
  let c ← vget q.2.curves i
  let surfNormal ← (P3.cross (c.der s) (q.1 - p.1)).normalize
  let normal ← (P3.cross (c.der s) (inner.pt s - c.pt s)).normalize
  .ok (Libm.acos (P3.dot surfNormal normal), q.2)

end Demo

end Transfinite
