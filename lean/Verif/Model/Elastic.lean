import Verif.Model.Patch

/-! # Model of `surface-elastic.cc`

`SurfaceElastic` has the same domain, parameterization and ribbon classes as `SurfaceCornerBased` (surface-elastic.cc 13-15,
surface-corner-based.cc 8-10), and overrides only `eval`. So the state of an object is that of a `Patch` of this kind. -/

namespace Transfinite

namespace Elastic

variable {K : Type} [Field K] [LinearOrder K] [Libm K]

/-- The Eigen matrices `A` and `b` (surface-elastic.cc 33); the rows of `b` are kept as points. -/
structure Sys (K : Type) where
  A : Fin 3 → Fin 3 → K
  b : Fin 3 → P3 K

/-- surface-elastic.cc 33: both matrices are zero. -/
def Sys.zero : Sys K := ⟨fun _ _ => 0, fun _ => 0⟩

/-- surface-elastic.cc 45-60: the summands of side `i`; `x` and `y` are `u - ui` and `v - vi`, `P` is `Pi`, `T` is `Ti`. -/
def Sys.add (S : Sys K) (x y denom : K) (P T : P3 K) : Sys K :=
  ⟨fun k l => S.A k l + match k, l with
      | 0, 0 => 2 * denom
      | 0, 1 => x * denom
      | 0, 2 => y * denom
      | 1, 0 => 3 * x * denom
      | 1, 1 => 2 * (x * x) * denom
      | 1, 2 => 2 * x * y * denom
      | 2, 0 => 3 * y * denom
      | 2, 1 => 2 * x * y * denom
      | 2, 2 => 2 * (y * y) * denom,
   fun k => S.b k + match k with
      | 0 => denom • ((2 : K) • P + T)
      | 1 => denom • ((3 * x) • P + x • T)
      | 2 => denom • ((3 * y) • P + y • T)⟩

/-- surface-elastic.cc 35-66: the loop (as a recursion on the remaining sides) with its early return, and the solution of the
system. `solve` is Eigen's `A.colPivHouseholderQr().solve(b)`, an arbitrary function here; `tol` is `domain_tolerance`. -/
def loop (ε tol : K) (solve : Sys K → Fin 3 → P3 K) (d : Domain K) (S : Surf K) (uv : P2 K) (sds : List (P2 K)) :
    (remaining i : ℕ) → Sys K → M (P3 K)
  | 0, _, sys => .ok (solve sys 0)
  | k + 1, i, sys => do
    let sd ← vget sds i
    let s := Domain.clamp sd.x 0 1
    let p ← vget d.vertices (prevIx S.n i)
    let q ← vget d.vertices i
    let w := uv - affineCombine2 p s q
    let r ← vget S.ribbons i
    let P ← r.eval ε ⟨s, 0⟩
    if w.norm < tol then .ok P
    else do
      let c ← r.crossDerivative ε s
      let denom ← fdiv 1 (w.norm * w.norm * w.norm)
      loop ε tol solve d S uv sds k (i + 1) (sys.add w.x w.y denom P (w.norm • c))

/-- surface-elastic.cc 27-68, `SurfaceElastic::eval(uv)`. -/
def eval (ε tol : K) (solve : Sys K → Fin 3 → P3 K) (P : Patch K) (uv : P2 K) : M (P3 K × Patch K) := do
  let r ← Param.mapToRibbons ε P.kind.param uv P.param
  let p ← loop ε tol solve P.dom.dom P.surf uv r.1 P.surf.n 0 Sys.zero
  .ok (p, { P with param := r.2 })

/-- surface-elastic.cc 17: `domain_tolerance(1.0e-5)`. -/
def tolerance : K := 1 / 100000

end Elastic

end Transfinite
