import Verif.Model.Barycentric
import Verif.Model.Utilities

/-! # Model of the other parameterizations

In all of them `n_` is `domain_->vertices().size()` (parameterization.cc 20-24). -/

namespace Transfinite

namespace Param

variable {K : Type} [Field K] [LinearOrder K]

/-- parameterization-bilinear.cc 31-57: choosing a solution of `a s^2 + b s + c = 0`. -/
def bilinearSolve [Libm K] (ε a b c : K) : M K :=
  if |a| < ε then
    if |b| < ε then .ok 0 else fdiv (-c) b
  else do
    let D := b * b - 4 * a * c
    let D := if D < ε then 0 else D
    let D ← fdiv (Libm.sqrt D) (2 * a)
    let s ← fdiv (-b) (2 * a)
    let s1 := s + D
    let s2 := s - D
    let (s1, s2) := if s1 < s2 then (s2, s1) else (s1, s2)
    let dev1 := max 0 (s1 - 1)
    let dev2 := max 0 (-s2)
    if dev1 < dev2 then .ok s1 else .ok s2

/-- parameterization-bilinear.cc 12-60, `ParameterizationBilinear::mapToRibbon(i, uv)`. -/
def bilinearMap [Libm K] (ε : K) (d : Domain K) (i : ℕ) (uv : P2 K) : M (P2 K) := do
  let n := d.vertices.length
  let v0 ← vget d.vertices (prevIx n i 2)
  let v1 ← vget d.vertices (prevIx n i)
  let v2 ← vget d.vertices i
  let v3 ← vget d.vertices (nextIx n i)
  let p1 ← d.toLocal i (v0 - v1)
  let p2 ← d.toLocal i (v3 - v2)
  let p ← d.toLocal i (uv - v1)
  let a := p1.y - p2.y
  let b := p.x * p2.y - (p.x + 1) * p1.y + (p1.x - p2.x) * p.y
  let c := p.x * p1.y - p.y * p1.x
  let s ← bilinearSolve ε a b c
  let t ← fdiv p.y (p1.y * (1 - s) + p2.y * s)
  .ok ⟨s, t⟩

/-- parameterization-bilinear.cc 12-57: the side parameter `sd[0]` computed by
`ParameterizationBilinear::mapToRibbon(i, uv)`. -/
def bilinearSide [Libm K] (ε : K) (d : Domain K) (i : ℕ) (uv : P2 K) : M K := do
  let n := d.vertices.length
  let v0 ← vget d.vertices (prevIx n i 2)
  let v1 ← vget d.vertices (prevIx n i)
  let v2 ← vget d.vertices i
  let v3 ← vget d.vertices (nextIx n i)
  let p1 ← d.toLocal i (v0 - v1)
  let p2 ← d.toLocal i (v3 - v2)
  let p ← d.toLocal i (uv - v1)
  let a := p1.y - p2.y
  let b := p.x * p2.y - (p.x + 1) * p1.y + (p1.x - p2.x) * p.y
  let c := p.x * p1.y - p.y * p1.x
  bilinearSolve ε a b c

/-- parameterization-parallel.cc 24-29: the inner loop, the largest distance of the vertices from side `i`
(the `for (const auto &p : v)` loop). -/
def maxDistance (d : Domain K) (i : ℕ) : M K := do
  let vi ← vget d.vertices i
  forLoop d.vertices.length (fun j (m : K) => do
    let p ← vget d.vertices j
    let l ← d.toLocal i (p - vi)
    .ok (if l.y > m then l.y else m)) 0

/-- parameterization-parallel.cc 19-32, `updateMultipliers()`. -/
def parallelMultipliers (d : Domain K) : M (List K) :=
  forLoop d.vertices.length (fun i (l : List K) => do
    let m ← maxDistance d i
    let x ← fdiv 1 m
    .ok (l ++ [x])) []

/-- parameterization-superd.cc 11-18, `updateMultipliers()`. -/
def superDMultipliers (d : Domain K) : M (List K) := do
  let n := d.vertices.length
  let k := if n ≤ 6 then 1 else (n - 3) / 2
  let vk ← vget d.vertices k
  let v0 ← vget d.vertices 0
  let l ← d.toLocal 0 (vk - v0)
  let x ← fdiv 1 l.y
  .ok (List.replicate n x)

/-- parameterization-parallel.cc 11-16, `ParameterizationParallel::mapToRibbon(i, uv)`. The distance computed by
`ParameterizationBilinear::mapToRibbon` is overwritten, so a division by zero in it has no effect. -/
def parallelMap [Libm K] (ε : K) (mult : List K) (d : Domain K) (i : ℕ) (uv : P2 K) : M (P2 K) := do
  let s ← bilinearSide ε d i uv
  let vi ← vget d.vertices i
  let l ← d.toLocal i (uv - vi)
  let m ← vget mult i
  .ok ⟨s, l.y * m⟩

/-- parameterization-interconnected.cc 12-20, `ParameterizationInterconnected::mapToRibbon(i, uv)`. -/
def interconnectedMap [Libm K] (ε : K) (d : Domain K) (i : ℕ) (uv : P2 K) : M (P2 K) := do
  let n := d.vertices.length
  let sp ← bilinearMap ε d (prevIx n i) uv
  let sn ← bilinearMap ε d (nextIx n i) uv
  let sd ← bilinearMap ε d i uv
  let Hs := hermite 0 sd.x
  .ok ⟨sd.x, (1 - sp.x) * Hs + sn.x * (1 - Hs)⟩

/-- parameterization-interconnected.cc 22-30: the loop of `mapToRibbons`, overwriting the distances
of the already computed bilinear parameters. -/
def interconnectedFix (n : ℕ) (sds : List (P2 K)) : M (List (P2 K)) :=
  forLoop n (fun i (sds : List (P2 K)) => do
    let sd ← vget sds i
    let sp ← vget sds (prevIx n i)
    let sn ← vget sds (nextIx n i)
    let Hs := hermite 0 sd.x
    vset sds i ⟨sd.x, (1 - sp.x) * Hs + sn.x * (1 - Hs)⟩) sds

/-- parameterization-constrained-barycentric.cc 17-35: the blending of the four constraints. -/
def singularBlend (ε : K) (weights : List K) : M (List K) :=
  let small := weights.countP (fun w => decide (w < ε))
  if small > 0 then do
    let val ← fdiv 1 (small : K)
    .ok (weights.map fun w => if w < ε then val else 0)
  else do
    let blends ← weights.mapM fun w => fdiv 1 (w ^ 2)
    let denominator := blends.sum
    blends.mapM fun x => fdiv x denominator

/-- parameterization-constrained-barycentric.cc 17-38: the result, given the parameters `sd` of side `i`
and the side parameters `s_1`, `s1` of the previous and next sides. -/
def constrainedBlend (ε : K) (sd : P2 K) (s_1 s1 : K) : M (P2 K) := do
  let blends ← singularBlend ε [sd.y, 1 - sd.x, 1 - sd.y, sd.x]
  let b0 ← vget blends 0
  let b1 ← vget blends 1
  let b2 ← vget blends 2
  let b3 ← vget blends 3
  .ok ⟨sd.x, sd.y * (b0 + b2) + s1 * b1 + (1 - s_1) * b3⟩

/-- parameterization-constrained-barycentric.cc 11-39,
`ParameterizationConstrainedBarycentric::mapToRibbon(i, uv)`; `map` is
`ParameterizationBarycentric::mapToRibbon(·, uv)`. -/
def constrainedMapWith (ε : K) (n : ℕ) (map : ℕ → M (P2 K)) (i : ℕ) : M (P2 K) := do
  let sd ← map i
  let s_1 ← map (prevIx n i)
  let s1 ← map (nextIx n i)
  constrainedBlend ε sd s_1.x s1.x

/-- parameterization-constrained-barycentric.cc 11-39, for the Wachspress coordinates used by it
(the default constructor of parameterization-barycentric.cc 9-10). -/
def constrainedMap [Libm K] (ε : K) (d : Domain K) (i : ℕ) (uv : P2 K) : M (P2 K) :=
  constrainedMapWith ε d.vertices.length (fun j => baryMap ε .wachspress d j uv) i

/-- parameterization-overlap.cc 10-17, `ParameterizationOverlap::mapToRibbon(i, uv)`. -/
def overlapMap [Libm K] (ε : K) (t : BaryType) (d : Domain K) (i : ℕ) (uv : P2 K) : M (P2 K) := do
  let n := d.vertices.length
  if n % 2 ≠ 0 then .error .assertion
  else do
    let bc ← barycentric ε t d uv
    let result ← forLoop (n / 2) (fun j (r : K) => do
      let b ← vget bc ((i + j) % n)
      .ok (r + b)) 0
    .ok ⟨result, 0⟩

section polar
variable [Libm K]

/-- parameterization-polar.cc 16-25, `ParameterizationPolar::mapToRibbon(i, uv)` (mean value coordinates). -/
def polarMap (ε : K) (d : Domain K) (i : ℕ) (uv : P2 K) : M (P2 K) := do
  let n := d.vertices.length
  let vp ← vget d.vertices (prevIx n i)
  let vi ← vget d.vertices i
  let v1 := vp - vi
  let v2 := uv - vi
  if v2.norm < ε then .ok ⟨0, 1⟩
  else do
    let w1 ← v1.normalize
    let w2 ← v2.normalize
    let phi := Libm.acos (Domain.clamp (P2.dot w1 w2) (-1) 1)
    let a ← d.angle i
    let s ← fdiv phi a
    let l ← barycentric ε .meanValue d uv
    let li ← vget l i
    .ok ⟨s, li⟩

/-- parameterization-polar.cc 46-49: the loop over the far sides; `q` keeps its (default) value if no
side is hit. `fuel` bounds the number of steps (the loop visits each side at most once). -/
def polarFar (ε : K) (d : Domain K) (n i : ℕ) (p dir : P2 K) : (fuel j : ℕ) → P2 K → M (P2 K)
  | 0, _, _ => .error .diverge
  | fuel + 1, j, q =>
    if j = i then .ok q
    else do
      match ← d.intersectEdgeWithRay ε j p dir with
      | some q' => .ok q'
      | none => polarFar ε d n i p dir fuel (nextIx n j) q

/-- parameterization-polar.cc 51-60: 20 steps of bisection; the state is `(lo, hi, next)`. -/
def polarBisect (f : P2 K → M K) (steps : ℕ) (p q : P2 K) (target : K) (q0 : P2 K) : M (K × K × P2 K) :=
  forLoop steps (fun _ (st : K × K × P2 K) => do
    let mid := (st.1 + st.2.1) / 2
    let next := (1 - mid) • p + mid • q
    let y ← f next
    if target < y then .ok (mid, st.2.1, next) else .ok (st.1, mid, next)) (0, 1, q0)

/-- parameterization-polar.cc 36-44: the direction of the sweep line. -/
def polarDirection (ε : K) (d : Domain K) (i : ℕ) (pd : P2 K) : M (P2 K) := do
  let n := d.vertices.length
  let vp ← vget d.vertices (prevIx n i)
  let vi ← vget d.vertices i
  let vn ← vget d.vertices (nextIx n i)
  let v1 ← (vp - vi).normalize
  let v2 ← (vn - vi).normalize
  let a ← d.angle i
  let phi := pd.x * a
  let v1p : P2 K := ⟨v1.y, -v1.x⟩
  let v1p := if P2.dot v1p v2 < -ε then -v1p else v1p
  .ok (Libm.cos phi • v1 + Libm.sin phi • v1p)

/-- parameterization-polar.cc 27-62, `ParameterizationPolar::inverse(i, pd)`. The default constructed
points `q` and `next` of libgeom are modelled by an arbitrary point `q0`. -/
def polarInverse (ε : K) (q0 : P2 K) (d : Domain K) (i : ℕ) (pd : P2 K) : M (P2 K) := do
  let n := d.vertices.length
  if pd.x < ε then d.edgePoint i pd.y
  else if pd.x > 1 - ε then d.edgePoint (nextIx n i) (1 - pd.y)
  else do
    let dir ← polarDirection ε d i pd
    let p ← vget d.vertices i
    let q ← polarFar ε d n i p dir n (nextIx n (nextIx n i)) q0
    let st ← polarBisect (fun x => do let sd ← polarMap ε d i x; .ok sd.y) 20 p q pd.y q0
    .ok st.2.2

/-- parameterization-perp-polar.cc 13-37, `ParameterizationPerpPolar::mapToRibbon(i, uv)`. -/
def perpPolarMap (d : Domain K) (i : ℕ) (uv : P2 K) : M (P2 K) := do
  let n := d.vertices.length
  let base ← vget d.vertices (prevIx n i)
  let p ← d.toLocal i (uv - base)
  if 0 ≤ p.x ∧ p.x ≤ 1 then .ok p
  else do
    let vbase ← d.fromLocal i ⟨0, 1⟩
    let vi ← vget d.vertices i
    let origin := if p.x > 1 then vi else base
    let vbase := if p.x > 1 then -vbase else vbase
    let v := uv - origin
    let el ← d.edgeLength i
    let dist ← fdiv v.norm el
    let w1 ← vbase.normalize
    let w2 ← v.normalize
    let phi := Libm.acos (Domain.clamp (P2.dot w1 w2) (-1) 1)
    if p.x < 0 then .ok ⟨-phi, dist⟩ else .ok ⟨1 + phi, dist⟩

end polar

/-- parameterization-circular.cc 25-42, `bisect(f, xl, xh)`, as a recursion on the remaining steps;
`xm` is the previous midpoint. The parameter `f` may fail, and it may return a NaN, which is `none`; then `test` is a NaN,
both comparisons are false, and the loop is left. -/
def bisect (ε : K) (f : K → M (Option K)) : (steps : ℕ) → (xl xh xm : K) → M K
  | 0, _, _, xm => .ok xm
  | steps + 1, xl, xh, xmOld => do
    let xm := (xl + xh) / 2
    if xm ≠ 0 ∧ |(xm - xmOld) / xm| < ε then .ok xm
    else do
      let a ← f xl
      let b ← f xm
      match a, b with
      | some a, some b =>
        if a * b < 0 then bisect ε f steps xl xm xm
        else if a * b > 0 then bisect ε f steps xm xh xm
        else .ok xm
      | _, _ => .ok xm

section circular
variable [Libm K]

/-- parameterization-circular.cc 15-23, `hcircle(n, h)`: centre and radius. -/
def hcircle (ε : K) (n : ℕ) (h : K) : M (P2 K × K) := do
  let phi ← fdiv ((2 * h + 1) * Libm.pi) (n : K)
  let p : P2 K := ⟨Libm.cos phi, Libm.sin phi⟩
  let t : P2 K := ⟨Libm.sin (h * Libm.pi - phi), Libm.cos (h * Libm.pi - phi)⟩
  if |t.x| < ε then .ok (p, 0)
  else do
    let q ← fdiv (p.y * t.y) t.x
    let O : P2 K := ⟨p.x + q, 0⟩
    .ok (O, (O - p).norm)

/-- parameterization-circular.cc 57-69: the lambda `deviation`. The square root of a negative number is a NaN, which then is
the result (`none`), since the comparison in line 66 is false. -/
def circleDeviation (ε : K) (n : ℕ) (p : P2 K) (h : K) : M (Option K) := do
  let OR ← hcircle ε n h
  let O := OR.1
  let R := OR.2
  let q := R * R - (p.y - O.y) * (p.y - O.y)
  if R = 0 then .ok (some (O.x - p.x))
  else if h > 4 / 5 then .ok (some ((O - p).norm - R))
  else if q < 0 then .ok none
  else
    let D := Libm.sqrt q
    let x := O.x + D
    let x := if x > 1 then O.x - D else x
    .ok (some (x - p.x))

/-- parameterization-circular.cc 44-76, `ParameterizationCircular::mapToRibbon(i, uv)`; `fmod` is
`std::fmod`. -/
def circularMap (ε : K) (fmod : K → K → K) (n : ℕ) (i : ℕ) (uv : P2 K) : M (P2 K) := do
  let r := uv.x
  let q ← fdiv ((i : K) * 2 + 1) (n : K)
  let phi := fmod (uv.y + (3 - q) * Libm.pi) (2 * Libm.pi) - Libm.pi
  let a ← fdiv Libm.pi (n : K)
  if r > 1 - ε then
    if |phi| ≤ a then .ok ⟨0, 0⟩
    else do
      let a3 ← fdiv (3 * Libm.pi) (n : K)
      if |phi| ≥ a3 then .ok ⟨1, 1⟩
      else do
        let x ← fdiv (|phi| * n) Libm.pi
        let h := (x - 1) / 2
        .ok ⟨h, h⟩
  else do
    let p : P2 K := ⟨r * Libm.cos phi, r * Libm.sin phi⟩
    let h ← if p.x < 0 then bisect ε (circleDeviation ε n p) 100 (1 / 5) 1 (1 / 5)
      else bisect ε (circleDeviation ε n p) 100 0 (4 / 5) 0
    .ok ⟨h, h⟩

end circular

end Param

end Transfinite
