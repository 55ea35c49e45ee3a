import Verif.Model.Domain
import Verif.Model.Curve

/-! # Model of `domain-regular.cc`, `domain-circular.cc` and `domain-angular.cc` -/

namespace Transfinite

namespace Domain

variable {K : Type} [Field K] [LinearOrder K] [Libm K]

/-- domain-regular.cc 14-22: the vertices of the regular domain with `m` sides. -/
def regularVertices (m : ℕ) : M (List (P2 K)) :=
  if m = 4 then .ok [⟨1, 1⟩, ⟨-1, 1⟩, ⟨-1, -1⟩, ⟨1, -1⟩]
  else do
    let alpha ← fdiv (2 * Libm.pi) (m : K)
    forLoop m (fun i l => .ok (l ++ [⟨Libm.cos (alpha * i), Libm.sin (alpha * i)⟩])) []

/-- domain-regular.cc 8-30, `DomainRegular::update()` on an object `d` with `m` curves; the result is
the new object and the return value. `computeCenter` is the origin. -/
def regularUpdate (d : Domain K) (m : ℕ) : M (Domain K × Bool) :=
  if d.n = m then .ok (d, false)
  else do
    let vs ← regularVertices m
    let d' ← updateFrom vs 0
    .ok (d', true)

/-- domain-circular.cc 17, domain-angular.cc 18: lengths of the curves. -/
def curveLengths (curves : List (Curve K)) : List K := curves.map fun c => c.arc 0 1

/-- domain-circular.cc 18-27: the vertices of the circular domain from the curve lengths. -/
def circularVertices (lengths : List K) : M (List (P2 K)) := do
  let normalizer ← fdiv (2 * Libm.pi) lengths.sum
  let lengths := lengths.map fun x => x * normalizer
  let st ← forLoop lengths.length (fun i (st : List (P2 K) × K) => do
    let l ← vget lengths i
    let alpha := st.2 + l
    .ok (st.1 ++ [⟨Libm.cos alpha, Libm.sin alpha⟩], alpha)) ([], 0)
  .ok st.1

/-- domain-circular.cc 11-30, `DomainCircular::update()`. -/
def circularUpdate (curves : List (Curve K)) : M (Domain K) := do
  let vs ← circularVertices (curveLengths curves)
  update vs

/-- `std::clamp(x, lo, hi)` (domain-angular.cc 31, domain.cc 74). -/
def clamp (x lo hi : K) : K := max lo (min x hi)

/-- domain-angular.cc 26-32: the angles between consecutive boundary curves. -/
def curveAngles (curves : List (Curve K)) : M (List K) :=
  forLoop curves.length (fun i l => do
    let c ← vget curves i
    let v1 ← (c.der 1).normalize
    let c' ← vget curves (nextIx curves.length i)
    let v2 ← (c'.der 0).normalize
    .ok (l ++ [Libm.acos (clamp (P3.dot (-v1) v2) (-1) 1)])) []

/-- domain-angular.cc 34-36: turning angles scaled such that the angles sum up to (n-2)π. -/
def turningAngles (angles : List K) : M (List K) := do
  let mult ← fdiv (((angles.length - 2 : ℕ) : K) * Libm.pi) angles.sum
  .ok (angles.map fun x => Libm.pi - x * mult)

/-- domain-angular.cc 39-46: the open polygon; the state is `(vertices, dir, prev_v)`. -/
def openPolygon (lengths turn : List K) : M (List (P2 K)) := do
  let st ← forLoop lengths.length (fun i (st : List (P2 K) × K × P2 K) => do
    let l ← vget lengths i
    let v := st.2.2 + l • (⟨Libm.cos st.2.1, Libm.sin st.2.1⟩ : P2 K)
    let a ← vget turn i
    .ok (st.1 ++ [v], st.2.1 + a, v)) ([], 0, 0)
  .ok st.1

/-- domain-angular.cc 49-53: distribution of the closing error; `vertices_.back()` is read in each
step from the vector under modification. -/
def closePolygon (lengths : List K) (vs : List (P2 K)) : M (List (P2 K)) := do
  let st ← forLoop lengths.length (fun i (st : List (P2 K) × K) => do
    let l ← vget lengths i
    let acc := st.2 + l
    let back ← vget st.1 (lengths.length - 1)
    let v ← vget st.1 i
    let k ← fdiv acc lengths.sum
    let vs ← vset st.1 i (v - k • back)
    .ok (vs, acc)) (vs, 0)
  .ok st.1

/-- domain-angular.cc 56-64: rescaling to [-1,1]x[-1,1]. -/
def rescale (vs : List (P2 K)) : M (List (P2 K)) := do
  let minx := vs.foldl (fun m v => min m v.x) 0
  let miny := vs.foldl (fun m v => min m v.y) 0
  let maxx := vs.foldl (fun m v => max m v.x) 0
  let maxy := vs.foldl (fun m v => max m v.y) 0
  let width := max (maxx - minx) (maxy - miny)
  let k ← fdiv 2 width
  .ok (vs.map fun v => (⟨-1, -1⟩ : P2 K) + k • (v - ⟨minx, miny⟩))

/-- domain-angular.cc 67-73: the convexity check. -/
def convexCheck (vs : List (P2 K)) : M Bool :=
  forLoop vs.length (fun i (convex : Bool) => do
    let v ← vget vs i
    let p ← vget vs (prevIx vs.length i)
    let q ← vget vs (nextIx vs.length i)
    let v1 ← (v - p).normalize
    let v2 ← (q - v).normalize
    if 0 < (v2 - P2.dot v1 v2 • v1).x * v1.y then .ok false else .ok convex) true

/-- domain-angular.cc 38-64: the polygon from lengths and angles. -/
def angularVertices (lengths angles : List K) : M (List (P2 K)) := do
  let turn ← turningAngles angles
  let vs ← openPolygon lengths turn
  let vs ← closePolygon lengths vs
  rescale vs

/-- domain-angular.cc 12-79, `DomainAngular::update()`, after lengths and angles are known. -/
def angularUpdateFrom (lengths angles : List K) : M (Domain K) := do
  let vs ← angularVertices lengths angles
  let convex ← convexCheck vs
  if convex then update vs
  else do
    let vs ← circularVertices lengths
    update vs

/-- domain-angular.cc 12-79, `DomainAngular::update()`. -/
def angularUpdate (curves : List (Curve K)) : M (Domain K) := do
  let angles ← curveAngles curves
  angularUpdateFrom (curveLengths curves) angles

end Domain

end Transfinite
