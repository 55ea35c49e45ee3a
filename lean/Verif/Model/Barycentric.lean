import Verif.Model.DomainKinds

/-! # Model of `parameterization-barycentric.cc` (and of `Domain::angle`, `Domain::edgeLength`) -/

namespace Transfinite

namespace Domain

variable {K : Type} [Field K] [LinearOrder K] [Libm K]

/-- domain.cc 219-222, `Domain::edgeLength(i)`. -/
def edgeLength (d : Domain K) (i : ℕ) : M K := do
  let v ← vget d.vertices i
  let p ← vget d.vertices (prevIx d.n i)
  .ok (v - p).norm

/-- domain.cc 224-229, `Domain::angle(i)`. -/
def angle (d : Domain K) (i : ℕ) : M K := do
  let v ← vget d.vertices i
  let p ← vget d.vertices (prevIx d.n i)
  let q ← vget d.vertices (nextIx d.n i)
  let v1 ← (p - v).normalize
  let v2 ← (q - v).normalize
  .ok (Libm.acos (clamp (P2.dot v1 v2) (-1) 1))

end Domain

namespace Param

/-- parameterization-barycentric.hh 9, `BarycentricType`. -/
inductive BaryType where
  | wachspress
  | meanValue
  | harmonic
  deriving DecidableEq, Repr

section
variable {K : Type} [Field K]

/-- parameterization-barycentric.cc 83-96: the `switch (type_)`, for one of the three vectors. -/
def baryRadius [Libm K] : BaryType → P2 K → K
  | .wachspress, _ => 1
  | .meanValue, v => v.norm
  | .harmonic, v => P2.dot v v

/-- parameterization-barycentric.cc 57-62: signed triangle areas. -/
def baryAreas (n : ℕ) (vectors : List (P2 K)) : M (List K) :=
  forLoop n (fun i (l : List K) => do
    let si ← vget vectors i
    let si1 ← vget vectors (nextIx n i)
    .ok (l ++ [(si.x * si1.y - si.y * si1.x) / 2])) []

/-- parameterization-barycentric.cc 68-78: the inner loop computing `(Ai, Ai_1, Ai_1i)`. -/
def baryProducts (n i i_1 : ℕ) (areas : List K) : M (K × K × K) :=
  forLoop n (fun j (s : K × K × K) => do
    let a ← vget areas j
    if j = i then .ok (s.1, s.2.1 * a, s.2.2)
    else if j = i_1 then .ok (s.1 * a, s.2.1, s.2.2)
    else .ok (s.1 * a, s.2.1 * a, s.2.2 * a)) (1, 1, 1)

/-- parameterization-barycentric.cc 64-104: the loop computing the weights (before normalization).
The state is the vector `l` and a flag telling whether the loop was left by `break`; `r` is the
function of `switch (type_)`. -/
def baryWeights [LinearOrder K] (ε : K) (r : P2 K → K) (n : ℕ) (vectors : List (P2 K)) (areas : List K) :
    M (List K × Bool) :=
  forLoop n (fun i (s : List K × Bool) =>
    if s.2 then .ok s
    else do
      let i_1 := prevIx n i
      let i1 := nextIx n i
      let p ← baryProducts n i i_1 areas
      let si_1 ← vget vectors i_1
      let si1 ← vget vectors i1
      let bi := (si_1.x * si1.y - si_1.y * si1.x) / 2
      let si ← vget vectors i
      let ri_1 := r si_1
      let ri := r si
      let ri1 := r si1
      if ri < ε then do
        let l ← vset (List.replicate n 0) i 1
        .ok (l, true)
      else
        .ok (s.1 ++ [ri_1 * p.2.1 + ri1 * p.1 - ri * bi * p.2.2], false)) ([], false)

/-- parameterization-barycentric.cc 45-113, `barycentric(uv)` when the value is not cached;
`n` is `n_`, `vertices` is `domain_->vertices()`. -/
def baryWith [LinearOrder K] (ε : K) (r : P2 K → K) (n : ℕ) (vertices : List (P2 K)) (uv : P2 K) :
    M (List K) := do
  let vectors := vertices.map fun p => uv - p
  let areas ← baryAreas n vectors
  let w ← baryWeights ε r n vectors areas
  let sum := w.1.sum
  w.1.mapM fun x => fdiv x sum

variable [LinearOrder K] [Libm K]

/-- parameterization-barycentric.cc 45-113, `barycentric(uv)` without the cache. -/
def barycentric (ε : K) (t : BaryType) (d : Domain K) (uv : P2 K) : M (List K) :=
  baryWith ε (baryRadius t) d.vertices.length d.vertices uv

/-- parameterization-barycentric.cc 18-41, `mapToRibbon(i, uv)`, given the result `l` of
`barycentric(uv)`. -/
def baryMapWith (ε : K) (d : Domain K) (l : List K) (i : ℕ) (uv : P2 K) : M (P2 K) := do
  let n := d.vertices.length
  let lp ← vget l (prevIx n i)
  let li ← vget l i
  let denom := lp + li
  let s ←
    if denom < ε then do
      let alpha ← d.angle i
      let beta ← d.angle (prevIx n i)
      let vp ← vget d.vertices (prevIx n i)
      let vi ← vget d.vertices i
      let tp ← d.toLocal (prevIx n i) (uv - vp)
      let ep ← d.edgeLength (prevIx n i)
      let dprev := tp.y * ep
      let tn ← d.toLocal (nextIx n i) (uv - vi)
      let en ← d.edgeLength (nextIx n i)
      let dnext := tn.y * en
      let denom := Libm.sin alpha * dprev + Libm.sin beta * dnext
      if denom < ε then .ok 0
      else fdiv (Libm.sin alpha * dprev) denom
    else fdiv li denom
  .ok ⟨s, 1 - li - lp⟩

/-- parameterization-barycentric.cc 18-41, `mapToRibbon(i, uv)` without the cache. -/
def baryMap (ε : K) (t : BaryType) (d : Domain K) (i : ℕ) (uv : P2 K) : M (P2 K) := do
  let l ← barycentric ε t d uv
  baryMapWith ε d l i uv

end

end Param

end Transfinite
