import Verif.Model.ParamPoints

/-! # Model of `printStatistics` and `deviationFromMesh` in test.cc -/

namespace Transfinite

variable {K : Type} [Field K] [LinearOrder K] [Libm K]

/-- What `printStatistics` writes on the screen; `counts` is the vector `histogram` of test.cc before line 404, `bars` after it.
The picture of lines 406-413 has a mark in row `i` and column `j` when `i ≤ bars[j]`; its text is not modelled. -/
structure Statistics (K : Type) where
  mean : K
  stddev : K
  quartiles : List K
  counts : List ℕ
  bars : List ℕ

namespace Statistics

/-- test.cc 370-379: the body of the loop, `quartiles[i]` for `i` = 1, 2, 3. -/
def quartile (sorted : List K) (i : ℕ) : M K :=
  let n := sorted.length
  if n % 4 = 0 then vget sorted (n * i / 4)
  else if n % 4 = 1 then do
    let a ← vget sorted (n * i / 4)
    let b ← vget sorted (n * i / 4 + 1)
    .ok (a * (3 / 4) + b * (1 / 4))
  else if n % 4 = 2 then do
    let a ← vget sorted (n * i / 4)
    let b ← vget sorted (n * i / 4 + 1)
    .ok (a * (1 / 2) + b * (1 / 2))
  else do
    let a ← vget sorted (n * i / 4)
    let b ← vget sorted (n * i / 4 + 1)
    .ok (a * (1 / 4) + b * (3 / 4))

/-- test.cc 392-402: the loop on the sorted values; `b`, `lo`, `hi` and `h` are `current_bin`, `current_bin_min`, `current_bin_max` and `histogram`. -/
def fillBins (bins : ℕ) (width : K) : List K → ℕ → K → K → List ℕ → M (List ℕ)
  | [], _, _, _, h => .ok h
  | x :: xs, b, lo, hi, h =>
    if x < lo then fillBins bins width xs b lo hi h
    else
      let b' := if hi < x then b + 1 else b
      let lo' := if hi < x then lo + width else lo
      let hi' := if hi < x then hi + width else hi
      if bins ≤ b' then .ok h
      else do
        let k ← vget h b'
        let h' ← vset h b' (k + 1)
        fillBins bins width xs b' lo' hi' h'

/-- test.cc 403-405: the counts scaled to the height of the picture. The integer division by zero is undefined behaviour in C++, here `divZero`. -/
def scale (height : ℕ) (h : List ℕ) : M (List ℕ) :=
  let max := h.foldl Nat.max 0
  h.mapM fun k => if max = 0 then .error .divZero else .ok (k * height / max)

/-- test.cc 359-417, `printStatistics(data)`; it returns what is written. `front()` and `back()` of an empty vector are undefined behaviour (`oob`).
`n - 1` is unsigned in C++, but for `n` = 0 the function has already divided by zero. -/
def print (data : List K) : M (Statistics K) := do
  let n := data.length
  let mean ← fdiv data.sum (n : K)
  let dev := data.map fun x => (x - mean) ^ 2
  let var ← fdiv dev.sum ((n - 1 : ℕ) : K)
  let stddev := Libm.sqrt var
  let sorted := data.mergeSort fun x y => decide (x ≤ y)
  let q0 ← vget sorted 0
  let q4 ← vget sorted (n - 1)
  let q1 ← quartile sorted 1
  let q2 ← quartile sorted 2
  let q3 ← quartile sorted 3
  let width := (q3 - q1) / (25 : ℕ)
  let counts ← fillBins 25 width sorted 0 q1 (q1 + width) (List.replicate 25 0)
  let bars ← scale 15 counts
  .ok ⟨mean, stddev, [q0, q1, q2, q3, q4], counts, bars⟩

end Statistics

/-- test.cc 426-429: the body of the loop in `deviationFromMesh`, for the triangle with vertices `a`, `b`, `c`. -/
def deviation (a b c p : P3 K) : M K := do
  let n ← (P3.cross (b - a) (c - a)).normalize
  let q := p + P3.dot (a - p) n • n
  .ok (p - q).norm

/-- test.cc 424-430: the loop on the points of the mesh. `closest` is `TriMesh::closestTriangle` (libgeom, external). -/
def deviationLoop (closest : List (P3 K) → List Domain.Tri → P3 K → Domain.Tri) (vertices : List (P3 K)) (ts : List Domain.Tri) (points : List (P3 K)) : M (List K) :=
  forLoop points.length (fun i (result : List K) => do
    let p ← vget points i
    let tri := closest vertices ts p
    let a ← vget vertices tri.1
    let b ← vget vertices tri.2.1
    let c ← vget vertices tri.2.2
    let d ← deviation a b c p
    .ok (result ++ [d])) []

/-- test.cc 419-432, `deviationFromMesh(surf, mesh)`, for the surfaces modelled by `Patch`; `points` are the vertices of `mesh`. -/
def deviationFromMesh (ε : K) (closest : List (P3 K) → List Domain.Tri → P3 K → Domain.Tri) (points : List (P3 K)) (P : Patch K) : M (List K × Patch K) := do
  let m ← P.evalMesh ε 30
  let r ← deviationLoop closest m.1.1 m.1.2 points
  .ok (r, m.2)

end Transfinite
