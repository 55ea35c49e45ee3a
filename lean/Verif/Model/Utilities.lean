import Verif.Geom

/-! # Model of `src/transfinite/utilities.cc` -/

namespace Transfinite

variable {K : Type*} [Field K]

/-- utilities.cc 7-15, `affineCombine(p, x, q)` (3D). -/
def affineCombine3 (p : P3 K) (x : K) (q : P3 K) : P3 K := (1 - x) • p + x • q

/-- utilities.cc 7-10, `affineCombine(p, x, q)` (2D). -/
def affineCombine2 (p : P2 K) (x : K) (q : P2 K) : P2 K := (1 - x) • p + x • q

/-- One step of the loop in utilities.cc 22-23 (`d` counts from 0 here):
64-bit multiplication, then integer division; `n` is decremented. -/
def binomialStep (d : ℕ) (st : ℕ × ℕ) : M (ℕ × ℕ) :=
  .ok (((st.1 * st.2) % 2 ^ 64) / (d + 1), st.2 - 1)

/-- utilities.cc 17-25, `binomial(n, k)` on 64-bit `size_t`. -/
def binomial (n k : ℕ) : M ℕ :=
  if k > n then .ok 0
  else do
    let st ← forLoop k binomialStep (1, n)
    .ok st.1

/-- utilities.cc 27-37, `hermite(i, t)` (including the fall-through value -1). -/
def hermite (i : ℤ) (t : K) : K :=
  if i = 0 then (1 - t) ^ 3 + 3 * (1 - t) ^ 2 * t
  else if i = 1 then (1 - t) ^ 2 * t
  else if i = 2 then (1 - t) * t ^ 2
  else if i = 3 then 3 * (1 - t) * t ^ 2 + t ^ 3
  else -1

/-- Body of the inner loop, utilities.cc 46-50; state is `(coeff, saved)`. -/
def bernsteinInner (u : K) (k : ℕ) (st : List K × K) : M (List K × K) := do
  let tmp ← vget st.1 k
  let c ← vset st.1 k (st.2 + tmp * (1 - u))
  .ok (c, tmp * u)

/-- Body of the outer loop, utilities.cc 44-52 (`j` counts from 0 here). -/
def bernsteinOuter (u : K) (j : ℕ) (coeff : List K) : M (List K) := do
  let st ← forLoop (j + 1) (bernsteinInner u) (coeff, 0)
  .ok (st.1 ++ [st.2])

/-- utilities.cc 39-53, `bernstein(n, u, coeff)`: the vector of all Bernstein values. -/
def bernsteinAll (n : ℕ) (u : K) : M (List K) :=
  forLoop n (bernsteinOuter u) [1]

/-- Body of the inner loop, utilities.cc 61-62, at `j = n - t`. -/
def bernsteinOneInner (n : ℕ) (u : K) (t : ℕ) (tmp : List K) : M (List K) := do
  let a ← vget tmp (n - t - 1)
  let b ← vget tmp (n - t)
  vset tmp (n - t) (a * u + b * (1 - u))

/-- utilities.cc 55-64, `bernstein(i, n, u)`: one Bernstein value. For `i > n` the index `n-i`
wraps around, an out-of-range write. -/
def bernsteinOne (i n : ℕ) (u : K) : M K :=
  if i > n then .error .oob
  else do
    let tmp ← vset (List.replicate (n + 1) (0 : K)) (n - i) 1
    let tmp ← forLoop n (fun k tmp => forLoop (n - k) (bernsteinOneInner n u) tmp) tmp
    vget tmp n

/-- Body of the loop, utilities.cc 70-73 (at `i = k + 1`), state `(cpts, tmp)`. -/
def elevateStep (n : ℕ) (k : ℕ) (st : List (P3 K) × P3 K) : M (List (P3 K) × P3 K) := do
  let old ← vget st.1 (k + 1)
  let tmp := ((k + 1 : ℕ) / (n : K)) • st.2 + ((n - (k + 1) : ℕ) / (n : K)) • old
  let c ← vset st.1 (k + 1) tmp
  .ok (c, old)

/-- utilities.cc 66-75, `bezierElevate(cpts)`. -/
def bezierElevate (cpts : List (P3 K)) : M (List (P3 K)) := do
  let tmp ← vget cpts 0
  let st ← forLoop (cpts.length - 1) (elevateStep cpts.length) (cpts, tmp)
  .ok (st.1 ++ [st.2])

end Transfinite
