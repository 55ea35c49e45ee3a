import Verif.Model.Utilities
import Verif.Model.GenBezier
import Verif.Model.RMF

/-! # Model of `src/utils/bezier.cc` (the Bézier curves of `BCurve`) -/

namespace Transfinite

variable {K : Type} [Field K]

/-- The members of a `BCurve` object (bezier.hh 34-35): the degree and the control points. -/
structure BCurve (K : Type) where
  n : ℕ
  cp : List (P3 K)
  deriving DecidableEq

namespace BCurve

/-- bezier.cc 13-15, the constructor from control points. The subtraction wraps around for an empty
vector. (The default constructor, 10-11, leaves the degree uninitialized and is not modelled.) -/
def ofPoints (cpts : List (P3 K)) : BCurve K := ⟨usub cpts.length 1, cpts⟩

/-- bezier.cc 17-24, `eval(u)`. `bernstein` (132-146) is the same text as that of utilities.cc 39-53,
so its model is used. -/
def eval (c : BCurve K) (u : K) : M (P3 K) := do
  let coeff ← bernsteinAll c.n u
  forLoop (c.n + 1) (fun k p => do
    let q ← vget c.cp k
    let b ← vget coeff k
    .ok (p + b • q)) 0

/-- Body of the inner loop of `bernsteinAll`, bezier.cc 156-160. The state is `(coeff[j], saved)`. -/
def rowStep (prev : List K) (u : K) (k : ℕ) (st : List K × K) : M (List K × K) := do
  let tmp ← vget prev k
  .ok (st.1 ++ [st.2 + tmp * (1 - u)], tmp * u)

/-- bezier.cc 148-163, `bernsteinAll(n, u, coeff)`: the rows of the Bernstein values of degree 0 to
`n`. In round `j` (here counted from 0) the row `j+1` is still empty. -/
def bernsteinRows (n : ℕ) (u : K) : M (List (List K)) :=
  forLoop n (fun j rows => do
    let prev ← vget rows j
    let st ← forLoop (j + 1) (rowStep prev u) ([], 0)
    vset rows (j + 1) (st.1 ++ [st.2])) ([1] :: List.replicate n [])

/-- bezier.cc 165-175, `derivativeControlPoints(d, dcp)`. In round `k` (here counted from 0) the row
`k+1` is still empty. -/
def derivativeControlPoints (c : BCurve K) (d : ℕ) : M (List (List (P3 K))) :=
  forLoop d (fun k dcp => do
    let prev ← vget dcp k
    let row ← forLoop (usub c.n (k + 1) + 1) (fun i row => do
      let q ← vget prev (i + 1)
      let p ← vget prev i
      .ok (row ++ [((usub c.n k : ℕ) : K) • (q - p)])) []
    vset dcp (k + 1) row) (c.cp :: List.replicate d [])

/-- bezier.cc 33-35: one derivative. -/
def derSum (row : List (P3 K)) (b : List K) (m : ℕ) : M (P3 K) :=
  forLoop m (fun j s => do
    let p ← vget row j
    let x ← vget b j
    .ok (s + x • p)) 0

/-- bezier.cc 26-40, `eval(u, nr_der, der)`; the result is the returned point and the vector `der`. -/
def evalDer (c : BCurve K) (u : K) (nr : ℕ) : M (P3 K × List (P3 K)) := do
  let du := min nr c.n
  let coeff ← bernsteinRows c.n u
  let dcp ← derivativeControlPoints c du
  let der ← forLoop (du + 1) (fun k der => do
    let row ← vget dcp k
    let b ← vget coeff (c.n - k)
    let s ← derSum row b (c.n - k + 1)
    .ok (der ++ [s])) []
  let der ← forLoop (nr - c.n) (fun _ der => .ok (der ++ [(0 : P3 K)])) der
  let p ← vget der 0
  .ok (p, der)

/-- bezier.cc 47-50, `reverse()`. -/
def reverse (c : BCurve K) : BCurve K := ⟨c.n, c.cp.reverse⟩

/-- bezier.cc 61-64: nodes and weights of the quadrature, in pairs. -/
def gauss : List (K × K) :=
  [(-(861136312 / 1000000000), 347854845 / 1000000000), (-(339981044 / 1000000000), 652145155 / 1000000000),
   (339981044 / 1000000000, 652145155 / 1000000000), (861136312 / 1000000000, 347854845 / 1000000000)]

/-- bezier.cc 66-72: the loop. -/
def arcSum [Libm K] (c : BCurve K) (a b : K) : M K :=
  forLoop 4 (fun i sum => do
    let g ← vget gauss i
    let r ← c.evalDer (((b - a) * g.1 + a + b) * (1 / 2)) 1
    let d ← vget r.2 1
    .ok (sum + d.norm * g.2 * (b - a) * (1 / 2))) 0

/-- bezier.cc 56-75, `arcLength(from, to)`. -/
def arcLength [Libm K] [LinearOrder K] (c : BCurve K) (a b : K) : M K :=
  if a ≥ b then .ok 0 else arcSum c a b

/-- bezier.cc 97-104: the data of the matrix `M` of `fitClassA`: a rotation times a number. libgeom
`Matrix3x3::rotation(axis, angle)` is assumed to be the rotation around a unit axis. -/
structure ClassA (K : Type) where
  axis : P3 K
  theta : K
  s : K

/-- bezier.cc 93: the product `M * v`. -/
def ClassA.apply [Libm K] (A : ClassA K) (v : P3 K) : P3 K := A.s • RMF.rotate A.axis A.theta v

/-- bezier.cc 87-95, `generateClassA(p, v, M)` writing into `cp`. -/
def generateClassA [Libm K] (n : ℕ) (cp : List (P3 K)) (p v : P3 K) (A : ClassA K) : M (List (P3 K)) := do
  let cp ← vset cp 0 p
  let cp ← vset cp 1 (p + v)
  let st ← forLoop (n - 1) (fun k (st : List (P3 K) × P3 K) => do
    let next := A.apply st.2
    let c ← vget st.1 (k + 1)
    let cp ← vset st.1 (k + 2) (c + next)
    .ok (cp, next)) (cp, v)
  .ok st.1

section fit
variable [Libm K] [LinearOrder K]

/-- bezier.cc 96-103, `setupMatrix(phi, s, M)`. For `degree = 1` the quotient in line 101 is a
division by zero, but then the matrix is never used; it is not an error here (`x / 0 = 0`). -/
def setupMatrix (v0 v1 : P3 K) (degree : ℕ) (phi s : K) : M (ClassA K) := do
  let e ← (v1 - v0).normalize
  let axis ← (RMF.rotate e phi (P3.cross v0 v1)).normalize
  let w0 ← (v0 - P3.dot v0 axis • axis).normalize
  let w1 ← (v1 - P3.dot v1 axis • axis).normalize
  .ok ⟨axis, Libm.acos (min (max (P3.dot w0 w1) (-1)) 1) / ((degree - 1 : ℕ) : K), s⟩

/-- bezier.cc 104-109, `evalMatrix(M)`: the error and the contents of `cp_` after the call. -/
def evalMatrix (n : ℕ) (cp : List (P3 K)) (pa pb v0 : P3 K) (A : ClassA K) : M (K × List (P3 K)) := do
  let cp ← generateClassA n cp pa v0 A
  let l ← vget cp n
  let f ← vget cp 0
  let u1 ← (l - f).normalize
  let u2 ← (pb - pa).normalize
  .ok (P3.dot u1 u2 - 1, cp)

/-- bezier.cc 126-129, the postprocessing. -/
def finishClassA (degree : ℕ) (cp : List (P3 K)) (pa pb v0 : P3 K) (A : ClassA K) : M (BCurve K) := do
  let l ← vget cp degree
  let f ← vget cp 0
  let q ← fdiv (pb - pa).norm (l - f).norm
  let cp ← generateClassA degree cp pa (q • v0) A
  let cp ← vset cp degree pb
  .ok ⟨degree, cp⟩

/-- bezier.cc 77-130, `fitClassA(degree, pa, va, pb, vb)`. `opt degree` are the two numbers that
`NelderMead::optimize` (119) leaves in `start`; they are arbitrary here. (The optimization itself calls `targetFunction`, which only
writes `cp_` and `M`; both are overwritten in 120.) The recursion of line 122 is bounded by `fuel`. The previous contents of
`cp_` (resized in 82) are never read; zeros here. -/
def fitClassA (opt : ℕ → K × K) : ℕ → ℕ → P3 K → P3 K → P3 K → P3 K → M (BCurve K)
  | 0, _, _, _, _, _ => .error .diverge
  | fuel + 1, degree, pa, va, pb, vb => do
    let v0 ← va.normalize
    let v1 ← vb.normalize
    let A ← setupMatrix v0 v1 degree (opt degree).1 (opt degree).2
    let r ← evalMatrix degree (List.replicate (degree + 1) 0) pa pb v0 A
    if |r.1| > 1 / 1000 ∧ degree < 50 then fitClassA opt fuel (degree * 2) pa va pb vb
    else finishClassA degree r.2 pa pb v0 A

end fit

end BCurve

end Transfinite
