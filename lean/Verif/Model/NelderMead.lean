import Verif.Prelude

/-! # Model of `nelder-mead.cc`

The function is a total function with exact values; NaN and infinite values are not modelled. -/

namespace Transfinite.NelderMead

variable {K : Type} [Field K] [LinearOrder K]

/-- nelder-mead.cc 11-14, `addmul(x, d, alpha)`. -/
def addmul (x d : List K) (alpha : K) : M (List K) :=
  forLoop x.length (fun i (x : List K) => do
    let a ← vget x i
    let b ← vget d i
    vset x i (a + b * alpha)) x

/-- nelder-mead.cc 16-19, `average(x, d)`. -/
def average (x d : List K) : M (List K) :=
  forLoop x.length (fun i (x : List K) => do
    let a ← vget x i
    let b ← vget d i
    vset x i ((a + b) / 2)) x

/-- The variables `S` and `y` (nelder-mead.cc 25, 32): the points of the simplex and the values in them. -/
structure Simplex (K : Type) where
  S : List (List K)
  y : List K

/-- nelder-mead.cc 24-27, 32-33. -/
def start (f : List K → K) (x : List K) (step : K) : M (Simplex K) := do
  let S ← forLoop x.length (fun i (S : List (List K)) => do
    let p ← vget S (i + 1)
    let a ← vget p i
    let p' ← vset p i (a + step)
    vset S (i + 1) p') (List.replicate (x.length + 1) x)
  .ok ⟨S, S.map f⟩

/-- The variables `low`, `high` and `second` (nelder-mead.cc 37). -/
structure Extremes where
  low : ℕ
  high : ℕ
  second : ℕ
  deriving DecidableEq

/-- nelder-mead.cc 41-47. -/
def pick (y : List K) (i : ℕ) (e : Extremes) : M Extremes := do
  let yi ← vget y i
  let yl ← vget y e.low
  let yh ← vget y e.high
  let ys ← vget y e.second
  if yi < yl then .ok { e with low := i }
  else if yi > yh then .ok { e with second := e.high, high := i }
  else if yi > ys then .ok { e with second := i }
  else .ok e

/-- nelder-mead.cc 37-48. The quotient `1.0 / n` is not checked: for `n = 0` it is infinite, but it is not used. -/
def extremes (n : ℕ) (s : Simplex K) : M (Extremes × List K) :=
  forLoop (n + 1) (fun i (r : Extremes × List K) => do
    let p ← vget s.S i
    let c ← addmul r.2 p (1 / (n : K))
    let e ← pick s.y i r.1
    .ok (e, c)) (⟨0, 0, 0⟩, List.replicate n 0)

/-- nelder-mead.cc 65-66 and the other assignments to `S[high]` and `y[high]`. -/
def replace (s : Simplex K) (i : ℕ) (x : List K) (v : K) : M (Simplex K) := do
  let S ← vset s.S i x
  let y ← vset s.y i v
  .ok ⟨S, y⟩

/-- nelder-mead.cc 59-70. -/
def expand (f : List K → K) (s : Simplex K) (high : ℕ) (centroid xr : List K) (yr : K) : M (Simplex K) := do
  let x1 ← addmul centroid xr 2
  let xe ← addmul x1 centroid (-2)
  let ye := f xe
  if ye < yr then replace s high xe ye else replace s high xr yr

/-- nelder-mead.cc 85-88. -/
def shrinkOne (f : List K → K) (low i : ℕ) (s : Simplex K) : M (Simplex K) :=
  if i = low then .ok s
  else do
    let a ← vget s.S i
    let b ← vget s.S low
    let x ← average a b
    replace s i x (f x)

/-- nelder-mead.cc 73-76. -/
def keepReflected (s : Simplex K) (high : ℕ) (xr : List K) (yr : K) : M (Simplex K) := do
  let yh ← vget s.y high
  if yr ≤ yh then replace s high xr yr else .ok s

/-- nelder-mead.cc 72-93. -/
def contract (f : List K → K) (n : ℕ) (s : Simplex K) (low high : ℕ) (centroid xr : List K) (yr : K) : M (Simplex K) := do
  let s ← keepReflected s high xr yr
  let xh ← vget s.S high
  let x1 ← addmul centroid xh (1 / 2)
  let xc ← addmul x1 centroid (-(1 / 2))
  let yc := f xc
  let yh ← vget s.y high
  if yc > yh then forLoop (n + 1) (shrinkOne f low) s else replace s high xc yc

/-- nelder-mead.cc 51-98. -/
def move (f : List K → K) (n : ℕ) (s : Simplex K) (e : Extremes) (centroid : List K) : M (Simplex K) := do
  let xh ← vget s.S e.high
  let x1 ← addmul centroid centroid 1
  let xr ← addmul x1 xh (-1)
  let yr := f xr
  let yl ← vget s.y e.low
  let ys ← vget s.y e.second
  if yr < yl then expand f s e.high centroid xr yr
  else if yr > ys then contract f n s e.low e.high centroid xr yr
  else replace s e.high xr yr

/-- nelder-mead.cc 36-98: an iteration without the computation of `Delta`. -/
def iteration (f : List K → K) (n : ℕ) (s : Simplex K) : M (Simplex K) := do
  let r ← extremes n s
  let xh ← vget s.S r.1.high
  let centroid ← addmul r.2 xh (-1 / (n : K))
  move f n s r.1 centroid

/-- nelder-mead.cc 100-105. -/
def spread (n : ℕ) (y : List K) : K :=
  let mean := y.sum / ((n : K) + 1)
  (y.map fun yi => (yi - mean) ^ 2).sum / ((n : K) + 1)

/-- `Delta >= tolerance` (nelder-mead.cc 35); `none` stands for the infinity. -/
def atLeast (tolerance : K) : Option K → Bool
  | none => true
  | some d => tolerance ≤ d

/-- nelder-mead.cc 35-106: the loop with the given number of iterations left. -/
def loop (f : List K → K) (n : ℕ) (tolerance : K) : ℕ → Simplex K → Option K → M (Simplex K × Option K)
  | 0, s, delta => .ok (s, delta)
  | k + 1, s, delta =>
    if atLeast tolerance delta then do
      let s' ← iteration f n s
      loop f n tolerance k s' (some (spread n s'.y))
    else .ok (s, delta)

/-- nelder-mead.cc 109-112. -/
def minimum (n : ℕ) (y : List K) : M ℕ :=
  forLoop n (fun i (m : ℕ) => do
    let a ← vget y (i + 1)
    let b ← vget y m
    .ok (if a < b then i + 1 else m)) 0

/-- nelder-mead.cc 21-116, `optimize(f, x, max_iteration, tolerance, step_length)`: the new value of `x` and the returned value. -/
def optimize (f : List K → K) (x : List K) (maxIteration : ℕ) (tolerance step : K) : M (List K × Bool) := do
  let s ← start f x step
  let r ← loop f x.length tolerance maxIteration s none
  let m ← minimum x.length r.1.y
  let x' ← vget r.1.S m
  .ok (x', !atLeast tolerance r.2)

end Transfinite.NelderMead
