import Verif.Model.GenBezier
import Mathlib.Data.Nat.Factorial.Basic

/-! # Model of `surface-spatch.cc` -/

namespace Transfinite

variable {K : Type} [Field K] [LinearOrder K] [Libm K]

/-- The state of a `SurfaceSPatch`: `n_`, `domain_`, `param_` (surface.hh 55-58), the curves of `ribbons_` (which are of type `RibbonDummy`), and the members in
surface-spatch.hh 27-28. `net_` is a `std::map`, represented by its entries; simplified: these are in the order of insertion, not in the order of their keys
(only the order of an exact sum depends on this). -/
structure SPatch (K : Type) where
  n : ℕ
  depth : ℕ
  net : List (List ℕ × P3 K)
  dom : Domain.Cached (Domain K) K
  param : Param.Obj K
  curves : List (Curve K)

namespace SPatch

/-- surface-spatch.cc 15-19, surface.cc 14-16. The member `depth_` is not initialized. -/
def new (depth : ℕ) : SPatch K :=
  { n := 0, depth := depth, net := [], dom := ⟨⟨0, 0, [], [], []⟩, []⟩, param := ⟨⟨0, 0, [], [], []⟩, [], [], []⟩, curves := [] }

/-- `std::map::find` (in `net_.at(i)`, surface-spatch.cc 89), for keys that are vectors of integers. -/
def mapGet : List (List ℕ × P3 K) → List ℕ → Option (P3 K)
  | [], _ => none
  | e :: r, i => if e.1 = i then some e.2 else mapGet r i

/-- surface-spatch.cc 84: `net_[i] = p`. -/
def mapPut : List (List ℕ × P3 K) → List ℕ → P3 K → List (List ℕ × P3 K)
  | [], i, p => [(i, p)]
  | e :: r, i, p => if e.1 = i then (i, p) :: r else e :: mapPut r i p

/-- surface-spatch.cc 67, 71: the value of `net_[i]`; a missing entry is created; the new point is assumed to be zero. -/
def mapRef (net : List (List ℕ × P3 K)) (i : List ℕ) : P3 K × List (List ℕ × P3 K) :=
  match mapGet net i with
  | some p => (p, net)
  | none => (0, mapPut net i 0)

/-- surface-spatch.cc 25: `lround(tgamma(n + 1))`; the result of `lround` is unspecified when it does not fit in a 64-bit integer. -/
def fact (n : ℕ) : M ℕ := if n ≤ 20 then .ok n.factorial else .error .overflow

/-- surface-spatch.cc 24-32, `multinomial(index)`. When the factorial of the sum of the indices fits in an integer, the denominator does not overflow. -/
def multinomial (index : List ℕ) : M ℕ := do
  let r ← forLoop index.length (fun k (r : ℕ × ℕ) => do
    let i ← vget index k
    let f ← fact i
    .ok (r.1 + i, r.2 * f)) (0, 1)
  let f ← fact r.1
  .ok (f / r.2)

/-- surface-spatch.cc 34-39, `multiBernstein(index, bc)`. -/
def multiBernstein (index : List ℕ) (bc : List K) : M K := do
  let m ← multinomial index
  forLoop index.length (fun i (r : K) => do
    let b ← vget bc i
    let k ← vget index i
    .ok (r * b ^ k)) (m : K)

/-- surface-spatch.cc 45-48. -/
def sumNet (bc : List K) : List (List ℕ × P3 K) → P3 K → M (P3 K)
  | [], p => .ok p
  | e :: r, p => do
    let w ← multiBernstein e.1 bc
    sumNet bc r (p + w • e.2)

/-- surface-spatch.cc 41-49, `eval(uv)`; the cache of the parameterization may change. -/
def eval (ε : K) (uv : P2 K) (S : SPatch K) : M (P3 K × SPatch K) := do
  let r ← Param.baryCached ε .wachspress uv S.param
  let p ← sumNet r.1 S.net 0
  .ok (p, { S with param := r.2 })

/-- surface-spatch.cc 51-56, `initNetwork(n, d)`. -/
def initNetwork (S : SPatch K) (n d : ℕ) : SPatch K := { S with n := n, depth := d, net := [] }

/-- surface-spatch.cc 82-85, `setControlPoint(i, p)`. -/
def setControlPoint (S : SPatch K) (i : List ℕ) (p : P3 K) : SPatch K := { S with net := mapPut S.net i p }

/-- surface-spatch.cc 87-90, `controlPoint(i)`; `std::map::at` throws an exception when there is no such entry. -/
def controlPoint (S : SPatch K) (i : List ℕ) : M (P3 K) :=
  match mapGet S.net i with
  | some p => .ok p
  | none => .error .exception

/-- surface-spatch.cc 68-69: `--index[i]; ++index[ip];`. -/
def shiftIndex (index : List ℕ) (i ip : ℕ) : M (List ℕ) := do
  let a ← vget index i
  let index ← vset index i (usub a 1)
  let b ← vget index ip
  vset index ip (b + 1)

/-- surface-spatch.cc 62-71: the control points of curve `i`; entries may be added to the network. -/
def boundary (n depth i : ℕ) (net : List (List ℕ × P3 K)) : M (List (P3 K) × List (List ℕ × P3 K)) := do
  let index ← vset (List.replicate n 0) i depth
  let st ← forLoop depth (fun _ (st : List (P3 K) × List (List ℕ × P3 K) × List ℕ) => do
    let r := mapRef st.2.1 st.2.2
    let index ← shiftIndex st.2.2 i (nextIx n i)
    .ok (st.1 ++ [r.1], r.2, index)) ([], net, index)
  let r := mapRef st.2.1 st.2.2
  .ok (st.1 ++ [r.1], r.2)

/-- surface-spatch.cc 60-73: the curves and the network. -/
def boundaries (arc : List (P3 K) → K → K → K) (n depth : ℕ) (net : List (List ℕ × P3 K)) : M (List (Curve K) × List (List ℕ × P3 K)) :=
  forLoop n (fun i (st : List (Curve K) × List (List ℕ × P3 K)) => do
    let r ← boundary n depth i st.2
    .ok (st.1 ++ [bezierCurve arc r.1], r.2)) ([], net)

/-- surface-spatch.cc 78-79. -/
def updateDomain (S : SPatch K) : M (SPatch K) := do
  let r ← Domain.regularUpdate S.dom.dom S.curves.length
  if r.2 then do
    let o ← Param.update (.bary .wachspress) r.1
    .ok { S with dom := ⟨r.1, []⟩, param := o }
  else .ok S

/-- surface-spatch.cc 58-80, `setupLoop()`. -/
def setupLoop (arc : List (P3 K) → K → K → K) (S : SPatch K) : M (SPatch K) := do
  let r ← boundaries arc S.n S.depth S.net
  let cs ← orientLoop r.1
  updateDomain { S with n := r.1.length, net := r.2, curves := cs }

/-- surface.cc 37-47, `setCurves(curves)` (public). -/
def setCurves (S : SPatch K) (cs : List (Curve K)) : SPatch K := { S with n := cs.length, curves := cs }

/-- The calls of a user (surface-spatch.hh 15-20, surface.hh 20-39). -/
inductive Call (K : Type) where
  | init (n d : ℕ)
  | set (i : List ℕ) (p : P3 K)
  | curves (cs : List (Curve K))
  | loop
  | eval (uv : P2 K)

/-- The effect of one call on the object (surface-spatch.hh 15-20). -/
def step (ε : K) (arc : List (P3 K) → K → K → K) (S : SPatch K) : Call K → M (SPatch K)
  | .init n d => .ok (S.initNetwork n d)
  | .set i p => .ok (S.setControlPoint i p)
  | .curves cs => .ok (S.setCurves cs)
  | .loop => S.setupLoop arc
  | .eval uv => do let r ← S.eval ε uv; .ok r.2

/-- A history of calls (surface-spatch.hh 15-20). -/
def run (ε : K) (arc : List (P3 K) → K → K → K) : SPatch K → List (Call K) → M (SPatch K)
  | S, [] => .ok S
  | S, c :: cs => do
    let S' ← S.step ε arc c
    run ε arc S' cs

end SPatch

end Transfinite
