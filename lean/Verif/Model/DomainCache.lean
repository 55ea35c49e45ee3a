import Verif.Model.Domain

/-! # Model of the parameter cache of `Domain` (domain.hh 53, domain.cc 31-44, 94-101) -/

namespace Transfinite

namespace Domain

/-- A domain object together with its cache `parameters_` (domain.hh 53). -/
structure Cached (D K : Type) where
  dom : D
  cache : List (P2 K)

variable {K : Type} [Field K] [LinearOrder K]

/-- domain.cc 94-101, `Domain::parameters(resolution)`, where `size` and `impl` are the virtual
functions `meshSize` and `parametersImpl`; gives the returned value and the new object. -/
def parameters {D : Type} (size : D → ℕ → ℕ) (impl : D → ℕ → M (List (P2 K))) (s : Cached D K) (res : ℕ) :
    M (List (P2 K) × Cached D K) :=
  if s.cache.length = size s.dom res then .ok (s.cache, s)
  else do
    let ps ← impl s.dom res
    .ok (ps, ⟨s.dom, ps⟩)

/-- The calls a user can make on a polygonal domain (domain.hh 25, 28): `update()` of a subclass, which sets new
vertices and calls `Domain::update()` with the given result of `computeCenter()`; and queries. -/
inductive Op (K : Type) where
  | update (vertices : List (P2 K)) (center : P2 K)
  | query (res : ℕ)

/-- domain.cc 31-44 (`update` clears the cache) and 94-101. -/
def stepOp (s : Cached (Domain K) K) : Op K → M (Cached (Domain K) K)
  | .update vs c => do
    let d ← updateFrom vs c
    .ok ⟨d, []⟩
  | .query r => do
    let x ← parameters (fun d => meshSize d.n) parametersImpl s r
    .ok x.2

/-- A history of calls (domain.hh 25, 28). -/
def runOps (s : Cached (Domain K) K) : List (Op K) → M (Cached (Domain K) K)
  | [] => .ok s
  | o :: os => do
    let s' ← stepOp s o
    runOps s' os

/-- The calls a user can make on a `DomainCircle` (domain-circle.hh 9-13, domain.hh 28); `update n` is `update()` with `n` curves. -/
inductive CircleOp where
  | update (n : ℕ)
  | query (res : ℕ)

/-- domain-circle.cc 8-13: `DomainCircle::update` sets `n_` and does *not* clear the cache; and
domain.cc 94-101. -/
def stepCircle [Libm K] (s : Cached ℕ K) : CircleOp → M (Cached ℕ K)
  | .update n => .ok ⟨n, s.cache⟩
  | .query r => do
    let x ← parameters circleMeshSize circleParams s r
    .ok x.2

/-- A history of calls on a `DomainCircle` (domain-circle.hh 9-13). -/
def runCircle [Libm K] (s : Cached ℕ K) : List CircleOp → M (Cached ℕ K)
  | [] => .ok s
  | o :: os => do
    let s' ← stepCircle s o
    runCircle s' os

end Domain

end Transfinite
