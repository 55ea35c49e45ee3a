import Verif.Model.Parameterization

/-! # Model of the caches of the parameterization classes

`Parameterization` has a cache of `mapToRibbons` results, `ParameterizationBarycentric` (and its
subclasses) another one of coordinates. -/

namespace Transfinite

namespace Param

variable {K : Type} [Field K] [LinearOrder K] [Libm K]

/-- The parameterization classes: parameterization-barycentric.hh 7, parameterization-constrained-barycentric.hh 7,
parameterization-overlap.hh 7, parameterization-polar.hh 7, parameterization-bilinear.hh 7, parameterization-parallel.hh 7,
parameterization-superd.hh 7, parameterization-interconnected.hh 7, parameterization-perp-polar.hh 7, parameterization-circular.hh 9. `circular` carries `std::fmod`. -/
inductive Kind (K : Type) where
  | bary (t : BaryType)
  | constrained
  | overlap
  | polar
  | bilinear
  | parallel
  | superD
  | interconnected
  | perpPolar
  | circular (fmod : K → K → K)

/-- The state of a parameterization object: `domain_` (its contents), `multipliers_`
(parameterization-parallel.hh 15), `cache_` (parameterization.hh 36-37) and the other
`cache_` (parameterization-barycentric.hh 21-22). `n_` is the number of vertices at the last
`update()`; simplified: the domain changes only together with `update()` (as in
`Surface::update`), so `n_` is the length of the vertex list. -/
structure Obj (K : Type) where
  dom : Domain K
  mult : List K
  cache : List (P2 K × List (P2 K))
  bary : List (P2 K × List K)

/-- parameterization.hh 24-28, `PointComparator`. -/
def ptLess (p q : P2 K) : Bool := p.x < q.x || (p.x == q.x && p.y < q.y)

/-- `std::map::find` (parameterization.cc 25, parameterization-barycentric.cc 50): keys are identified when neither is less than the other. -/
def mapFind {β : Type} (m : List (P2 K × β)) (uv : P2 K) : Option β :=
  (m.find? fun e => !ptLess e.1 uv && !ptLess uv e.1).map (·.2)

/-- parameterization-barycentric.cc 49-113, `barycentric(uv)` with the cache. -/
def baryCached (ε : K) (t : BaryType) (uv : P2 K) (o : Obj K) : M (List K × Obj K) :=
  match mapFind o.bary uv with
  | some l => .ok (l, o)
  | none => do
    let l ← barycentric ε t o.dom uv
    .ok (l, { o with bary := (uv, l) :: o.bary })

/-- parameterization-barycentric.cc 18-41, `mapToRibbon(i, uv)` with the cache. -/
def baryMapC (ε : K) (t : BaryType) (i : ℕ) (uv : P2 K) (o : Obj K) : M (P2 K × Obj K) := do
  let r ← baryCached ε t uv o
  let sd ← baryMapWith ε r.2.dom r.1 i uv
  .ok (sd, r.2)

/-- parameterization-constrained-barycentric.cc 11-39, with the cache. -/
def constrainedMapC (ε : K) (i : ℕ) (uv : P2 K) (o : Obj K) : M (P2 K × Obj K) := do
  let n := o.dom.vertices.length
  let a ← baryMapC ε .wachspress i uv o
  let b ← baryMapC ε .wachspress (prevIx n i) uv a.2
  let c ← baryMapC ε .wachspress (nextIx n i) uv b.2
  let sd ← constrainedBlend ε a.1 b.1.x c.1.x
  .ok (sd, c.2)

/-- parameterization-overlap.cc 10-17, with the cache. -/
def overlapMapC (ε : K) (i : ℕ) (uv : P2 K) (o : Obj K) : M (P2 K × Obj K) := do
  let n := o.dom.vertices.length
  if n % 2 ≠ 0 then .error .assertion
  else do
    let bc ← baryCached ε .wachspress uv o
    let result ← forLoop (n / 2) (fun j (r : K) => do
      let b ← vget bc.1 ((i + j) % n)
      .ok (r + b)) 0
    .ok (⟨result, 0⟩, bc.2)

/-- parameterization-polar.cc 16-25, with the cache (mean value coordinates, line 9). -/
def polarMapC (ε : K) (i : ℕ) (uv : P2 K) (o : Obj K) : M (P2 K × Obj K) := do
  let d := o.dom
  let n := d.vertices.length
  let vp ← vget d.vertices (prevIx n i)
  let vi ← vget d.vertices i
  let v1 := vp - vi
  let v2 := uv - vi
  if v2.norm < ε then .ok (⟨0, 1⟩, o)
  else do
    let w1 ← v1.normalize
    let w2 ← v2.normalize
    let phi := Libm.acos (Domain.clamp (P2.dot w1 w2) (-1) 1)
    let a ← d.angle i
    let s ← fdiv phi a
    let l ← baryCached ε .meanValue uv o
    let li ← vget l.1 i
    .ok (⟨s, li⟩, l.2)

/-- A `mapToRibbon(i, uv)` (parameterization.hh 18) that does not touch the caches. -/
def pureC (m : M (P2 K)) (o : Obj K) : M (P2 K × Obj K) := do
  let sd ← m
  .ok (sd, o)

/-- The virtual function `mapToRibbon(i, uv)` (parameterization.hh 18) of the given class. -/
def mapToRibbon (ε : K) : Kind K → ℕ → P2 K → Obj K → M (P2 K × Obj K)
  | .bary t, i, uv, o => baryMapC ε t i uv o
  | .constrained, i, uv, o => constrainedMapC ε i uv o
  | .overlap, i, uv, o => overlapMapC ε i uv o
  | .polar, i, uv, o => polarMapC ε i uv o
  | .bilinear, i, uv, o => pureC (bilinearMap ε o.dom i uv) o
  | .parallel, i, uv, o => pureC (parallelMap ε o.mult o.dom i uv) o
  | .superD, i, uv, o => pureC (parallelMap ε o.mult o.dom i uv) o
  | .interconnected, i, uv, o => pureC (interconnectedMap ε o.dom i uv) o
  | .perpPolar, i, uv, o => pureC (perpPolarMap o.dom i uv) o
  | .circular fmod, i, uv, o => pureC (circularMap ε fmod o.dom.vertices.length i uv) o

/-- parameterization.cc 22-34, `Parameterization::mapToRibbons(uv)`. -/
def mapToRibbonsBase (ε : K) (k : Kind K) (uv : P2 K) (o : Obj K) : M (List (P2 K) × Obj K) :=
  match mapFind o.cache uv with
  | some r => .ok (r, o)
  | none => do
    let r ← forLoop o.dom.vertices.length (fun i (st : List (P2 K) × Obj K) => do
      let sd ← mapToRibbon ε k i uv st.2
      .ok (st.1 ++ [sd.1], sd.2)) ([], o)
    .ok (r.1, { r.2 with cache := (uv, r.1) :: r.2.cache })

/-- The virtual function `mapToRibbons(uv)`: parameterization.cc 22-34, overridden in
parameterization-interconnected.cc 22-30. -/
def mapToRibbons (ε : K) (k : Kind K) (uv : P2 K) (o : Obj K) : M (List (P2 K) × Obj K) := do
  let r ← mapToRibbonsBase ε k uv o
  match k with
  | .interconnected => do
    let sds ← interconnectedFix r.2.dom.vertices.length r.1
    .ok (sds, r.2)
  | _ => .ok r

/-- parameterization.cc 16-20, parameterization-barycentric.cc 43-47, parameterization-parallel.cc
34-38: `update()` of the given class, with the current contents of the domain. -/
def update (k : Kind K) (d : Domain K) : M (Obj K) := do
  let mult ← match k with
    | .parallel => parallelMultipliers d
    | .superD => superDMultipliers d
    | _ => .ok []
  .ok ⟨d, mult, [], []⟩

/-- The calls a user can make (parameterization.hh 17-20, parameterization-barycentric.hh 16): `update()` after the domain got new contents, and the queries. The
calls of `mapToRibbon` in `ParameterizationPolar::inverse` have the effect of `map` calls. -/
inductive Call (K : Type) where
  | update (d : Domain K)
  | map (i : ℕ) (uv : P2 K)
  | maps (uv : P2 K)
  | bary (uv : P2 K)

/-- One call (parameterization.hh 17-20); only classes with coordinates have the function `barycentric` (for others the call is
not expressible and is modelled as a fault). -/
def step (ε : K) (k : Kind K) (o : Obj K) : Call K → M (Obj K)
  | .update d => update k d
  | .map i uv => do let r ← mapToRibbon ε k i uv o; .ok r.2
  | .maps uv => do let r ← mapToRibbons ε k uv o; .ok r.2
  | .bary uv =>
    match k with
    | .bary t => do let r ← baryCached ε t uv o; .ok r.2
    | .constrained => do let r ← baryCached ε .wachspress uv o; .ok r.2
    | .overlap => do let r ← baryCached ε .wachspress uv o; .ok r.2
    | .polar => do let r ← baryCached ε .meanValue uv o; .ok r.2
    | _ => .error .exception

/-- A history of calls (parameterization.hh 17-20). -/
def run (ε : K) (k : Kind K) : Obj K → List (Call K) → M (Obj K)
  | o, [] => .ok o
  | o, c :: cs => do
    let o' ← step ε k o c
    run ε k o' cs

end Param

end Transfinite
