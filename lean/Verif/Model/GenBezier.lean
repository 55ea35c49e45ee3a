import Verif.Model.Patch
import Verif.Model.Utilities
import Verif.Spec.Bezier

/-! # Model of `surface-generalized-bezier.cc` and `surface-generalized-bezier-corner.cc` -/

namespace Transfinite

variable {K : Type} [Field K] [LinearOrder K] [Libm K]

/-- 64-bit unsigned subtraction, which wraps around (for example surface-generalized-bezier.cc 185, 187; io.cc 119). -/
def usub (a b : ℕ) : ℕ := if b ≤ a then a - b else a + 2 ^ 64 - b

/-- The curve created in surface-generalized-bezier.cc 151: a `BSplineCurve` with Bézier knots (libgeom, external; by its
meaning). The arc length is the function `arc` of the control points, which is not used by these classes. -/
def bezierCurve (arc : List (P3 K) → K → K → K) (cpts : List (P3 K)) : Curve K :=
  ⟨fun u => Spec.bezier (cpts.length - 1) (fun j => cpts.getD j 0) u,
    fun u => ((cpts.length - 1 : ℕ) : K) • Spec.bezier (cpts.length - 2) (fun j => cpts.getD (j + 1) 0 - cpts.getD j 0) u, arc cpts⟩

/-- The two classes: `SurfaceGeneralizedBezier` (surface-generalized-bezier.hh 7) and `SurfaceGeneralizedBezierCorner`
(surface-generalized-bezier-corner.hh 7); the latter uses `std::fmod`. -/
inductive GBKind (K : Type) where
  | side
  | corner (fmod : K → K → K)

/-- `ParamType`: surface-generalized-bezier.cc 19 (without `USE_CONSTRAINED_BARYCENTRIC`, which is commented out in line 1),
surface-generalized-bezier-corner.cc 14. -/
def GBKind.param : GBKind K → Param.Kind K
  | .side => .bary .wachspress
  | .corner fmod => .circular fmod

/-- The state of an object: `n_`, `domain_`, `param_` (surface.hh 55-58), the curves of `ribbons_`, and the members in
surface-generalized-bezier.hh 32-35. The ribbons are of type `RibbonDummy`, which have no data besides
the curve. -/
structure GB (K : Type) where
  kind : GBKind K
  n : ℕ
  degree : ℕ
  layers : ℕ
  central : P3 K
  nets : List (List (List (P3 K)))
  squared : Bool
  dom : Domain.Cached (Domain K) K
  param : Param.Obj K
  curves : List (Curve K)

namespace GB

/-- surface-generalized-bezier.cc 23-27 (surface-generalized-bezier-corner.cc 19-23), surface.cc 14-16. The members `degree_` and `layers_` are
not initialized, so these are arbitrary. -/
def new (kind : GBKind K) (degree layers : ℕ) : GB K :=
  { kind := kind, n := 0, degree := degree, layers := layers, central := 0, nets := [], squared := false,
    dom := ⟨⟨0, 0, [], [], []⟩, []⟩, param := ⟨⟨0, 0, [], [], []⟩, [], [], []⟩, curves := [] }

/-- `nets_[i][j][k]` (reading): surface-generalized-bezier.cc 46, 68, 70, 101, 150, 178. -/
def cpt (nets : List (List (List (P3 K)))) (i j k : ℕ) : M (P3 K) := do
  let a ← vget nets i
  let b ← vget a j
  vget b k

/-- `nets_[i][j][k] = p`: surface-generalized-bezier.cc 183-187, 194. -/
def cptSet (nets : List (List (List (P3 K)))) (i j k : ℕ) (p : P3 K) : M (List (List (List (P3 K)))) := do
  let a ← vget nets i
  let b ← vget a j
  let b' ← vset b k p
  let a' ← vset a j b'
  vset nets i a'

/-- surface-generalized-bezier.cc 176-179, `controlPoint(i, j, k)`. -/
def controlPoint (G : GB K) (i j k : ℕ) : M (P3 K) := cpt G.nets i j k

/-- surface-generalized-bezier.cc 181-188, `setControlPoint(i, j, k, p)`. -/
def setControlPoint (G : GB K) (i j k : ℕ) (p : P3 K) : M (GB K) := do
  let nets ← cptSet G.nets i j k p
  if j < G.layers then do
    let nets ← cptSet nets (prevIx G.n i) (usub G.degree k) j p
    .ok { G with nets := nets }
  else if usub G.degree j < G.layers then do
    let nets ← cptSet nets (nextIx G.n i) k (usub G.degree j) p
    .ok { G with nets := nets }
  else .ok { G with nets := nets }

/-- surface-generalized-bezier.cc 190-195, `setIndividualControlPoint(i, j, k, p)`. -/
def setIndividualControlPoint (G : GB K) (i j k : ℕ) (p : P3 K) : M (GB K) := do
  let nets ← cptSet G.nets i j k p
  .ok { G with nets := nets }

/-- surface-generalized-bezier.cc 166-174, `centralControlPoint()` and `setCentralControlPoint(p)`. -/
def setCentral (G : GB K) (p : P3 K) : GB K := { G with central := p }

/-- surface-generalized-bezier.cc 161-164, `useSquaredRationalWeights(use)`. -/
def setSquared (G : GB K) (b : Bool) : GB K := { G with squared := b }

/-- surface-generalized-bezier.cc 120-139, `initNetwork(n, degree)`; new points are assumed to be zero. -/
def initBase (G : GB K) (n degree : ℕ) : GB K :=
  if n = G.n ∧ degree = G.degree then G
  else { G with n := n, degree := degree, layers := (degree + 1) / 2,
                nets := List.replicate n (List.replicate (degree + 1) (List.replicate ((degree + 1) / 2) 0)) }

/-- The virtual function `initNetwork`: surface-generalized-bezier.cc 120-139, surface-generalized-bezier-corner.cc 28-32. -/
def initNetwork (G : GB K) (n degree : ℕ) : M (GB K) :=
  match G.kind with
  | .side => .ok (G.initBase n degree)
  | .corner _ => if degree % 2 = 1 then .ok (G.initBase n degree) else .error .assertion

/-- surface.cc 37-47, `setCurves(curves)` (public). -/
def setCurves (G : GB K) (cs : List (Curve K)) : GB K := { G with n := cs.length, curves := cs }

/-- surface-generalized-bezier.cc 157-158: `if (domain_->update()) param_->update();` domain-regular.cc 8-25,
domain-circle.cc 8-13. -/
def updateDomain (G : GB K) : M (GB K) :=
  match G.kind with
  | .side => do
    let r ← Domain.regularUpdate G.dom.dom G.curves.length
    if r.2 then do
      let o ← Param.update G.kind.param r.1
      .ok { G with dom := ⟨r.1, []⟩, param := o }
    else .ok G
  | .corner _ => do
    let m := G.curves.length
    let d : Domain K := { G.dom.dom with n := m, vertices := G.dom.dom.vertices.take m ++ List.replicate (m - G.dom.dom.vertices.length) 0 }
    let o ← Param.update G.kind.param d
    .ok { G with dom := ⟨d, G.dom.cache⟩, param := o }

/-- surface-generalized-bezier.cc 149-150: the control points of the curve of side `i`. -/
def boundary (G : GB K) (i : ℕ) : M (List (P3 K)) :=
  forLoop (G.degree + 1) (fun j (l : List (P3 K)) => do
    let p ← cpt G.nets i j 0
    .ok (l ++ [p])) []

/-- surface-generalized-bezier.cc 141-159, `setupLoop()`. -/
def setupLoop (arc : List (P3 K) → K → K → K) (G : GB K) : M (GB K) := do
  let curves ← forLoop G.n (fun i (l : List (Curve K)) => do
    let cpts ← G.boundary i
    .ok (l ++ [bezierCurve arc cpts])) []
  let cs ← orientLoop curves
  updateDomain ({ G with n := curves.length, curves := cs })

/-- surface-generalized-bezier.cc 91-99: the weight of control point `(j, k)` of a side. -/
def factor (degree j k : ℕ) (alpha beta blend : K) : K :=
  if k < 2 ∧ (j < 2 ∨ usub degree 2 < j) then
    (if j < 2 then blend * alpha else blend * beta)
  else if j = k ∨ j = usub degree k then blend * (1 / 2)
  else if j < k ∨ usub degree k < j then 0
  else blend

/-- surface-generalized-bezier.cc 72-80: `alpha` (with `x` = `di_1`) and `beta` (with `x` = `di1`). -/
def rational (squared : Bool) (x di : K) : M K :=
  if squared then fdiv (x * x) (x * x + di * di) else fdiv x (x + di)

/-- surface-generalized-bezier.cc 84-104: the loops for side `i`; the state is the sum of points and weights. -/
def sideSum (G : GB K) (i : ℕ) (alpha beta : K) (bs bd : List K) (st : P3 K × K) : M (P3 K × K) :=
  forLoop G.layers (fun k st =>
    forLoop (G.degree + 1) (fun j (st : P3 K × K) => do
      let x ← vget bs j
      let y ← vget bd k
      let p ← cpt G.nets i j k
      let blend := factor G.degree j k alpha beta (x * y)
      .ok (st.1 + blend • p, st.2 + blend)) st) st

/-- surface-generalized-bezier.cc 61-105, one iteration; `Sum.inl` is a returned value. -/
def evalSide (ε : K) (G : GB K) (sds : List (P2 K)) (i : ℕ) (st : P3 K ⊕ P3 K × K) : M (P3 K ⊕ P3 K × K) :=
  match st with
  | .inl p => .ok (.inl p)
  | .inr st => do
    let sd ← vget sds i
    let sp ← vget sds (prevIx G.n i)
    let sn ← vget sds (nextIx G.n i)
    if sd.y + sn.y < ε then do
      let p ← cpt G.nets i G.degree 0
      .ok (.inl p)
    else if sp.y + sd.y < ε then do
      let p ← cpt G.nets i 0 0
      .ok (.inl p)
    else do
      let alpha ← rational G.squared sp.y sd.y
      let beta ← rational G.squared sn.y sd.y
      let bs ← bernsteinAll G.degree sd.x
      let bd ← bernsteinAll G.degree sd.y
      let r ← G.sideSum i alpha beta bs bd st
      .ok (.inr r)

/-- surface-generalized-bezier.cc 106-107, the end of `eval`. -/
def evalEnd (G : GB K) : P3 K ⊕ P3 K × K → P3 K
  | .inl p => p
  | .inr st => st.1 + (1 - st.2) • G.central

/-- surface-generalized-bezier.cc 56-108, given the result of `mapToRibbons(uv)`. -/
def sideEval (ε : K) (G : GB K) (sds : List (P2 K)) : M (P3 K) := do
  let r ← forLoop G.n (G.evalSide ε sds) (.inr (0, 0))
  .ok (G.evalEnd r)

/-- surface-generalized-bezier-corner.cc 39-52, one iteration. -/
def cornerStep (G : GB K) (sds : List (P2 K)) (i : ℕ) (st : P3 K × K) : M (P3 K × K) := do
  let sd ← vget sds i
  let sn ← vget sds (nextIx G.n i)
  let bd ← bernsteinAll G.degree sd.y
  let bn ← bernsteinAll G.degree sn.y
  forLoop G.layers (fun j st =>
    forLoop G.layers (fun k (st : P3 K × K) => do
      let x ← vget bn j
      let y ← vget bd k
      let p ← cpt G.nets i (usub G.degree j) k
      .ok (st.1 + (x * y) • p, st.2 + x * y)) st) st

/-- surface-generalized-bezier-corner.cc 34-55, given the result of `mapToRibbons(uv)`. -/
def cornerEval (G : GB K) (sds : List (P2 K)) : M (P3 K) := do
  let r ← forLoop G.n (G.cornerStep sds) (0, 0)
  .ok (r.1 + (1 - r.2) • G.central)

/-- The virtual function `eval(uv)` (surface-generalized-bezier.hh 13, surface-generalized-bezier-corner.hh 13), given the result of
`mapToRibbons(uv)`. -/
def evalWith (ε : K) (G : GB K) (sds : List (P2 K)) : M (P3 K) :=
  match G.kind with
  | .side => G.sideEval ε sds
  | .corner _ => G.cornerEval sds

/-- The virtual function `eval(uv)` (surface-generalized-bezier.cc 56-108, surface-generalized-bezier-corner.cc 34-55); the caches of the parameterization may change. -/
def eval (ε : K) (uv : P2 K) (G : GB K) : M (P3 K × GB K) := do
  let r ← Param.mapToRibbons ε G.kind.param uv G.param
  let p ← G.evalWith ε r.1
  .ok (p, { G with param := r.2 })

/-- surface-generalized-bezier.cc 223-227 and 229-233: a blend times a rational weight. -/
def rationalWeight (squared : Bool) (blend x di : K) : M K :=
  if squared then fdiv (blend * (x * x)) (x * x + di * di) else fdiv (blend * x) (x + di)

/-- surface-generalized-bezier.cc 205-242, the weight given the result of `mapToRibbons(uv)`. -/
def sideWeight (ε : K) (G : GB K) (i j k : ℕ) (sds : List (P2 K)) : M K := do
  let sd ← vget sds i
  let sp ← vget sds (prevIx G.n i)
  let sn ← vget sds (nextIx G.n i)
  if sd.y + sn.y < ε then .ok (if j = G.degree ∧ k = 0 then 1 / 2 else 0)
  else if sp.y + sd.y < ε then .ok (if j = 0 ∧ k = 0 then 1 / 2 else 0)
  else do
    let x ← bernsteinOne j G.degree sd.x
    let y ← bernsteinOne k G.degree sd.y
    let blend := x * y
    if k < 2 ∧ (j < 2 ∨ usub G.degree 2 < j) then
      (if j < 2 then rationalWeight G.squared blend sp.y sd.y else rationalWeight G.squared blend sn.y sd.y)
    else .ok (if j = k ∨ j = usub G.degree k then blend * (1 / 2) else blend)

/-- surface-generalized-bezier-corner.cc 57-67, `cornerWeight(i, j, k, uv)`, given the result of `mapToRibbons(uv)`. -/
def cornerWeight (G : GB K) (i j k : ℕ) (sds : List (P2 K)) : M K := do
  let sd ← vget sds i
  let sn ← vget sds (nextIx G.n i)
  let bd ← bernsteinAll G.degree sd.y
  let bn ← bernsteinAll G.degree sn.y
  let x ← vget bn j
  let y ← vget bd k
  .ok (x * y)

/-- surface-generalized-bezier-corner.cc 69-74, the weight given the result of `mapToRibbons(uv)`. -/
def cornerWeightOf (G : GB K) (i j k : ℕ) (sds : List (P2 K)) : M K :=
  if j < G.layers then G.cornerWeight (prevIx G.n i) k j sds else G.cornerWeight i (usub G.degree j) k sds

/-- The virtual function `weight(i, j, k, uv)`: surface-generalized-bezier.cc 197-243,
surface-generalized-bezier-corner.cc 69-74. -/
def weight (ε : K) (i j k : ℕ) (uv : P2 K) (G : GB K) : M (K × GB K) :=
  match G.kind with
  | .side =>
    if 2 ≤ k ∧ (j < k ∨ usub G.degree k < j) then .ok (0, G)
    else do
      let r ← Param.mapToRibbons ε G.kind.param uv G.param
      let w ← G.sideWeight ε i j k r.1
      .ok (w, { G with param := r.2 })
  | .corner _ => do
    let r ← Param.mapToRibbons ε G.kind.param uv G.param
    let w ← G.cornerWeightOf i j k r.1
    .ok (w, { G with param := r.2 })

/-- The calls of a user (surface-generalized-bezier.hh 9-25, surface.hh 20-39). -/
inductive Call (K : Type) where
  | init (n degree : ℕ)
  | set (i j k : ℕ) (p : P3 K)
  | setIndividual (i j k : ℕ) (p : P3 K)
  | central (p : P3 K)
  | squared (b : Bool)
  | curves (cs : List (Curve K))
  | loop
  | eval (uv : P2 K)
  | weight (i j k : ℕ) (uv : P2 K)

/-- The effect of one call on the object (surface-generalized-bezier.hh 13-25). -/
def step (ε : K) (arc : List (P3 K) → K → K → K) (G : GB K) : Call K → M (GB K)
  | .init n d => G.initNetwork n d
  | .set i j k p => G.setControlPoint i j k p
  | .setIndividual i j k p => G.setIndividualControlPoint i j k p
  | .central p => .ok (G.setCentral p)
  | .squared b => .ok (G.setSquared b)
  | .curves cs => .ok (G.setCurves cs)
  | .loop => G.setupLoop arc
  | .eval uv => do let r ← G.eval ε uv; .ok r.2
  | .weight i j k uv => do let r ← G.weight ε i j k uv; .ok r.2

/-- A history of calls (surface-generalized-bezier.hh 13-25). -/
def run (ε : K) (arc : List (P3 K) → K → K → K) : GB K → List (Call K) → M (GB K)
  | G, [] => .ok G
  | G, c :: cs => do
    let G' ← G.step ε arc c
    run ε arc G' cs

end GB

end Transfinite
