import Verif.Model.GenBezier

/-! # Model of `surface-superd.cc` -/

namespace Transfinite

variable {K : Type} [Field K] [LinearOrder K] [Libm K]

/-- The state of a `SurfaceSuperD`: `n_`, `domain_`, `param_` (surface.hh 55-58), the curves of `ribbons_` (which are of type `RibbonDummy`), and the members in
surface-superd.hh 38-41. The type `std::array<..., 5>` of surface-superd.hh 9-10 is represented by lists. -/
structure SuperD (K : Type) where
  n : ℕ
  fullness : K
  cpV : P3 K
  cpF : List (P3 K)
  cpE : List (P3 K)
  quartic : List (List (List (P3 K)))
  dom : Domain.Cached (Domain K) K
  param : Param.Obj K
  curves : List (Curve K)

namespace SuperD

/-- surface-superd.cc 17-21, surface.cc 14-16. The default point is assumed to be zero. -/
def new : SuperD K :=
  { n := 0, fullness := 1 / 2, cpV := 0, cpF := [], cpE := [], quartic := [], dom := ⟨⟨0, 0, [], [], []⟩, []⟩, param := ⟨⟨0, 0, [], [], []⟩, [], [], []⟩, curves := [] }

/-- surface-superd.cc 26-36, `generateQuartic(a, b, c)`. -/
def generateQuartic (fullness : K) (a b c : P3 K) : List (P3 K) :=
  let x1 := (2 / 5 * fullness + 3 / 5) * fullness
  let x2 := (-2 / 7 * fullness + 9 / 7) * fullness
  [a, affineCombine3 a x1 b, affineCombine3 (affineCombine3 a x2 b) (1 / 2) (affineCombine3 c x2 b), affineCombine3 c x1 b, c]

/-- surface-superd.cc 38-41, `generateBase(i)`. -/
def generateBase (S : SuperD K) (i : ℕ) : M (List (P3 K)) := do
  let a ← vget S.cpF (prevIx S.n i)
  let b ← vget S.cpE i
  let c ← vget S.cpF i
  .ok (generateQuartic S.fullness a b c)

/-- surface-superd.cc 43-46, `generateMid(i)`. -/
def generateMid (S : SuperD K) (i : ℕ) : M (List (P3 K)) := do
  let a ← vget S.cpE (prevIx S.n i)
  let c ← vget S.cpE (nextIx S.n i)
  .ok (generateQuartic S.fullness a S.cpV c)

/-- surface-superd.cc 48-61, `generateOpp(i)`. -/
def generateOpp (S : SuperD K) (i : ℕ) : M (List (P3 K)) :=
  if S.n = 3 then do
    let f ← vget S.cpF (nextIx S.n i)
    .ok (List.replicate 5 f)
  else if S.n = 4 then do
    let b ← S.generateBase (nextIx S.n (nextIx S.n i))
    .ok b.reverse
  else .error .exception

/-- surface-superd.cc 86-92: the ribbon for more than 4 sides. -/
def ribbonMany (base left right : List (P3 K)) : M (List (List (P3 K))) :=
  forLoop 5 (fun j (r : List (List (P3 K))) => do
    let row ← forLoop 5 (fun k (l : List (P3 K)) => do
      let b ← vget base j
      let x ← vget left (4 - k)
      let x4 ← vget left 4
      let y ← vget right k
      let y0 ← vget right 0
      .ok (l ++ [b + ((4 - j : ℕ) / 4 : K) • (x - x4) + (j / 4 : K) • (y - y0)])) []
    .ok (r ++ [row])) []

/-- surface-superd.cc 94-98: the ribbon for 3 or 4 sides. -/
def ribbonFew (fullness : K) (base mid opp : List (P3 K)) : M (List (List (P3 K))) :=
  forLoop 5 (fun j (r : List (List (P3 K))) => do
    let b ← vget base j
    let m ← vget mid j
    let o ← vget opp j
    .ok (r ++ [generateQuartic fullness b m o])) []

/-- surface-superd.cc 80-99, `generateRibbon(i)`. -/
def generateRibbon (S : SuperD K) (i : ℕ) : M (List (List (P3 K))) := do
  let base ← S.generateBase i
  if S.n > 4 then do
    let left ← S.generateBase (prevIx S.n i)
    let right ← S.generateBase (nextIx S.n i)
    ribbonMany base left right
  else do
    let mid ← S.generateMid i
    let opp ← S.generateOpp i
    ribbonFew S.fullness base mid opp

/-- surface-superd.cc 101-111, `bezierEvaluate(s, u, v)`. -/
def bezierEvaluate (s : List (List (P3 K))) (u v : K) : M (P3 K) := do
  let cu ← bernsteinAll 4 u
  let cv ← bernsteinAll 4 v
  forLoop 5 (fun i (r : P3 K) =>
    forLoop 5 (fun j (r : P3 K) => do
      let row ← vget s i
      let p ← vget row j
      let a ← vget cu i
      let b ← vget cv j
      .ok (r + b • a • p)) r) 0

/-- surface-superd.cc 117-119. -/
def sumRibbons (n : ℕ) (ribbons : List (List (List (P3 K)))) (sds : List (P2 K)) (blends : List K) : M (P3 K) :=
  forLoop n (fun i (p : P3 K) => do
    let s ← vget ribbons i
    let sd ← vget sds i
    let x ← bezierEvaluate s sd.x sd.y
    let b ← vget blends i
    .ok (p + b • x)) 0

/-- surface-superd.cc 113-121, `eval(uv)`; the cache of the parameterization may change. -/
def eval (ε : K) (uv : P2 K) (S : SuperD K) : M (P3 K × SuperD K) := do
  let r ← Param.mapToRibbons ε .superD uv S.param
  let blends ← Surf.blendSideSingular ε r.1
  let p ← sumRibbons S.n S.quartic r.1 blends
  .ok (p, { S with param := r.2 })

/-- `std::vector::resize` (surface-superd.cc 125-126); the new points are assumed to be zero. -/
def resize (l : List (P3 K)) (n : ℕ) : List (P3 K) := l.take n ++ List.replicate (n - l.length) 0

/-- surface-superd.cc 123-128, `initNetwork(n)`. -/
def initNetwork (S : SuperD K) (n : ℕ) : SuperD K := { S with n := n, cpF := resize S.cpF n, cpE := resize S.cpE n }

/-- surface-superd.cc 132-138: the curves. -/
def boundaries (arc : List (P3 K) → K → K → K) (S : SuperD K) : M (List (Curve K)) :=
  forLoop S.n (fun i (cs : List (Curve K)) => do
    let base ← S.generateBase i
    .ok (cs ++ [bezierCurve arc base])) []

/-- surface-superd.cc 143-144. -/
def updateDomain (S : SuperD K) : M (SuperD K) := do
  let r ← Domain.regularUpdate S.dom.dom S.curves.length
  if r.2 then do
    let o ← Param.update .superD r.1
    .ok { S with dom := ⟨r.1, []⟩, param := o }
  else .ok S

/-- surface-superd.cc 130-145, `setupLoop()`. -/
def setupLoop (arc : List (P3 K) → K → K → K) (S : SuperD K) : M (SuperD K) := do
  let cs ← S.boundaries arc
  let cs' ← orientLoop cs
  updateDomain { S with n := cs.length, curves := cs' }

/-- surface-superd.cc 147-152, `updateRibbons()`. -/
def updateRibbons (S : SuperD K) : M (SuperD K) := do
  let q ← forLoop S.n (fun i (l : List (List (List (P3 K)))) => do
    let r ← S.generateRibbon i
    .ok (l ++ [r])) []
  .ok { S with quartic := q }

/-- surface-superd.cc 154-162, `vertexControlPoint()`. -/
def vertexControlPoint (S : SuperD K) : P3 K := S.cpV

/-- surface-superd.cc 159-162, `setVertexControlPoint(p)`. -/
def setVertexControlPoint (S : SuperD K) (p : P3 K) : SuperD K := { S with cpV := p }

/-- surface-superd.cc 164-167, `faceControlPoint(i)`. -/
def faceControlPoint (S : SuperD K) (i : ℕ) : M (P3 K) := vget S.cpF i

/-- surface-superd.cc 169-172, `setFaceControlPoint(i, p)`. -/
def setFaceControlPoint (S : SuperD K) (i : ℕ) (p : P3 K) : M (SuperD K) := do
  let l ← vset S.cpF i p
  .ok { S with cpF := l }

/-- surface-superd.cc 174-177, `edgeControlPoint(i)`. -/
def edgeControlPoint (S : SuperD K) (i : ℕ) : M (P3 K) := vget S.cpE i

/-- surface-superd.cc 179-182, `setEdgeControlPoint(i, p)`. -/
def setEdgeControlPoint (S : SuperD K) (i : ℕ) (p : P3 K) : M (SuperD K) := do
  let l ← vset S.cpE i p
  .ok { S with cpE := l }

/-- surface-superd.cc 189-192, `setFullness(f)`. -/
def setFullness (S : SuperD K) (f : K) : SuperD K := { S with fullness := f }

/-- The calls of a user (surface-superd.hh 15-26). -/
inductive Call (K : Type) where
  | init (n : ℕ)
  | setV (p : P3 K)
  | setF (i : ℕ) (p : P3 K)
  | setE (i : ℕ) (p : P3 K)
  | setFull (f : K)
  | loop
  | ribbons
  | eval (uv : P2 K)

/-- The effect of one call on the object (surface-superd.hh 15-26). -/
def step (ε : K) (arc : List (P3 K) → K → K → K) (S : SuperD K) : Call K → M (SuperD K)
  | .init n => .ok (S.initNetwork n)
  | .setV p => .ok (S.setVertexControlPoint p)
  | .setF i p => S.setFaceControlPoint i p
  | .setE i p => S.setEdgeControlPoint i p
  | .setFull f => .ok (S.setFullness f)
  | .loop => S.setupLoop arc
  | .ribbons => S.updateRibbons
  | .eval uv => do let r ← S.eval ε uv; .ok r.2

/-- A history of calls (surface-superd.hh 15-26). -/
def run (ε : K) (arc : List (P3 K) → K → K → K) : SuperD K → List (Call K) → M (SuperD K)
  | S, [] => .ok S
  | S, c :: cs => do
    let S' ← S.step ε arc c
    run ε arc S' cs

end SuperD

end Transfinite
