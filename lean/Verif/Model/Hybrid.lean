import Verif.Model.GenBezier

/-! # Model of `surface-hybrid.cc`

A hybrid patch is a Generalized Bézier patch where the two outer layers of control points are replaced by ribbons. -/

namespace Transfinite

variable {K : Type} [Field K] [LinearOrder K] [Libm K]

/-- The state of an object: the members of surface-generalized-bezier.hh 32-35 and `n_` in `net` (its fields `dom`, `param` and `curves` are not
used), the other members of `Surface` in `patch`. The domain, the parameterization and the ribbons are of the same types as in the composite ribbon
class (surface-hybrid.cc 9-11). -/
structure Hybrid (K : Type) where
  net : GB K
  patch : Patch K

namespace Hybrid

/-- surface-hybrid.cc 13-18; the members `degree_` and `layers_` are not initialized, so these are arbitrary. -/
def new (degree layers : ℕ) : Hybrid K := ⟨(GB.new .side degree layers).setSquared true, Patch.new .compositeRibbon⟩

/-- The network with the present parameterization: the members used by `weight(i, j, k, uv)` in surface-hybrid.cc 33. -/
def asNet (H : Hybrid K) : GB K := { H.net with dom := H.patch.dom, param := H.patch.param }

/-- The values in the loops of `eval` (surface-hybrid.cc 25-43): `surface_point`, `blends`, `weight_sum`, and the parameterization with its caches. -/
structure Acc (K : Type) where
  pt : P3 K
  blends : List K
  sum : K
  param : Param.Obj K

/-- surface-hybrid.cc 34-38. -/
def addBlend (nets : List (List (List (P3 K)))) (i j k : ℕ) (blend : K) (a : Acc K) : M (Acc K) :=
  if 2 ≤ k then do
    let p ← GB.cpt nets i j k
    .ok { a with pt := a.pt + blend • p, sum := a.sum + blend }
  else do
    let b ← vget a.blends i
    let bs ← vset a.blends i (b + blend)
    .ok { a with blends := bs, sum := a.sum + blend }

/-- surface-hybrid.cc 33-39, the body of the innermost loop. -/
def evalStep (ε : K) (G : GB K) (uv : P2 K) (i k j : ℕ) (a : Acc K) : M (Acc K) := do
  let r ← GB.weight ε i j k uv { G with param := a.param }
  addBlend G.nets i j k r.1 { a with param := r.2.param }

/-- surface-hybrid.cc 29-40, the three loops. -/
def evalNet (ε : K) (G : GB K) (uv : P2 K) (a : Acc K) : M (Acc K) :=
  forLoop G.n (fun i => forLoop G.layers fun k => forLoop (G.degree + 1) fun j => evalStep ε G uv i k j) a

/-- surface-hybrid.cc 43-44, the sum of the ribbons. -/
def evalRibbons (ε : K) (S : Surf K) (n : ℕ) (sds : List (P2 K)) (blends : List K) (p : P3 K) : M (P3 K) :=
  forLoop n (fun i p => do
    let sd ← vget sds i
    let q ← S.sideInterpolant ε i sd.x sd.y
    let b ← vget blends i
    .ok (p + b • q)) p

/-- surface-hybrid.cc 23-47, `eval(uv)`. -/
def eval (ε : K) (uv : P2 K) (H : Hybrid K) : M (P3 K × Hybrid K) := do
  let r ← Param.mapToRibbons ε H.patch.kind.param uv H.patch.param
  let a ← evalNet ε H.asNet uv ⟨0, List.replicate H.net.n 0, 0, r.2⟩
  let p ← evalRibbons ε H.patch.surf H.net.n r.1 a.blends (a.pt + (1 - a.sum) • H.net.central)
  .ok (p, { H with patch := { H.patch with param := a.param } })

/-- surface-generalized-bezier.cc 141-159, `setupLoop()`: new ribbons with the Bézier curves of the boundary, oriented by
`Surface::setupLoop()`, and a new domain. -/
def setupLoop (arc : List (P3 K) → K → K → K) (H : Hybrid K) : M (Hybrid K) := do
  let curves ← forLoop H.net.n (fun i (l : List (Curve K)) => do
    let cpts ← H.net.boundary i
    .ok (l ++ [bezierCurve arc cpts])) []
  let P ← (H.patch.setCurves curves).setupLoop
  let P ← P.updateDomain
  .ok ⟨{ H.net with n := curves.length }, P⟩

/-- The calls on the network: surface-generalized-bezier.hh 9-25. -/
def isNet : GB.Call K → Bool
  | .init _ _ => true
  | .set _ _ _ _ => true
  | .setIndividual _ _ _ _ => true
  | .central _ => true
  | .squared _ => true
  | .weight _ _ _ _ => true
  | _ => false

/-- The calls inherited from `Surface`: surface.hh 24-36 and queries of `domain()` and `parameterization()`. Simplified: `setCurve` and `setCurves` are not in
the model (the curves are made by `setupLoop`). -/
def isSurf : Patch.Call K → Bool
  | .gamma _ => true
  | .handler _ _ => true
  | .mult _ _ => true
  | .fence _ _ => true
  | .reset _ => true
  | .update => true
  | .updateSide _ => true
  | .domainParams _ => true
  | .mapSide _ _ => true
  | .mapSides _ => true
  | _ => false

/-- The calls of a user (surface-hybrid.hh 13, surface-generalized-bezier.hh 15-25, surface.hh 24-39). -/
inductive Call (K : Type) where
  | net (c : GB.Call K)
  | surf (c : Patch.Call K)
  | loop
  | eval (uv : P2 K)

/-- The effect of one call (surface-hybrid.hh 13, surface-generalized-bezier.hh 15-25, surface.hh 24-39). Simplified: `update` is an error between an `initNetwork` that changes the number of sides and the next `setupLoop`. -/
def step (ε : K) (arc : List (P3 K) → K → K → K) (H : Hybrid K) : Call K → M (Hybrid K)
  | .net c =>
    if isNet c then do
      let G ← H.asNet.step ε arc c
      .ok ⟨G, { H.patch with param := G.param }⟩
    else .error .exception
  | .surf c =>
    if isSurf c ∧ H.net.n = H.patch.surf.n then do
      let P ← H.patch.step ε c
      .ok { H with patch := P }
    else .error .exception
  | .loop => H.setupLoop arc
  | .eval uv => do
    let r ← H.eval ε uv
    .ok r.2

/-- A history of calls (surface-hybrid.hh 13, surface-generalized-bezier.hh 15-25, surface.hh 24-39). -/
def run (ε : K) (arc : List (P3 K) → K → K → K) : Hybrid K → List (Call K) → M (Hybrid K)
  | H, [] => .ok H
  | H, c :: cs => do
    let H' ← H.step ε arc c
    run ε arc H' cs

end Hybrid

end Transfinite
