import Verif.Model.Surface
import Verif.Model.DomainKinds
import Verif.Model.DomainCache

/-! # Model of whole surface objects

A `Patch` is an object of one of the transfinite surface classes, with its domain, parameterization, ribbons and corner data.
Curve objects are assumed to be distinct (sharing is modelled in `Model/Sharing.lean`), so the curves are kept by
value in the ribbons; `domain_->curves_` is the list of the same curves. -/

namespace Transfinite

variable {K : Type} [Field K] [LinearOrder K] [Libm K]

/-- surface.cc 50-76, `setupLoop()`: whether curve `i` has to be reversed, given the current curves. -/
def needsReverse (cs : List (Curve K)) (i : ℕ) : M Bool := do
  let n := cs.length
  let c ← vget cs i
  if i = 0 then do
    let rn ← vget cs (nextIx n i)
    .ok (decide (min (c.pt 0 - rn.pt 0).norm (c.pt 0 - rn.pt 1).norm < min (c.pt 1 - rn.pt 0).norm (c.pt 1 - rn.pt 1).norm))
  else do
    let rp ← vget cs (prevIx n i)
    .ok (decide ((c.pt 1 - rp.pt 1).norm < (c.pt 0 - rp.pt 1).norm))

/-- surface.cc 58-74: one step of the loop. -/
def orientStep (i : ℕ) (cs : List (Curve K)) : M (List (Curve K)) := do
  let rev ← needsReverse cs i
  let c ← vget cs i
  vset cs i (if rev then c.reverse else c)

/-- surface.cc 50-76, `setupLoop()`: the effect on the curves. -/
def orientLoop (cs : List (Curve K)) : M (List (Curve K)) := forLoop cs.length orientStep cs

/-- The transfinite surface classes with point evaluation: surface-side-based.hh 7, surface-corner-based.hh 7, surface-generalized-coons.hh 7,
surface-composite-ribbon.hh 7, surface-midpoint.hh 7, surface-midpoint-coons.hh 7, surface-c0coons.hh 7. -/
inductive PatchKind where
  | sideBased
  | cornerBased
  | generalizedCoons
  | compositeRibbon
  | midpoint
  | midpointCoons
  | c0Coons
  deriving DecidableEq, Repr

namespace PatchKind

/-- `DomainType` is `DomainRegular` (`true`) or `DomainAngular` (`false`): surface-side-based.cc 8 and line 8 or 11 of the others. -/
def regular : PatchKind → Bool
  | .sideBased => false
  | _ => true

/-- `ParamType`: surface-side-based.cc 9, surface-corner-based.cc 9, surface-generalized-coons.cc 9,
surface-composite-ribbon.cc 10, surface-midpoint.cc 12, surface-midpoint-coons.cc 12, surface-c0coons.cc 9;
barycentric coordinates are of Wachspress type by default (parameterization-barycentric.cc 9-10). -/
def param : PatchKind → Param.Kind K
  | .sideBased => .parallel
  | .cornerBased => .bilinear
  | .generalizedCoons => .interconnected
  | .compositeRibbon => .bary .wachspress
  | .midpoint => .bary .wachspress
  | .midpointCoons => .constrained
  | .c0Coons => .bary .wachspress

/-- `RibbonType`, one line below: surface-side-based.cc 10, surface-corner-based.cc 10, surface-generalized-coons.cc 10,
surface-composite-ribbon.cc 11, surface-midpoint.cc 13, surface-midpoint-coons.cc 13, surface-c0coons.cc 10. -/
def ribbon : PatchKind → RibbonKind
  | .c0Coons => .coons
  | _ => .handler

end PatchKind

/-- The state of a surface object: `domain_`, `param_`, `ribbons_` etc. (surface.hh 55-72), whether `setNeighbors` has been called
for the present ribbons, and the members of surface-midpoint.hh 24-30. -/
structure Patch (K : Type) where
  kind : PatchKind
  dom : Domain.Cached (Domain K) K
  param : Param.Obj K
  surf : Surf K
  linked : Bool
  midSet : Bool
  mid : P3 K
  central : P3 K

namespace Patch

/-- The constructors (e.g. surface-midpoint.cc 15-19, surface.cc 13-15, domain.cc 10-12); members without an initial value are zero. -/
def new (kind : PatchKind) : Patch K :=
  { kind := kind, dom := ⟨⟨0, 0, [], [], []⟩, []⟩, param := ⟨⟨0, 0, [], [], []⟩, [], [], []⟩, surf := ⟨true, [], []⟩,
    linked := false, midSet := false, mid := 0, central := 0 }

/-- surface.cc 20-23. -/
def setGamma (P : Patch K) (g : Bool) : Patch K := { P with surf := { P.surf with useGamma := g } }

/-- surface.cc 25-34, `setCurve(i, curve)`; simplified: the case `i > n_`, which leaves null pointers in `ribbons_`, is a
null pointer error at once (it is one in the next `setupLoop`). -/
def setCurve (P : Patch K) (i : ℕ) (c : Curve K) : M (Patch K) :=
  let rs := P.surf.ribbons
  if rs.length < i then .error .nullPtr
  else .ok { P with surf := { P.surf with ribbons := rs.take i ++ [Ribbon.new P.kind.ribbon c] ++ rs.drop (i + 1) }, linked := false }

/-- surface.cc 36-46, `setCurves(curves)`. -/
def setCurves (P : Patch K) (cs : List (Curve K)) : Patch K :=
  { P with surf := { P.surf with ribbons := cs.map (Ribbon.new P.kind.ribbon) }, linked := false }

/-- The boundary curves: `curve()` of the `ribbons_` (surface.hh 58). -/
def curves (P : Patch K) : List (Curve K) := P.surf.ribbons.map (·.curve)

/-- surface.cc 48-76, `setupLoop()`. The objects derived from the curves (the fence, neighbouring curves in Coons ribbons) are
recomputed by `update()`. -/
def setupLoop (P : Patch K) : M (Patch K) := do
  let cs ← orientLoop P.curves
  .ok { P with
    surf := { P.surf with ribbons := List.zipWith (fun (r : Ribbon K) c => { r with curve := c }) P.surf.ribbons cs },
    linked := true }

/-- A change of ribbon `i`: surface.cc 83-107. -/
def onRibbon (P : Patch K) (i : ℕ) (f : Ribbon K → M (Ribbon K)) : M (Patch K) := do
  let r ← vget P.surf.ribbons i
  let r' ← f r
  let rs ← vset P.surf.ribbons i r'
  .ok { P with surf := { P.surf with ribbons := rs } }

/-- surface.cc 83-86 -/
def setRibbonHandler (P : Patch K) (i : ℕ) (h : P3 K) : M (Patch K) := P.onRibbon i fun r => r.setHandler h

/-- surface.cc 98-101 -/
def setRibbonMultiplier (P : Patch K) (i : ℕ) (m : K) : M (Patch K) := P.onRibbon i fun r => .ok (r.setMultiplier m)

/-- surface.cc 88-91 -/
def overrideNormalFence (P : Patch K) (i : ℕ) (f : Option (K → P3 K)) : M (Patch K) :=
  P.onRibbon i fun r => .ok (r.overrideNormalFence f)

/-- surface.cc 103-106 -/
def resetRibbon (P : Patch K) (i : ℕ) : M (Patch K) := P.onRibbon i fun r => .ok r.reset

/-- surface.cc 110-111 = 119-120: `if (domain_->update()) param_->update();` (domain-regular.cc 8-24, domain-angular.cc 12-79). -/
def updateDomain (P : Patch K) : M (Patch K) :=
  if P.kind.regular then do
    let r ← Domain.regularUpdate P.dom.dom P.surf.n
    if r.2 then do
      let o ← Param.update P.kind.param r.1
      .ok { P with dom := ⟨r.1, []⟩, param := o }
    else .ok P
  else do
    let d ← Domain.angularUpdate P.curves
    let o ← Param.update P.kind.param d
    .ok { P with dom := ⟨d, []⟩, param := o }

/-- The virtual function `eval(uv)` (surface.hh 39) of the classes, given the result of `mapToRibbons(uv)`. -/
def evalWith (ε : K) (P : Patch K) (sds : List (P2 K)) : M (P3 K) :=
  match P.kind with
  | .sideBased => P.surf.sideBased ε sds
  | .cornerBased => P.surf.cornerBased ε sds
  | .generalizedCoons => P.surf.generalizedCoons ε sds
  | .compositeRibbon => P.surf.composite ε sds
  | .midpoint => P.surf.midpoint ε P.central sds
  | .midpointCoons => P.surf.midpointCoons ε P.central sds
  | .c0Coons => P.surf.c0Coons ε sds

/-- `eval(uv)`: surface-side-based.cc 20-29 etc.; the caches of the parameterization may change. -/
def eval (ε : K) (uv : P2 K) (P : Patch K) : M (P3 K × Patch K) := do
  let r ← Param.mapToRibbons ε P.kind.param uv P.param
  let p ← P.evalWith ε r.1
  .ok (p, { P with param := r.2 })

/-- surface-midpoint.cc 60-65, `deficiency(p)`. -/
def deficiency (ε : K) (uv : P2 K) (P : Patch K) : M (K × Patch K) := do
  let r ← Param.mapToRibbons ε P.kind.param uv P.param
  let blends ← Surf.blendCornerDeficient ε P.surf.n r.1
  .ok (1 - blends.sum, { P with param := r.2 })

/-- surface-midpoint.cc 74-79: the default midpoint. -/
def defaultMidpoint (ε : K) (S : Surf K) : M (P3 K) := do
  let sum ← forLoop S.n (fun i p => do
    let q ← S.sideInterpolant ε i (1 / 2) (1 / 2)
    .ok (p + q)) 0
  Ribbon.vdiv sum (S.n : K)

/-- surface-midpoint.cc 73-80: the midpoint to be interpolated. -/
def currentMid (ε : K) (P : Patch K) : M (P3 K) := if P.midSet then .ok P.mid else defaultMidpoint ε P.surf

/-- surface-midpoint.cc 72-88, `updateCentralControlPoint()`. -/
def updateCentral (ε : K) (P : Patch K) : M (Patch K) := do
  let mid ← P.currentMid ε
  let center := P.dom.dom.center
  let P1 := { P with mid := mid, central := 0 }
  let s ← P1.eval ε center
  let def_ ← s.2.deficiency ε center
  if |def_.1| < ε then .ok { def_.2 with central := mid }
  else do
    let c ← Ribbon.vdiv (mid - s.1) def_.1
    .ok { def_.2 with central := c }

/-- surface-midpoint.cc 27, 33: `updateCentralControlPoint()` is called only in the midpoint classes. -/
def finish (ε : K) (P : Patch K) : M (Patch K) :=
  match P.kind with
  | .midpoint => updateCentral ε P
  | .midpointCoons => updateCentral ε P
  | _ => .ok P

/-- surface-midpoint.cc 47-52, `setMidpoint(p)`. -/
def setMidpoint (ε : K) (P : Patch K) (p : P3 K) : M (Patch K) := updateCentral ε { P with mid := p, midSet := true }

/-- surface-midpoint.cc 54-58, `unsetMidpoint()`. -/
def unsetMidpoint (ε : K) (P : Patch K) : M (Patch K) := updateCentral ε { P with midSet := false }

/-- surface.cc 117-125, `update()` (surface-midpoint.cc 30-34). Before `setupLoop` the ribbons have no
neighbours (`prev_.lock()` is null). -/
def update (ε : K) (P : Patch K) : M (Patch K) := do
  let P ← P.updateDomain
  if P.linked then do
    let S ← P.surf.updateAll ε
    finish ε { P with surf := S }
  else .error .nullPtr

/-- surface.cc 108-115, `update(i)` (surface-midpoint.cc 24-28). -/
def updateSide (ε : K) (P : Patch K) (i : ℕ) : M (Patch K) := do
  let P ← P.updateDomain
  if P.linked then do
    let S ← P.surf.updateOne ε i
    finish ε { P with surf := S }
  else .error .nullPtr

/-- surface.cc 142-152, `eval(resolution)`: the points and the triangles; the caches of the domain and the
parameterization may change. -/
def evalMesh (ε : K) (res : ℕ) (P : Patch K) : M ((List (P3 K) × List Domain.Tri) × Patch K) := do
  let topo ← Domain.meshTopology P.dom.dom.n res
  let uvs ← Domain.parameters (fun d => Domain.meshSize d.n) Domain.parametersImpl P.dom res
  let r ← forLoop uvs.1.length (fun k (st : List (P3 K) × Patch K) => do
    let uv ← vget uvs.1 k
    let x ← eval ε uv st.2
    .ok (st.1 ++ [x.1], x.2)) ([], { P with dom := uvs.2 })
  .ok ((r.1, topo.2), r.2)

/-- The public calls on a surface (surface.hh 20-39, surface-midpoint.hh 20-23), and the queries of `domain()` and
`parameterization()` that fill caches. -/
inductive Call (K : Type) where
  | gamma (g : Bool)
  | curve (i : ℕ) (c : Curve K)
  | curves (cs : List (Curve K))
  | loop
  | handler (i : ℕ) (h : P3 K)
  | mult (i : ℕ) (m : K)
  | fence (i : ℕ) (f : Option (K → P3 K))
  | reset (i : ℕ)
  | setMid (p : P3 K)
  | unsetMid
  | update
  | updateSide (i : ℕ)
  | eval (uv : P2 K)
  | mesh (res : ℕ)
  | domainParams (res : ℕ)
  | mapSide (i : ℕ) (uv : P2 K)
  | mapSides (uv : P2 K)

/-- The effect of one call on the object (surface.hh 24-40, surface-midpoint.hh 20-23). (Only the midpoint classes have the midpoint calls; for others it is an exception.) -/
def step (ε : K) (P : Patch K) : Call K → M (Patch K)
  | .gamma g => .ok (P.setGamma g)
  | .curve i c => P.setCurve i c
  | .curves cs => .ok (P.setCurves cs)
  | .loop => P.setupLoop
  | .handler i h => P.setRibbonHandler i h
  | .mult i m => P.setRibbonMultiplier i m
  | .fence i f => P.overrideNormalFence i f
  | .reset i => P.resetRibbon i
  | .setMid p => if P.kind = .midpoint ∨ P.kind = .midpointCoons then P.setMidpoint ε p else .error .exception
  | .unsetMid => if P.kind = .midpoint ∨ P.kind = .midpointCoons then P.unsetMidpoint ε else .error .exception
  | .update => P.update ε
  | .updateSide i => P.updateSide ε i
  | .eval uv => do let r ← P.eval ε uv; .ok r.2
  | .mesh res => do let r ← P.evalMesh ε res; .ok r.2
  | .domainParams res => do
    let r ← Domain.parameters (fun d => Domain.meshSize d.n) Domain.parametersImpl P.dom res
    .ok { P with dom := r.2 }
  | .mapSide i uv => do let r ← Param.mapToRibbon ε P.kind.param i uv P.param; .ok { P with param := r.2 }
  | .mapSides uv => do let r ← Param.mapToRibbons ε P.kind.param uv P.param; .ok { P with param := r.2 }

/-- A history of calls (surface.hh 24-40). -/
def run (ε : K) : Patch K → List (Call K) → M (Patch K)
  | P, [] => .ok P
  | P, c :: cs => do
    let P' ← P.step ε c
    run ε P' cs

end Patch

end Transfinite
