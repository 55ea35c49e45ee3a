import Verif.Model.Ribbon
import Verif.Model.ParamCache

/-! # Model of `surface.cc` and of the transfinite surface classes -/

namespace Transfinite

variable {K : Type} [Field K] [LinearOrder K] [Libm K]

/-- surface.hh 61-64, `CornerData`. -/
structure Corner (K : Type) where
  point : P3 K
  tangent1 : P3 K
  tangent2 : P3 K
  twist1 : P3 K
  twist2 : P3 K

/-- The part of a surface used by the interpolants (surface.hh 55-72): the ribbons, the corner data, and
`use_gamma_`. `n_` is the number of ribbons. -/
structure Surf (K : Type) where
  useGamma : Bool
  ribbons : List (Ribbon K)
  corners : List (Corner K)

namespace Surf

/-- surface.hh 55: `n_`, equal to the number of `ribbons_` (surface.cc 30, 46). -/
def n (S : Surf K) : ℕ := S.ribbons.length

/-- surface.cc 292-297, `gamma(d)`. -/
def gamma (S : Surf K) (d : K) : M K := if S.useGamma then fdiv d (2 * d + 1) else .ok d

/-- surface.cc 299-304, `rationalTwist(u, v, f, g)`. -/
def rationalTwist (ε u v : K) (f g : P3 K) : M (P3 K) :=
  if |u + v| < ε then .ok 0 else Ribbon.vdiv (u • f + v • g) (u + v)

/-- surface.cc 153-163, `cornerCorrection(i, s1, s2)`. -/
def cornerCorrection (ε : K) (S : Surf K) (i : ℕ) (s1 s2 : K) : M (P3 K) := do
  let g1 ← S.gamma s1
  let g2 ← S.gamma s2
  let s1 := Domain.clamp g1 0 1
  let s2 := Domain.clamp g2 0 1
  let c ← vget S.corners i
  let t ← rationalTwist ε s1 s2 c.twist2 c.twist1
  .ok (c.point + s1 • c.tangent1 + s2 • c.tangent2 + (s1 * s2) • t)

/-- surface.cc 165-170, `sideInterpolant(i, si, di)`. -/
def sideInterpolant (ε : K) (S : Surf K) (i : ℕ) (si di : K) : M (P3 K) := do
  let g ← S.gamma di
  let r ← vget S.ribbons i
  r.eval ε ⟨Domain.clamp si 0 1, max g 0⟩

/-- surface.cc 172-177, `cornerInterpolant(i, sds)`. -/
def cornerInterpolant (ε : K) (S : Surf K) (i : ℕ) (sds : List (P2 K)) : M (P3 K) := do
  let sd ← vget sds i
  let sd1 ← vget sds (nextIx S.n i)
  let a ← S.sideInterpolant ε i sd.x sd1.x
  let b ← S.sideInterpolant ε (nextIx S.n i) sd1.x (1 - sd.x)
  let c ← S.cornerCorrection ε i (1 - sd.x) sd1.x
  .ok (a + b - c)

/-- surface.cc 179-184, `cornerInterpolantD(i, sds)`. -/
def cornerInterpolantD (ε : K) (S : Surf K) (i : ℕ) (sds : List (P2 K)) : M (P3 K) := do
  let sd ← vget sds i
  let sd1 ← vget sds (nextIx S.n i)
  let a ← S.sideInterpolant ε i (1 - sd1.y) sd.y
  let b ← S.sideInterpolant ε (nextIx S.n i) sd.y sd1.y
  let c ← S.cornerCorrection ε i sd1.y sd.y
  .ok (a + b - c)

/-- surface.cc 202-206, 213, 240: `std::pow(x, -2)`. -/
def invSq (x : K) : M K := fdiv 1 (x ^ 2)

/-- surface.cc 201-206, the quotient of two inverse squares. -/
def closeWeight (x y : K) : M K := do
  let a ← invSq x
  let b ← invSq y
  fdiv a (a + b)

/-- surface.cc 198-208: the `i`-th corner blend when there are `close > 0` sides within the tolerance. -/
def closeBlend (ε : K) (n close : ℕ) (sds : List (P2 K)) (i : ℕ) : M K := do
  let sd ← vget sds i
  let sp ← vget sds (nextIx n i)
  let sm ← vget sds (prevIx n i)
  let sq ← vget sds (nextIx n (nextIx n i))
  if close > 1 then .ok (if sd.y < ε ∧ sp.y < ε then 1 else 0)
  else if sd.y < ε then closeWeight sp.y sm.y
  else if sp.y < ε then closeWeight sd.y sq.y
  else .ok 0

/-- surface.cc 186-221, `blendCorner(sds)`. -/
def blendCorner (ε : K) (n : ℕ) (sds : List (P2 K)) : M (List K) :=
  let close := sds.countP fun sd => sd.y < ε
  if close > 0 then
    forLoop n (fun i (l : List K) => do
      let x ← closeBlend ε n close sds i
      .ok (l ++ [x])) []
  else do
    let blf ← forLoop n (fun i (l : List K) => do
      let sd ← vget sds i
      let sp ← vget sds (nextIx n i)
      let x ← invSq (sd.y * sp.y)
      .ok (l ++ [x])) []
    blf.mapM fun x => fdiv x blf.sum

/-- surface.cc 223-248, `blendSideSingular(sds)`. -/
def blendSideSingular (ε : K) (sds : List (P2 K)) : M (List K) :=
  let close := sds.countP fun sd => sd.y < ε
  if close > 0 then do
    let val ← fdiv 1 (close : K)
    .ok (sds.map fun sd => if sd.y < ε then val else 0)
  else do
    let blf ← sds.mapM fun sd => invSq sd.y
    blf.mapM fun x => fdiv x blf.sum

/-- surface.cc 254-261: the `i`-th deficient blend. -/
def deficientBlend (ε : K) (sd sp : P2 K) : M K :=
  if sd.y < ε ∧ sp.y < ε then .ok 1
  else fdiv (sp.y * hermite 0 (1 - sd.x) * hermite 0 sd.y + sd.y * hermite 0 sp.x * hermite 0 sp.y) (sd.y + sp.y)

/-- surface.cc 250-264, `blendCornerDeficient(sds)`. -/
def blendCornerDeficient (ε : K) (n : ℕ) (sds : List (P2 K)) : M (List K) :=
  forLoop n (fun i (l : List K) => do
    let sd ← vget sds i
    let sp ← vget sds (nextIx n i)
    let x ← deficientBlend ε sd sp
    .ok (l ++ [x])) []

/-- surface.cc 268, `step`. -/
def cornerStep : K := 1 / 10000

/-- surface.cc 266-283: the new value of `corner_data_[i]`. -/
def cornerOf (ε : K) (ribbons : List (Ribbon K)) (i : ℕ) : M (Corner K) := do
  let r ← vget ribbons i
  let rp ← vget ribbons (nextIx ribbons.length i)
  let d1 ← r.crossDerivative ε 1
  let d2 ← r.crossDerivative ε (1 - cornerStep)
  let twist1 ← Ribbon.vdiv (d2 - d1) cornerStep
  let e1 ← rp.crossDerivative ε 0
  let e2 ← rp.crossDerivative ε cornerStep
  let twist2 ← Ribbon.vdiv (e2 - e1) cornerStep
  .ok ⟨r.curve.pt 1, -r.curve.der 1, rp.curve.der 0, twist1, twist2⟩

/-- surface.cc 266-283, `updateCorner(i)`. -/
def updateCorner (ε : K) (S : Surf K) (i : ℕ) : M (Surf K) := do
  let c ← cornerOf ε S.ribbons i
  let cs ← vset S.corners i c
  .ok { S with corners := cs }

/-- surface.cc 285-290, `updateCorners()`; `resize` keeps the first elements and adds default ones. -/
def updateCorners (ε : K) (S : Surf K) : M (Surf K) :=
  let cs := S.corners.take S.n ++ List.replicate (S.n - S.corners.length) ⟨0, 0, 0, 0, 0⟩
  forLoop S.n (fun i S => S.updateCorner ε i) { S with corners := cs }

/-- The curves read by the update of ribbon `i`, after `setupLoop` has set the neighbours
(surface.cc 55-57); `right2 == left_` of ribbon-coons.cc 19 holds for three sides when the curve objects are distinct. -/
def neighbors (ribbons : List (Ribbon K)) (i : ℕ) : M (Neighbors K) := do
  let n := ribbons.length
  let p ← vget ribbons (prevIx n i)
  let q ← vget ribbons (nextIx n i)
  let p2 ← vget ribbons (prevIx n (prevIx n i))
  let q2 ← vget ribbons (nextIx n (nextIx n i))
  .ok ⟨p.curve, q.curve, p2.curve, q2.curve, decide (n = 3)⟩

/-- `ribbons_[i]->update()` (surface.cc 113, 122-123). -/
def updateRibbon (ε : K) (ribbons : List (Ribbon K)) (i : ℕ) : M (List (Ribbon K)) := do
  let nb ← neighbors ribbons i
  let r ← vget ribbons i
  let r' ← r.update ε nb
  vset ribbons i r'

/-- surface.cc 113-115, the part of `update(i)` after the domain and the parameterization. -/
def updateOne (ε : K) (S : Surf K) (i : ℕ) : M (Surf K) := do
  let rs ← updateRibbon ε S.ribbons i
  let S ← updateCorner ε { S with ribbons := rs } (prevIx S.n i)
  S.updateCorner ε i

/-- surface.cc 122-124, the part of `update()` after the domain and the parameterization. -/
def updateAll (ε : K) (S : Surf K) : M (Surf K) := do
  let rs ← forLoop S.n (fun i rs => updateRibbon ε rs i) S.ribbons
  updateCorners ε { S with ribbons := rs }

/-! ### Evaluation, given the result of `mapToRibbons(uv)` -/

/-- surface-side-based.cc 21-29. -/
def sideBased (ε : K) (S : Surf K) (sds : List (P2 K)) : M (P3 K) := do
  let blends ← blendSideSingular ε sds
  forLoop S.n (fun i p => do
    let sd ← vget sds i
    let q ← S.sideInterpolant ε i sd.x sd.y
    let b ← vget blends i
    .ok (p + b • q)) 0

/-- surface-corner-based.cc 21-29. -/
def cornerBased (ε : K) (S : Surf K) (sds : List (P2 K)) : M (P3 K) := do
  let blends ← blendCorner ε S.n sds
  forLoop S.n (fun i p => do
    let q ← S.cornerInterpolant ε i sds
    let b ← vget blends i
    .ok (p + b • q)) 0

/-- surface-generalized-coons.cc 25-31 = surface-midpoint-coons.cc 28-33: the sum of sides minus corners. -/
def coonsSum (ε : K) (S : Surf K) (sds : List (P2 K)) (blends : List K) : M (P3 K) :=
  forLoop S.n (fun i p => do
    let sd ← vget sds i
    let sd1 ← vget sds (nextIx S.n i)
    let b ← vget blends i
    let b' ← vget blends (prevIx S.n i)
    let q ← S.sideInterpolant ε i sd.x sd.y
    let c ← S.cornerCorrection ε i (1 - sd.x) sd1.x
    .ok (p + (b + b') • q - b • c)) 0

/-- surface-generalized-coons.cc 21-32. -/
def generalizedCoons (ε : K) (S : Surf K) (sds : List (P2 K)) : M (P3 K) := do
  let blends ← blendCorner ε S.n sds
  S.coonsSum ε sds blends

/-- surface-composite-ribbon.cc 37-46, `compositeRibbon(i, sd)`. -/
def compositeRibbon (ε : K) (S : Surf K) (i : ℕ) (sd : P2 K) : M (P3 K) := do
  let s := sd.x
  let d := sd.y
  let s1 := 1 - s
  let d1 := 1 - d
  let Hs := hermite 0 s
  let Hd := hermite 0 d
  let Hs1 := 1 - Hs
  let a ← S.sideInterpolant ε i s d
  let b ← S.sideInterpolant ε (prevIx S.n i) d1 s
  let c ← S.sideInterpolant ε (nextIx S.n i) d s1
  let e ← S.cornerCorrection ε (prevIx S.n i) d s
  let f ← S.cornerCorrection ε i s1 d
  .ok (Hd • a + Hs • b + Hs1 • c - (Hs * Hd) • e - (Hs1 * Hd) • f)

/-- surface-composite-ribbon.cc 22-30. -/
def composite (ε : K) (S : Surf K) (sds : List (P2 K)) : M (P3 K) := do
  let blends ← blendCorner ε S.n sds
  let p ← forLoop S.n (fun i p => do
    let sd ← vget sds i
    let q ← S.compositeRibbon ε i sd
    let b ← vget blends i
    let b' ← vget blends (prevIx S.n i)
    .ok (p + (b + b') • q)) 0
  .ok ((1 / 2 : K) • p)

/-- surface-midpoint.cc 36-45; `central` is `central_cp_`. -/
def midpoint (ε : K) (central : P3 K) (S : Surf K) (sds : List (P2 K)) : M (P3 K) := do
  let blends ← blendCornerDeficient ε S.n sds
  let p ← forLoop S.n (fun i p => do
    let q ← S.cornerInterpolant ε i sds
    let b ← vget blends i
    .ok (p + b • q)) 0
  .ok (p + (1 - blends.sum) • central)

/-- surface-midpoint-coons.cc 24-36. -/
def midpointCoons (ε : K) (central : P3 K) (S : Surf K) (sds : List (P2 K)) : M (P3 K) := do
  let blends ← blendCornerDeficient ε S.n sds
  let p ← S.coonsSum ε sds blends
  .ok (p + (1 - blends.sum) • central)

/-- surface-c0coons.cc 21-28. -/
def c0Coons (ε : K) (S : Surf K) (sds : List (P2 K)) : M (P3 K) :=
  forLoop S.n (fun i p => do
    let sd ← vget sds i
    let r ← vget S.ribbons i
    let q ← r.eval ε sd
    .ok (p + ((1 - sd.y) / 2) • q)) 0

/-- surface-nsided.cc 36-42: the `return` statement precedes the loop, which is dead code. (The blends are
computed, but not used; their computation has no other effect than a possible division by zero.) -/
def nsided (ε : K) (S : Surf K) (sds blendSds : List (P2 K)) : M (P3 K) := do
  let _ ← blendSideSingular ε blendSds
  let r ← vget S.ribbons 3
  let sd ← vget sds 3
  r.eval ε sd

end Surf

end Transfinite
