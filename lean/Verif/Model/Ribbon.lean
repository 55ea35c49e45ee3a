import Verif.Model.RMF
import Verif.Model.Utilities

/-! # Model of the ribbon classes (`ribbon*.cc`)

Shared and weak pointers are resolved: `update` receives the curves of the neighbouring ribbons. -/

namespace Transfinite

variable {K : Type} [Field K] [LinearOrder K] [Libm K]

/-- The ribbon classes: ribbon-compatible.hh 7, ribbon-compatible-with-handler.hh 7, ribbon-coons.hh 7, ribbon-perpendicular.hh 7,
ribbon-nsided.hh 7, ribbon-dummy.hh 7. -/
inductive RibbonKind where
  | compatible
  | handler
  | coons
  | perpendicular
  | nsided
  | dummy
  deriving DecidableEq, Repr

/-- The data of a ribbon of any of the classes: ribbon.hh 33-39, ribbon-compatible.hh 14 (`prevT`, `nextT`),
ribbon-compatible-with-handler.hh 14 (`central`), ribbon-coons.hh 15-16 (`left` ... `tr`; `top_` is kept as its
control points), ribbon-perpendicular.hh 14-15 (`pa` ... `nn`), ribbon-nsided.hh 15 (`baseLength`).
Members not used by a class keep their initial value. -/
structure Ribbon (K : Type) where
  kind : RibbonKind
  curve : Curve K
  mult : K
  handlerV : P3 K
  handlerInit : Bool
  fence : Option (K → P3 K)
  rmf : RMF.Rmf K
  prevT : P3 K
  nextT : P3 K
  central : P3 K
  left : Curve K
  right : Curve K
  top : List (P3 K)
  bl : P3 K
  br : P3 K
  tl : P3 K
  tr : P3 K
  pa : K
  pb : K
  pn : K
  na : K
  nb : K
  nn : K
  baseLength : K

/-- The curves that `update` of a ribbon reads: those of the previous and next ribbon, of the ribbons
before and after those, and whether `right2 == left_` as pointers (ribbon-coons.cc 15-19). -/
structure Neighbors (K : Type) where
  prev : Curve K
  next : Curve K
  prev2 : Curve K
  next2 : Curve K
  three : Bool

namespace Ribbon

/-- ribbon.cc 5-6 and 21-24: a new ribbon with a curve; members without an initial value are zero. -/
def new (kind : RibbonKind) (c : Curve K) : Ribbon K :=
  { kind := kind, curve := c, mult := 1, handlerV := 0, handlerInit := false, fence := none, rmf := ⟨c, [], 0⟩,
    prevT := 0, nextT := 0, central := 0, left := c, right := c, top := [], bl := 0, br := 0, tl := 0, tr := 0,
    pa := 0, pb := 0, pn := 0, na := 0, nb := 0, nn := 0, baseLength := 0 }

/-- ribbon.cc 37-40. -/
def setMultiplier (r : Ribbon K) (m : K) : Ribbon K := { r with mult := m }

/-- ribbon.cc 42-47, `handler()`. -/
def handler (r : Ribbon K) : Option (P3 K) := if r.handlerInit then some r.handlerV else none

/-- ribbon.cc 49-54. -/
def setHandler (r : Ribbon K) (h : P3 K) : M (Ribbon K) := do
  let h ← h.normalize
  .ok { r with handlerV := h, handlerInit := true }

/-- ribbon.cc 56-59 -/
def overrideNormalFence (r : Ribbon K) (f : Option (K → P3 K)) : Ribbon K := { r with fence := f }

/-- ribbon.cc 61-65 (the normal fence is kept). -/
def reset (r : Ribbon K) : Ribbon K := { r with mult := 1, handlerInit := false }

/-- ribbon.cc 67-88, `Ribbon::update()`. -/
def baseUpdate (ε : K) (nb : Neighbors K) (r : Ribbon K) : M (Ribbon K) := do
  let start ← (P3.cross (nb.prev.der 1) (r.curve.der 0)).normalize
  let fin ← (P3.cross (r.curve.der 1) (nb.next.der 0)).normalize
  let rmf ← RMF.update ε RMF.resolution r.curve start fin
  .ok { r with rmf := rmf }

/-- ribbon.cc 95-100, `normal(s)`. -/
def normal (ε : K) (r : Ribbon K) (s : K) : M (P3 K) :=
  match r.fence with
  | some f => .ok (f s)
  | none => RMF.eval ε r.rmf s

/-- ribbon-compatible.cc 8-17. -/
def compatibleUpdate (ε : K) (nb : Neighbors K) (r : Ribbon K) : M (Ribbon K) :=
  baseUpdate ε nb { r with prevT := -nb.prev.der 1, nextT := nb.next.der 0 }

/-- The expression `v - n * (v * n)` of ribbon-compatible.cc 22-23 etc. -/
def project (n v : P3 K) : P3 K := v - P3.dot v n • n

/-- libgeom `v / x` (ribbon-compatible-with-handler.cc 13, 17, surface-midpoint.cc 88). -/
def vdiv (v : P3 K) (x : K) : M (P3 K) := do
  let k ← fdiv 1 x
  .ok (k • v)

/-- ribbon-compatible-with-handler.cc 12-16: the value of `handler_` (`n` is the normal at 1/2). -/
def effectiveHandler (r : Ribbon K) (n : P3 K) : M (P3 K) :=
  if r.handlerInit then .ok r.handlerV
  else do
    let a ← vdiv r.prevT r.prevT.norm
    let b ← vdiv r.nextT r.nextT.norm
    (project n (a + b)).normalize

/-- ribbon-compatible-with-handler.cc 8-18. -/
def handlerUpdate (ε : K) (nb : Neighbors K) (r : Ribbon K) : M (Ribbon K) := do
  let r ← compatibleUpdate ε nb r
  let n ← normal ε r (1 / 2)
  let h ← effectiveHandler r n
  .ok { r with handlerV := h, central := ((r.prevT.norm + r.nextT.norm) / 2 * r.mult) • h }

/-- The Bézier curve with the given control points (libgeom `BSCurve(PointVector)`), evaluated by the
Bernstein polynomials of utilities.cc 39-53. Any number of points, at least one. -/
def bezierPt (cp : List (P3 K)) (u : K) : M (P3 K) := do
  let b ← bernsteinAll (cp.length - 1) u
  forLoop cp.length (fun i p => do
    let c ← vget cp i
    let x ← vget b i
    .ok (p + x • c)) 0

/-- ribbon-coons.cc 11-34. -/
def coonsUpdate (ε : K) (nb : Neighbors K) (r : Ribbon K) : M (Ribbon K) :=
  let p1 := nb.prev.pt 0
  let q1 := nb.next.pt 1
  let top :=
    if nb.three then [p1]
    else [q1, q1 + (1 / 3 : K) • nb.next2.der 0, p1 - (1 / 3 : K) • nb.prev2.der 1, p1]
  baseUpdate ε nb { r with
    left := nb.prev, right := nb.next, top := top,
    bl := r.curve.pt 0, br := r.curve.pt 1, tl := p1, tr := q1 }

/-- ribbon-perpendicular.cc 8-27. -/
def perpUpdate (ε : K) (nb : Neighbors K) (r : Ribbon K) : M (Ribbon K) := do
  let r ← baseUpdate ε nb r
  let t0 ← (r.curve.der 0).normalize
  let t1 ← (r.curve.der 1).normalize
  let pt := -nb.prev.der 1
  let nt := nb.next.der 0
  let n0 ← normal ε r 0
  let n1 ← normal ε r 1
  let b0 := P3.cross n0 t0
  let b1 := P3.cross n1 t1
  let pt' ← vdiv pt pt.norm
  let nt' ← vdiv nt nt.norm
  .ok { r with
    pn := pt.norm, nn := nt.norm,
    pa := P3.dot pt' b0, pb := P3.dot pt' t0,
    na := P3.dot nt' b1, nb := P3.dot nt' t1 }

/-- ribbon-nsided.cc 12-17. -/
def nsidedUpdate (ε : K) (nb : Neighbors K) (r : Ribbon K) : M (Ribbon K) :=
  baseUpdate ε nb { r with baseLength := r.curve.arc 0 1 }

/-- The virtual function `update()` (ribbon.hh 27); ribbon-dummy.hh 10. -/
def update (ε : K) (nb : Neighbors K) (r : Ribbon K) : M (Ribbon K) :=
  match r.kind with
  | .compatible => compatibleUpdate ε nb r
  | .handler => handlerUpdate ε nb r
  | .coons => coonsUpdate ε nb r
  | .perpendicular => perpUpdate ε nb r
  | .nsided => nsidedUpdate ε nb r
  | .dummy => .ok r

/-- ribbon-compatible.cc 19-25. -/
def compatibleCross (ε : K) (r : Ribbon K) (s : K) : M (P3 K) := do
  let n ← normal ε r s
  .ok ((1 - s) • project n r.prevT + s • project n r.nextT)

/-- ribbon-compatible-with-handler.cc 20-29. -/
def handlerCross (ε : K) (r : Ribbon K) (s : K) : M (P3 K) := do
  let n ← normal ε r s
  .ok ((2 * (s - 1) * (s - 1 / 2)) • project n r.prevT +
    (-4 * s * (s - 1)) • project n r.central +
    (2 * s * (s - 1 / 2)) • project n r.nextT)

/-- ribbon-perpendicular.cc 29-41. -/
def perpCross (ε : K) (r : Ribbon K) (s : K) : M (P3 K) := do
  let t ← (r.curve.der s).normalize
  let n ← normal ε r s
  let size := r.pn * (1 - s) + r.nn * s
  let alpha := r.pa * 2 * (s - 1) * (s - 1 / 2) + r.na * 2 * s * (s - 1 / 2) - 4 * s * (s - 1)
  let beta := r.pb * 2 * (s - 1) * (s - 1 / 2) + r.nb * 2 * s * (s - 1 / 2)
  .ok (size • (alpha • P3.cross n t + beta • t))

/-- ribbon-nsided.cc 19-35. -/
def nsidedCross (ε : K) (r : Ribbon K) (s : K) : M (P3 K) := do
  let n ← normal ε r s
  let u := Domain.clamp s 0 1
  let d ← (r.curve.der u).normalize
  if s = u then .ok (P3.cross n d)
  else
    let phi := if s < 0 then -s else s - 1
    let d := if s < 0 then -d else d
    .ok (Libm.cos phi • P3.cross d n + Libm.sin phi • d)

/-- The virtual function `crossDerivative(s)` (ribbon.hh 28); ribbon-coons.cc 36-40, ribbon-dummy.hh 11. -/
def crossDerivative (ε : K) (r : Ribbon K) (s : K) : M (P3 K) :=
  match r.kind with
  | .compatible => compatibleCross ε r s
  | .handler => handlerCross ε r s
  | .coons => .ok 0
  | .perpendicular => perpCross ε r s
  | .nsided => nsidedCross ε r s
  | .dummy => .ok 0

/-- ribbon.cc 90-93, `Ribbon::eval(sd)`. -/
def baseEval (ε : K) (r : Ribbon K) (sd : P2 K) : M (P3 K) := do
  let c ← crossDerivative ε r sd.x
  .ok (r.curve.pt sd.x + sd.y • c)

/-- ribbon-coons.cc 42-50. -/
def coonsEval (r : Ribbon K) (sd : P2 K) : M (P3 K) := do
  let s := Domain.clamp sd.x 0 1
  let d := Domain.clamp sd.y 0 1
  let s1 := Domain.clamp (1 - s) 0 1
  let d1 := Domain.clamp (1 - d) 0 1
  let t ← bezierPt r.top s1
  let p1 := d1 • r.curve.pt s + d • t
  let p2 := s1 • r.left.pt d1 + s • r.right.pt d
  let p12 := d1 • (s1 • r.bl + s • r.br) + d • (s1 • r.tl + s • r.tr)
  .ok (p1 + p2 - p12)

/-- ribbon-nsided.cc 37-46. -/
def nsidedEval (ε : K) (r : Ribbon K) (sd : P2 K) : M (P3 K) := do
  let u := Domain.clamp sd.x 0 1
  let c ← crossDerivative ε r sd.x
  .ok (r.curve.pt u + (sd.y * r.baseLength) • c)

/-- The virtual function `eval(sd)` (ribbon.hh 29). -/
def eval (ε : K) (r : Ribbon K) (sd : P2 K) : M (P3 K) :=
  match r.kind with
  | .coons => coonsEval r sd
  | .nsided => nsidedEval ε r sd
  | _ => baseEval ε r sd

end Ribbon

end Transfinite
