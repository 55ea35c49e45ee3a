import Verif.Model.Curve
import Verif.Model.DomainKinds

/-! # Model of `rmf.cc` (rotation minimizing frames) -/

namespace Transfinite

namespace RMF

variable {K : Type} [Field K] [LinearOrder K] [Libm K]

/-- rmf.hh 18-25, `Frame`. -/
structure Frame (K : Type) where
  u : K
  s : K
  p : P3 K
  d : P3 K
  n : P3 K

/-- rmf.cc 9, `resolution_`. -/
def resolution : ℕ := 100

/-- rmf.cc 89-108, `nextFrame(prev, u)`. -/
def nextFrame (ε : K) (c : Curve K) (prev : Frame K) (u : K) : M (Frame K) := do
  let der1 ← (c.der u).normalize
  let v1 := c.pt u - prev.p
  let c1 := P3.normSqr v1
  if c1 < ε then .ok prev
  else do
    let k1 ← fdiv 2 c1
    let v2 := k1 • v1
    let nL := prev.n - P3.dot v1 prev.n • v2
    let dL := prev.d - P3.dot v1 prev.d • v2
    let v2 := der1 - dL
    let c2 := P3.normSqr v2
    let nNext ←
      if c2 < ε then .ok nL
      else do
        let k2 ← fdiv 2 c2
        .ok (nL - P3.dot v2 nL • k2 • v2)
    .ok ⟨u, prev.s + c.arc prev.u u, c.pt u, der1, nNext⟩

/-- rmf.cc 60-77 (`rotationMatrix`) and 79-87 (`rotateFrame`): the product of the matrix with the
normal vector, written out. -/
def rotate (axis : P3 K) (theta : K) (n : P3 K) : P3 K :=
  let x := axis.x
  let y := axis.y
  let z := axis.z
  let c := Libm.cos theta
  let c1 := 1 - c
  let s := Libm.sin theta
  ⟨(c + x * x * c1) * n.x + (x * y * c1 - z * s) * n.y + (x * z * c1 + y * s) * n.z,
   (y * x * c1 + z * s) * n.x + (c + y * y * c1) * n.y + (y * z * c1 - x * s) * n.z,
   (z * x * c1 - y * s) * n.x + (z * y * c1 + x * s) * n.y + (c + z * z * c1) * n.z⟩

/-- The members of a `RMF` object (rmf.hh 32-35). -/
structure Rmf (K : Type) where
  curve : Curve K
  frames : List (Frame K)
  angleCorrection : K

/-- rmf.cc 31-40: the frames; `res` is `resolution_`. The state of the loop is `(frames_, f)`. -/
def computeFrames (ε : K) (res : ℕ) (c : Curve K) (start : P3 K) : M (List (Frame K) × Frame K) := do
  let d ← (c.der 0).normalize
  let f : Frame K := ⟨0, 0, c.pt 0, d, start⟩
  let st ← forLoop res (fun i (st : List (Frame K) × Frame K) => do
    let u ← fdiv ((i + 1 : ℕ) : K) (res : K)
    let f ← nextFrame ε c st.2 u
    .ok (st.1 ++ [st.2], f)) ([], f)
  .ok (st.1 ++ [st.2], st.2)

/-- rmf.cc 26-49, `update()` after `setCurve(c)`, `setStart(start)` and `setEnd(fin)`. -/
def update (ε : K) (res : ℕ) (c : Curve K) (start fin : P3 K) : M (Rmf K) := do
  let fs ← computeFrames ε res c start
  let f := fs.2
  let a := Libm.acos (Domain.clamp (P3.dot fin f.n) (-1) 1)
  let a := if P3.dot (P3.cross (f.n - fin) fin) f.d < 0 then -a else a
  let a ← fdiv a f.s
  .ok ⟨c, fs.1, a⟩

/-- rmf.cc 51-58, `eval(u)`. `std::upper_bound` finds the first frame with `u < f.u` (the frames are
sorted by their parameters); decrementing an iterator at the beginning is out of range. -/
def eval (ε : K) (r : Rmf K) (u : K) : M (P3 K) := do
  let i := r.frames.findIdx fun f => u < f.u
  if i = 0 then .error .oob
  else do
    let g ← vget r.frames (i - 1)
    let f ← nextFrame ε r.curve g u
    .ok (rotate f.d (f.s * r.angleCorrection) f.n)

end RMF

end Transfinite
