import Verif.Model.Patch

/-! # Model of `ribbonTest`, `showDeviations` and `surfaceTest` in test.cc

`n` is `surf->domain()->size()`. Writing the files and the time measurement are not modelled (the OBJ files are in Model/OBJ.lean);
the tangential test of test.cc 125-152 is in Model/DemoTangent.lean. -/

namespace Transfinite

namespace Demo

variable {K : Type} [Field K] [LinearOrder K] [Libm K]

/-- test.cc 44-52: the points of the fence; the parameter `resolution` of the program is `res`. -/
def fencePoints (ε : K) (n res : ℕ) (scaling : K) (S : Surf K) : M (List (P3 K)) :=
  forLoop n (fun i pv => forLoop res (fun j pv => do
    let u ← fdiv (j : K) (res : K)
    let r ← vget S.ribbons i
    let m ← r.normal ε u
    .ok (pv ++ [r.curve.pt u, r.curve.pt u + scaling • m])) pv) []

/-- test.cc 54-62: the triangles of the fence; `size - 2` is unsigned: for `size` = 0 it wraps around, and the loop adds triangles until
the memory is exhausted (`diverge`). Simplified: the size is even, so the `while` loop is a counting loop. -/
def fenceTriangles (size : ℕ) : M (List Domain.Tri) := do
  if size < 2 then .error .diverge
  let st ← forLoop ((size - 2) / 2) (fun _ (st : ℕ × List Domain.Tri) =>
    let index := st.1
    .ok (index + 2, st.2 ++ [(index, index + 1, index + 2), (index + 1, index + 3, index + 2)])) (0, [])
  .ok (st.2 ++ [(st.1, st.1 + 1, 0), (st.1 + 1, 1, 0)])

/-- test.cc 39-62: the fence. -/
def fence (ε : K) (n res : ℕ) (scaling : K) (S : Surf K) : M (List (P3 K) × List Domain.Tri) := do
  let pts ← fencePoints ε n res scaling S
  let ts ← fenceTriangles (n * res * 2)
  .ok (pts, ts)

/-- test.cc 67-74: the points of the ribbons; `len` is `ribbon_length`. -/
def ribbonPoints (ε : K) (n res : ℕ) (len : K) (S : Surf K) : M (List (P3 K)) :=
  forLoop n (fun i pv => forLoop (res + 1) (fun j pv => do
    let u ← fdiv (j : K) (res : K)
    let r ← vget S.ribbons i
    let p ← r.eval ε ⟨u, len⟩
    .ok (pv ++ [r.curve.pt u, p])) pv) []

/-- test.cc 76-85: the triangles of the ribbons. -/
def ribbonTriangles (n res : ℕ) : M (List Domain.Tri) := do
  let st ← forLoop n (fun _ (st : ℕ × List Domain.Tri) => do
    let st ← forLoop res (fun _ (st : ℕ × List Domain.Tri) =>
      let index := st.1
      .ok (index + 2, st.2 ++ [(index, index + 1, index + 2), (index + 1, index + 3, index + 2)])) st
    .ok (st.1 + 2, st.2)) (0, [])
  .ok st.2

/-- test.cc 65-85: the ribbons. -/
def ribbons (ε : K) (n res : ℕ) (len : K) (S : Surf K) : M (List (P3 K) × List Domain.Tri) := do
  let pts ← ribbonPoints ε n res len S
  let ts ← ribbonTriangles n res
  .ok (pts, ts)

/-- test.cc 118-121: the body of the loops of the positional test; the state is `max_pos_error` and the surface (with its caches). -/
def positionalStep (ε : K) (i j : ℕ) (st : K × Patch K) : M (K × Patch K) := do
  let s ← fdiv (j : K) 40
  let uv ← st.2.dom.dom.edgePoint i s
  let x ← st.2.eval ε uv
  let r ← vget st.2.surf.ribbons i
  .ok (max st.1 (x.1 - r.curve.pt s).norm, x.2)

/-- test.cc 114-123: the positional error printed by `showDeviations`. -/
def positionalError (ε : K) (P : Patch K) : M (K × Patch K) :=
  forLoop P.dom.dom.n (fun i st => forLoop 41 (fun j st => positionalStep ε i j st) st) (0, P)

/-- test.cc 182-186: the midpoint chosen by `surfaceTest`: the average of the points of the ribbons at (0.6, 0.4). -/
def chosenMidpoint (ε : K) (P : Patch K) : M (P3 K) := do
  let sum ← forLoop P.dom.dom.n (fun i p => do
    let r ← vget P.surf.ribbons i
    let q ← r.eval ε ⟨3 / 5, 2 / 5⟩
    .ok (p + q)) 0
  let k ← fdiv 1 (P.dom.dom.n : K)
  .ok (k • sum)

/-- test.cc 181-189: the midpoint error printed by `surfaceTest`, a squared distance. -/
def midpointError (ε : K) (P : Patch K) : M (K × Patch K) := do
  let m ← chosenMidpoint ε P
  let P1 ← P.step ε (.setMid m)
  let x ← P1.eval ε P1.dom.dom.center
  .ok ((x.1 - m).normSqr, x.2)

end Demo

end Transfinite
