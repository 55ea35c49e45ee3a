import Verif.Model.GenBezier
import Verif.Spec.Net

/-! # Model of the loop over all control points of a Generalized Bézier patch

The same loop header is used in io.cc 118-125, 151-158, 174-181, 194-201 and gb-fit.cc 118-125, 145-152, 176-183, 201-208. -/

namespace Transfinite

open Spec

/-- io.cc 119-125 (and the other places): the first statement of the loop body, which may move to the next side or the next row. -/
def enumHead (n d : ℕ) (a : Name) : Name :=
  if usub d a.row ≤ a.col then
    (if n ≤ a.side + 1 then ⟨0, a.row + 1, a.row + 1⟩ else ⟨a.side + 1, a.row, a.row⟩)
  else a

/-- The loop of io.cc 118-130 (also 151-161, 174-189, 194-204, gb-fit.cc 118-138, 145-160, 176-190, 201-212): `i` is the loop counter, then the number of remaining iterations, the variables `side`, `col`, `row`, and the state. -/
def enumLoop {σ : Type} (n d : ℕ) (body : ℕ → Name → σ → M σ) : ℕ → ℕ → Name → σ → M σ
  | _, 0, _, s => .ok s
  | i, m + 1, a, s => do
    let b := enumHead n d a
    let s ← body i b s
    enumLoop n d body (i + 1) m ⟨b.side, b.col + 1, b.row⟩ s

/-- io.cc 108-110: the number of control points without the central one (`cp - 1`). -/
def enumCount (n d : ℕ) : ℕ := n * (1 + d / 2) * ((d + 1) / 2)

/-- The `t`-th point visited by the loop (io.cc 118-130) when it starts with the variables `a`. -/
def enumPos (n d : ℕ) : Name → ℕ → Name
  | a, 0 => enumHead n d a
  | a, t + 1 => enumPos n d ⟨(enumHead n d a).side, (enumHead n d a).col + 1, (enumHead n d a).row⟩ t

end Transfinite
