import Verif.Model.Enumeration

/-! # Model of the input and output of Generalized Bézier patches in io.cc

A text file is a list of tokens (white space is not modelled, and files can always be opened). Numbers are converted to tokens and back by the
functions of a `Fmt`, which are arbitrary: C++ prints floating-point numbers with 6 digits, so reading a printed number does not give the same number. -/

namespace Transfinite

open Spec

variable {K : Type} [Field K] [LinearOrder K] [Libm K] {T : Type}

/-- `operator<<` of output streams and `operator>>` of input streams (io.cc 107, 115, 143, 149), on `size_t` and `double`; `none` when a token is not a number. -/
structure Fmt (K T : Type) where
  printNat : ℕ → T
  printNum : K → T
  readNat : T → Option ℕ
  readNum : T → Option K

/-- An `std::ifstream` (io.cc 101): the tokens that follow, and the state (`failbit` or `eofbit`). -/
structure IStream (T : Type) where
  toks : List T
  fail : Bool

/-- `f >> x` (io.cc 107, 115, 126), where `old` is the previous value of `x`: a stream in a bad state does nothing; at the end of the file `x` does not change; and a token that is
not a number sets `x` to zero. -/
def readTok {α : Type} (read : T → Option α) (zero old : α) (s : IStream T) : α × IStream T :=
  if s.fail then (old, s)
  else match s.toks with
    | [] => (old, ⟨[], true⟩)
    | t :: ts => match read t with
      | some v => (v, ⟨ts, false⟩)
      | none => (zero, ⟨ts, true⟩)

/-- io.cc 115, 126: `f >> p[0] >> p[1] >> p[2]`. -/
def readPoint (io : Fmt K T) (p : P3 K) (s : IStream T) : P3 K × IStream T :=
  let x := readTok io.readNum 0 p.x s
  let y := readTok io.readNum 0 p.y x.2
  let z := readTok io.readNum 0 p.z y.2
  (⟨x.1, y.1, z.1⟩, z.2)

/-- io.cc 149, 160: `f << p[0] << ' ' << p[1] << ' ' << p[2] << std::endl`. -/
def printPoint (io : Fmt K T) (p : P3 K) : List T := [io.printNum p.x, io.printNum p.y, io.printNum p.z]

namespace GB

/-- io.cc 134-163, `saveBezier(surf, filename)`: the contents of the file. -/
def save (io : Fmt K T) (G : GB K) : M (List T) :=
  let n := G.dom.dom.vertices.length
  let d := G.degree
  enumLoop n d (fun _ a (f : List T) => do
    let p ← G.controlPoint a.side a.col a.row
    .ok (f ++ printPoint io p)) 1 (enumCount n d) ⟨0, 0, 0⟩ ([io.printNat n, io.printNat d] ++ printPoint io G.central)

/-- io.cc 99-132, `loadBezier(filename, surf)` for a file with tokens `toks`. The variables `n`, `d` and `p` are not initialized, so their first values `n0`,
`d0` and `p0` are arbitrary. -/
def load (io : Fmt K T) (arc : List (P3 K) → K → K → K) (n0 d0 : ℕ) (p0 : P3 K) (toks : List T) (G : GB K) : M (GB K) := do
  let n := readTok io.readNat 0 n0 ⟨toks, false⟩
  let d := readTok io.readNat 0 d0 n.2
  let G ← G.initNetwork n.1 d.1
  let c := readPoint io p0 d.2
  let r ← enumLoop n.1 d.1 (fun _ a (st : GB K × P3 K × IStream T) => do
    let p := readPoint io st.2.1 st.2.2
    let G ← st.1.setControlPoint a.side a.col a.row p.1
    .ok (G, p)) 1 (enumCount n.1 d.1) ⟨0, 0, 0⟩ (G.setCentral c.1, c)
  r.1.setupLoop arc

/-- io.cc 173-189 (with `off` = 1) and gb-fit.cc 144-160 (with `off` = 0), `findControlPoint(i, j, k)`; `some` is a returned value. -/
def findStep (n d i j k off c : ℕ) (a : Name) (r : Option ℕ) : M (Option ℕ) :=
  match r with
  | some v => .ok (some v)
  | none =>
    if (i = a.side ∧ j = a.col ∧ k = a.row) ∨ (i = (a.side + n - 1) % n ∧ j = usub d a.row ∧ k = a.col) ∨
        (i = (a.side + 1) % n ∧ j = a.row ∧ k = usub d a.col) then .ok (some (c + off))
    else .ok none

/-- io.cc 173-189, gb-fit.cc 144-160: `cp1` is `cp - 1`. -/
def findControlPoint (n d cp1 off i j k : ℕ) : M ℕ := do
  let r ← enumLoop n d (fun c a r => findStep n d i j k off c a r) 1 cp1 ⟨0, 0, 0⟩ none
  .ok (r.getD 0)

/-- A line of an OBJ file (io.cc 193, 203, 213, 222, 229) with vertices of type `α`. -/
inductive ObjLine (α : Type) where
  | v (p : α)
  | f (is : List ℕ)
  deriving DecidableEq, Repr

/-- io.cc 209-213: a face with four indices. -/
def quadLine (n d cp1 i j k : ℕ) : M (List ℕ) := do
  let a ← findControlPoint n d cp1 1 i j k
  let b ← findControlPoint n d cp1 1 i (j + 1) k
  let c ← findControlPoint n d cp1 1 i (j + 1) (k + 1)
  let e ← findControlPoint n d cp1 1 i j (k + 1)
  .ok [a, b, c, e]

/-- io.cc 217-222 and 226-230: a face at the central control point. -/
def centreLine (n d l cp1 i : ℕ) : M (List ℕ) := do
  let a ← findControlPoint n d cp1 1 i (usub l 1) (usub l 1)
  let b ← findControlPoint n d cp1 1 i l (usub l 1)
  if d % 2 = 0 then do
    let e ← findControlPoint n d cp1 1 ((i + n - 1) % n) l (usub l 1)
    .ok [a, b, 1, e]
  else .ok [a, b, 1]

/-- io.cc 165-233, `writeBezierControlPoints(surf, filename)`: the lines of the file; points are printed by `pr`. -/
def writeControlPoints {α : Type} (pr : P3 K → α) (G : GB K) : M (List (ObjLine α)) := do
  let n := G.dom.dom.vertices.length
  let d := G.degree
  let l := G.layers
  let cp1 := n * (1 + d / 2) * l
  let f ← enumLoop n d (fun _ a (f : List (ObjLine α)) => do
    let p ← G.controlPoint a.side a.col a.row
    .ok (f ++ [.v (pr p)])) 1 cp1 ⟨0, 0, 0⟩ [.v (pr G.central)]
  let f ← forLoop n (fun i f => forLoop (d / 2 + 1) (fun j f => forLoop (usub l 1) (fun k (f : List (ObjLine α)) => do
    let q ← quadLine n d cp1 i j k
    .ok (f ++ [.f q])) f) f) f
  forLoop n (fun i (f : List (ObjLine α)) => do
    let q ← centreLine n d l cp1 i
    .ok (f ++ [.f q])) f

end GB

end Transfinite
