import Verif.Geom

/-! # Model of `readOBJ` in io.cc

A file is a list of lines, and a line is a list of characters (files can always be opened and read). The conversion of characters to numbers
(`operator>>` on `double` and `size_t`, after skipping white space) is given by arbitrary functions: they return the number and the
remaining characters, or `none` if there is no number. -/

namespace Transfinite

namespace OBJ

variable {K : Type} [Field K]

/-- The conversions of `operator>>` (io.cc 60, 70). -/
structure Scan (K : Type) where
  num : List Char → Option (K × List Char)
  nat : List Char → Option (ℕ × List Char)

/-- White space in the "C" locale, skipped by `operator>>` (io.cc 60, 70). -/
def isSpace (c : Char) : Bool := c = ' ' || c = '\t' || c = '\n' || c = '\r' || c = '\x0b' || c = '\x0c'

/-- The `std::istringstream` (io.cc 49): the characters that follow, and its `failbit`. -/
structure SS where
  rest : List Char
  fail : Bool

/-- io.cc 58-59, 68-69: `ss.str(line); ss.seekg(2)`. `str` does not change the state of the stream; `seekg` clears the `eofbit`, but not the
`failbit`. It does nothing if the `failbit` is set, and sets it if the line has less than two characters.
(When the `failbit` is set, the characters are never read, so they are not kept.) -/
def SS.start (ss : SS) (line : List Char) : SS :=
  if ss.fail then ⟨[], true⟩
  else if line.length < 2 then ⟨[], true⟩
  else ⟨line.drop 2, false⟩

/-- `ss >> x` (io.cc 60, 70), where `old` is the previous value of `x`: nothing happens when the `failbit` is set; at the end of the line `x` does not
change; a text that is not a number sets `x` to zero. (Numbers out of range are not modelled.) -/
def SS.read {α : Type} (scan : List Char → Option (α × List Char)) (zero old : α) (ss : SS) : α × SS :=
  if ss.fail then (old, ss)
  else match ss.rest.dropWhile isSpace with
    | [] => (old, ⟨[], true⟩)
    | c :: cs => match scan (c :: cs) with
      | some (x, rest) => (x, ⟨rest, false⟩)
      | none => (zero, ⟨[], true⟩)

/-- The local variables of `readOBJ` (io.cc 41-52), with the points and triangles of `result`. -/
structure State (K : Type) where
  points : List (P3 K)
  tris : List (ℕ × ℕ × ℕ)
  set : Bool
  ss : SS
  p : P3 K
  t : ℕ × ℕ × ℕ
  pv : List (P3 K)

/-- io.cc 60: `ss >> p[0] >> p[1] >> p[2]`. -/
def readVertex (scan : Scan K) (p : P3 K) (ss : SS) : P3 K × SS :=
  let x := ss.read scan.num 0 p.x
  let y := x.2.read scan.num 0 p.y
  let z := y.2.read scan.num 0 p.z
  (⟨x.1, y.1, z.1⟩, z.2)

/-- io.cc 70: `ss >> t[0] >> t[1] >> t[2]`. -/
def readFace (scan : Scan K) (t : ℕ × ℕ × ℕ) (ss : SS) : (ℕ × ℕ × ℕ) × SS :=
  let x := ss.read scan.nat 0 t.1
  let y := x.2.read scan.nat 0 t.2.1
  let z := y.2.read scan.nat 0 t.2.2
  ((x.1, y.1, z.1), z.2)

/-- `t - 1` on `size_t` (io.cc 71). -/
def pred64 (k : ℕ) : ℕ := if k = 0 then 2 ^ 64 - 1 else k - 1

/-- io.cc 71: the triangle that is added. -/
def triangle (t : ℕ × ℕ × ℕ) : ℕ × ℕ × ℕ := (pred64 t.1, pred64 t.2.1, pred64 t.2.2)

/-- io.cc 57-62, a line that starts with `v`. -/
def vertexLine (scan : Scan K) (st : State K) (line : List Char) : State K :=
  let r := readVertex scan st.p (st.ss.start line)
  { st with p := r.1, ss := r.2, pv := st.pv ++ [r.1] }

/-- io.cc 63-72, a line that starts with `f`. -/
def faceLine (scan : Scan K) (st : State K) (line : List Char) : State K :=
  let points := if st.set then st.points else st.pv
  let r := readFace scan st.t (st.ss.start line)
  { st with points := points, set := true, t := r.1, ss := r.2,
            tris := st.tris ++ [triangle r.1] }

/-- io.cc 53-76, the body of the loop. -/
def step (scan : Scan K) (st : State K) (line : List Char) : State K :=
  match line with
  | 'v' :: _ => vertexLine scan st line
  | 'f' :: _ => faceLine scan st line
  | _ => st

/-- io.cc 41-52: the variables before the loop; `p` and `t` are not initialized. -/
def start (p : P3 K) (t : ℕ × ℕ × ℕ) : State K := ⟨[], [], false, ⟨[], false⟩, p, t, []⟩

/-- io.cc 40-79, `readOBJ(filename)`: the points and the triangles of the result. -/
def readOBJ (scan : Scan K) (p0 : P3 K) (t0 : ℕ × ℕ × ℕ) (lines : List (List Char)) : List (P3 K) × List (ℕ × ℕ × ℕ) :=
  let st := lines.foldl (step scan) (start p0 t0)
  (st.points, st.tris)

end OBJ

end Transfinite
