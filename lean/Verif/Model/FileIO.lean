import Verif.Model.GBIO
import Verif.Model.SPatch
import Verif.Model.SuperD
import Verif.Model.Utilities

/-! # Model of the input and output of curve loops, point clouds, S-patches and SuperD models in io.cc

Files are lists of tokens as in `Verif.Model.GBIO`; here a file may also be missing (`none`). Messages on the standard error output are not modelled, and
memory is never exhausted. -/

namespace Transfinite

variable {K : Type} [Field K] [LinearOrder K] [Libm K] {T : Type}

/-- `std::vector::resize` (io.cc 27, 31), with `zero` for the new elements. -/
def resizeVec {α : Type} (zero : α) (l : List α) (n : ℕ) : List α := l.take n ++ List.replicate (n - l.length) zero

/-- The loops in io.cc 28-29, 32-33 and 245-246: every element of a vector is read from the stream by `rd` (which gets the old value of the element). -/
def readVec {α : Type} (rd : α → IStream T → M (α × IStream T)) (l : List α) (s : IStream T) : M (List α × IStream T) :=
  forLoop l.length (fun j (st : List α × IStream T) => do
    let old ← vget st.1 j
    let r ← rd old st.2
    let l ← vset st.1 j r.1
    .ok (l, r.2)) (l, s)

/-- The arguments of the constructor of `BSCurve` (libgeom, external) in io.cc 34. -/
structure LopCurve (K : Type) where
  deg : ℕ
  knots : List K
  cpts : List (P3 K)

/-- The local variables of `readLOP` (io.cc 17-20, without `n`) and the stream. -/
structure LopState (K T : Type) where
  deg : ℕ
  nk : ℕ
  nc : ℕ
  knots : List K
  cpts : List (P3 K)
  result : List (LopCurve K)
  f : IStream T

/-- io.cc 25-34: one curve. The default point is assumed to be zero. -/
def lopStep (io : Fmt K T) (st : LopState K T) : M (LopState K T) := do
  let deg := readTok io.readNat 0 st.deg st.f
  let nk := readTok io.readNat 0 st.nk deg.2
  let knots ← readVec (fun old s => .ok (readTok io.readNum 0 old s)) (resizeVec 0 st.knots nk.1) nk.2
  let nc := readTok io.readNat 0 st.nc knots.2
  let cpts ← readVec (fun old s => .ok (readPoint io old s)) (resizeVec 0 st.cpts nc.1) nc.2
  .ok ⟨deg.1, nk.1, nc.1, knots.1, cpts.1, st.result ++ [⟨deg.1, knots.1, cpts.1⟩], cpts.2⟩

/-- io.cc 10-38, `readLOP(filename)`. The variables `n`, `deg`, `nk` and `nc` are not initialized, so their first values are arbitrary. -/
def readLOP (io : Fmt K T) (n0 deg0 nk0 nc0 : ℕ) : Option (List T) → M (List (LopCurve K))
  | none => .ok []
  | some toks => do
    let n := readTok io.readNat 0 n0 ⟨toks, false⟩
    let st ← forLoop n.1 (fun _ st => lopStep io st) ⟨deg0, nk0, nc0, [], [], [], n.2⟩
    .ok st.result

/-- io.cc 81-97, `writePCP(filename, uvs, points)`: the lines of the file. -/
def writePCP (io : Fmt K T) (uvs : List (P2 K)) (points : List (P3 K)) : M (List (List T)) :=
  forLoop uvs.length (fun i (f : List (List T)) => do
    let uv ← vget uvs i
    let p ← vget points i
    .ok (f ++ [[io.printNum p.x, io.printNum p.y, io.printNum p.z, io.printNum uv.x, io.printNum uv.y]])) [[io.printNat uvs.length]]

/-- `f >> x` on a stream that throws an exception when it gets into a bad state (io.cc 237). -/
def readThrow {α : Type} (read : T → Option α) (s : IStream T) : M (α × IStream T) :=
  match s.toks with
  | [] => .error .exception
  | t :: ts => match read t with
    | some v => .ok (v, ⟨ts, false⟩)
    | none => .error .exception

/-- io.cc 245-250: one control point. The variable `p` is not initialized, but all of its coordinates are read. -/
def spatchEntry (io : Fmt K T) (st : SPatch K × List ℕ × IStream T) : M (SPatch K × List ℕ × IStream T) := do
  let index ← readVec (fun _ s => readThrow io.readNat s) st.2.1 st.2.2
  let x ← readThrow io.readNum index.2
  let y ← readThrow io.readNum x.2
  let z ← readThrow io.readNum y.2
  .ok (st.1.setControlPoint index.1 ⟨x.1, y.1, z.1⟩, index.1, z.2)

/-- io.cc 235-254, `loadSPatch(filename)`; a missing file leads to an exception in line 237. The depth of a new surface is not initialized (`depth0`). -/
def loadSPatch (io : Fmt K T) (arc : List (P3 K) → K → K → K) (depth0 : ℕ) : Option (List T) → M (SPatch K)
  | none => .error .exception
  | some toks => do
    let n ← readThrow io.readNat ⟨toks, false⟩
    let d ← readThrow io.readNat n.2
    let cp ← binomial (usub (n.1 + d.1) 1) d.1
    let st ← forLoop cp (fun _ st => spatchEntry io st) ((SPatch.new depth0).initNetwork n.1 d.1, List.replicate n.1 0, d.2)
    st.1.setupLoop arc

/-- io.cc 271-274 (with `setFaceControlPoint`) and 275-278 (with `setEdgeControlPoint`). The variables `x`, `y` and `z` are represented by a point. -/
def superDPoints (io : Fmt K T) (set : SuperD K → ℕ → P3 K → M (SuperD K)) (n : ℕ) (st : SuperD K × P3 K × IStream T) : M (SuperD K × P3 K × IStream T) :=
  forLoop n (fun j st => do
    let p := readPoint io st.2.1 st.2.2
    let S ← set st.1 j p.1
    .ok (S, p)) st

/-- io.cc 266-283: one patch. The variables `n`, `x`, `y` and `z` are not initialized, so their first values are arbitrary. -/
def superDPatch (io : Fmt K T) (arc : List (P3 K) → K → K → K) (n0 : ℕ) (p0 : P3 K) (s : IStream T) : M (SuperD K × IStream T) := do
  let n := readTok io.readNat 0 n0 s
  let st ← superDPoints io SuperD.setFaceControlPoint n.1 (SuperD.new.initNetwork n.1, p0, n.2)
  let st ← superDPoints io SuperD.setEdgeControlPoint n.1 st
  let p := readPoint io st.2.1 st.2.2
  let S ← (st.1.setVertexControlPoint p.1).setupLoop arc
  let S ← S.updateRibbons
  .ok (S, p.2)

/-- io.cc 256-286, `loadSuperDModel(filename)`. The variable `patches` is not initialized; the variables of patch `i` have the first values `n0 i` and `p0 i`. -/
def loadSuperD (io : Fmt K T) (arc : List (P3 K) → K → K → K) (m0 : ℕ) (n0 : ℕ → ℕ) (p0 : ℕ → P3 K) : Option (List T) → M (List (SuperD K))
  | none => .ok []
  | some toks => do
    let m := readTok io.readNat 0 m0 ⟨toks, false⟩
    let st ← forLoop m.1 (fun i (st : List (SuperD K) × IStream T) => do
      let r ← superDPatch io arc (n0 i) (p0 i) st.2
      .ok (st.1 ++ [r.1], r.2)) ([], m.2)
    .ok st.1

end Transfinite
