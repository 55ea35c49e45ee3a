import Verif.Model.ParamCache
import Verif.Model.RMF

/-! # Model of evaluations in several threads

The library has no locks. Evaluation functions are `const`, but two of them write memory that threads may share: the caches of the parameterization
(parameterization.hh 37, parameterization-barycentric.hh 22; shared by all copies of a surface), and the static matrix of `RMF::rotationMatrix` (rmf.cc 62; one for the
whole program). Threads are modelled by interleaving: in each step one of them executes its next access to the shared memory, with the computations between. -/

namespace Transfinite

/-- One access to a shared object: reading it, or writing it (accesses to `cache_`, parameterization.hh 37 and parameterization-barycentric.hh 22, or `m`, rmf.cc 62). -/
structure Access (L : Type) where
  loc : L
  write : Bool

namespace Param

variable {K : Type} [Field K] [LinearOrder K] [Libm K]

/-- The shared objects: `Parameterization::cache_` (parameterization.hh 37) and `ParameterizationBarycentric::cache_` (parameterization-barycentric.hh 22). -/
inductive Loc where
  | cache
  | coords
  deriving DecidableEq

/-- The place of a thread in `mapToRibbons` (parameterization.cc 22-34): before line 25, in the loop of line 30 before the call for side `i`, before
line 33, and after the return (with its result or failure). -/
inductive Pos (K : Type) where
  | find
  | side (i : ℕ) (result : List (P2 K))
  | store (result : List (P2 K))
  | done (result : M (List (P2 K)))

/-- A thread that calls `mapToRibbons(uv)` (parameterization.cc 22-34). -/
structure Thread (K : Type) where
  uv : P2 K
  pos : Pos K

/-- What `mapToRibbons` returns after the common part (parameterization.cc 22-34): for the interconnected class see parameterization-interconnected.cc 22-30. -/
def finish (k : Kind K) (n : ℕ) (r : List (P2 K)) : M (List (P2 K)) :=
  match k with
  | .interconnected => interconnectedFix n r
  | _ => .ok r

/-- One step of a thread in `mapToRibbons` (parameterization.cc 22-34). Simplified: every lookup, call of `mapToRibbon` and insertion is one step, as if it was
protected by a lock. -/
def Thread.step (ε : K) (k : Kind K) (t : Thread K) (o : Obj K) : Thread K × Obj K :=
  match t.pos with
  | .find =>
    match mapFind o.cache t.uv with
    | some r => (⟨t.uv, .done (finish k o.dom.vertices.length r)⟩, o)
    | none => (⟨t.uv, .side 0 []⟩, o)
  | .side i r =>
    if i < o.dom.vertices.length then
      match mapToRibbon ε k i t.uv o with
      | .ok sd => (⟨t.uv, .side (i + 1) (r ++ [sd.1])⟩, sd.2)
      | .error e => (⟨t.uv, .done (.error e)⟩, o)
    else (⟨t.uv, .store r⟩, o)
  | .store r => (⟨t.uv, .done (finish k o.dom.vertices.length r)⟩, { o with cache := (t.uv, r) :: o.cache })
  | .done _ => (t, o)

/-- The accesses of the next step of a thread: parameterization.cc 25 (reading), parameterization-barycentric.cc 50 (reading; for simplicity also listed for the classes without coordinates), 111 (writing, if the coordinates
were not found), parameterization.cc 33 (writing). -/
def Thread.accesses (ε : K) (k : Kind K) (t : Thread K) (o : Obj K) : List (Access Loc) :=
  match t.pos with
  | .find => [⟨.cache, false⟩]
  | .side _ _ => ⟨.coords, false⟩ :: if (t.step ε k o).2.bary.length = o.bary.length then [] else [⟨.coords, true⟩]
  | .store _ => [⟨.cache, true⟩]
  | .done _ => []

/-- The threads, and the parameterization object (parameterization.hh 11-38) they share. -/
structure Threads (K : Type) where
  threads : List (Thread K)
  obj : Obj K

/-- Thread number `j` executes its next step (parameterization.cc 22-34). -/
def Threads.step (ε : K) (k : Kind K) (S : Threads K) (j : ℕ) : Threads K :=
  match S.threads[j]? with
  | none => S
  | some t => ⟨S.threads.set j (t.step ε k S.obj).1, (t.step ε k S.obj).2⟩

/-- An execution (of calls of parameterization.cc 22-34): the list contains the number of the thread for every step. -/
def Threads.run (ε : K) (k : Kind K) (S : Threads K) (schedule : List ℕ) : Threads K := schedule.foldl (Threads.step ε k) S

/-- Threads that are about to call `mapToRibbons` (parameterization.cc 22) for the given points. -/
def Threads.start (uvs : List (P2 K)) (o : Obj K) : Threads K := ⟨uvs.map fun uv => ⟨uv, .find⟩, o⟩

end Param

namespace RMF

variable {K : Type} [Field K] [LinearOrder K] [Libm K]

/-- The entries of the matrix, rmf.cc 66-74. -/
def entry (axis : P3 K) (theta : K) (i j : ℕ) : K :=
  let x := axis.x
  let y := axis.y
  let z := axis.z
  let c := Libm.cos theta
  let c1 := 1 - c
  let s := Libm.sin theta
  match i, j with
  | 0, 0 => c + x * x * c1
  | 1, 0 => y * x * c1 + z * s
  | 2, 0 => z * x * c1 - y * s
  | 0, 1 => x * y * c1 - z * s
  | 1, 1 => c + y * y * c1
  | 2, 1 => z * y * c1 + x * s
  | 0, 2 => x * z * c1 + y * s
  | 1, 2 => y * z * c1 - x * s
  | _, _ => c + z * z * c1

/-- A thread in `rotateFrame(f, angle)` (rmf.cc 79-87): the vector to be rotated (`f.n`), the sum computed so far (`n`, line 82), and the number of the next access: 0-8 are
the assignments of lines 66-74, 9-17 the readings of line 85, and at 18 the function has returned. -/
structure Rot (K : Type) where
  axis : P3 K
  angle : K
  vec : P3 K
  pc : ℕ
  sum : P3 K

/-- `v[j]` (rmf.cc 85). -/
def coord (v : P3 K) (j : ℕ) : K := if j = 0 then v.x else if j = 1 then v.y else v.z

/-- `v[i] += x` (rmf.cc 85). -/
def addTo (v : P3 K) (i : ℕ) (x : K) : P3 K := if i = 0 then ⟨v.x + x, v.y, v.z⟩ else if i = 1 then ⟨v.x, v.y + x, v.z⟩ else ⟨v.x, v.y, v.z + x⟩

/-- The entry of the matrix that the access with this number writes (rmf.cc 66-74, column by column) or reads (83-85, row by row). -/
def place (pc : ℕ) : ℕ × ℕ := if pc < 9 then (pc % 3, pc / 3) else ((pc - 9) / 3, (pc - 9) % 3)

/-- One step of a thread in `rotateFrame` (rmf.cc 66-74, 83-85), with the contents of the static matrix (62). -/
def Rot.step (t : Rot K) (m : ℕ × ℕ → K) : Rot K × (ℕ × ℕ → K) :=
  let p := place t.pc
  if t.pc < 9 then ({ t with pc := t.pc + 1 }, fun q => if q = p then entry t.axis t.angle p.1 p.2 else m q)
  else if t.pc < 18 then ({ t with pc := t.pc + 1, sum := addTo t.sum p.1 (m p * coord t.vec p.2) }, m)
  else (t, m)

/-- The accesses of the next step (rmf.cc 66-74, 83-85). -/
def Rot.accesses (t : Rot K) : List (Access (ℕ × ℕ)) :=
  if t.pc < 9 then [⟨place t.pc, true⟩] else if t.pc < 18 then [⟨place t.pc, false⟩] else []

/-- The threads, and the static matrix of the program (rmf.cc 62). -/
structure Rots (K : Type) where
  threads : List (Rot K)
  matrix : ℕ × ℕ → K

/-- Thread number `j` executes its next step (rmf.cc 66-74, 83-85). -/
def Rots.step (S : Rots K) (j : ℕ) : Rots K :=
  match S.threads[j]? with
  | none => S
  | some t => ⟨S.threads.set j (t.step S.matrix).1, (t.step S.matrix).2⟩

/-- An execution (of calls of rmf.cc 79-87). -/
def Rots.run (S : Rots K) (schedule : List ℕ) : Rots K := schedule.foldl Rots.step S

/-- The call of `rotateFrame` in `eval(u)` (rmf.cc 51-57), at its beginning. -/
def evalThread (ε : K) (r : Rmf K) (u : K) : M (Rot K) := do
  let i := r.frames.findIdx fun f => u < f.u
  if i = 0 then .error .oob
  else do
    let g ← vget r.frames (i - 1)
    let f ← nextFrame ε r.curve g u
    .ok ⟨f.d, f.s * r.angleCorrection, f.n, 0, ⟨0, 0, 0⟩⟩

end RMF

end Transfinite
