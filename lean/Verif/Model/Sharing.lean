import Verif.Model.GenBezier

/-! # Model of several surfaces with shared domains

The copy constructors and assignment operators are the default ones (surface.hh 21-23, surface-generalized-bezier.hh 10-12), so
they copy the pointers `domain_` and `param_`. Here the objects are Generalized Bézier patches, the domains and parameterizations are in
the heap. (A surface and its copy share also the ribbons, but those of this class contain only a curve, and `setupLoop` creates new ones.) -/

namespace Transfinite

variable {K : Type} [Field K] [LinearOrder K] [Libm K]

/-- The objects behind the pointers `domain_` and `param_` (surface.hh 56-57). They are created together in the constructor
(surface-generalized-bezier.cc 23-27), so they have the same owners. -/
structure Cell (K : Type) where
  dom : Domain.Cached (Domain K) K
  param : Param.Obj K

/-- The surfaces, with the addresses (`domain_` and `param_`, surface.hh 56-57) of their domains, and the heap. The fields `dom` and `param` of a surface in the list are not used.
(Unused cells are not removed.) -/
structure World (K : Type) where
  objs : List (GB K × ℕ)
  cells : List (Cell K)

/-- What a program does with the surfaces (surface-generalized-bezier.hh 9-25; the copies are in lines 10 and 12): `assign k l` is `s_k = s_l` for surfaces of the same class. -/
inductive Op (K : Type) where
  | new (kind : GBKind K) (degree layers : ℕ)
  | copy (k : ℕ)
  | assign (k l : ℕ)
  | call (k : ℕ) (c : GB.Call K)

/-- A surface with the contents of its domain and parameterization (surface.hh 56-57). -/
def GB.withCell (G : GB K) (c : Cell K) : GB K := { G with dom := c.dom, param := c.param }

namespace World

/-- No surfaces: before any constructor (surface-generalized-bezier.hh 9). -/
def empty : World K := ⟨[], []⟩

/-- Surface `k`, with the contents of its domain and parameterization (surface.hh 56-57). -/
def view (W : World K) (k : ℕ) : M (GB K) := do
  let o ← vget W.objs k
  let c ← vget W.cells o.2
  .ok (o.1.withCell c)

/-- One operation (surface-generalized-bezier.hh 9-25). -/
def step (ε : K) (arc : List (P3 K) → K → K → K) (W : World K) : Op K → M (World K)
  | .new kind degree layers =>
    let G := GB.new kind degree layers
    .ok ⟨W.objs ++ [(G, W.cells.length)], W.cells ++ [⟨G.dom, G.param⟩]⟩
  | .copy k => do
    let o ← vget W.objs k
    .ok ⟨W.objs ++ [o], W.cells⟩
  | .assign k l => do
    let o ← vget W.objs l
    let objs ← vset W.objs k o
    .ok ⟨objs, W.cells⟩
  | .call k c => do
    let o ← vget W.objs k
    let cell ← vget W.cells o.2
    let G ← (o.1.withCell cell).step ε arc c
    let objs ← vset W.objs k (G, o.2)
    let cells ← vset W.cells o.2 ⟨G.dom, G.param⟩
    .ok ⟨objs, cells⟩

/-- A program: a list of operations (surface-generalized-bezier.hh 9-25). -/
def run (ε : K) (arc : List (P3 K) → K → K → K) : World K → List (Op K) → M (World K)
  | W, [] => .ok W
  | W, op :: ops => do
    let W' ← W.step ε arc op
    run ε arc W' ops

end World

end Transfinite
