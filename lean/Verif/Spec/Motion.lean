import Verif.Model.Patch

/-! # Rigid motions of the input of a surface -/

namespace Transfinite

namespace Spec

/-- A rigid motion: a rotation followed by a translation. -/
structure Motion (K : Type) [Field K] where
  lin : P3 K →ₗ[K] P3 K
  shift : P3 K
  dot : ∀ a b, P3.dot (lin a) (lin b) = P3.dot a b
  cross : ∀ a b, P3.cross (lin a) (lin b) = lin (P3.cross a b)

variable {K : Type} [Field K]

/-- The image of a point. -/
def Motion.pt (g : Motion K) (p : P3 K) : P3 K := g.lin p + g.shift

/-- The image of a curve. -/
def Motion.curve (g : Motion K) (c : Curve K) : Curve K := ⟨fun u => g.pt (c.pt u), fun u => g.lin (c.der u), c.arc⟩

/-- The same call on the moved surface: curves and midpoints are moved, handlers and normal fences are rotated. -/
def Motion.call (g : Motion K) : Patch.Call K → Patch.Call K
  | .curve i c => .curve i (g.curve c)
  | .curves cs => .curves (cs.map g.curve)
  | .handler i h => .handler i (g.lin h)
  | .fence i f => .fence i (f.map fun f s => g.lin (f s))
  | .setMid p => .setMid (g.pt p)
  | .gamma b => .gamma b
  | .loop => .loop
  | .mult i m => .mult i m
  | .reset i => .reset i
  | .unsetMid => .unsetMid
  | .update => .update
  | .updateSide i => .updateSide i
  | .eval uv => .eval uv
  | .mesh res => .mesh res
  | .domainParams res => .domainParams res
  | .mapSide i uv => .mapSide i uv
  | .mapSides uv => .mapSides uv

/-- The call does not replace curves. -/
def keepsCurves : Patch.Call K → Bool
  | .curve _ _ => false
  | .curves _ => false
  | _ => true

/-- None of the sides, one of them or two neighbouring ones are within the tolerance. -/
def FewClose [LinearOrder K] (ε : K) (n : ℕ) (d : ℕ → K) : Prop :=
  (∀ j < n, ε ≤ d j) ∨ (∃ i < n, d i < ε ∧ ∀ j < n, j ≠ i → ε ≤ d j) ∨
    ∃ i < n, d i < ε ∧ d ((i + 1) % n) < ε ∧ ∀ j < n, j ≠ i → j ≠ (i + 1) % n → ε ≤ d j

end Spec

end Transfinite
