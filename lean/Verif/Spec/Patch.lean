import Verif.Geom

/-! # Specification: local parameters of the points of a domain side -/

namespace Transfinite.Spec

variable {K : Type} [Field K] [LinearOrder K]

/-- The local parameters `f` that a ribbon parameterization should give at the point `s` of side `i` of an `n`-sided
domain: `(s,0)` for the side itself; `(0,1-s)` for the next and `(1,s)` for the previous side; other sides are
far away. (The side parameter of the previous side is not prescribed when the point is at the
other end of the side, up to the tolerance.) -/
structure SideParams (ε : K) (n i : ℕ) (s : K) (f : ℕ → P2 K) : Prop where
  self : f i = ⟨s, 0⟩
  next : f ((i + 1) % n) = ⟨0, 1 - s⟩
  prevY : (f ((i + n - 1) % n)).y = s
  prevX : ε ≤ 1 - s → (f ((i + n - 1) % n)).x = 1
  far : ∀ j < n, j ≠ i → j ≠ (i + 1) % n → j ≠ (i + n - 1) % n → ε ≤ (f j).y
  range : ∀ j < n, 0 ≤ (f j).x ∧ (f j).x ≤ 1

end Transfinite.Spec
