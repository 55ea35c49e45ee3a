import Verif.Geom
import Mathlib.Data.Nat.Choose.Sum

/-! # Independent specification of Bézier curves -/

namespace Transfinite.Spec

variable {K : Type*} [Field K]

/-- The `j`-th Bernstein polynomial of degree `n` at `u`. -/
def bern (n j : ℕ) (u : K) : K := (n.choose j : K) * u ^ j * (1 - u) ^ (n - j)

/-- The Bézier curve of the control points `p 0, ..., p n` at `u`. -/
def bezier {V : Type*} [AddCommMonoid V] [Module K V] (n : ℕ) (p : ℕ → V) (u : K) : V :=
  ∑ j ∈ Finset.range (n + 1), bern n j u • p j

end Transfinite.Spec
