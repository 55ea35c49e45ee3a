import Verif.Geom
import Mathlib.MeasureTheory.Integral.IntervalIntegral.Basic
import Mathlib.Analysis.Calculus.Deriv.Basic

/-! # Independent specification of elastic interpolation -/

namespace Transfinite.Spec

/-- The cubic polynomial on `[0, L]` with end points `P` and `p` and end derivatives `a` and `b` (see `strip_ends`). -/
noncomputable def strip (L P a p b w : ℝ) : ℝ :=
  P + a * w + (3 * (p - P) / L ^ 2 - (2 * a + b) / L) * w ^ 2 + ((a + b) / L ^ 2 - 2 * (p - P) / L ^ 3) * w ^ 3

/-- The (linearized) bending energy of a function on `[0, L]`. -/
noncomputable def bending (L : ℝ) (c : ℝ → ℝ) : ℝ := ∫ w in (0 : ℝ)..L, deriv (deriv c) w ^ 2

/-- A point `foot` of the boundary of the domain, with its image `pos` on the surface, and the derivative `cross` of the
surface there with respect to the arc length in the direction of the evaluated point. -/
structure Rod where
  foot : P2 ℝ
  pos : P3 ℝ
  cross : P3 ℝ

/-- The bending energy of the cubic curve over the segment from the foot to `uv`, which ends at the point `p` with the
derivative given by the partial derivatives `pu` and `pv`. -/
noncomputable def Rod.energy (r : Rod) (uv : P2 ℝ) (p pu pv : P3 ℝ) : ℝ :=
  let L := (uv - r.foot).norm
  let q : P3 ℝ := ((uv - r.foot).x / L) • pu + ((uv - r.foot).y / L) • pv
  bending L (strip L r.pos.x r.cross.x p.x q.x) + bending L (strip L r.pos.y r.cross.y p.y q.y) +
    bending L (strip L r.pos.z r.cross.z p.z q.z)

/-- The total bending energy of the rods. -/
noncomputable def totalEnergy (n : ℕ) (rod : ℕ → Rod) (uv : P2 ℝ) (p pu pv : P3 ℝ) : ℝ :=
  ∑ j ∈ Finset.range n, (rod j).energy uv p pu pv

end Transfinite.Spec
