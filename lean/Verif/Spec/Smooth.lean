import Mathlib.Analysis.Calculus.ContDiff.Operations
import Verif.Geom

/-! # Independent specification of smooth surfaces -/

namespace Transfinite.Spec

open scoped ContDiff

/-- The coordinates of a map of the plane to the space, as a map between normed spaces. -/
def coords (F : P2 ℝ → P3 ℝ) : ℝ × ℝ → ℝ × ℝ × ℝ := fun q => ((F ⟨q.1, q.2⟩).x, (F ⟨q.1, q.2⟩).y, (F ⟨q.1, q.2⟩).z)

/-- `F` is analytic at `p` (as a function of both domain coordinates, defined in a neighbourhood of `p`); in particular it has continuous derivatives of all orders there. -/
def SmoothAt (F : P2 ℝ → P3 ℝ) (p : P2 ℝ) : Prop := ContDiffAt ℝ ω (coords F) (p.x, p.y)

/-- The coordinates of a curve. -/
def curveCoords (F : ℝ → P3 ℝ) : ℝ → ℝ × ℝ × ℝ := fun s => ((F s).x, (F s).y, (F s).z)

end Transfinite.Spec
