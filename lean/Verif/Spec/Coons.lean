import Verif.Model.Curve
import Mathlib.Data.Real.Basic

/-! # Specification: the bilinearly blended Coons patch -/

namespace Transfinite.Spec

/-- The bilinearly blended Coons patch of a loop of four curves: curve 0 is at `w = 0`, curve 1 is at `u = 1`, curve 2 is at `w = 1` (backwards), and curve 3 is at `u = 0` (backwards). -/
noncomputable def coonsPatch (c : ℕ → ℝ → P3 ℝ) (u w : ℝ) : P3 ℝ :=
  (1 - w) • c 0 u + w • c 2 (1 - u) + ((1 - u) • c 3 (1 - w) + u • c 1 w) -
    (((1 - u) * (1 - w)) • c 0 0 + (u * (1 - w)) • c 1 0 + (u * w) • c 2 0 + ((1 - u) * w) • c 3 0)

/-- The cubic Hermite curve with the end points `p`, `q` and the end derivatives `p'`, `q'`. -/
noncomputable def cubicHermite (p p' q' q : P3 ℝ) (t : ℝ) : P3 ℝ :=
  ((1 - t) ^ 2 * (1 + 2 * t)) • p + (t * (1 - t) ^ 2) • p' - (t ^ 2 * (1 - t)) • q' + (t ^ 2 * (3 - 2 * t)) • q

end Transfinite.Spec
