import Verif.Spec.Bezier
import Mathlib.Analysis.SpecialFunctions.Trigonometric.Basic

/-! # Boundary curves of SuperD patches -/

namespace Transfinite.Spec

open Real

/-- The control points of the quartic curve from `a` to `c` pulled towards `b` by the fullness `f`. -/
noncomputable def quarticPoint (f : ℝ) (a b c : P3 ℝ) : ℕ → P3 ℝ
  | 0 => a
  | 1 => a + ((2 * f ^ 2 + 3 * f) / 5) • (b - a)
  | 2 => (1 / 2 : ℝ) • (a + c) + ((9 * f - 2 * f ^ 2) / 7) • (b - (1 / 2 : ℝ) • (a + c))
  | 3 => c + ((2 * f ^ 2 + 3 * f) / 5) • (b - c)
  | _ => c

/-- The distance of the next vertex from a side of a regular `n`-gon, in proportion to the distance that is the unit of the distance parameters. -/
noncomputable def superDScale (n : ℕ) : ℝ :=
  if n ≤ 6 then 1 else sin (π / n) * sin (2 * π / n) / (sin (((n - 3) / 2 : ℕ) * π / n) * sin ((((n - 3) / 2 : ℕ) + 1) * π / n))

end Transfinite.Spec
