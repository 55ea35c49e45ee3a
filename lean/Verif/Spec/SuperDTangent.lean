import Verif.Spec.SuperD
import Verif.Spec.GBTangent

/-! # Specification: tangent planes of SuperD patches -/

namespace Transfinite.Spec

/-- The cross derivative of the ribbon of side `i`: with 3 or 4 sides, it goes from the quartic curve of the side to the quartic curve of the vertex control point and the two adjacent
edge points; with more sides, it changes linearly from one of the adjacent boundary curves to the other. -/
noncomputable def superDCross (n : ℕ) (f : ℝ) (V : P3 ℝ) (F E : ℕ → P3 ℝ) (i : ℕ) (s : ℝ) : P3 ℝ :=
  (4 * ((2 * f ^ 2 + 3 * f) / 5)) •
    if n ≤ 4 then bezier 4 (quarticPoint f (E ((i + n - 1) % n)) V (E ((i + 1) % n))) s - bezier 4 (quarticPoint f (F ((i + n - 1) % n)) (E i) (F i)) s
    else (1 - s) • (E ((i + n - 1) % n) - F ((i + n - 1) % n)) + s • (E ((i + 1) % n) - F i)

end Transfinite.Spec
