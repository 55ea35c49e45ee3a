import Verif.Spec.Bezier
import Verif.Spec.Tangent

/-! # Specification: tangent planes of Generalized Bézier patches -/

namespace Transfinite.Spec

/-- The derivative of the Bézier curve of degree `d` with the control points `p` at `u`. -/
noncomputable def bezierDer (d : ℕ) (p : ℕ → P3 ℝ) (u : ℝ) : P3 ℝ := bezier (d - 1) (fun c => (d : ℝ) • (p (c + 1) - p c)) u

/-- The cross derivative given by the first two rows of control points. -/
noncomputable def rowDer (d : ℕ) (p q : ℕ → P3 ℝ) (u : ℝ) : P3 ℝ := (d : ℝ) • (bezier d q u - bezier d p u)

/-- The effect of points of a side (`a`) that differ from their copies on the adjacent side (`b`). -/
noncomputable def copyError (d : ℕ) (s : ℝ) (a b : ℕ → P3 ℝ) : P3 ℝ := ∑ k ∈ Finset.range 2, (bern d k s / s) • (a k - b k)

end Transfinite.Spec
