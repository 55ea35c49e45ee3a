import Verif.Geom
import Mathlib.Analysis.Calculus.Deriv.Basic
import Mathlib.Analysis.Calculus.IteratedDeriv.Defs

/-! # Specification: derivatives and speed of a space curve -/

namespace Transfinite.Spec

/-- `d` is the `k`-th derivative of the curve `C` at `u`. -/
def IsDer (C : ℝ → P3 ℝ) (u : ℝ) (k : ℕ) (d : P3 ℝ) : Prop :=
  d.x = iteratedDeriv k (fun t => (C t).x) u ∧ d.y = iteratedDeriv k (fun t => (C t).y) u ∧ d.z = iteratedDeriv k (fun t => (C t).z) u

/-- The length of the first derivative of `C`. -/
noncomputable def speed (C : ℝ → P3 ℝ) (u : ℝ) : ℝ :=
  Real.sqrt (deriv (fun t => (C t).x) u ^ 2 + deriv (fun t => (C t).y) u ^ 2 + deriv (fun t => (C t).z) u ^ 2)

end Transfinite.Spec
