import Mathlib.Algebra.BigOperators.Field
import Mathlib.Data.Real.Basic

/-! # Independent specification of the exact singular blends -/

namespace Transfinite.Spec

/-- The numerator of the blend of side `k`: the product of the squared distances from all other sides. -/
noncomputable def sideNum (n : ℕ) (h : ℕ → ℝ) (k : ℕ) : ℝ := ∏ j ∈ (Finset.range n).erase k, h j ^ 2

/-- The exact (continuous) blend of side `k`. -/
noncomputable def exactSide (n : ℕ) (h : ℕ → ℝ) (k : ℕ) : ℝ := sideNum n h k / ∑ l ∈ Finset.range n, sideNum n h l

/-- The numerator of the blend of corner `k`, between the sides `k` and `k+1`: the product of the squared distances from all other sides. -/
noncomputable def cornerNum (n : ℕ) (h : ℕ → ℝ) (k : ℕ) : ℝ := ∏ j ∈ ((Finset.range n).erase k).erase ((k + 1) % n), h j ^ 2

/-- The exact (continuous) blend of corner `k`. -/
noncomputable def exactCorner (n : ℕ) (h : ℕ → ℝ) (k : ℕ) : ℝ := cornerNum n h k / ∑ l ∈ Finset.range n, cornerNum n h l

end Transfinite.Spec
