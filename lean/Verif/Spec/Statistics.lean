import Mathlib.Data.Real.Basic

/-! # Specification of the statistics of a list of numbers -/

namespace Transfinite.Spec

/-- `s` has the values of `data` in increasing order. -/
structure Ranking (data s : List ℝ) : Prop where
  perm : s.Perm data
  sorted : s.Pairwise (· ≤ ·)

/-- `x` is at the (not necessarily integral) position `t` in `s`, where the first value is at 0, and values between two positions are given by linear interpolation. -/
def AtPosition (s : List ℝ) (t x : ℝ) : Prop :=
  ∃ (k : ℕ) (f a : ℝ), t = k + f ∧ 0 ≤ f ∧ f < 1 ∧ s[k]? = some a ∧ ((f = 0 ∧ x = a) ∨ ∃ b, s[k + 1]? = some b ∧ x = (1 - f) * a + f * b)

/-- The interval of the bin `j`, when the bins have width `w` and the first one starts at `lo`: the upper end belongs to the bin, and the first one also contains its lower end. -/
def InBin (lo w : ℝ) (j : ℕ) (x : ℝ) : Prop := (j = 0 ∧ x = lo) ∨ (lo + j * w < x ∧ x ≤ lo + (j + 1) * w)

/-- The number of values with the given property. -/
noncomputable def howMany (p : ℝ → Prop) (data : List ℝ) : ℕ := by
  classical exact data.countP fun x => decide (p x)

end Transfinite.Spec
