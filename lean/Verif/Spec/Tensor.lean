import Verif.Spec.SuperD
import Verif.Spec.Net

/-! # Specification: classical Bézier surfaces -/

namespace Transfinite.Spec

/-- The tensor product Bézier surface of degree `d` in both directions with the control points `P j k`, `0 ≤ j, k ≤ d`, in `(u, w)`. -/
def tensor {K V : Type*} [Field K] [AddCommMonoid V] [Module K V] (d : ℕ) (P : ℕ → ℕ → V) (u w : K) : V :=
  ∑ j ∈ Finset.range (d + 1), ∑ k ∈ Finset.range (d + 1), (bern d j u * bern d k w) • P j k

/-- The Bézier triangle of degree `d` with the control points `P i j k`, `i + j + k = d`, in the point with the barycentric coordinates `a`, `b`, `c`. -/
def bezierTriangle {K V : Type*} [Field K] [AddCommMonoid V] [Module K V] (d : ℕ) (P : ℕ → ℕ → ℕ → V) (a b c : K) : V :=
  ∑ i ∈ Finset.range (d + 1), ∑ j ∈ Finset.range (d + 1 - i),
    ((d.factorial : K) / (i.factorial * j.factorial * (d - i - j).factorial) * (a ^ i * b ^ j * c ^ (d - i - j))) • P i j (d - i - j)

/-- The place of control point `(j, k)` of side `i` in the `(d + 1) × (d + 1)` grid of a four-sided patch: row 0 of the grid is side 0, the last column is side 1, the last row is side 2
(backwards), and the first column is side 3 (backwards). The first number is the column, the second is the row. -/
def gridPlace (d i j k : ℕ) : ℕ × ℕ :=
  if i = 0 then (j, k) else if i = 1 then (d - k, j) else if i = 2 then (d - j, d - k) else (k, d - j)

/-- The biquartic surface of a `3 × 3` grid of points: first every row is turned into a quartic curve, and then every column of these. -/
noncomputable def biquartic (f : ℝ) (g : ℕ → ℕ → P3 ℝ) (j k : ℕ) : P3 ℝ :=
  quarticPoint f (quarticPoint f (g 0 0) (g 1 0) (g 2 0) j) (quarticPoint f (g 0 1) (g 1 1) (g 2 1) j) (quarticPoint f (g 0 2) (g 1 2) (g 2 2) j) k

/-- Degree elevation of a tensor product Bézier surface in both directions: the control points of degree `d + 1`. (At the ends one of the points is out of range, with weight 0.) -/
noncomputable def elevGrid (d : ℕ) (P : ℕ → ℕ → P3 ℝ) (j k : ℕ) : P3 ℝ :=
  ((j : ℝ) / (d + 1) * (k / (d + 1))) • P (j - 1) (k - 1) + ((1 - (j : ℝ) / (d + 1)) * (k / (d + 1))) • P j (k - 1) +
    ((j : ℝ) / (d + 1) * (1 - k / (d + 1))) • P (j - 1) k + ((1 - (j : ℝ) / (d + 1)) * (1 - k / (d + 1))) • P j k

/-- The mean of the four points in the middle of the grid of odd degree `2 m - 1`. -/
noncomputable def middleMean (m : ℕ) (P : ℕ → ℕ → P3 ℝ) : P3 ℝ := (1 / 4 : ℝ) • (P (m - 1) (m - 1) + P m (m - 1) + P (m - 1) m + P m m)

/-- The mean of the eight points of the grid of odd degree `2 m - 1` that are next to the four middle ones (without the corners). -/
noncomputable def ringMean (m : ℕ) (P : ℕ → ℕ → P3 ℝ) : P3 ℝ :=
  (1 / 8 : ℝ) • (P (m - 1) (m - 2) + P m (m - 2) + P (m + 1) (m - 1) + P (m + 1) m + P m (m + 1) + P (m - 1) (m + 1) + P (m - 2) m + P (m - 2) (m - 1))

end Transfinite.Spec
