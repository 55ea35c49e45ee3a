import Mathlib.Analysis.Calculus.ContDiff.Operations
import Mathlib.Analysis.Real.Sqrt
import Verif.Spec.Polygon

/-! # Independent specification of the ratio of the weighted distances from the neighbouring sides -/

namespace Transfinite.Spec

open scoped ContDiff

/-- Twice the area of the triangle of vertex `i` and its two neighbours. -/
noncomputable def cornerTriangle (n : ℕ) (v : ℕ → P2 ℝ) (i : ℕ) : ℝ := area2 (v ((i + n - 1) % n)) (v i) (v ((i + 1) % n))

/-- The length of side `i`. -/
noncomputable def sideLen (n : ℕ) (v : ℕ → P2 ℝ) (i : ℕ) : ℝ :=
  √(((v i).x - (v ((i + n - 1) % n)).x) ^ 2 + ((v i).y - (v ((i + n - 1) % n)).y) ^ 2)

/-- The weighted sum of the areas spanned by `p` and the two neighbours of side `j`. -/
noncomputable def neighbourSum (n : ℕ) (v : ℕ → P2 ℝ) (j : ℕ) (p : P2 ℝ) : ℝ :=
  cornerTriangle n v j * leftOf n v ((j + n - 1) % n) p + cornerTriangle n v ((j + n - 1) % n) * leftOf n v ((j + 1) % n) p

/-- The part of the previous side in this sum: 0 on the previous side and 1 on the next one. -/
noncomputable def sideRatio (n : ℕ) (v : ℕ → P2 ℝ) (j : ℕ) (p : P2 ℝ) : ℝ :=
  cornerTriangle n v j * leftOf n v ((j + n - 1) % n) p / neighbourSum n v j p

/-- The sum of the distances from the two neighbours of side `j`, weighted by the sines of the angles at the two ends of the side. -/
noncomputable def neighbourDist (n : ℕ) (v : ℕ → P2 ℝ) (j : ℕ) (p : P2 ℝ) : ℝ :=
  neighbourSum n v j p / (sideLen n v ((j + n - 1) % n) * sideLen n v j * sideLen n v ((j + 1) % n))

/-- A map of the plane is analytic at `p`. -/
def PlaneSmoothAt (F : P2 ℝ → P2 ℝ) (p : P2 ℝ) : Prop :=
  ContDiffAt ℝ ω (fun q : ℝ × ℝ => ((F ⟨q.1, q.2⟩).x, (F ⟨q.1, q.2⟩).y)) (p.x, p.y)

/-- The point of a parallelogram with side parameter `u` and distance `w` from side 0. -/
noncomputable def parPoint (v : ℕ → P2 ℝ) (u w : ℝ) : P2 ℝ := v 3 + u • (v 0 - v 3) + w • (v 2 - v 3)

end Transfinite.Spec
