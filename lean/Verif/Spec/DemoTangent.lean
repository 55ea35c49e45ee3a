import Verif.Spec.Tangent

/-! # Specification: the tangential test -/

namespace Transfinite.Demo

/-- The unit normal vector of side `i` of a counterclockwise polygon, to the inside. -/
noncomputable def innerNormal (n : ℕ) (v : ℕ → P2 ℝ) (i : ℕ) : P2 ℝ :=
  ((v i - v ((i + n - 1) % n)).norm)⁻¹ • ⟨-(v i - v ((i + n - 1) % n)).y, (v i - v ((i + n - 1) % n)).x⟩

/-- The cosine of the angle of the vectors `a` and (the unit vector) `b`. -/
noncomputable def cosAngle (a b : P3 ℝ) : ℝ := a.norm⁻¹ * P3.dot a b

end Transfinite.Demo
