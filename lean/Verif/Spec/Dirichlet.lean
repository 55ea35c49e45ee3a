import Verif.Spec.Polygon

/-! # Independent specification of the energy of piecewise linear functions on a triangle mesh -/

namespace Transfinite.Spec

/-- The gradient of the linear function with the values `x`, `y`, `z` in the vertices `a`, `b`, `c` of a triangle (by Cramer's rule; see `gradient_spec`). -/
noncomputable def gradient (a b c : P2 ℝ) (x y z : ℝ) : P2 ℝ :=
  ⟨((y - x) * (c.y - a.y) - (z - x) * (b.y - a.y)) / area2 a b c, ((z - x) * (b.x - a.x) - (y - x) * (c.x - a.x)) / area2 a b c⟩

theorem gradient_spec {a b c : P2 ℝ} (h : area2 a b c ≠ 0) (x y z : ℝ) :
    P2.dot (gradient a b c x y z) (b - a) = y - x ∧ P2.dot (gradient a b c x y z) (c - a) = z - x := by
  unfold gradient P2.dot
  simp only [P2.sub_x, P2.sub_y]
  generalize hA : area2 a b c = A at h
  unfold area2 at hA
  constructor <;> field_simp <;> rw [← hA] <;> ring

/-- The integral of the squared length of the gradient over a triangle, i.e., the area times the squared length. -/
noncomputable def triEnergy (a b c : P2 ℝ) (x y z : ℝ) : ℝ := area2 a b c / 2 * P2.dot (gradient a b c x y z) (gradient a b c x y z)

/-- The Dirichlet energy of the piecewise linear function on the mesh `ts` (in the plane, with vertices `uv`) that has the value `x k` in vertex `k`. -/
noncomputable def dirichlet (ts : List (ℕ × ℕ × ℕ)) (uv : ℕ → P2 ℝ) (x : ℕ → ℝ) : ℝ :=
  (ts.map fun t => triEnergy (uv t.1) (uv t.2.1) (uv t.2.2) (x t.1) (x t.2.1) (x t.2.2)).sum

/-- The Dirichlet energy of a piecewise linear map to space. -/
noncomputable def dirichlet3 (ts : List (ℕ × ℕ × ℕ)) (uv : ℕ → P2 ℝ) (P : ℕ → P3 ℝ) : ℝ :=
  dirichlet ts uv (fun k => (P k).x) + dirichlet ts uv (fun k => (P k).y) + dirichlet ts uv (fun k => (P k).z)

end Transfinite.Spec
