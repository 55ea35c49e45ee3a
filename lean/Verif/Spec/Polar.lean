import Verif.Geom
import Mathlib.Algebra.Polynomial.Eval.Degree

/-! # Specification of polar patches: interpolating polynomial curves, solvers, and the error of the polar ribbons -/

namespace Transfinite.Spec

open Polynomial

/-- `f` is a polynomial curve of degree at most `m`. -/
def IsPoly (m : ℕ) (f : ℝ → P3 ℝ) : Prop :=
  ∃ X Y Z : ℝ[X], X.natDegree ≤ m ∧ Y.natDegree ≤ m ∧ Z.natDegree ≤ m ∧ ∀ u, f u = ⟨X.eval u, Y.eval u, Z.eval u⟩

/-- `f` is the polynomial curve of degree at most `m` that agrees with `c` at the parameters `0, 1/m, ..., 1`. -/
def Interpolates (m : ℕ) (c f : ℝ → P3 ℝ) : Prop :=
  IsPoly m f ∧ ∀ k ≤ m, f (k / m) = c (k / m)

/-- A solver of linear systems: regular square systems are solved; the result always has as many rows as there are equations.
(Eigen's `fullPivLu().solve` in exact arithmetic.) -/
def Solver (solve : List (List ℝ) → List (P3 ℝ) → List (P3 ℝ)) : Prop :=
  ∀ (m : ℕ) (a : ℕ → ℕ → ℝ) (b : ℕ → P3 ℝ),
    (solve ((List.range m).map fun i => (List.range m).map (a i)) ((List.range m).map b)).length = m ∧
    ((∀ x : ℕ → ℝ, (∀ i < m, ∑ j ∈ Finset.range m, a i j * x j = 0) → ∀ j < m, x j = 0) →
      ∃ x : ℕ → P3 ℝ, solve ((List.range m).map fun i => (List.range m).map (a i)) ((List.range m).map b) = (List.range m).map x ∧
        ∀ i < m, ∑ j ∈ Finset.range m, a i j • x j = b i)

/-- Let `θ` be the angle between the vectors from the corner `P` to `P1` and `P2`. This is
`|P2 - P| (1 - sin θ) (cos θ D1 - D2)`, where `D1` and `D2` are the unit vectors from `P` to `P1` and `P2`. -/
noncomputable def cornerGap (P P1 P2 : P3 ℝ) : P3 ℝ :=
  let D1 := (P1 - P).norm⁻¹ • (P1 - P)
  let D2 := (P2 - P).norm⁻¹ • (P2 - P)
  ((P2 - P).norm * (1 - Real.sqrt (1 - P3.dot D1 D2 ^ 2))) • (P3.dot D1 D2 • D1 - D2)

end Transfinite.Spec
