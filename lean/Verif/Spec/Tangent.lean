import Verif.Spec.Polygon
import Mathlib.Analysis.Calculus.Deriv.Basic

/-! # Specification: one-sided derivatives of real and space-valued functions -/

namespace Transfinite.Spec

/-- `f'` is the derivative of `f` at 0 from the right. -/
def RightDer (f : ℝ → ℝ) (f' : ℝ) : Prop := HasDerivWithinAt f f' (Set.Ici 0) 0

/-- `f'` is the derivative of the curve `f` at 0 from the right. -/
def RightDer3 (f : ℝ → P3 ℝ) (f' : P3 ℝ) : Prop :=
  RightDer (fun t => (f t).x) f'.x ∧ RightDer (fun t => (f t).y) f'.y ∧ RightDer (fun t => (f t).z) f'.z

/-- `f'` is the derivative of `f : [0,1] → space` at `s` (one-sided in the ends). -/
def UnitDer (f : ℝ → P3 ℝ) (f' : P3 ℝ) (s : ℝ) : Prop :=
  HasDerivWithinAt (fun t => (f t).x) f'.x (Set.Icc 0 1) s ∧ HasDerivWithinAt (fun t => (f t).y) f'.y (Set.Icc 0 1) s ∧
    HasDerivWithinAt (fun t => (f t).z) f'.z (Set.Icc 0 1) s

/-- The coordinates of two points differ by at most `δ`. -/
def Close (δ : ℝ) (a b : P3 ℝ) : Prop := |a.x - b.x| ≤ δ ∧ |a.y - b.y| ≤ δ ∧ |a.z - b.z| ≤ δ

/-- The path `p` in the polygon starts at the point `s` of side `i` with the velocity `w`. -/
structure DomainPath (n : ℕ) (v : ℕ → P2 ℝ) (i : ℕ) (s : ℝ) (p : ℝ → P2 ℝ) (w : P2 ℝ) : Prop where
  start : p 0 = sidePoint n v i s
  derX : RightDer (fun t => (p t).x) w.x
  derY : RightDer (fun t => (p t).y) w.y
  inside : ∀ᶠ t in nhdsWithin 0 (Set.Ici 0), InsideClosed n v (p t)

/-- How fast the velocity `w` leaves side `i` (positive if `w` points to the inside of the polygon). -/
noncomputable def inward (n : ℕ) (v : ℕ → P2 ℝ) (i : ℕ) (w : P2 ℝ) : ℝ :=
  (v i - v ((i + n - 1) % n)).x * w.y - (v i - v ((i + n - 1) % n)).y * w.x

end Transfinite.Spec
