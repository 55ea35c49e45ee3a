import Verif.Prelude
import Verif.Spec.Bezier
import Mathlib.Algebra.Order.Antidiag.Pi
import Mathlib.Data.Nat.Factorial.Basic

/-! # S-patches, as defined by Loop and DeRose

The control points of an S-patch with `n` sides and depth `d` are labelled by vectors of `n` natural numbers with sum `d`. -/

namespace Transfinite.Spec

/-- The labels of the control points, as functions that are zero outside of `0, ..., n-1`. -/
def labels (n d : ℕ) : Finset (ℕ → ℕ) := Finset.piAntidiag (Finset.range n) d

/-- A vector that is the label of a control point. -/
def Label (n d : ℕ) (i : List ℕ) : Prop := i.length = n ∧ i.sum = d

/-- The weight of a control point in a point of the domain with generalized barycentric coordinates `c`. -/
def multiBern {K : Type*} [Field K] (n : ℕ) (c : ℕ → K) (k : ℕ → ℕ) : K :=
  ((∑ i ∈ Finset.range n, k i).factorial : K) / (∏ i ∈ Finset.range n, ((k i).factorial : K)) * ∏ i ∈ Finset.range n, c i ^ k i

/-- The label of control point `j` on the side from corner `a` to corner `b`. -/
def sideLabel (d a b j : ℕ) : ℕ → ℕ := fun x => if x = a then d - j else if x = b then j else 0

end Transfinite.Spec
