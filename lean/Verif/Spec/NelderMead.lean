import Verif.Lemmas.Lists

/-! # The method of Nelder and Mead -/

namespace Transfinite.Spec

variable {K : Type} [Field K] [LinearOrder K]

/-- The centroid of the vertices other than `h`, of a simplex with vertices `P 0, ..., P n` in `n` dimensions. -/
def faceCentroid (n : ℕ) (P : ℕ → ℕ → K) (h : ℕ) (j : ℕ) : K := (∑ i ∈ (Finset.range (n + 1)).erase h, P i j) / n

/-- The point `c + t (p - c)`. -/
def along (c p : ℕ → K) (t : K) (j : ℕ) : K := c j + t * (p j - c j)

/-- One step of the method, from the simplex `P` to the simplex `Q`; `F` is the function, `a` and `h` are vertices with the lowest and the highest value, and `m` is the value against which the
reflected point is tested. -/
def NMStep (F : (ℕ → K) → K) (n : ℕ) (P Q : ℕ → ℕ → K) (a h : ℕ) (m : K) : Prop :=
  let c := faceCentroid n P h
  let xr := along c (P h) (-1)
  let xe := along c (P h) (-2)
  -- the best point of the reflected and the expanded one, when the reflected one is better than all vertices
  (F xr < F (P a) ∧ F xe < F xr ∧ ∀ i ≤ n, ∀ j < n, Q i j = if i = h then xe j else P i j) ∨
  (F xr < F (P a) ∧ F xr ≤ F xe ∧ ∀ i ≤ n, ∀ j < n, Q i j = if i = h then xr j else P i j) ∨
  -- the reflected point when it is not worse than the test value
  (F (P a) ≤ F xr ∧ F xr ≤ m ∧ ∀ i ≤ n, ∀ j < n, Q i j = if i = h then xr j else P i j) ∨
  -- otherwise contraction towards the centroid, from the better one of the vertex and the reflected point, or shrinking of this simplex
  (F (P a) ≤ F xr ∧ m < F xr ∧ ∃ p : ℕ → K, (F xr ≤ F (P h) ∧ p = xr ∨ F (P h) < F xr ∧ p = P h) ∧
    (F (along c p (1 / 2)) ≤ F p ∧ (∀ i ≤ n, ∀ j < n, Q i j = if i = h then along c p (1 / 2) j else P i j) ∨
     F p < F (along c p (1 / 2)) ∧ ∀ i ≤ n, ∀ j < n, Q i j =
        if i = a then Function.update P h p a j else (Function.update P h p i j + Function.update P h p a j) / 2))

/-- The variance of the values. -/
def variance (n : ℕ) (v : ℕ → K) : K := (∑ i ∈ Finset.range (n + 1), (v i - (∑ j ∈ Finset.range (n + 1), v j) / (n + 1)) ^ 2) / (n + 1)

end Transfinite.Spec
