import Verif.Geom

/-! # Independent specification of polygons -/

namespace Transfinite.Spec

variable {K : Type*} [Field K]

/-- Twice the signed area of the triangle `a b c` (positive if counterclockwise). -/
def area2 (a b c : P2 K) : K := (b.x - a.x) * (c.y - a.y) - (b.y - a.y) * (c.x - a.x)

/-- Twice the signed area of the triangle formed by side `i` (from vertex `i-1` to vertex `i`,
cyclically) and `p`; positive if `p` is on the left of the side. -/
def leftOf (n : ℕ) (v : ℕ → P2 K) (i : ℕ) (p : P2 K) : K := area2 (v ((i + n - 1) % n)) (v i) p

/-- Twice the signed area of the polygon (shoelace formula). -/
def polyArea2 (n : ℕ) (v : ℕ → P2 K) : K :=
  ∑ i ∈ Finset.range n, ((v ((i + n - 1) % n)).x * (v i).y - (v ((i + n - 1) % n)).y * (v i).x)

/-- Strictly convex counterclockwise polygon: every vertex that is not an endpoint of side `i` is
strictly on the left of it. -/
def StrictConvex [LinearOrder K] (n : ℕ) (v : ℕ → P2 K) : Prop :=
  ∀ i < n, ∀ j < n, j ≠ i → j ≠ (i + n - 1) % n → 0 < leftOf n v i (v j)

/-- `p` is strictly inside of the (convex, counterclockwise) polygon. -/
def Inside [LinearOrder K] (n : ℕ) (v : ℕ → P2 K) (p : P2 K) : Prop := ∀ i < n, 0 < leftOf n v i p

/-- `p` is in the closed (convex, counterclockwise) polygon. -/
def InsideClosed [LinearOrder K] (n : ℕ) (v : ℕ → P2 K) (p : P2 K) : Prop := ∀ i < n, 0 ≤ leftOf n v i p

/-- The point of side `i` at parameter `s`. -/
def sidePoint (n : ℕ) (v : ℕ → P2 K) (i : ℕ) (s : K) : P2 K := (1 - s) • v ((i + n - 1) % n) + s • v i

/-- The bilinear map of the unit square with `(0,0) ↦ v1`, `(1,0) ↦ v2`, `(0,1) ↦ v0`, `(1,1) ↦ v3`. -/
def bilinear (v0 v1 v2 v3 : P2 K) (s t : K) : P2 K :=
  ((1 - s) * (1 - t)) • v1 + (s * (1 - t)) • v2 + ((1 - s) * t) • v0 + (s * t) • v3

end Transfinite.Spec
