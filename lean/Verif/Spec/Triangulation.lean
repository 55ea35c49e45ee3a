import Verif.Spec.Mesh
import Verif.Spec.Polygon
import Mathlib.Algebra.BigOperators.Group.Finset.Basic

/-! # Independent specification of constrained triangulations and of fitting planes -/

namespace Transfinite.Spec

/-- The sides of the closed polygon with vertices `0, ..., m-1`. -/
def polygonSides (m : ℕ) : List (ℕ × ℕ) := (List.range m).map fun i => (i, (i + 1) % m)

/-- `(uv, ts)` with `N` vertices is a triangulation of the polygon `p` of `m` vertices, with all the additional vertices inside: the polygon comes first in the list of
vertices; the triangles are not degenerate and have the positive orientation; they form a connected manifold, and its boundary edges are the sides of the polygon (in one of the two directions). -/
structure Triangulation (m : ℕ) (p : ℕ → P2 ℝ) (N : ℕ) (uv : ℕ → P2 ℝ) (ts : List (ℕ × ℕ × ℕ)) : Prop where
  more : m ≤ N
  first : ∀ i < m, uv i = p i
  proper : ∀ t ∈ ts, ProperTri N t
  used : ∀ k < N, ∃ t ∈ ts, k = t.1 ∨ k = t.2.1 ∨ k = t.2.2
  manifold : OrientedManifold ts
  positive : ∀ t ∈ ts, 0 < area2 (uv t.1) (uv t.2.1) (uv t.2.2)
  boundary : (boundaryEdges ts).Perm (polygonSides m) ∨ (boundaryEdges ts).Perm ((polygonSides m).map Prod.swap)
  connected : ∀ k < N, Relation.ReflTransGen (fun a b => (a, b) ∈ meshEdges ts ∨ (b, a) ∈ meshEdges ts) 0 k

/-- Twice the signed area of a polygon. -/
noncomputable def polygonArea2 (m : ℕ) (p : ℕ → P2 ℝ) : ℝ :=
  ((polygonSides m).map fun e => (p e.1).x * (p e.2).y - (p e.1).y * (p e.2).x).sum

/-- `u` and `v` are the first two principal directions of the vectors `r 0, ..., r (m-1)` (right singular vectors of the matrix with these rows, in the order of singular values). -/
def Principal (m : ℕ) (r : ℕ → P3 ℝ) (u v : P3 ℝ) : Prop :=
  ∃ w : P3 ℝ, (P3.dot u u = 1 ∧ P3.dot v v = 1 ∧ P3.dot w w = 1 ∧ P3.dot u v = 0 ∧ P3.dot v w = 0 ∧ P3.dot w u = 0) ∧
    (∑ i ∈ Finset.range m, P3.dot (r i) u * P3.dot (r i) v = 0) ∧ (∑ i ∈ Finset.range m, P3.dot (r i) v * P3.dot (r i) w = 0) ∧
    (∑ i ∈ Finset.range m, P3.dot (r i) w * P3.dot (r i) u = 0) ∧
    (∑ i ∈ Finset.range m, P3.dot (r i) v ^ 2 ≤ ∑ i ∈ Finset.range m, P3.dot (r i) u ^ 2) ∧
    (∑ i ∈ Finset.range m, P3.dot (r i) w ^ 2 ≤ ∑ i ∈ Finset.range m, P3.dot (r i) v ^ 2)

end Transfinite.Spec
