import Mathlib.Data.List.Perm.Basic
import Mathlib.Data.List.Nodup

/-! # Independent specification of triangle meshes -/

namespace Transfinite.Spec

/-- The three directed edges of a triangle given by vertex indices. -/
def dirEdges (t : ℕ × ℕ × ℕ) : List (ℕ × ℕ) := [(t.1, t.2.1), (t.2.1, t.2.2), (t.2.2, t.1)]

/-- All directed edges of a list of triangles (with multiplicity). -/
def meshEdges (ts : List (ℕ × ℕ × ℕ)) : List (ℕ × ℕ) := ts.flatMap dirEdges

/-- The directed edges whose opposite is not used by any triangle. -/
def boundaryEdges (ts : List (ℕ × ℕ × ℕ)) : List (ℕ × ℕ) :=
  (meshEdges ts).filter (fun e => e.swap ∉ meshEdges ts)

/-- `i` is a vertex of the boundary of the mesh: it is the endpoint of an edge used by exactly one
triangle. -/
def IsBoundaryVertex (ts : List (ℕ × ℕ × ℕ)) (i : ℕ) : Prop :=
  ∃ e ∈ meshEdges ts, e.swap ∉ meshEdges ts ∧ (e.1 = i ∨ e.2 = i)

/-- A triangle is proper if its vertices are distinct and all smaller than `size`. -/
def ProperTri (size : ℕ) (t : ℕ × ℕ × ℕ) : Prop :=
  t.1 < size ∧ t.2.1 < size ∧ t.2.2 < size ∧ t.1 ≠ t.2.1 ∧ t.2.1 ≠ t.2.2 ∧ t.2.2 ≠ t.1

/-- An oriented manifold triangulation: no directed edge is used twice. -/
def OrientedManifold (ts : List (ℕ × ℕ × ℕ)) : Prop := (meshEdges ts).Nodup

/-- The boundary of the mesh is one simple closed loop `b 0 → b 1 → ... → b (m-1) → b 0`. -/
def BoundaryLoop (ts : List (ℕ × ℕ × ℕ)) (m : ℕ) (b : ℕ → ℕ) : Prop :=
  (∀ p < m, ∀ q < m, b p = b q → p = q) ∧
  (boundaryEdges ts).Perm ((List.range m).map fun p => (b p, b ((p + 1) % m)))

end Transfinite.Spec
