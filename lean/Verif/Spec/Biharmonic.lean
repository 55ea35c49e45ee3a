import Verif.Geom
import Verif.Spec.Mesh
import Mathlib.Algebra.BigOperators.Group.Finset.Basic

/-! # Independent specification of the discrete differential operators on triangle meshes in space -/

namespace Transfinite.Spec

/-- The scalar product of the sides at the corner `p` of the triangle `p q r`. -/
noncomputable def corner (p q r : P3 ℝ) : ℝ := P3.dot (q - p) (r - p)

/-- Twice the area of a triangle in space. -/
noncomputable def area3 (p q r : P3 ℝ) : ℝ := (P3.cross (q - p) (r - p)).norm

/-- The area of the part of a triangle that is nearest to its first corner, for the scalar products `A`, `B`, `C` at the corners and twice the area `D`. For its geometric meaning
see `C74_partition`, `C74_circumcenter` and `C74_obtuse`. -/
noncomputable def vor (A B C D : ℝ) : ℝ :=
  if C < 0 then (A + C) * D / (8 * A)
  else if B < 0 then (A + B) * D / (8 * A)
  else if A < 0 then D / 2 - D / 8 * ((A + C) / C + (A + B) / B)
  else ((A + C) * B + (A + B) * C) / (8 * D)

/-- The Voronoi area at the corner `p` of the triangle `p q r`. -/
noncomputable def vorCell (p q r : P3 ℝ) : ℝ := vor (corner p q r) (corner q r p) (corner r p q) (area3 p q r)

/-- The sum of `f` over the corners at vertex `k` of the triangles; the arguments of `f` are the corner and the next two vertices of the triangle. -/
noncomputable def cornerSum (ts : List (ℕ × ℕ × ℕ)) (f : ℕ → ℕ → ℕ → ℝ) (k : ℕ) : ℝ :=
  (ts.map fun t => (if k = t.1 then f t.1 t.2.1 t.2.2 else 0) + (if k = t.2.1 then f t.2.1 t.2.2 t.1 else 0) + (if k = t.2.2 then f t.2.2 t.1 t.2.1 else 0)).sum

/-- The Voronoi area of vertex `k` of a mesh. -/
noncomputable def cellArea (ts : List (ℕ × ℕ × ℕ)) (P : ℕ → P3 ℝ) (k : ℕ) : ℝ := cornerSum ts (fun a b c => vorCell (P a) (P b) (P c)) k

/-- The cotangent of the angle at the corner `p`. -/
noncomputable def cot (p q r : P3 ℝ) : ℝ := corner p q r / area3 p q r

/-- The integrated (cotangent) Laplacian of the function with the values `x` in the vertices of a mesh. -/
noncomputable def lap (ts : List (ℕ × ℕ × ℕ)) (P : ℕ → P3 ℝ) (x : ℕ → ℝ) (k : ℕ) : ℝ :=
  cornerSum ts (fun a b c => (cot (P b) (P c) (P a) * (x a - x c) + cot (P c) (P a) (P b) * (x a - x b)) / 2) k

/-- The Laplacian of a map to space. -/
noncomputable def lap3 (ts : List (ℕ × ℕ × ℕ)) (P V : ℕ → P3 ℝ) (k : ℕ) : P3 ℝ :=
  ⟨lap ts P (fun k => (V k).x) k, lap ts P (fun k => (V k).y) k, lap ts P (fun k => (V k).z) k⟩

open Classical in
/-- The bending energy of a map `V` from a mesh `P` to space: the squared mean curvature vector (the Laplacian divided by the area), integrated over the cells of the vertices inside
the mesh. -/
noncomputable def willmore (N : ℕ) (ts : List (ℕ × ℕ × ℕ)) (P V : ℕ → P3 ℝ) : ℝ :=
  ∑ k ∈ Finset.range N, if IsBoundaryVertex ts k then 0 else P3.normSqr (lap3 ts P V k) / cellArea ts P k

/-- The mesh has no degenerate triangles. -/
def Nondegenerate (ts : List (ℕ × ℕ × ℕ)) (P : ℕ → P3 ℝ) : Prop := ∀ t ∈ ts, area3 (P t.1) (P t.2.1) (P t.2.2) ≠ 0

/-- The unit vector in the direction of `v` (or zero). -/
noncomputable def unitVec (v : P3 ℝ) : P3 ℝ := open Classical in if v = 0 then 0 else v.norm⁻¹ • v

/-- As `cornerSum`, for vectors. -/
noncomputable def cornerSum3 (ts : List (ℕ × ℕ × ℕ)) (f : ℕ → ℕ → ℕ → P3 ℝ) (k : ℕ) : P3 ℝ :=
  (ts.map fun t => (if k = t.1 then f t.1 t.2.1 t.2.2 else 0) + (if k = t.2.1 then f t.2.1 t.2.2 t.1 else 0) + (if k = t.2.2 then f t.2.2 t.1 t.2.1 else 0)).sum

/-- The vector product of the normal vector at one third of the side from `a` to `b` and the side. -/
noncomputable def wedge (P n : ℕ → P3 ℝ) (a b : ℕ) : P3 ℝ := P3.cross (unitVec ((2 : ℝ) • n a + n b)) (P b - P a)

/-- The integral of the vector product of the normal and the tangent along the outline of the ring of triangles around vertex `k`: the sides opposite to `k`, with the normals
of the triangles; and for a vertex on the boundary also the two boundary edges at `k`. -/
noncomputable def ringIntegral (ts : List (ℕ × ℕ × ℕ)) (P n : ℕ → P3 ℝ) (k : ℕ) : P3 ℝ :=
  cornerSum3 ts (fun a b c => P3.cross (unitVec (n a + n b + n c)) (P c - P b)) k +
    ((boundaryEdges ts).map fun e => (if k = e.1 then wedge P n e.1 e.2 else 0) - (if k = e.2 then wedge P n e.2 e.1 else 0)).sum

/-- The (unsigned) mean curvature. -/
noncomputable def meanCurv (ts : List (ℕ × ℕ × ℕ)) (P n : ℕ → P3 ℝ) (k : ℕ) : ℝ := (ringIntegral ts P n k).norm / (2 * cellArea ts P k)

end Transfinite.Spec
