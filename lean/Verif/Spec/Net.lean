import Verif.Geom

/-! # Specification: control networks of Generalized Bézier patches

The control points of an `n`-sided patch of degree `d` have names `(i, j, k)`: the `j`-th point in the `k`-th row of side `i`.
The `(d+1)/2 × (d+1)/2` points around a corner belong to two sides and so have two names. -/

namespace Transfinite.Spec

/-- A name of a control point. -/
structure Name where
  side : ℕ
  col : ℕ
  row : ℕ
  deriving DecidableEq, Repr

/-- The names of a network. -/
def Name.InRange (n d : ℕ) (a : Name) : Prop := a.side < n ∧ a.col ≤ d ∧ a.row < (d + 1) / 2

/-- `a` and `b` are names of the same point near the first corner of the side of `a`. -/
def AtCorner (n d : ℕ) (a b : Name) : Prop :=
  a.col < (d + 1) / 2 ∧ a.row < (d + 1) / 2 ∧ b = ⟨(a.side + n - 1) % n, d - a.row, a.col⟩

/-- Two names of the same control point. -/
def SamePoint (n d : ℕ) (a b : Name) : Prop := a = b ∨ AtCorner n d a b ∨ AtCorner n d b a

instance (n d : ℕ) (a b : Name) : Decidable (SamePoint n d a b) := by unfold SamePoint AtCorner; infer_instance

/-- The value of the point `a` after the assignments `w` (in this order) to points that are initially 0. -/
def netValue {K : Type*} [Field K] (n d : ℕ) (w : List (Name × P3 K)) (a : Name) : P3 K :=
  w.foldl (fun v x => if SamePoint n d a x.1 then x.2 else v) 0

end Transfinite.Spec

namespace Transfinite.Spec

/-- The sum of the points weighted by `W` over all names of the network, and `c` with the remaining weight. -/
def weightedSum {K : Type*} [Field K] (n d : ℕ) (W : ℕ → ℕ → ℕ → K) (p : ℕ → ℕ → ℕ → P3 K) (c : P3 K) : P3 K :=
  (∑ i ∈ Finset.range n, ∑ k ∈ Finset.range ((d + 1) / 2), ∑ j ∈ Finset.range (d + 1), W i j k • p i j k) +
    (1 - ∑ i ∈ Finset.range n, ∑ k ∈ Finset.range ((d + 1) / 2), ∑ j ∈ Finset.range (d + 1), W i j k) • c

end Transfinite.Spec

namespace Transfinite.Spec

/-- For odd degree every point has exactly one name in the second half of the columns; the sum over these names of the points weighted by `W`, and
`c` with the remaining weight. -/
def halfSum {K : Type*} [Field K] (n d : ℕ) (W : ℕ → ℕ → ℕ → K) (p : ℕ → ℕ → ℕ → P3 K) (c : P3 K) : P3 K :=
  (∑ i ∈ Finset.range n, ∑ k ∈ Finset.range ((d + 1) / 2), ∑ j ∈ Finset.Ico ((d + 1) / 2) (d + 1), W i j k • p i j k) +
    (1 - ∑ i ∈ Finset.range n, ∑ k ∈ Finset.range ((d + 1) / 2), ∑ j ∈ Finset.Ico ((d + 1) / 2) (d + 1), W i j k) • c

end Transfinite.Spec

namespace Transfinite.Spec

/-- The corners of the quadrilateral cell at `(i, j, k)`. -/
def cell (c : Name) : List Name := [c, ⟨c.side, c.col + 1, c.row⟩, ⟨c.side, c.col + 1, c.row + 1⟩, ⟨c.side, c.col, c.row + 1⟩]

/-- The cells of a network that have names in the first half of the columns. -/
def cells (n d : ℕ) : List Name :=
  (List.range n).flatMap fun i => (List.range (d / 2 + 1)).flatMap fun j => (List.range ((d + 1) / 2 - 1)).map fun k => ⟨i, j, k⟩

/-- The face at the central control point (`none`) between side `i` and the next side; for even degree also between the previous side and side `i`. -/
def centreFace (n d i : ℕ) : List (Option Name) :=
  let l := (d + 1) / 2
  if d % 2 = 0 then [some ⟨i, l - 1, l - 1⟩, some ⟨i, l, l - 1⟩, none, some ⟨(i + n - 1) % n, l, l - 1⟩]
  else [some ⟨i, l - 1, l - 1⟩, some ⟨i, l, l - 1⟩, none]

/-- The faces of the control net of a Generalized Bézier patch. -/
def netFaces (n d : ℕ) : List (List (Option Name)) :=
  (cells n d).map (fun c => (cell c).map some) ++ (List.range n).map (centreFace n d)

/-- `x` and `y` are the same control point; `none` is the central one. -/
def SameOpt (n d : ℕ) : Option Name → Option Name → Prop
  | none, none => True
  | some a, some b => SamePoint n d a b
  | _, _ => False

end Transfinite.Spec

namespace Transfinite.Spec

/-- The control point next to `a` towards the centre of the patch; `none` is the central control point. In the last row this is in the last row of the previous side. -/
def above (n d : ℕ) (a : Name) : Option Name :=
  let l := (d + 1) / 2
  if a.row + 1 < l then some ⟨a.side, a.col, a.row + 1⟩
  else if d % 2 = 0 ∧ a.col = l then none
  else some ⟨(a.side + n - 1) % n, d - l, l - 1⟩

/-- The four control points around an inner point `a` in the columns of its side. -/
def neighbours (n d : ℕ) (a : Name) : List (Option Name) :=
  [some ⟨a.side, a.col - 1, a.row⟩, some ⟨a.side, a.col + 1, a.row⟩, some ⟨a.side, a.col, a.row - 1⟩, above n d a]

/-- The point of an optional name; `c` is the central control point. -/
def optPoint {K : Type*} (p : Name → P3 K) (c : P3 K) : Option Name → P3 K
  | none => c
  | some a => p a

/-- In equation `r` of the linear system `A x = b`, the left side minus the right side is `e`. -/
def Residual {K : Type*} [Field K] (A : List (List K)) (b x : List (P3 K)) (r : ℕ) (e : P3 K) : Prop :=
  ∃ row q, A[r]? = some row ∧ b[r]? = some q ∧ (List.zipWith (fun (w : K) (p : P3 K) => w • p) row x).sum - q = e

end Transfinite.Spec
