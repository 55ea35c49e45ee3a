import Verif.Model.Domain

/-! # Specification: bands of triangles -/

namespace Transfinite

namespace Spec

/-- The two triangles of a band between the columns `a` and `b`; the points of column `k` have the indices `2k` (base) and `2k + 1` (top). -/
def quad (a b : ℕ) : List (ℕ × ℕ × ℕ) := [(2 * a, 2 * a + 1, 2 * b), (2 * a + 1, 2 * b + 1, 2 * b)]

/-- The closed band with `m` columns. -/
def closedBand (m : ℕ) : List (ℕ × ℕ × ℕ) := (List.range m).flatMap fun k => quad k ((k + 1) % m)

/-- `n` open bands, each with `m + 1` columns. -/
def openBands (n m : ℕ) : List (ℕ × ℕ × ℕ) :=
  (List.range n).flatMap fun i => (List.range m).flatMap fun j => quad (i * (m + 1) + j) (i * (m + 1) + j + 1)

end Spec

end Transfinite
