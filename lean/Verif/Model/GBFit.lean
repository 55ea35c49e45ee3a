import Verif.Model.GBIO

/-! # Model of gb-fit.cc -/

namespace Transfinite

open Spec

namespace GB

variable {K : Type} [Field K] [LinearOrder K] [Libm K]

/-- gb-fit.cc 15-17: the corner control points. -/
def elevateCorners (S : GB K) (n : ℕ) (R : GB K) : M (GB K) :=
  forLoop n (fun i (R : GB K) => do
    let p ← S.controlPoint i 0 0
    R.setControlPoint i 0 0 p) R

/-- gb-fit.cc 19-26: the boundary control points. -/
def elevateBoundary (S : GB K) (n d : ℕ) (R : GB K) : M (GB K) :=
  forLoop (d - 1) (fun j' (R : GB K) => do
    let j := j' + 1
    let eta ← fdiv (j : K) (d : K)
    forLoop n (fun i (R : GB K) => do
      let p ← S.controlPoint i (j - 1) 0
      let q ← S.controlPoint i j 0
      R.setControlPoint i j 0 (eta • p + (1 - eta) • q)) R) R

/-- gb-fit.cc 45-48: the point `p4` in the second case. -/
def elevateLast (S : GB K) (n d i j k : ℕ) : M (P3 K) :=
  if j = d / 2 then .ok S.central else S.controlPoint ((i + n - 1) % n) (usub (usub d k) 1) j

/-- gb-fit.cc 39-49: the points `p3` and `p4`. -/
def elevateUpper (S : GB K) (n d i j k : ℕ) : M (P3 K × P3 K) :=
  if d % 2 = 0 ∨ k < d / 2 then do
    let p3 ← S.controlPoint i (j - 1) k
    let p4 ← S.controlPoint i j k
    .ok (p3, p4)
  else do
    let p3 ← S.controlPoint ((i + n - 1) % n) (usub (usub d k) 1) (j - 1)
    let p4 ← S.elevateLast n d i j k
    .ok (p3, p4)

/-- gb-fit.cc 28-55: the other control points. -/
def elevateInner (S : GB K) (n d l : ℕ) (R : GB K) : M (GB K) :=
  forLoop (d / 2) (fun j' (R : GB K) => do
    let j := j' + 1
    let eta ← fdiv (j : K) (d : K)
    forLoop (l - 1) (fun k' (R : GB K) => do
      let k := k' + 1
      let theta ← fdiv (k : K) (d : K)
      forLoop n (fun i (R : GB K) => do
        let p1 ← S.controlPoint i (j - 1) (k - 1)
        let p2 ← S.controlPoint i j (k - 1)
        let p ← S.elevateUpper n d i j k
        R.setControlPoint i j k ((eta * theta) • p1 + ((1 - eta) * theta) • p2 + (eta * (1 - theta)) • p.1 + ((1 - eta) * (1 - theta)) • p.2)) R) R) R

/-- gb-fit.cc 57-62: the central control point. -/
def elevateCentre (n l : ℕ) (R : GB K) : M (GB K) := do
  let c ← forLoop n (fun i (c : P3 K) => do
    let p ← R.controlPoint i l (usub l 1)
    .ok (c + p)) 0
  let s ← fdiv 1 (n : K)
  .ok (R.setCentral (s • c))

/-- gb-fit.cc 8-66, `elevateDegree(surf)`; `g0` and `l0` are the uninitialized members of the new object. -/
def elevateDegree (arc : List (P3 K) → K → K → K) (g0 l0 : ℕ) (S : GB K) : M (GB K) := do
  let n := S.dom.dom.vertices.length
  let d := S.degree + 1
  let R ← (GB.new .side g0 l0).initNetwork n d
  let l := R.layers
  let R ← S.elevateCorners n R
  let R ← S.elevateBoundary n d R
  let R ← S.elevateInner n d l R
  let R ← elevateCentre n l R
  R.setupLoop arc

/-! ### `fitWithOriginal` -/

/-- `A(r, c) = v` for an Eigen matrix (gb-fit.cc 132, 139, 165, 167, 175, 189). -/
def matSet (A : List (List K)) (r c : ℕ) (v : K) : M (List (List K)) := do
  let row ← vget A r
  let row ← vset row c v
  vset A r row

/-- `b(r, 0) += p[0]; b(r, 1) += p[1]; b(r, 2) += p[2];` for an Eigen matrix with three columns
(gb-fit.cc 135, 140, 170). -/
def rhsAdd (b : List (P3 K)) (r : ℕ) (p : P3 K) : M (List (P3 K)) := do
  let q ← vget b r
  vset b r (q + p)

/-- gb-fit.cc 127-130: `if (c) blend += surf.weight(...)`. -/
def addWhen (c : Bool) (f : GB K → M (K × GB K)) (w : K × GB K) : M (K × GB K) :=
  if c then do
    let r ← f w.2
    .ok (w.1 + r.1, r.2)
  else .ok w

/-- gb-fit.cc 126-130: the weight of a control point with both of its names. -/
def blendOf (ε : K) (n d l : ℕ) (uv : P2 K) (a : Name) (S : GB K) : M (K × GB K) := do
  let w ← S.weight ε a.side a.col a.row uv
  let w ← addWhen (decide (a.col < l)) (GB.weight ε ((a.side + n - 1) % n) (usub d a.row) a.col uv) w
  addWhen (decide (usub d l < a.col)) (GB.weight ε ((a.side + 1) % n) a.row (usub d a.col) uv) w

/-- The variables in the loop of gb-fit.cc 116-141. -/
structure FitState (K : Type) where
  surf : GB K
  A : List (List K)
  b : List (P3 K)
  sum : K

/-- gb-fit.cc 126-137: one control point in row `j` of the matrix. -/
def fillStep (ε : K) (n d l bcp j : ℕ) (uv : P2 K) (i : ℕ) (a : Name) (st : FitState K) : M (FitState K) := do
  let r ← blendOf ε n d l uv a st.surf
  if bcp < i then do
    let A ← matSet st.A j (i - bcp) r.1
    .ok ⟨r.2, A, st.b, st.sum + r.1⟩
  else do
    let p ← r.2.controlPoint a.side a.col a.row
    let b ← rhsAdd st.b j (-(r.1 • p))
    .ok ⟨r.2, st.A, b, st.sum + r.1⟩

/-- gb-fit.cc 117-140: row `j` of the matrix. -/
def fillRow (ε : K) (n d l bcp cp1 : ℕ) (points : List (P3 K)) (params : List (P2 K)) (j : ℕ) (st : FitState K) : M (FitState K) := do
  let uv ← vget params j
  let st ← enumLoop n d (fillStep ε n d l bcp j uv) 1 cp1 ⟨0, 0, 0⟩ { st with sum := 0 }
  let A ← matSet st.A j 0 (1 - st.sum)
  let p ← vget points j
  let b ← rhsAdd st.b j p
  .ok ⟨st.surf, A, b, st.sum⟩

/-- gb-fit.cc 161-172, `setWeight(j, side, col, row, w)`. -/
def setWeight (S : GB K) (n d bcp cp1 j i col row : ℕ) (w : K) (Ab : List (List K) × List (P3 K)) : M (List (List K) × List (P3 K)) := do
  let c ← findControlPoint n d cp1 0 i col row
  if bcp < c then do
    let A ← matSet Ab.1 j (c - bcp) w
    .ok (A, Ab.2)
  else if c = 0 then do
    let A ← matSet Ab.1 j 0 w
    .ok (A, Ab.2)
  else do
    let p ← S.controlPoint i col row
    let b ← rhsAdd Ab.2 j (-(w • p))
    .ok (Ab.1, b)

/-- gb-fit.cc 173-190: the smoothing terms. -/
def smooth (S : GB K) (n d l bcp cp1 m fixed : ℕ) (smoothing : K) (Ab : List (List K) × List (P3 K)) : M (List (List K) × List (P3 K)) := do
  let s ← fdiv (-smoothing) (n : K)
  let Ab ← forLoop n (fun j Ab => S.setWeight n d bcp cp1 m j l (usub l 1) s Ab) Ab
  let A ← matSet Ab.1 m 0 smoothing
  enumLoop n d (fun i a Ab => do
    let j := m + i - bcp
    let q ← fdiv (-smoothing) 4
    let Ab ← S.setWeight n d bcp cp1 j a.side (usub a.col 1) a.row q Ab
    let Ab ← S.setWeight n d bcp cp1 j a.side (a.col + 1) a.row q Ab
    let Ab ← S.setWeight n d bcp cp1 j a.side a.col (usub a.row 1) q Ab
    let Ab ← S.setWeight n d bcp cp1 j a.side a.col (a.row + 1) q Ab
    let A ← matSet Ab.1 j (i - bcp) smoothing
    .ok (A, Ab.2)) (bcp + 1) (cp1 - bcp) ⟨0, fixed, fixed⟩ (A, Ab.2)

/-- gb-fit.cc 101-108: the patch with the fixed boundary rows. -/
def fitBase (arc : List (P3 K) → K → K → K) (g0 l0 : ℕ) (S : GB K) (n d : ℕ) : M (GB K) := do
  let R ← (GB.new .side g0 l0).initNetwork n d
  let R ← forLoop n (fun i R => forLoop (usub d 1) (fun j R => forLoop 2 (fun k (R : GB K) => do
    let p ← S.controlPoint i j k
    R.setControlPoint i j k p) R) R) R
  R.setupLoop arc

/-- gb-fit.cc 110-190: the system of equations, and the patch (its caches may have changed). -/
def fitSystem (ε : K) (n d l bcp cp1 fixed : ℕ) (points : List (P3 K)) (params : List (P2 K)) (smoothing : K) (R : GB K) :
    M (GB K × List (List K) × List (P3 K)) := do
  let m := points.length
  let mcp := usub (cp1 + 1) bcp
  let st ← forLoop m (fillRow ε n d l bcp cp1 points params)
    ⟨R, List.replicate (m + mcp) (List.replicate mcp 0), List.replicate (m + mcp) 0, 0⟩
  let Ab ← st.surf.smooth n d l bcp cp1 m fixed smoothing (st.A, st.b)
  .ok (st.surf, Ab)

/-- gb-fit.cc 199-212: the control points of the result, from the solution `x`. -/
def fitResult (n d bcp cp1 fixed : ℕ) (x : List (P3 K)) (R : GB K) : M (GB K) := do
  let c ← vget x 0
  enumLoop n d (fun i a (R : GB K) => do
    let p ← vget x (i - bcp)
    R.setControlPoint a.side a.col a.row p) (bcp + 1) (cp1 - bcp) ⟨0, fixed, fixed⟩ (R.setCentral c)

/-- gb-fit.cc 88-213, `fitWithOriginal(original, points, params, smoothing, fixed_rows)`; the solution of the system of equations by Eigen (lines 192-197) is the arbitrary function
`solve`. -/
def fitWithOriginal (ε : K) (arc : List (P3 K) → K → K → K) (solve : List (List K) → List (P3 K) → List (P3 K)) (g0 l0 : ℕ) (points : List (P3 K)) (params : List (P2 K))
    (smoothing : K) (fixed : ℕ) (S : GB K) : M (GB K) := do
  let n := S.dom.dom.vertices.length
  let d := S.degree
  let l := S.layers
  let cp1 := n * (1 + d / 2) * l
  let bcp := n * usub (d + 1) fixed * fixed
  let R ← S.fitBase arc g0 l0 n d
  let r ← fitSystem ε n d l bcp cp1 fixed points params smoothing R
  fitResult n d bcp cp1 fixed (solve r.2.1 r.2.2) r.1

end GB

end Transfinite
