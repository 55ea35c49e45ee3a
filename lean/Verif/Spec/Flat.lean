import Verif.Model.Patch

/-! # Loops of curves in a plane -/

namespace Transfinite

namespace Spec

variable {K : Type} [Field K] [LinearOrder K]

/-- The curve is in the plane of the points with `N · p = k`, and its tangents are parallel to the plane. -/
def PlaneCurve (N : P3 K) (k : K) (c : Curve K) : Prop := ∀ u, 0 ≤ u → u ≤ 1 → P3.dot N (c.pt u) = k ∧ P3.dot N (c.der u) = 0

/-- The curves are in the plane, and the loop turns to the left at every corner (seen from the side that `N` points to). -/
def FlatLoop (N : P3 K) (k : K) (cs : List (Curve K)) : Prop :=
  (∀ c ∈ cs, PlaneCurve N k c) ∧ ∀ i c d, cs[i]? = some c → cs[(i + 1) % cs.length]? = some d → 0 < P3.dot N (P3.cross (c.der 1) (d.der 0))

/-- The calls that do not change the curves, set only midpoints in the plane and normal fences perpendicular to it. Handlers are arbitrary. -/
def FlatCall (N : P3 K) (k : K) : Patch.Call K → Prop
  | .curve _ _ => False
  | .curves _ => False
  | .loop => False
  | .setMid p => P3.dot N p = k
  | .fence _ (some f) => ∀ s, 0 ≤ s → s ≤ 1 → f s = N
  | _ => True

end Spec

end Transfinite
