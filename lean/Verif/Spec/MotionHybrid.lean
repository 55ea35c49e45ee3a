import Verif.Spec.Motion
import Verif.Model.Hybrid

/-! # Rigid motions of the input of a hybrid patch -/

namespace Transfinite.Spec

variable {K : Type} [Field K]

/-- The same call on the moved network: control points are moved. -/
def Motion.netCall (g : Motion K) : GB.Call K → GB.Call K
  | .init n d => .init n d
  | .set i j k p => .set i j k (g.pt p)
  | .setIndividual i j k p => .setIndividual i j k (g.pt p)
  | .central p => .central (g.pt p)
  | .squared b => .squared b
  | .curves cs => .curves (cs.map g.curve)
  | .loop => .loop
  | .eval uv => .eval uv
  | .weight i j k uv => .weight i j k uv

/-- The same call on the moved hybrid patch. -/
def Motion.hybridCall (g : Motion K) : Hybrid.Call K → Hybrid.Call K
  | .net c => .net (g.netCall c)
  | .surf c => .surf (g.call c)
  | .loop => .loop
  | .eval uv => .eval uv

/-- The call does not start a new network. -/
def keepsNet : Hybrid.Call K → Bool
  | .net (.init _ _) => false
  | _ => true

end Transfinite.Spec
