import Verif.Geom

/-! # Curves (src/transfinite/curves.hh) -/

namespace Transfinite

/-- curves.hh 9-16, the interface `Curve`: `eval(u)`, the first derivative of `eval(u, 1, der)`
(`der[1]`; `der[0]` is the point), and `arcLength(from, to)`. The implementation
(curves.hh 19-39 → libgeom) is external, so a curve is any triple of such functions. -/
structure Curve (K : Type) where
  pt : K → P3 K
  der : K → P3 K
  arc : K → K → K

/-- curves.hh 29-32, `reverse()` (followed by normalization of the parameter range to [0,1]), by its
meaning: the curve is traversed backwards. -/
def Curve.reverse {K : Type} [Field K] (c : Curve K) : Curve K :=
  ⟨fun u => c.pt (1 - u), fun u => -c.der (1 - u), fun a b => c.arc (1 - b) (1 - a)⟩

end Transfinite
