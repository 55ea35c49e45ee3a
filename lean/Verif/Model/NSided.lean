import Verif.Model.Surface
import Verif.Model.ParamCache

/-! # Model of `surface-nsided.cc` -/

namespace Transfinite

/-- surface-nsided.cc 36-46, `SurfaceNSided::eval(uv)`; `param` and `blend` are `param_` and `blend_param_`. Simplified:
the new states of the caches of the two parameterizations are not returned. -/
def evalNSided {K : Type} [Field K] [LinearOrder K] [Libm K] (ε : K) (S : Surf K) (param blend : Param.Obj K) (uv : P2 K) :
    M (P3 K) := do
  let sds ← Param.mapToRibbons ε .perpPolar uv param
  let bs ← Param.mapToRibbons ε .parallel uv blend
  S.nsided ε sds.1 bs.1

end Transfinite
