import Verif.Model.Sharing

/-! # Specification of surfaces that own their data

The same programs, with surfaces that do not share anything. -/

namespace Transfinite

variable {K : Type} [Field K] [LinearOrder K] [Libm K]

namespace Spec

/-- One operation, where a copy copies everything. -/
def deepStep (ε : K) (arc : List (P3 K) → K → K → K) (V : List (GB K)) : Op K → M (List (GB K))
  | .new kind degree layers => .ok (V ++ [GB.new kind degree layers])
  | .copy k => do
    let G ← vget V k
    .ok (V ++ [G])
  | .assign k l => do
    let G ← vget V l
    vset V k G
  | .call k c => do
    let G ← vget V k
    let G' ← G.step ε arc c
    vset V k G'

/-- A program. -/
def deepRun (ε : K) (arc : List (P3 K) → K → K → K) : List (GB K) → List (Op K) → M (List (GB K))
  | V, [] => .ok V
  | V, op :: ops => do
    let V' ← deepStep ε arc V op
    deepRun ε arc V' ops

/-- Two surfaces cannot be told apart by the queries (except by the caches). -/
structure SameSurface (ε : K) (G H : GB K) : Prop where
  degree : G.degree = H.degree
  layers : G.layers = H.layers
  central : G.central = H.central
  controlPoint : ∀ i j k, G.controlPoint i j k = H.controlPoint i j k
  curves : G.curves = H.curves
  domain : G.dom = H.dom
  eval : ∀ uv, Prod.fst <$> G.eval ε uv = Prod.fst <$> H.eval ε uv
  weight : ∀ i j k uv, Prod.fst <$> G.weight ε i j k uv = Prod.fst <$> H.weight ε i j k uv

/-- An operation that does not change the number of sides of a domain that is already set up; and only surfaces with a domain that is set up are copied. -/
def Tame (W : World K) : Op K → Prop
  | .new _ _ _ => True
  | .copy k => ∀ G, W.view k = .ok G → G.dom.dom.n ≠ 0
  | .assign _ l => ∀ G, W.view l = .ok G → G.dom.dom.n ≠ 0
  | .call k .loop => ∀ G, W.view k = .ok G → G.dom.dom.n = 0 ∨ G.dom.dom.n = G.n
  | .call _ _ => True

/-- A program with such operations only. -/
def TameRun (ε : K) (arc : List (P3 K) → K → K → K) : World K → List (Op K) → Prop
  | _, [] => True
  | W, op :: ops => Tame W op ∧ ∀ W', W.step ε arc op = .ok W' → TameRun ε arc W' ops

end Spec

end Transfinite
