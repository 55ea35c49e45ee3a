import Verif.Model.Hybrid
import Verif.Model.SPatch
import Verif.Model.SuperD

/-! # Model of `Surface::eval(resolution)` for the surfaces with control points -/

namespace Transfinite

variable {K : Type} [Field K] [LinearOrder K] [Libm K]

namespace Mesh

/-- surface.cc 146-150: the points at the parameters `uvs`, in order; `ev` is the virtual function `eval(uv)`, and `s` is the state of
the object (the caches may change). -/
def points {S : Type} (ev : P2 K → S → M (P3 K × S)) (uvs : List (P2 K)) (s : S) : M (List (P3 K) × S) :=
  forLoop uvs.length (fun k (st : List (P3 K) × S) => do
    let uv ← vget uvs k
    let x ← ev uv st.2
    .ok (st.1 ++ [x.1], x.2)) ([], s)

/-- surface.cc 142-152, `eval(resolution)`, for surfaces over polygonal domains; `dom` and `setDom` access the member `domain_`. -/
def eval {S : Type} (dom : S → Domain.Cached (Domain K) K) (setDom : S → Domain.Cached (Domain K) K → S)
    (ev : P2 K → S → M (P3 K × S)) (res : ℕ) (s : S) : M ((List (P3 K) × List Domain.Tri) × S) := do
  let topo ← Domain.meshTopology (dom s).dom.n res
  let uvs ← Domain.parameters (fun d => Domain.meshSize d.n) Domain.parametersImpl (dom s) res
  let r ← points ev uvs.1 (setDom s uvs.2)
  .ok ((r.1, topo.2), r.2)

end Mesh

/-- surface.cc 142-152 for surface-generalized-bezier.cc 56-108 and, with the mesh and the parameters of a `DomainCircle` (domain-circle.cc 15-62),
for surface-generalized-bezier-corner.cc 34-55. -/
def GB.evalMesh (ε : K) (res : ℕ) (G : GB K) : M ((List (P3 K) × List Domain.Tri) × GB K) :=
  match G.kind with
  | .side => Mesh.eval GB.dom (fun G d => { G with dom := d }) (GB.eval ε) res G
  | .corner _ => do
    let topo ← Domain.circleTopology G.dom.dom.n res
    let uvs ← Domain.parameters (fun d => Domain.circleMeshSize d.n) (fun d => Domain.circleParams d.n) G.dom res
    let r ← Mesh.points (GB.eval ε) uvs.1 { G with dom := uvs.2 }
    .ok ((r.1, topo.2), r.2)

/-- surface.cc 142-152 for surface-hybrid.cc 23-47. -/
def Hybrid.evalMesh (ε : K) (res : ℕ) (H : Hybrid K) : M ((List (P3 K) × List Domain.Tri) × Hybrid K) :=
  Mesh.eval (fun H : Hybrid K => H.patch.dom) (fun H d => { H with patch := { H.patch with dom := d } }) (Hybrid.eval ε) res H

/-- surface.cc 142-152 for surface-spatch.cc 41-49. -/
def SPatch.evalMesh (ε : K) (res : ℕ) (S : SPatch K) : M ((List (P3 K) × List Domain.Tri) × SPatch K) :=
  Mesh.eval SPatch.dom (fun S d => { S with dom := d }) (SPatch.eval ε) res S

/-- surface.cc 142-152 for surface-superd.cc 113-121. -/
def SuperD.evalMesh (ε : K) (res : ℕ) (S : SuperD K) : M ((List (P3 K) × List Domain.Tri) × SuperD K) :=
  Mesh.eval SuperD.dom (fun S d => { S with dom := d }) (SuperD.eval ε) res S

/-- The states of a Generalized Bézier patch that a user can reach with the calls of surface-generalized-bezier.hh 13-25 and
`eval(resolution)` (surface.hh 40). -/
inductive GB.Reached (ε : K) (arc : List (P3 K) → K → K → K) (kind : GBKind K) : GB K → Prop
  | new (g l : ℕ) : GB.Reached ε arc kind (GB.new kind g l)
  | step {G G' : GB K} (c : GB.Call K) : GB.Reached ε arc kind G → G.step ε arc c = .ok G' → GB.Reached ε arc kind G'
  | mesh {G : GB K} {r : (List (P3 K) × List Domain.Tri) × GB K} (res : ℕ) : GB.Reached ε arc kind G → G.evalMesh ε res = .ok r → GB.Reached ε arc kind r.2

/-- The same for surface-hybrid.hh 13. -/
inductive Hybrid.Reached (ε : K) (arc : List (P3 K) → K → K → K) : Hybrid K → Prop
  | new (g l : ℕ) : Hybrid.Reached ε arc (Hybrid.new g l)
  | step {H H' : Hybrid K} (c : Hybrid.Call K) : Hybrid.Reached ε arc H → H.step ε arc c = .ok H' → Hybrid.Reached ε arc H'
  | mesh {H : Hybrid K} {r : (List (P3 K) × List Domain.Tri) × Hybrid K} (res : ℕ) : Hybrid.Reached ε arc H → H.evalMesh ε res = .ok r → Hybrid.Reached ε arc r.2

/-- The same for surface-spatch.hh 15-20. -/
inductive SPatch.Reached (ε : K) (arc : List (P3 K) → K → K → K) : SPatch K → Prop
  | new (d : ℕ) : SPatch.Reached ε arc (SPatch.new d)
  | step {S S' : SPatch K} (c : SPatch.Call K) : SPatch.Reached ε arc S → S.step ε arc c = .ok S' → SPatch.Reached ε arc S'
  | mesh {S : SPatch K} {r : (List (P3 K) × List Domain.Tri) × SPatch K} (res : ℕ) : SPatch.Reached ε arc S → S.evalMesh ε res = .ok r → SPatch.Reached ε arc r.2

/-- The same for surface-superd.hh 15-26. -/
inductive SuperD.Reached (ε : K) (arc : List (P3 K) → K → K → K) : SuperD K → Prop
  | new : SuperD.Reached ε arc SuperD.new
  | step {S S' : SuperD K} (c : SuperD.Call K) : SuperD.Reached ε arc S → S.step ε arc c = .ok S' → SuperD.Reached ε arc S'
  | mesh {S : SuperD K} {r : (List (P3 K) × List Domain.Tri) × SuperD K} (res : ℕ) : SuperD.Reached ε arc S → S.evalMesh ε res = .ok r → SuperD.Reached ε arc r.2

end Transfinite
