import Verif.Lemmas.SurfaceMesh
import Verif.Props.Hull
import Verif.Props.Total
import Verif.Props.SPatch
import Verif.Props.SuperD
import Verif.Props.Hybrid

/-! # C37 for the surfaces with control points -/

namespace Transfinite

open Spec

variable {K : Type} [Field K] [LinearOrder K] [Libm K]

/-- `pts` and `ts` are the mesh of resolution `res` over the domain `d`, where `value uv p` means that the surface has the point `p` at `uv`:
the triangles are those of the domain, and the points are those at the parameters of the domain, in order. -/
def MeshOf (d : Domain K) (value : P2 K → P3 K → Prop) (res : ℕ) (pts : List (P3 K)) (ts : List Domain.Tri) : Prop :=
  ∃ uvs : List (P2 K), d.parametersImpl res = .ok uvs ∧ Domain.meshTopology d.n res = .ok (pts.length, ts) ∧ pts.length = uvs.length ∧
    ∀ (k : ℕ) (p : P3 K) (uv : P2 K), pts[k]? = some p → uvs[k]? = some uv → value uv p

section field

variable [IsStrictOrderedRing K] {ε : K} {arc : List (P3 K) → K → K → K} {res : ℕ} {pts : List (P3 K)} {ts : List Domain.Tri}

/-- C37: whatever has been done with a Generalized Bézier patch (including the evaluation of other meshes), the result of `eval(resolution)` is the mesh of the domain with
the points `eval(uv)` for the parameters of the domain, in order. -/
theorem C37_gb {G G' : GB K} (h : GB.Reached ε arc .side G) (hn : 3 ≤ G.dom.dom.n) (e : G.evalMesh ε res = .ok ((pts, ts), G')) :
    MeshOf G.dom.dom (fun uv p => ∃ Q, G.eval ε uv = .ok (p, Q)) res pts ts ∧ ∀ uv, Prod.fst <$> G'.eval ε uv = Prod.fst <$> G.eval ε uv := by
  obtain ⟨i1, i2, i3⟩ := h.inv
  unfold GB.evalMesh at e
  rw [i2] at e
  obtain ⟨q, m⟩ := Mesh.eval_ok (R := GB.Same ε) (dom := GB.dom) i3 i1.len hn (fun c h1 h2 => ⟨c, _, rfl, h1, h2, i1.param⟩) (fun s1 uv r h e => GB.same_eval h e)
    (fun s1 uv h => GB.same_point i1 (by omega) h uv) e
  exact ⟨m, GB.same_point i1 (by omega) q⟩

/-- C37: the same for hybrid patches. -/
theorem C37_hybrid {H H' : Hybrid K} (h : Hybrid.Reached ε arc H) (hn : 3 ≤ H.patch.dom.dom.n) (e : H.evalMesh ε res = .ok ((pts, ts), H')) :
    MeshOf H.patch.dom.dom (fun uv p => ∃ Q, H.eval ε uv = .ok (p, Q)) res pts ts ∧ ∀ uv, Prod.fst <$> H'.eval ε uv = Prod.fst <$> H.eval ε uv := by
  have hi := h.inv
  obtain ⟨q, m⟩ := Mesh.eval_ok (R := Hybrid.Same ε) (dom := fun H : Hybrid K => H.patch.dom) (by exact hi.patch.cache) hi.patch.len hn (fun c h1 h2 => ⟨c, _, rfl, h1, h2, hi.patch.param⟩)
    (fun s1 uv r h e => Hybrid.same_eval hi h e) (fun s1 uv h => Hybrid.same_point hi (by omega) h uv) e
  exact ⟨m, Hybrid.same_point hi (by omega) q⟩

omit [IsStrictOrderedRing K] in
theorem SPatch.Inv.len {S : SPatch K} (h : SPatch.Inv ε S) (hn : S.dom.dom.n ≠ 0) : S.dom.dom.vertices.length = S.dom.dom.n := by
  obtain ⟨_, vs, _, e⟩ := h.dom.resolve_left hn
  exact Patch.updateFrom_len e

omit [IsStrictOrderedRing K] in
theorem SuperD.Inv.len {S : SuperD K} (h : SuperD.Inv ε S) (hn : S.dom.dom.n ≠ 0) : S.dom.dom.vertices.length = S.dom.dom.n := by
  obtain ⟨_, vs, _, e⟩ := Or.resolve_left h hn
  exact Patch.updateFrom_len e

/-- C37: the same for S-patches. -/
theorem C37_spatch {S S' : SPatch K} (h : SPatch.Reached ε arc S) (hn : 3 ≤ S.dom.dom.n) (e : S.evalMesh ε res = .ok ((pts, ts), S')) :
    MeshOf S.dom.dom (fun uv p => ∃ Q, S.eval ε uv = .ok (p, Q)) res pts ts ∧ ∀ uv, Prod.fst <$> S'.eval ε uv = Prod.fst <$> S.eval ε uv := by
  obtain ⟨i1, i2⟩ := h.inv
  obtain ⟨q, m⟩ := Mesh.eval_ok (R := SPatch.Same ε) (dom := SPatch.dom) i2 (i1.len (by omega)) hn (fun c h1 h2 => ⟨c, _, rfl, h1, h2, i1.dom.imp id And.left⟩)
    (fun s1 uv r h e => SPatch.same_eval h e) (fun s1 uv h => SPatch.same_point i1 (by omega) h uv) e
  exact ⟨m, SPatch.same_point i1 (by omega) q⟩

/-- C37: the same for SuperD patches. -/
theorem C37_superd {S S' : SuperD K} (h : SuperD.Reached ε arc S) (hn : 3 ≤ S.dom.dom.n) (e : S.evalMesh ε res = .ok ((pts, ts), S')) :
    MeshOf S.dom.dom (fun uv p => ∃ Q, S.eval ε uv = .ok (p, Q)) res pts ts ∧ ∀ uv, Prod.fst <$> S'.eval ε uv = Prod.fst <$> S.eval ε uv := by
  obtain ⟨i1, i2⟩ := h.inv
  obtain ⟨q, m⟩ := Mesh.eval_ok (R := SuperD.Same ε) (dom := SuperD.dom) i2 (i1.len (by omega)) hn (fun c h1 h2 => ⟨c, _, rfl, h1, h2, Or.imp id And.left i1⟩)
    (fun s1 uv r h e => SuperD.same_eval h e) (fun s1 uv h => SuperD.same_point i1 (by omega) h uv) e
  exact ⟨m, SuperD.same_point i1 (by omega) q⟩

/-- C37: `eval(resolution)` of a hybrid patch succeeds whenever `eval(uv)` does for all parameters. -/
theorem C37_hybrid_defined {H : Hybrid K} (h : Hybrid.Reached ε arc H) (hn : 3 ≤ H.patch.dom.dom.n) {uvs : List (P2 K)} (hu : H.patch.dom.dom.parametersImpl res = .ok uvs)
    (he : ∀ uv ∈ uvs, ∃ p Q, H.eval ε uv = .ok (p, Q)) : ∃ pts ts H', H.evalMesh ε res = .ok ((pts, ts), H') := by
  have hi := h.inv
  obtain ⟨⟨⟨pts, ts⟩, H'⟩, e⟩ := Mesh.eval_defined (R := Hybrid.Same ε) (dom := fun H : Hybrid K => H.patch.dom) (setDom := fun H d => { H with patch := { H.patch with dom := d } })
    (by exact hi.patch.cache) hi.patch.len hn (fun c h1 h2 => ⟨c, _, rfl, h1, h2, hi.patch.param⟩)
    (fun s1 uv r h e => Hybrid.same_eval hi h e) (fun s1 uv h => Hybrid.same_point hi (by omega) h uv) hu (fun uv q => by
      obtain ⟨p, Q, e⟩ := he uv q
      exact ⟨_, e⟩)
  exact ⟨pts, ts, H', e⟩

end field

theorem GB.reached_run {ε : K} {arc : List (P3 K) → K → K → K} {G G' : GB K} {cs : List (GB.Call K)} {kind : GBKind K} (h : GB.Reached ε arc kind G) (e : G.run ε arc cs = .ok G') : GB.Reached ε arc kind G' := by
  induction cs generalizing G with
  | nil => cases e; exact h
  | cons c cs ih =>
    unfold GB.run at e
    obtain ⟨G1, e1, e⟩ := bind_ok e
    exact ih (.step c h e1) e

theorem Hybrid.reached_run {ε : K} {arc : List (P3 K) → K → K → K} {G G' : Hybrid K} {cs : List (Hybrid.Call K)} (h : Hybrid.Reached ε arc G) (e : G.run ε arc cs = .ok G') :
    Hybrid.Reached ε arc G' := by
  induction cs generalizing G with
  | nil => cases e; exact h
  | cons c cs ih =>
    unfold Hybrid.run at e
    obtain ⟨G1, e1, e⟩ := bind_ok e
    exact ih (.step c h e1) e

theorem SPatch.reached_run {ε : K} {arc : List (P3 K) → K → K → K} {G G' : SPatch K} {cs : List (SPatch.Call K)} (h : SPatch.Reached ε arc G) (e : G.run ε arc cs = .ok G') :
    SPatch.Reached ε arc G' := by
  induction cs generalizing G with
  | nil => cases e; exact h
  | cons c cs ih =>
    unfold SPatch.run at e
    obtain ⟨G1, e1, e⟩ := bind_ok e
    exact ih (.step c h e1) e

theorem SuperD.reached_run {ε : K} {arc : List (P3 K) → K → K → K} {G G' : SuperD K} {cs : List (SuperD.Call K)} (h : SuperD.Reached ε arc G) (e : G.run ε arc cs = .ok G') :
    SuperD.Reached ε arc G' := by
  induction cs generalizing G with
  | nil => cases e; exact h
  | cons c cs ih =>
    unfold SuperD.run at e
    obtain ⟨G1, e1, e⟩ := bind_ok e
    exact ih (.step c h e1) e

section real

variable {n d : ℕ} {ε : ℝ} {arc : List (P3 ℝ) → ℝ → ℝ → ℝ} {res : ℕ}

theorem domain_params {D : Domain ℝ} {v : ℕ → P2 ℝ} (hd : ConvexDomain D n v) (hr : 1 ≤ res) : ∃ uvs, D.parametersImpl res = .ok uvs ∧ ∀ uv ∈ uvs, InsideClosed n v uv :=
  params_inside (P := { Patch.new .sideBased with dom := ⟨D, []⟩ }) hd hr

/-- C37: after any usual sequence of calls, a Generalized Bézier patch has a mesh in every resolution. -/
theorem C37_gb_defined (hε : 0 < ε) (hε1 : ε ≤ 1) (hn : 3 ≤ n) (hd : 1 ≤ d) {calls : List (GB.Call ℝ)} {G : GB ℝ} (h : GB.Usable ε arc .side n d calls G) (hr : 1 ≤ res) :
    GB.Reached ε arc .side G ∧ G.dom.dom.n = n ∧ ∃ pts ts G', G.evalMesh ε res = .ok ((pts, ts), G') := by
  have hre : GB.Reached ε arc .side G := by
    obtain ⟨g, l, _, _, rfl, e, _⟩ := h
    exact GB.reached_run (.new g l) e
  obtain ⟨i1, i2, i3⟩ := hre.inv
  obtain ⟨_, hk, hdn, ⟨F, hF⟩, _⟩ := h.state (by omega)
  obtain ⟨v, hcd⟩ := h.domain hn
  obtain ⟨uvs, hu, hin⟩ := domain_params hcd hr
  obtain ⟨⟨⟨pts, ts⟩, G'⟩, e⟩ := Mesh.eval_defined (R := GB.Same ε) (dom := GB.dom) (setDom := fun G d => { G with dom := d }) i3 i1.len (by omega) (fun c h1 h2 => ⟨c, _, rfl, h1, h2, i1.param⟩)
    (fun s1 uv r h e => GB.same_eval h e) (fun s1 uv h => GB.same_point i1 (by omega) h uv) hu (fun uv q => by
      obtain ⟨f, o, ho, key⟩ := GB.C43_sum hε hε1 hn h hcd.vertices_eq (hin uv q)
      by_cases hf : ∀ i < n, ε ≤ (f i).y + (f ((i + 1) % n)).y
      · obtain ⟨W', cp, p, G', e, _⟩ := key hf
        exact ⟨_, e⟩
      · obtain ⟨i, hi, j, hj, e⟩ := GB.sideEval_near hε hF hd hf
        obtain ⟨G', e'⟩ := GB.eval_side hk ho e
        exact ⟨_, e'⟩)
  refine ⟨hre, hdn, pts, ts, G', ?_⟩
  unfold GB.evalMesh
  rw [i2]
  exact e

/-- C37: the same for S-patches up to depth 20. -/
theorem C37_spatch_defined (hε : 0 < ε) (hε1 : ε ≤ 1) (hn : 3 ≤ n) (hd : d ≤ 20) {calls : List (SPatch.Call ℝ)} {S : SPatch ℝ} (h : SPatch.Usable ε arc n d calls S) (hr : 1 ≤ res) :
    SPatch.Reached ε arc S ∧ S.dom.dom.n = n ∧ ∃ pts ts S', S.evalMesh ε res = .ok ((pts, ts), S') := by
  have hre : SPatch.Reached ε arc S := by
    obtain ⟨g, _, _, rfl, e, _⟩ := h
    exact SPatch.reached_run (.new g) e
  obtain ⟨i1, i2⟩ := hre.inv
  obtain ⟨_, _, v, hcd⟩ := h.state hn
  have hdn := hcd.n_eq
  obtain ⟨uvs, hu, hin⟩ := domain_params hcd hr
  obtain ⟨⟨⟨pts, ts⟩, S'⟩, e⟩ := Mesh.eval_defined (R := SPatch.Same ε) (dom := SPatch.dom) (setDom := fun S d => { S with dom := d }) i2 (i1.len (by omega)) (by omega)
    (fun c h1 h2 => ⟨c, _, rfl, h1, h2, i1.dom.imp id And.left⟩) (fun s1 uv r h e => SPatch.same_eval h e) (fun s1 uv h => SPatch.same_point i1 (by omega) h uv) hu (fun uv q => by
      obtain ⟨_, S', _, _, _, e, _⟩ := SPatch.C50_weights hε hε1 hn hd h (SPatch.points_value n d S) hcd.vertices_eq (hin uv q)
      exact ⟨_, e⟩)
  exact ⟨hre, hdn, pts, ts, S', e⟩

/-- C37: the same for SuperD patches. -/
theorem C37_superd_defined (hε : 0 < ε) (hn : 3 ≤ n) {calls : List (SuperD.Call ℝ)} {S : SuperD ℝ} (h : SuperD.Usable ε arc n calls S) (hr : 1 ≤ res) :
    SuperD.Reached ε arc S ∧ S.dom.dom.n = n ∧ ∃ pts ts S', S.evalMesh ε res = .ok ((pts, ts), S') := by
  have hre : SuperD.Reached ε arc S := by
    obtain ⟨_, _, _, rfl, e, _⟩ := h
    exact SuperD.reached_run .new e
  obtain ⟨i1, i2⟩ := hre.inv
  obtain ⟨_, _, _, r, φ, _, hcd⟩ := h.state hn
  have hdn := hcd.n_eq
  obtain ⟨uvs, hu, hin⟩ := domain_params hcd hr
  obtain ⟨⟨⟨pts, ts⟩, S'⟩, e⟩ := Mesh.eval_defined (R := SuperD.Same ε) (dom := SuperD.dom) (setDom := fun S d => { S with dom := d }) i2 (i1.len (by omega)) (by omega)
    (fun c h1 h2 => ⟨c, _, rfl, h1, h2, Or.imp id And.left i1⟩) (fun s1 uv r h e => SuperD.same_eval h e) (fun s1 uv h => SuperD.same_point i1 (by omega) h uv) hu (fun uv q => by
      obtain ⟨p, S', e⟩ := SuperD.C51_defined hε hn h hcd.vertices_eq (hin uv q)
      exact ⟨_, e⟩)
  exact ⟨hre, hdn, pts, ts, S', e⟩

end real

section examples

/-- A cubic five-sided Generalized Bézier patch. -/
example (res : ℕ) (hr : 1 ≤ res) : ∃ (G G' : GB ℝ) (pts : List (P3 ℝ)) (ts : List Domain.Tri), GB.Reached (1 / 1000) (fun _ _ _ => 0) .side G ∧ G.dom.dom.n = 5 ∧
    G.controlPoint 1 1 1 = .ok ⟨1, 2, 3⟩ ∧ G.evalMesh (1 / 1000) res = .ok ((pts, ts), G') := by
  obtain ⟨G, hu, _, _, _, hcp⟩ := GB.built (ε := 1 / 1000) (arc := fun _ _ _ => 0) (n := 5) (d := 3) .side (by norm_num) (by norm_num) (Or.inl rfl) (w := [(⟨1, 1, 1⟩, ⟨1, 2, 3⟩)])
    (by simp [Name.InRange]) 0 false
  obtain ⟨h1, h2, pts, ts, G', e⟩ := C37_gb_defined (by norm_num) (by norm_num) (by norm_num) (by norm_num) hu hr
  refine ⟨G, G', pts, ts, h1, h2, ?_, e⟩
  refine (hcp ⟨1, 1, 1⟩ (by simp [Name.InRange])).trans ?_
  simp [netValue, SamePoint, AtCorner]

/-- An S-patch with 5 sides and depth 2. -/
example (P : (ℕ → ℕ) → P3 ℝ) (res : ℕ) (hr : 1 ≤ res) : ∃ (S S' : SPatch ℝ) (pts : List (P3 ℝ)) (ts : List Domain.Tri), SPatch.Reached (1 / 1000) (fun _ _ _ => 0) S ∧ S.dom.dom.n = 5 ∧
    (∀ k ∈ labels 5 2, S.controlPoint (tab 5 k) = .ok (P k)) ∧ S.evalMesh (1 / 1000) res = .ok ((pts, ts), S') := by
  obtain ⟨calls, S, h, hP⟩ := SPatch.C50_complete (ε := 1 / 1000) (arc := fun _ _ _ => 0) (n := 5) (by norm_num) 2 P
  obtain ⟨h1, h2, pts, ts, S', e⟩ := C37_spatch_defined (by norm_num) (by norm_num) (by norm_num) (by norm_num) h hr
  exact ⟨S, S', pts, ts, h1, h2, hP, e⟩

/-- A SuperD patch with 4 sides and any control points. -/
example (V : P3 ℝ) (F E : ℕ → P3 ℝ) (res : ℕ) (hr : 1 ≤ res) : ∃ (S S' : SuperD ℝ) (pts : List (P3 ℝ)) (ts : List Domain.Tri), SuperD.Reached (1 / 1000) (fun _ _ _ => 0) S ∧ S.dom.dom.n = 4 ∧
    SuperD.Points 4 S F E ∧ S.evalMesh (1 / 1000) res = .ok ((pts, ts), S') := by
  obtain ⟨calls, S, h, hP, hf, hV⟩ := SuperD.C51_complete (ε := 1 / 1000) (arc := fun _ _ _ => 0) (n := 4) (by norm_num) (1 / 2) V F E
  obtain ⟨h1, h2, pts, ts, S', e⟩ := C37_superd_defined (by norm_num) (by norm_num) h hr
  exact ⟨S, S', pts, ts, h1, h2, hP, e⟩

/-- A four-sided hybrid patch of degree 5; the mesh with resolution 1 (the four corners). -/
example : ∃ (H H' : Hybrid ℝ) (pts : List (P3 ℝ)) (ts : List Domain.Tri), Hybrid.Reached (1 / 10000) Hybrid.sqArc H ∧ H.patch.dom.dom.n = 4 ∧
    H.evalMesh (1 / 10000) 1 = .ok ((pts, ts), H') := by
  obtain ⟨H, hr, h⟩ := Hybrid.sq_built 0 0
  have hre := Hybrid.reached_run (.new 0 0) hr
  have hl : Loop 4 (Hybrid.rowOf Hybrid.sqArc 4 5 Hybrid.sqW) := ⟨Hybrid.sq_good.sides, Hybrid.sq_good.closed, Hybrid.sq_good.regular⟩
  obtain ⟨inv, hrd, F, hF⟩ := Hybrid.upToDate_state hl.sides h
  obtain ⟨v, hv⟩ : ∃ v, ConvexDomain H.patch.dom.dom 4 v := by
    obtain ⟨r, φ, _, hd⟩ := hrd.regularDomain (by rw [inv.kind]; rfl) hl.sides
    exact ⟨_, hd⟩
  have hn := hv.n_eq
  have hvs := hv.vertices_eq
  obtain ⟨f, e1, _, e4, _⟩ := parametersImpl_eq (d := H.patch.dom.dom) (v := v) (R := 1) (by omega) (by rw [hn]; exact hvs) le_rfl
  have key : ∀ i < 4, ∃ p Q, H.eval (1 / 10000) (v i) = .ok (p, Q) := by
    intro i hi
    obtain ⟨uv, H', a1, a2⟩ := Hybrid.C71_side (by norm_num) (by norm_num) hl (by norm_num) h (i := i) hi (s := 1) (Or.inr (Or.inr rfl))
    rw [hv.edgePoint hi 1] at a1
    have a1 : v i = uv := by
      rw [← Except.ok.inj a1]
      simp [sidePoint]
    exact ⟨_, H', by rw [a1]; exact a2⟩
  obtain ⟨pts, ts, H', e⟩ := C37_hybrid_defined hre (by omega) e1 (fun uv q => by
    rw [hn] at q
    have e4 := e4 hn
    obtain ⟨m, hm, rfl⟩ := List.mem_map.mp q
    have hm : m < 4 := List.mem_range.mp hm
    have b : ∀ j ≤ 1, ∀ k ≤ 1, m = enc4 1 j k → ∃ p Q, H.eval (1 / 10000) (f m) = .ok (p, Q) := by
      intro j hj k hk q
      rw [q, e4 j hj k hk]
      interval_cases j <;> interval_cases k <;> simp only [pt4, Nat.cast_zero, Nat.cast_one, div_one, sub_zero, sub_self, zero_smul, one_smul, zero_add, add_zero]
      exacts [key 0 (by norm_num), key 3 (by norm_num), key 1 (by norm_num), key 2 (by norm_num)]
    exact b (m / 2) (by omega) (m % 2) (by omega) (by unfold enc4; omega))
  exact ⟨H, H', pts, ts, hre, hn, e⟩

end examples

end Transfinite
