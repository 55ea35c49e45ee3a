import Verif.Props.SurfaceMesh
import Verif.Props.GenBezierCorner
import Verif.Props.DiscMesh
import Verif.Lemmas.GenBezierBuilt

/-! # C37 for the corner-based Generalized Bézier patch -/

namespace Transfinite

open Spec Param Real

namespace GB

variable {ε : ℝ} {arc : List (P3 ℝ) → ℝ → ℝ → ℝ} {fmod : ℝ → ℝ → ℝ} {n d res : ℕ} {G : GB ℝ}

theorem points_hidden {uvs : List (P2 ℝ)} {c : List (P2 ℝ)} {r : List (P3 ℝ) × GB ℝ} (h : Mesh.points (GB.eval ε) uvs { G with dom := ⟨G.dom.dom, c⟩ } = .ok r) :
    ∃ o, r.2 = { G with dom := ⟨G.dom.dom, c⟩, param := o } := by
  refine Patch.forLoop_inv' (fun st : List (P3 ℝ) × GB ℝ => ∃ o, st.2 = { G with dom := ⟨G.dom.dom, c⟩, param := o }) ⟨G.param, rfl⟩ (fun k u v hu e => ?_) h
  obtain ⟨uv, _, e⟩ := bind_ok e
  obtain ⟨y, e3, e⟩ := bind_ok e
  cases e
  obtain ⟨o, ho⟩ := hu
  rw [ho] at e3
  unfold eval at e3
  obtain ⟨x, _, e3⟩ := bind_ok e3
  obtain ⟨p, _, e3⟩ := bind_ok e3
  cases e3
  exact ⟨x.2, rfl⟩

/-- The points of a mesh of a corner-based patch, at any parameters. -/
theorem points_fresh (hε : 0 < ε) (hn : 3 ≤ n) (hodd : d % 2 = 1) {calls : List (Call ℝ)} (h : Usable ε arc (.corner fmod) n d calls G) (c : List (P2 ℝ)) {o0 : Param.Obj ℝ}
    (h0 : Param.Fresh ε G.kind.param G.dom.dom o0) (uvs : List (P2 ℝ)) :
    ∃ pts o, Mesh.points (GB.eval ε) uvs { G with dom := ⟨G.dom.dom, c⟩, param := o0 } = .ok (pts, { G with dom := ⟨G.dom.dom, c⟩, param := o }) ∧
      Param.Fresh ε G.kind.param G.dom.dom o ∧ pts.length = uvs.length ∧
      ∀ (k : ℕ) (p : P3 ℝ) (uv : P2 ℝ), pts[k]? = some p → uvs[k]? = some uv → ∃ Q, G.eval ε uv = .ok (p, Q) := by
  obtain ⟨hi, hk, hdn, _, _⟩ := h.state (by omega)
  have hz : G.dom.dom.n ≠ 0 := by omega
  -- relation: only the parameterization object differs
  let R : GB ℝ → GB ℝ → Prop := fun G G' => ∃ c o, G' = { G with dom := c, param := o } ∧ Param.Fresh ε G.kind.param G.dom.dom o
  have f0 := hi.param.resolve_left hz
  have hR : ∀ s1 uv r, R G s1 → GB.eval ε uv s1 = .ok r → R G r.2 := by
    rintro s1 uv r ⟨c, o, rfl, h3⟩ e
    unfold eval at e
    obtain ⟨x, e1, e⟩ := bind_ok e
    obtain ⟨p, _, e⟩ := bind_ok e
    cases e
    exact ⟨c, x.2, rfl, h3.maps e1⟩
  have hE : ∀ s1 uv, R G s1 → Prod.fst <$> GB.eval ε uv s1 = Prod.fst <$> GB.eval ε uv G := by
    rintro s1 uv ⟨c, o, rfl, h3⟩
    exact fst_bind (h3.maps_same f0 uv) (G.evalWith ε) (fun o' => { G with dom := c, param := o' }) (fun o' => { G with param := o' })
  have : Inhabited (P2 ℝ) := ⟨0⟩
  obtain ⟨f, hf⟩ := exists_tab uvs
  have hs : R G { G with dom := ⟨G.dom.dom, c⟩, param := o0 } := ⟨_, _, rfl, h0⟩
  obtain ⟨⟨pts, s⟩, e⟩ := Mesh.points_total hR hE hf (fun k _ => by
    obtain ⟨_, _, p, G', e, _⟩ := C44_weights hε hn hodd h (f k)
    exact ⟨_, e⟩) le_rfl hs
  obtain ⟨g, hg, hlast, hev⟩ := Mesh.points_ok hR hE hf le_rfl hs e
  obtain ⟨o, ho⟩ := points_hidden (G := { G with param := o0 }) (c := c) e
  dsimp only at ho
  subst ho
  obtain ⟨c2, o2, q, h3⟩ := hlast
  rw [← show o = o2 from congrArg GB.param q] at h3
  refine ⟨pts, o, e, h3, by rw [hg, length_tab], fun k p uv h1 h2 => ?_⟩
  rw [hf] at h2
  rw [hg] at h1
  by_cases hk : k < uvs.length
  · simp [tab, hk] at h1 h2
    rw [← h1, ← h2]
    exact hev k hk
  · simp [tab, hk] at h1

theorem points_corner (hε : 0 < ε) (hn : 3 ≤ n) (hodd : d % 2 = 1) {calls : List (Call ℝ)} (h : Usable ε arc (.corner fmod) n d calls G) (c : List (P2 ℝ)) (uvs : List (P2 ℝ)) :
    ∃ pts o, Mesh.points (GB.eval ε) uvs { G with dom := ⟨G.dom.dom, c⟩ } = .ok (pts, { G with dom := ⟨G.dom.dom, c⟩, param := o }) ∧ pts.length = uvs.length ∧
      ∀ (k : ℕ) (p : P3 ℝ) (uv : P2 ℝ), pts[k]? = some p → uvs[k]? = some uv → ∃ Q, G.eval ε uv = .ok (p, Q) := by
  obtain ⟨hi, hk, hdn, _, _⟩ := h.state (by omega)
  obtain ⟨pts, o, h1, _, h2⟩ := points_fresh hε hn hodd h c (hi.param.resolve_left (by omega)) uvs
  exact ⟨pts, o, h1, h2⟩

theorem setupLoop_corner {X : GB ℝ} (hk : G.kind = .corner fmod) (h : G.setupLoop arc = .ok X) : X.dom.cache = G.dom.cache ∧ X.kind = .corner fmod ∧
    ∀ c o, setupLoop arc { G with dom := ⟨G.dom.dom, c⟩, param := o } = .ok { X with dom := ⟨X.dom.dom, c⟩ } := by
  unfold setupLoop at h
  obtain ⟨curves, e1, h⟩ := bind_ok h
  obtain ⟨cs, e2, h⟩ := bind_ok h
  unfold updateDomain at h
  dsimp only at h
  rw [hk] at h
  dsimp only at h
  obtain ⟨x, e3, h⟩ := bind_ok h
  cases h
  refine ⟨rfl, rfl, fun c o => ?_⟩
  unfold setupLoop
  refine (congrArg (fun m => m >>= _) (show _ = Except.ok curves from e1)).trans ?_
  rw [M_bind_ok, e2, M_bind_ok]
  unfold updateDomain
  dsimp only
  rw [hk]
  dsimp only
  rw [e3, M_bind_ok]

theorem setControlPoint_hidden {X : GB ℝ} {i j k : ℕ} {p : P3 ℝ} (h : G.setControlPoint i j k p = .ok X) (c : Domain.Cached (Domain ℝ) ℝ) (o : Param.Obj ℝ) :
    setControlPoint { G with dom := c, param := o } i j k p = .ok { X with dom := c, param := o } := by
  unfold setControlPoint at h ⊢
  obtain ⟨nets, e, h⟩ := bind_ok h
  dsimp only
  rw [e, M_bind_ok]
  split_ifs at h ⊢
  · obtain ⟨m, e2, h⟩ := bind_ok h
    cases h
    rw [e2]; rfl
  · obtain ⟨m, e2, h⟩ := bind_ok h
    cases h
    rw [e2]; rfl
  · cases h; rfl

theorem eval_hidden {uv : P2 ℝ} {p : P3 ℝ} {Q : GB ℝ} (h : G.eval ε uv = .ok (p, Q)) (c : Domain.Cached (Domain ℝ) ℝ) :
    ∃ Q', eval ε uv { G with dom := c } = .ok (p, Q') := by
  unfold eval at h ⊢
  obtain ⟨r, e, h⟩ := bind_ok h
  obtain ⟨q, e2, h⟩ := bind_ok h
  cases h
  dsimp only
  rw [e, M_bind_ok]
  refine ⟨{ G with dom := c, param := r.2 }, ?_⟩
  change (evalWith ε G r.1 >>= _) = _
  rw [e2]
  rfl

/-- The parameters of the circle for three sides with resolution 3, and for six sides with resolution 2. -/
theorem circle_lists : (∃ ps, Domain.circleParams (K := ℝ) 3 3 = .ok ps ∧ ps.length = 19 ∧ ps[10]? = some ⟨1, 0⟩) ∧
    ∃ ps, Domain.circleParams (K := ℝ) 6 2 = .ok ps ∧ ps.length = 19 ∧ ps[10]? = some ⟨1, (1 + 1 / 2) * 2 * π / 6⟩ := by
  constructor
  · simp [Domain.circleParams, forLoop, fdiv]
  · simp [Domain.circleParams, forLoop, fdiv]
    exact Or.inl rfl

/-- Only the evaluation of a mesh fills the cache of the circle. -/
theorem step_corner {X : GB ℝ} {c : Call ℝ} (hi : Inv ε G) (hk : G.kind = .corner fmod) (h : G.step ε arc c = .ok X) : X.dom.cache = G.dom.cache := by
  cases c with
  | init n d =>
    obtain ⟨rfl, _⟩ := GB.initNetwork_eq (show G.initNetwork n d = .ok X from h)
    unfold GB.initBase
    split_ifs <;> rfl
  | set i j k p => rw [GB.setControlPoint_keeps (show G.setControlPoint i j k p = .ok X from h)]
  | setIndividual i j k p => rw [GB.setIndividual_keeps (show G.setIndividualControlPoint i j k p = .ok X from h)]
  | central p => cases h; rfl
  | squared p => cases h; rfl
  | curves cs => cases h; rfl
  | loop => exact (setupLoop_corner hk h).1
  | eval uv =>
    obtain ⟨r, e1, e⟩ := bind_ok (show (G.eval ε uv >>= fun r => .ok r.2) = .ok X from h)
    cases e
    rw [(eval_inv e1 hi).2]
  | weight i j k uv =>
    obtain ⟨r, e1, e⟩ := bind_ok (show (G.weight ε i j k uv >>= fun r => .ok r.2) = .ok X from h)
    cases e
    rw [(Hybrid.weight_state e1).1]

theorem run_corner {X : GB ℝ} {calls : List (Call ℝ)} (hi : Inv ε G) (hk : G.kind = .corner fmod) (h : G.run ε arc calls = .ok X) : X.dom.cache = G.dom.cache := by
  induction calls generalizing G with
  | nil => cases h; rfl
  | cons c cs ih =>
    unfold run at h
    obtain ⟨Y, e, h⟩ := bind_ok h
    obtain ⟨i1, i2, _⟩ := step_inv hi e
    rw [ih i1 (i2.trans hk) h, step_corner hi hk e]

theorem circleMeshSize_inj {r r' : ℕ} (hn : 0 < n) (h : Domain.circleMeshSize n r = Domain.circleMeshSize n r') : r = r' := by
  unfold Domain.circleMeshSize at h
  have key : ∀ m, n * m * (m + 1) / 2 * 2 = n * (m * (m + 1)) := fun m => by
    rw [mul_assoc]
    exact Nat.div_mul_cancel (Dvd.dvd.mul_left (Nat.even_mul_succ_self m).two_dvd n)
  have h1 := key r
  rw [show n * r * (r + 1) / 2 = n * r' * (r' + 1) / 2 by omega, key r'] at h1
  have h2 := Nat.eq_of_mul_eq_mul_left hn h1
  nlinarith [lt_trichotomy r r']

/-- The states of an object after the evaluation of any number of meshes. -/
inductive AfterMeshes (ε : ℝ) (G : GB ℝ) : GB ℝ → Prop where
  | start : AfterMeshes ε G G
  | mesh {G1 G2 : GB ℝ} {m : List (P3 ℝ) × List Domain.Tri} (res : ℕ) (hres : 1 ≤ res) (h : AfterMeshes ε G G1) (e : G1.evalMesh ε res = .ok (m, G2)) : AfterMeshes ε G G2

theorem mesh_corner (hε : 0 < ε) (hn : 3 ≤ n) (hodd : d % 2 = 1) {calls : List (Call ℝ)} (h : Usable ε arc (.corner fmod) n d calls G) {c : List (P2 ℝ)} {o : Param.Obj ℝ}
    (hc : c = [] ∨ ∃ r, 1 ≤ r ∧ Domain.circleParams n r = .ok c) (ho : Param.Fresh ε G.kind.param G.dom.dom o) (hres : 1 ≤ res) :
    ∃ pts ts o' uvs, evalMesh ε res { G with dom := ⟨G.dom.dom, c⟩, param := o } = .ok ((pts, ts), { G with dom := ⟨G.dom.dom, uvs⟩, param := o' }) ∧
      Param.Fresh ε G.kind.param G.dom.dom o' ∧ Domain.circleParams n res = .ok uvs ∧ Domain.circleTopology n res = .ok (pts.length, ts) ∧ pts.length = uvs.length ∧
      ∀ (k : ℕ) (p : P3 ℝ) (uv : P2 ℝ), pts[k]? = some p → uvs[k]? = some uv → ∃ Q, G.eval ε uv = .ok (p, Q) := by
  obtain ⟨hi, hk, hdn, _, _⟩ := h.state (by omega)
  obtain ⟨uvs, c1, c2, _⟩ := C04_circle hn hres
  obtain ⟨ts, t1, _⟩ := C01_circle_counts hn res
  obtain ⟨pts, o', m1, m2, m3, m4⟩ := points_fresh hε hn hodd h uvs ho uvs
  refine ⟨pts, ts, o', uvs, ?_, m2, c1, by rw [m3, c2]; exact t1, m3, m4⟩
  have hp : Domain.parameters (fun d => Domain.circleMeshSize d.n) (fun d => Domain.circleParams d.n) ⟨G.dom.dom, c⟩ res = .ok (uvs, ⟨G.dom.dom, uvs⟩) := by
    unfold Domain.parameters
    dsimp only
    split_ifs with hl <;> rw [hdn] at *
    · rcases hc with rfl | ⟨r, h1, h2⟩
      · unfold Domain.circleMeshSize at hl
        rw [List.length_nil] at hl
        omega
      · obtain ⟨vs, v1, v2, _⟩ := C04_circle hn h1
        rw [h2] at v1
        cases v1
        rw [v2] at hl
        have := circleMeshSize_inj (by omega) hl
        subst this
        rw [h2] at c1
        cases c1
        rfl
    · rw [c1]; rfl
  unfold evalMesh
  dsimp only
  rw [hk]
  dsimp only
  rw [hdn, t1, M_bind_ok, hp, M_bind_ok]
  dsimp only
  rw [hk] at m1
  rw [m1]
  rfl

theorem AfterMeshes.state (hε : 0 < ε) (hn : 3 ≤ n) (hodd : d % 2 = 1) {calls : List (Call ℝ)} (h : Usable ε arc (.corner fmod) n d calls G) {G1 : GB ℝ} (h1 : AfterMeshes ε G G1) :
    ∃ c o, G1 = { G with dom := ⟨G.dom.dom, c⟩, param := o } ∧ (c = [] ∨ ∃ r, 1 ≤ r ∧ Domain.circleParams n r = .ok c) ∧ Param.Fresh ε G.kind.param G.dom.dom o := by
  obtain ⟨hi, hk, hdn, _, _⟩ := h.state (by omega)
  induction h1 with
  | start =>
    obtain ⟨g, l, before, later, rfl, e, _⟩ := h
    have q := run_corner (new_inv ε (.corner fmod) g l) rfl e
    exact ⟨G.dom.cache, G.param, rfl, Or.inl q, hi.param.resolve_left (by omega)⟩
  | mesh r hr _ e ih =>
    obtain ⟨c, o, rfl, a, b⟩ := ih
    obtain ⟨pts, ts, o', uvs, b1, b2, b3, _⟩ := mesh_corner hε hn hodd h a b hr
    rw [e] at b1
    cases b1
    exact ⟨uvs, o', rfl, Or.inr ⟨r, hr, b3⟩, b2⟩

/-- C37 for the corner-based patch, as long as the number of sides is that of the meshes evaluated before: the result of `eval(resolution)` is defined, and is the mesh of the
circle with the points at its parameters. -/
theorem C37_corner (hε : 0 < ε) (hn : 3 ≤ n) (hodd : d % 2 = 1) {calls : List (Call ℝ)} (h : Usable ε arc (.corner fmod) n d calls G) {G1 : GB ℝ} (h1 : AfterMeshes ε G G1) (hres : 1 ≤ res) :
    ∃ pts ts G2 uvs, G1.evalMesh ε res = .ok ((pts, ts), G2) ∧
      Domain.circleParams n res = .ok uvs ∧ Domain.circleTopology n res = .ok (pts.length, ts) ∧ pts.length = uvs.length ∧
      ∀ (k : ℕ) (p : P3 ℝ) (uv : P2 ℝ), pts[k]? = some p → uvs[k]? = some uv → ∃ Q, G.eval ε uv = .ok (p, Q) := by
  obtain ⟨c, o, rfl, a, b⟩ := h1.state hε hn hodd h
  obtain ⟨pts, ts, o', uvs, b1, _, b3⟩ := mesh_corner hε hn hodd h a b hres
  exact ⟨pts, ts, _, uvs, b1, b3⟩

/-- C37 for the corner-based patch: the evaluation of meshes changes neither the number of sides, nor the degree, nor the control points, nor the value at any parameter. -/
theorem C37_corner_later (hε : 0 < ε) (hn : 3 ≤ n) (hodd : d % 2 = 1) {calls : List (Call ℝ)} (h : Usable ε arc (.corner fmod) n d calls G) {G1 : GB ℝ} (h1 : AfterMeshes ε G G1) :
    G1.n = n ∧ G1.degree = d ∧ (∀ i j k, G1.controlPoint i j k = G.controlPoint i j k) ∧
      ∀ uv, ∃ p Q Q1, G.eval ε uv = .ok (p, Q) ∧ G1.eval ε uv = .ok (p, Q1) := by
  obtain ⟨hi, hk, hdn, ⟨F, hF⟩, _⟩ := h.state (by omega)
  obtain ⟨c, o, rfl, a, b⟩ := h1.state hε hn hodd h
  refine ⟨hF.n_eq, hF.degree, fun i j k => rfl, fun uv => ?_⟩
  obtain ⟨_, _, p, Q, e, _⟩ := C44_weights hε hn hodd h uv
  have q := fst_bind (b.maps_same (hi.param.resolve_left (by omega)) uv) (G.evalWith ε) (fun o' => { G with dom := ⟨G.dom.dom, c⟩, param := o' }) (fun o' => { G with param := o' })
  have q' : Prod.fst <$> GB.eval ε uv { G with dom := ⟨G.dom.dom, c⟩, param := o } = Prod.fst <$> GB.eval ε uv G := q
  rw [e] at q'
  cases e1 : GB.eval ε uv { G with dom := ⟨G.dom.dom, c⟩, param := o } with
  | error x => rw [e1] at q'; cases q'
  | ok r =>
    rw [e1] at q'
    have : r.1 = p := Except.ok.inj q'
    exact ⟨p, Q, r.2, e, by rw [← this]⟩

/-- A five-sided cubic patch, after the evaluation of two meshes. -/
example : ∃ (calls : List (Call ℝ)) (G G1 G2 : GB ℝ) (m1 m2 : List (P3 ℝ) × List Domain.Tri), Usable (1 / 10000) (fun _ _ _ => 0) (.corner fmod) 5 3 calls G ∧
    G.controlPoint 2 1 0 = .ok ⟨1, 2, 3⟩ ∧ G.evalMesh (1 / 10000) 7 = .ok (m1, G1) ∧ G1.evalMesh (1 / 10000) 4 = .ok (m2, G2) ∧ AfterMeshes (1 / 10000) G G2 := by
  obtain ⟨G, hu, hr, _, hsq, hcp⟩ := built (ε := 1 / 10000) (arc := fun _ _ _ => 0) (n := 5) (d := 3) (.corner fmod) (by norm_num) (by norm_num) (Or.inr rfl)
    (w := [(⟨2, 1, 0⟩, ⟨1, 2, 3⟩)]) (by
      intro x hx
      simp only [List.mem_cons, List.not_mem_nil, or_false] at hx
      rcases hx with rfl; simp [Name.InRange]) ⟨0, 0, 1⟩ true
  obtain ⟨p1, t1, G1, _, e1, _⟩ := C37_corner (by norm_num) (by norm_num) rfl hu .start (res := 7) (by norm_num)
  have a1 : AfterMeshes (1 / 10000) G G1 := .mesh 7 (by norm_num) .start e1
  obtain ⟨p2, t2, G2, _, e2, _⟩ := C37_corner (by norm_num) (by norm_num) rfl hu a1 (res := 4) (by norm_num)
  refine ⟨_, G, G1, G2, _, _, hu, ?_, e1, e2, .mesh 4 (by norm_num) a1 e2⟩
  refine (hcp ⟨2, 1, 0⟩ (by simp [Name.InRange])).trans ?_
  simp [netValue, SamePoint]

/-- C37 does not hold for the corner-based patch after a change of the number of sides; the mesh of a six-sided patch, after a mesh of the three-sided patch was computed
with the same object: the point with index 10 should be on side 1, but it is the first corner of side 0. -/
theorem C37_corner_stale (hf : IsFmod fmod) : ∃ (G G' : GB ℝ) (pts : List (P3 ℝ)) (ts : List Domain.Tri), Reached (1 / 10000) (fun _ _ _ => 0) (.corner fmod) G ∧ G.n = 6 ∧ G.dom.dom.n = 6 ∧
    G.evalMesh (1 / 10000) 2 = .ok ((pts, ts), G') ∧
    ∃ (uvs : List (P2 ℝ)) (uv : P2 ℝ) (p q : P3 ℝ) (Q : GB ℝ), Domain.circleParams 6 2 = .ok uvs ∧ uvs.length = pts.length ∧ uvs[10]? = some uv ∧ pts[10]? = some p ∧
      G.eval (1 / 10000) uv = .ok (q, Q) ∧ p ≠ q := by
  obtain ⟨⟨ps, c1, c2, c3⟩, us, d1, d2, d3⟩ := circle_lists
  -- the three-sided patch
  have hne : ¬(3 = (GB.new (.corner fmod) 0 0).n ∧ 3 = (GB.new (.corner fmod) 0 0).degree) := by
    rintro ⟨h, -⟩; cases h
  have hA1 := initBase_net hne
  obtain ⟨A, eA⟩ := setupLoop_total (arc := fun _ _ _ => 0) hA1 (by norm_num) (by norm_num)
  have kA1 : ((GB.new (.corner fmod) 0 0).initBase 3 3).kind = .corner fmod := by unfold initBase; rw [if_neg hne]; rfl
  have cA1 : ((GB.new (.corner fmod) 0 0).initBase 3 3).dom.cache = [] := by unfold initBase; rw [if_neg hne]; rfl
  obtain ⟨cA, kA, _⟩ := setupLoop_corner kA1 eA
  have nA := (setupLoop_keeps eA).hasNet hA1
  have i1 : (GB.new (.corner fmod) 0 0).step (1 / 10000) (fun _ _ _ => 0) (.init 3 3) = .ok ((GB.new (.corner fmod) 0 0).initBase 3 3) := rfl
  have runA : (GB.new (.corner fmod) 0 0).run (1 / 10000) (fun _ _ _ => 0) [.init 3 3, .loop] = .ok A := by
    unfold run
    rw [i1, M_bind_ok]
    unfold run
    rw [show step (1 / 10000) (fun _ _ _ => 0) _ .loop = .ok A from eA, M_bind_ok]
    rfl
  have uA : Usable (1 / 10000) (fun _ _ _ => 0) (.corner fmod) 3 3 [.init 3 3, .loop] A :=
    ⟨0, 0, [.init 3 3], [], rfl, runA, by simp [Call.keepsCurves], by simp, nA.n_eq, nA.degree⟩
  have dA := (uA.state (by norm_num)).2.2.1
  -- its mesh
  obtain ⟨pA, o, mA, _⟩ := points_corner (by norm_num) le_rfl rfl uA ps ps
  have meshA : ∃ t, A.evalMesh (1 / 10000) 3 = .ok ((pA, t), { A with dom := ⟨A.dom.dom, ps⟩, param := o }) := by
    unfold evalMesh
    rw [kA]
    dsimp only
    rw [dA]
    have ht : ∃ t, Domain.circleTopology 3 3 = .ok t := ⟨_, rfl⟩
    obtain ⟨t, ht⟩ := ht
    rw [ht, M_bind_ok]
    unfold Domain.parameters
    dsimp only
    rw [cA, cA1, if_neg (by rw [dA]; decide), dA, c1, M_bind_ok, M_bind_ok]
    dsimp only
    rw [kA] at mA
    rw [mA, M_bind_ok]
    exact ⟨_, rfl⟩
  obtain ⟨tA, meshA⟩ := meshA
  -- the six-sided patch
  have hneB : ¬(6 = A.n ∧ 3 = A.degree) := by rw [nA.n_eq]; rintro ⟨h, -⟩; cases h
  have hB1 := initBase_net hneB
  obtain ⟨B2, eB2, qB2, hB2⟩ := setControlPoint_eq hB1 (a := ⟨0, 0, 0⟩) (by simp [Name.InRange]) (⟨0, 0, 1⟩ : P3 ℝ)
  obtain ⟨B, eB⟩ := setupLoop_total (arc := fun _ _ _ => 0) hB2 (by norm_num) (by norm_num)
  have kB1 : (A.initBase 6 3).kind = .corner fmod := by unfold initBase; rw [if_neg hneB]; exact kA
  have dB1 : (A.initBase 6 3).dom = A.dom := by unfold initBase; rw [if_neg hneB]
  have kB2 : B2.kind = .corner fmod := by rw [qB2]; exact kB1
  have dB2 : B2.dom = A.dom := by rw [qB2]; exact dB1
  obtain ⟨_, kB, hidB⟩ := setupLoop_corner kB2 eB
  have nB := (setupLoop_keeps eB).hasNet hB2
  have i2 : A.step (1 / 10000) (fun _ _ _ => 0) (.init 6 3) = .ok (A.initBase 6 3) := by
    change A.initNetwork 6 3 = _
    unfold initNetwork
    rw [kA]
    rfl
  have runB : (GB.new (.corner fmod) 0 0).run (1 / 10000) (fun _ _ _ => 0) ([.init 3 3, .loop] ++ [.init 6 3, .set 0 0 0 ⟨0, 0, 1⟩, .loop]) = .ok B := by
    refine run_join runA ?_
    unfold run
    rw [i2, M_bind_ok]
    unfold run
    rw [show step (1 / 10000) (fun _ _ _ => 0) _ (.set 0 0 0 ⟨0, 0, 1⟩) = .ok B2 from eB2, M_bind_ok]
    unfold run
    rw [show step (1 / 10000) (fun _ _ _ => 0) _ .loop = .ok B from eB, M_bind_ok]
    rfl
  have uB : Usable (1 / 10000) (fun _ _ _ => 0) (.corner fmod) 6 3 ([.init 3 3, .loop] ++ [.init 6 3, .set 0 0 0 ⟨0, 0, 1⟩, .loop]) B :=
    ⟨0, 0, [.init 3 3, .loop, .init 6 3, .set 0 0 0 ⟨0, 0, 1⟩], [], rfl, runB, by simp [Call.keepsCurves], by simp, nB.n_eq, nB.degree⟩
  have dB := (uB.state (by norm_num)).2.2.1
  obtain ⟨pB, oB, mB, lB, vB⟩ := points_corner (by norm_num) (by norm_num) rfl uB ps ps
  have reached : Reached (1 / 10000) (fun _ _ _ => 0) (.corner fmod) { B with dom := ⟨B.dom.dom, ps⟩ } := by
    have r1 := Reached.mesh 3 (reached_run (.new 0 0) runA) meshA
    dsimp only at r1
    have s1 : step (1 / 10000) (fun _ _ _ => 0) { A with dom := ⟨A.dom.dom, ps⟩, param := o } (.init 6 3) = .ok { A.initBase 6 3 with dom := ⟨A.dom.dom, ps⟩, param := o } := by
      change initNetwork { A with dom := ⟨A.dom.dom, ps⟩, param := o } 6 3 = _
      unfold initNetwork initBase
      dsimp only
      rw [kA, if_neg hneB, if_neg hneB]
      rfl
    have s2 := setControlPoint_hidden eB2 ⟨A.dom.dom, ps⟩ o
    have s3 := hidB ps o
    rw [dB2] at s3
    exact ((r1.step _ s1).step (.set 0 0 0 ⟨0, 0, 1⟩) s2).step .loop s3
  have meshB : ∃ t, evalMesh (1 / 10000) 2 { B with dom := ⟨B.dom.dom, ps⟩ } = .ok ((pB, t), { B with dom := ⟨B.dom.dom, ps⟩, param := oB }) := by
    unfold evalMesh
    dsimp only
    rw [kB]
    dsimp only
    rw [dB]
    have ht : ∃ t, Domain.circleTopology 6 2 = .ok t := ⟨_, rfl⟩
    obtain ⟨t, ht⟩ := ht
    rw [ht, M_bind_ok]
    unfold Domain.parameters
    dsimp only
    rw [if_pos (by rw [dB, c2]; decide), M_bind_ok]
    dsimp only
    rw [kB] at mB
    rw [mB, M_bind_ok]
    exact ⟨_, rfl⟩
  obtain ⟨tB, meshB⟩ := meshB
  -- the two points
  have hreg : ∀ c ∈ ([.init 3 3, .loop] ++ [.init 6 3, .set 0 0 0 ⟨0, 0, 1⟩, .loop] : List (Call ℝ)), c.regular = true := by
    intro c hc
    simp only [List.cons_append, List.nil_append, List.mem_cons, List.not_mem_nil, or_false] at hc
    rcases hc with rfl | rfl | rfl | rfl | rfl <;> rfl
  obtain ⟨u0, cp0, Q0, a1, a2, a3⟩ := C44_side (by norm_num) hf (by norm_num) rfl uB hreg (i := 0) (by norm_num) (s := 0) le_rfl zero_le_one
  obtain ⟨u1, cp1, Q1, b1, b2, b3⟩ := C44_side (by norm_num) hf (by norm_num) rfl uB hreg (i := 1) (by norm_num) (s := 1 / 2) (by norm_num) (by norm_num)
  obtain ⟨Q', b4⟩ := eval_hidden b3 ⟨B.dom.dom, ps⟩
  have hu1 : u1 = ⟨1, (1 + 1 / 2) * 2 * π / 6⟩ := by
    unfold Domain.circleEdgePoint at b1
    rw [dB, fdiv_of_ne (by norm_num), M_bind_ok] at b1
    rw [← Except.ok.inj b1]
    simp only [Nat.cast_one, Nat.cast_ofNat]
    rfl
  have hu0 : u0 = ⟨1, 0⟩ := by
    unfold Domain.circleEdgePoint at a1
    rw [dB, fdiv_of_ne (by norm_num), M_bind_ok] at a1
    rw [← Except.ok.inj a1]
    simp
  have hlt : 10 < pB.length := by rw [lB, c2]; norm_num
  obtain ⟨Q2, e2⟩ := vB 10 pB[10] _ (List.getElem?_eq_getElem hlt) c3
  rw [hu0] at a3
  rw [e2] at a3
  have hp : pB[10] = bezier 3 cp0 (0 : ℝ) := congrArg Prod.fst (Except.ok.inj a3)
  have v0 : cp0 0 = ⟨0, 0, 1⟩ := by
    have q := (a2 0 (by norm_num)).symm.trans (nB.cpt (i := 0) (j := 0) (k := 0) (by norm_num) (by norm_num) (by norm_num))
    rw [Except.ok.inj q]
    simp [write, SamePoint]
  have v1 : ∀ j ≤ 3, cp1 j = 0 := by
    intro j hj
    have q := (b2 j hj).symm.trans (nB.cpt (i := 1) (j := j) (k := 0) (by norm_num) hj (by norm_num))
    rw [Except.ok.inj q]
    interval_cases j <;> simp [write, SamePoint, AtCorner]
  refine ⟨_, _, pB, tB, reached, nB.n_eq, dB, meshB, us, _, pB[10], _, Q', d1, by rw [lB, c2, d2], d3, List.getElem?_eq_getElem hlt, by rw [← hu1]; exact b4, ?_⟩
  rw [hp, Ribbon.bezier_zero, v0]
  have : bezier 3 cp1 (1 / 2 : ℝ) = 0 := by
    unfold bezier
    refine Finset.sum_eq_zero fun j hj => ?_
    rw [v1 j (by have := Finset.mem_range.mp hj; omega), smul_zero]
  rw [this]
  intro h
  have := congrArg P3.z h
  norm_num at this

example : ∃ fmod, IsFmod fmod := exists_fmod

end GB

end Transfinite
