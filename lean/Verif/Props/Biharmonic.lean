import Verif.Lemmas.BiharmonicState

/-! # C73, C74, C75: biharmonic patches -/

namespace Transfinite

open Domain Spec

namespace Biharmonic

/-! ### Specification -/

/-- A biharmonic patch that is up to date: its domain is the convex polygon `v`, its parameterization and the cached parameters belong to this domain, and its ribbons
have the curves `c` and the normal vectors `ν`. -/
structure Current (ε : ℝ) (n : ℕ) (c : ℕ → Curve ℝ) (ν : ℕ → ℝ → P3 ℝ) (v : ℕ → P2 ℝ) (B : Biharmonic ℝ) : Prop where
  dom : ConvexDomain B.dom.dom n v
  param : Param.Fresh ε (.bary .wachspress) B.dom.dom B.param
  cache : B.dom.cache = [] ∨ ∃ r, parametersImpl B.dom.dom r = .ok B.dom.cache
  sides : HasSides ε n c ν B.surf.ribbons

/-- `V` has the smallest bending energy of all maps of the mesh `P` with the same boundary, and it is the only one. -/
def LeastBending (N : ℕ) (ts : List Tri) (P V : ℕ → P3 ℝ) : Prop :=
  ∀ W : ℕ → P3 ℝ, (∀ k < N, IsBoundaryVertex ts k → W k = V k) → willmore N ts P V ≤ willmore N ts P W ∧ (willmore N ts P W = willmore N ts P V → ∀ k < N, W k = V k)

open Classical in
/-- The Laplacian of the curvature vectors of `X` (taken on the mesh `V`; zero on the boundary) at `k`, with the weights of the code. -/
noncomputable def bilaplace (ts : List Tri) (V X : ℕ → P3 ℝ) (k : ℕ) : P3 ℝ :=
  lap3 ts V (fun j => if IsBoundaryVertex ts j then 0 else (1 / cellArea ts V j ^ 2) • lap3 ts V X j) k

/-- The curvature vectors: mean curvatures of the mesh `V` with the (unit) normals `Z`, along the normals. -/
noncomputable def curvatureVector (ts : List Tri) (V Z : ℕ → P3 ℝ) (k : ℕ) : P3 ℝ := -(meanCurv ts V (fun i => unitVec (Z i)) k • unitVec (Z k))

variable {n res : ℕ} {ε : ℝ} {c : ℕ → Curve ℝ} {ν : ℕ → ℝ → P3 ℝ} {v : ℕ → P2 ℝ} {B : Biharmonic ℝ} {solve : ℕ → (ℕ → ℕ → ℝ) → (ℕ → P3 ℝ) → ℕ → P3 ℝ}

theorem Current.parameters (hB : Current ε n c ν v B) (hR : 1 ≤ res) {uv : ℕ → P2 ℝ} (hu : B.dom.dom.parametersImpl res = .ok (tab (meshSize n res) uv)) :
    ∃ dc, Domain.parameters (fun d => Domain.meshSize d.n) Domain.parametersImpl B.dom res = .ok (tab (meshSize n res) uv, dc) ∧ dc.dom = B.dom.dom ∧
      (dc.cache = [] ∨ ∃ r, parametersImpl dc.dom r = .ok dc.cache) := by
  have hn := hB.dom.hn
  have hdn := hB.dom.n_eq
  unfold Domain.parameters
  split_ifs with hlen
  · rcases hB.cache with e | ⟨r', e⟩
    · rw [e] at hlen
      exfalso
      have : 0 < Domain.meshSize B.dom.dom.n res := by
        unfold Domain.meshSize
        split
        · apply Nat.div_pos _ (by omega); nlinarith
        · split <;> positivity
      simp at hlen
      omega
    · have := Patch.params_length (by omega) (by rw [hB.dom.length_eq, hdn]) e
      rw [hlen] at this
      have e' := e
      rw [← meshSize_inj (by omega) this, hu] at e
      refine ⟨B.dom, by rw [← Except.ok.inj e], rfl, Or.inr ⟨_, e'⟩⟩
  · rw [hu, M_bind_ok]
    exact ⟨_, rfl, rfl, Or.inr ⟨_, hu⟩⟩

theorem op_bilaplace {N : ℕ} {ts : List Tri} {bd : List ℕ} (hr : Rim N ts bd) (V X : ℕ → P3 ℝ) (k : ℕ) : op ts V bd false X k = bilaplace ts V X k := by
  classical
  have hw : ∀ j < N, weight ts V bd false j • lap3 ts V X j = if IsBoundaryVertex ts j then 0 else (1 / cellArea ts V j ^ 2) • lap3 ts V X j := by
    intro j hj
    have hb := hr.boundary j hj
    unfold weight
    by_cases h : j ∈ bd
    · rw [if_pos h, if_pos (hb.mp h), zero_smul]
    · rw [if_neg h, if_neg fun q => h (hb.mpr q), if_neg (by simp)]
      congr 1
      rw [sq, one_div_mul_one_div]
  unfold op bilaplace lap3
  refine P3.ext ?_ ?_ ?_
  · exact hr.lap_congr (fun j hj => congrArg P3.x (hw j hj)) k
  · exact hr.lap_congr (fun j hj => congrArg P3.y (hw j hj)) k
  · exact hr.lap_congr (fun j hj => congrArg P3.z (hw j hj)) k

theorem evalMesh_facts (hε : 0 < ε) (hε1 : ε ≤ 1) (hs : Harmonic.Solver solve) (hl : Harmonic.ClosedLoop n c) (hB : Current ε n c ν v B) (hR : 1 ≤ res) {N : ℕ}
    (hN : N = meshSize n res) {ts : List Tri} (hts : ts = allTris n res) :
    ∃ (uv : ℕ → P2 ℝ) (V Z : ℕ → P3 ℝ), MeshFacts B.dom.dom n res v uv ∧
      (∀ k < N, ∀ i < n, ∀ s : ℝ, 0 ≤ s → s ≤ 1 → B.dom.dom.edgePoint i s = .ok (uv k) → V k = (c i).pt s) ∧
      (∀ k < N, ∀ i < n, ∀ s : ℝ, 0 < s → s ≤ 1 → B.dom.dom.edgePoint i s = .ok (uv k) → Z k = ν i s) ∧
      LeastBending N ts (fun k => ⟨(uv k).x, (uv k).y, 0⟩) V ∧ LeastBending N ts (fun k => ⟨(uv k).x, (uv k).y, 0⟩) Z ∧
      ((∃ x, B.evalMesh ε solve res = .ok x) ↔ Nondegenerate ts V) ∧
      ∀ M B', B.evalMesh ε solve res = .ok (M, B') → Current ε n c ν v B' ∧ B'.dom.dom = B.dom.dom ∧ ∃ X : ℕ → P3 ℝ, M = (tab N X, ts) ∧
        (∀ k < N, ∀ i < n, ∀ s : ℝ, 0 ≤ s → s ≤ 1 → B.dom.dom.edgePoint i s = .ok (uv k) → X k = (c i).pt s) ∧
        ∀ k < N, ¬ IsBoundaryVertex ts k → bilaplace ts V X k = (1 / cellArea ts V k) • lap3 ts V (curvatureVector ts V Z) k := by
  classical
  have hn := hB.dom.hn
  have hdn := hB.dom.n_eq
  obtain ⟨uv, hmf⟩ := mesh_facts hB.dom hR
  have hr := hmf.rim hn hR
  have hP := hmf.nondegenerate
  subst hN hts
  set N := meshSize n res with hN
  set ts := allTris n res with hts
  obtain ⟨dc, hdc, hdd, hcache⟩ := hB.parameters hR hmf.params
  -- sides and parameters of the boundary vertices
  have hch : ∀ k, ∃ q : ℕ × ℝ, k ∈ rim n res → q.1 < n ∧ 0 < q.2 ∧ q.2 ≤ 1 ∧ uv k = sidePoint n v q.1 q.2 := by
    intro k
    by_cases h : k ∈ rim n res
    · obtain ⟨h1, h2⟩ := mem_rim.mp h
      obtain ⟨i, hi, s, s0, s1, es⟩ := hmf.side k h1 h2
      exact ⟨(i, s), fun _ => ⟨hi, s0, s1, es⟩⟩
    · exact ⟨(0, 0), fun q => absurd q h⟩
  choose q hq using hch
  have hb : ∀ k, ∀ i' < n, ∀ s' : ℝ, 0 ≤ s' → s' ≤ 1 → uv k = sidePoint n v i' s' →
      Param.barycentric ε .wachspress B.dom.dom (uv k) = .ok (tab n fun j => if j = i' then s' else if j = prevIx n i' then 1 - s' else 0) := by
    intro k i' hi' s' s0 s1 es
    obtain ⟨p, w1, w2⟩ := C12_coordinates hε .wachspress hn hdn hB.dom.vertices_eq hB.dom.convex hi' s0 s1
    rw [hB.dom.edgePoint hi', ← es] at w1
    cases w1
    exact w2 fun j _ => C12_wachspress_condition hε1 _ _
  have huniq : ∀ k ∈ rim n res, ∀ i < n, ∀ s : ℝ, 0 < s → s ≤ 1 → uv k = sidePoint n v i s → q k = (i, s) := by
    intro k hk i hi s s0 s1 es
    obtain ⟨a1, a2, a3, a4⟩ := hq k hk
    have b1 := hb k _ a1 _ a2.le a3 a4
    rw [hb k i hi s s0.le s1 es] at b1
    have c1 := vertexBoundary_eq hn hi s0 s1
    rw [Except.ok.inj b1, vertexBoundary_eq hn a1 a2 a3] at c1
    exact Except.ok.inj c1
  have hrim : ∀ k < N, ∀ i < n, ∀ s : ℝ, B.dom.dom.edgePoint i s = .ok (uv k) → k ∈ rim n res ∧ uv k = sidePoint n v i s := by
    intro k hk i hi s es
    rw [hB.dom.edgePoint hi] at es
    have es := (Except.ok.inj es).symm
    exact ⟨mem_rim.mpr ⟨hk, hmf.inner k hk i hi s es⟩, es⟩
  have hclosed : ∀ j < n, (c j).pt 1 = (c (nextIx n j)).pt 0 := hl.closed
  have hpoint : ∀ k < N, ∀ i < n, ∀ s : ℝ, 0 ≤ s → s ≤ 1 → B.dom.dom.edgePoint i s = .ok (uv k) → k ∈ rim n res ∧ (c (q k).1).pt (q k).2 = (c i).pt s := by
    intro k hk i hi s s0 s1 es
    obtain ⟨h1, h2⟩ := hrim k hk i hi s es
    refine ⟨h1, ?_⟩
    rcases s0.lt_or_eq with h | h
    · rw [huniq k h1 i hi s h s1 h2]
    · rw [← h, sidePoint_zero hi] at h2
      rw [huniq k h1 _ (prevIx_lt (by omega)) 1 (by norm_num) le_rfl h2, ← h, hclosed _ (prevIx_lt (by omega)), nextIx_prevIx hi]
  obtain ⟨f, g, o', f1, f2, f3⟩ := fill_eq (N := N) (uv := uv) (side := fun k => (q k).1) (par := fun k => (q k).2) hε hε1 hn hB.dom hB.param hB.sides hr.lt hq
  obtain ⟨V, Z, hVZ, hin, hiff, hok⟩ := surfacePoints_eq hr hmf.manifold hP hmf.onEdge hs f g
  have heval : B.evalMesh ε solve res = (surfacePoints solve ts (tab N fun k => Harmonic.from2D (uv k)) (onEdge n res) (rim n res) (tab N f) (tab N g) >>= fun x =>
      .ok ((tab N x, ts), { B with dom := dc, param := o' })) := by
    unfold evalMesh
    rw [hdn, hmf.topo, M_bind_ok, hdc, M_bind_ok]
    dsimp only
    rw [length_tab]
    change (forEach (fillStep ε B.surf.ribbons (tab N uv)) (rim n res) ⟨List.replicate N 0, List.replicate N 0, B.param⟩ >>= _) = _
    rw [f1, M_bind_ok]
    dsimp only
    rw [show (tab N uv).map Harmonic.from2D = tab N fun k => Harmonic.from2D (uv k) by unfold tab; rw [List.map_map]; rfl]
    rfl
  have least : ∀ W : ℕ → P3 ℝ, (∀ i < N, i ∉ rim n res → op ts (fun k => Harmonic.from2D (uv k)) (rim n res) true W i = 0) →
      LeastBending N ts (fun k => ⟨(uv k).x, (uv k).y, 0⟩) W := by
    intro W hW Y hY
    exact hr.least3 hP hW fun i hi => hY i (hr.lt i hi) ((hr.boundary i (hr.lt i hi)).mp hi)
  refine ⟨uv, V, Z, hmf, ?_, ?_, least V fun i hi h => (hin i hi h).1, least Z fun i hi h => (hin i hi h).2, ?_, ?_⟩
  · intro k hk i hi s s0 s1 es
    obtain ⟨h1, h2⟩ := hpoint k hk i hi s s0 s1 es
    rw [(hVZ k h1).1, (f3 k h1).1, h2]
  · intro k hk i hi s s0 s1 es
    obtain ⟨h1, h2⟩ := hrim k hk i hi s es
    rw [(hVZ k h1).2, (f3 k h1).2, huniq k h1 i hi s s0 s1 h2]
  · constructor
    · rintro ⟨x, e⟩
      rw [heval] at e
      obtain ⟨y, ey, _⟩ := bind_ok e
      exact hiff ⟨y, ey⟩
    · intro h
      obtain ⟨X, eX, _⟩ := hok h
      rw [heval, eX]
      exact ⟨_, rfl⟩
  · intro M B' e
    rw [heval] at e
    obtain ⟨y, ey, e⟩ := bind_ok e
    obtain ⟨X, eX, x1, x2⟩ := hok (hiff ⟨y, ey⟩)
    rw [ey] at eX
    cases eX
    cases e
    refine ⟨⟨by dsimp only; rw [hdd]; exact hB.dom, by dsimp only; rw [hdd]; exact f2, hcache, hB.sides⟩, hdd, y, rfl, ?_, ?_⟩
    · intro k hk i hi s s0 s1 es
      obtain ⟨h1, h2⟩ := hpoint k hk i hi s s0 s1 es
      rw [x1 k h1, (hVZ k h1).1, (f3 k h1).1, h2]
    · intro k hk hnb
      rw [← op_bilaplace hr]
      exact x2 k hk fun h => hnb ((hr.boundary k hk).mp h)

/-- C73: `eval(resolution)` of an up-to-date biharmonic patch. Let `V` be the map of the domain mesh to space with the boundary curves as boundary, and with the smallest
bending energy, and `Z` the same for the normal vectors. Then `eval` succeeds if and only if `V` has no degenerate triangle; it returns the triangles of the domain mesh; its
vertices on the boundary of the domain are the points of the boundary curves, at the right parameters; and inside it solves the discrete biharmonic equation on `V`, with
the curvatures given by `V` and `Z` on the right hand side. The patch stays up to date. -/
theorem C73_biharmonic (hε : 0 < ε) (hε1 : ε ≤ 1) (hs : Harmonic.Solver solve) (hl : Harmonic.ClosedLoop n c) (hB : Current ε n c ν v B) (hR : 1 ≤ res) :
    ∃ (N : ℕ) (ts : List Tri) (uv : ℕ → P2 ℝ) (V Z : ℕ → P3 ℝ), meshTopology n res = .ok (N, ts) ∧ B.dom.dom.parametersImpl res = .ok (tab N uv) ∧
      (∀ k < N, ∀ i < n, ∀ s : ℝ, 0 ≤ s → s ≤ 1 → B.dom.dom.edgePoint i s = .ok (uv k) → V k = (c i).pt s) ∧
      (∀ k < N, ∀ i < n, ∀ s : ℝ, 0 < s → s ≤ 1 → B.dom.dom.edgePoint i s = .ok (uv k) → Z k = ν i s) ∧
      LeastBending N ts (fun k => ⟨(uv k).x, (uv k).y, 0⟩) V ∧ LeastBending N ts (fun k => ⟨(uv k).x, (uv k).y, 0⟩) Z ∧
      ((∃ x, B.evalMesh ε solve res = .ok x) ↔ Nondegenerate ts V) ∧
      ∀ M B', B.evalMesh ε solve res = .ok (M, B') → Current ε n c ν v B' ∧ B'.dom.dom = B.dom.dom ∧ ∃ X : ℕ → P3 ℝ, M = (tab N X, ts) ∧
        (∀ k < N, ∀ i < n, ∀ s : ℝ, 0 ≤ s → s ≤ 1 → B.dom.dom.edgePoint i s = .ok (uv k) → X k = (c i).pt s) ∧
        ∀ k < N, ¬ IsBoundaryVertex ts k → bilaplace ts V X k = (1 / cellArea ts V k) • lap3 ts V (curvatureVector ts V Z) k := by
  obtain ⟨uv, V, Z, hmf, h⟩ := evalMesh_facts hε hε1 hs hl hB hR rfl rfl
  exact ⟨_, _, uv, V, Z, hmf.topo, hmf.params, h⟩

/-- C73: `update()` of a biharmonic patch with a loop of regular curves succeeds (if its domain can be constructed), and then it is up to date, for the normals of the normal fence (or
the rotation minimizing frame). -/
theorem C73_update (hε : 0 < ε) (hl : Patch.GoodLoop ε n c) {r : ℕ → Ribbon ℝ} (hS : B.surf.ribbons = tab n r) (hr : ∀ j < n, (r j).kind = .compatible ∧ (r j).curve = c j)
    {d : Domain ℝ} (hd : Domain.angularUpdate (tab n c) = .ok d) (hcd : ConvexDomain d n v) :
    ∃ B' ν, B.update ε = .ok B' ∧ Current ε n c ν v B' ∧ B'.dom.dom = d ∧ (∀ j < n, ∀ f, (r j).fence = some f → ∀ s : ℝ, 0 ≤ s → s ≤ 1 → ν j s = f s) ∧
      ∀ j < n, (r j).fence = none → ∀ s : ℝ, 0 ≤ s → s ≤ 1 → P3.dot (ν j s) (ν j s) = 1 := by
  have hn := hl.sides
  have hnb : ∀ j < n, Surf.nbOf n (fun k => (r k).curve) j = Surf.nbOf n c j := fun j hj => Surf.nbOf_congr (fun k hk => (hr k hk).2) hj
  have h1 : ∀ j, ∃ r', j < n → Ribbon.update ε (Surf.nbOf n (fun k => (r k).curve) j) (r j) = .ok r' := by
    intro j
    by_cases hj : j < n
    · rw [hnb j hj]
      have hu := hl.updatable hj
      rw [← (hr j hj).2] at hu
      obtain ⟨r', e⟩ := C23_defined hε (Or.inl (hr j hj).1) hu.exact hu.half hu.start hu.fin
      exact ⟨r', fun _ => e⟩
    · exact ⟨r j, fun q => absurd q hj⟩
  choose r' hr' using h1
  have hcross : ∀ j < n, ∀ s, 0 ≤ s → s ≤ 1 → ∃ x, Ribbon.crossDerivative ε (r' j) s = .ok x := by
    intro j hj s s0 s1
    exact C22_defined hε (Or.inl (hr j hj).1) (hr' j hj) s0 (by rw [(hr j hj).2]; exact hl.regular j hj s s0 s1)
  have h2 : ∀ j, ∃ q, j < n → Surf.cornerOf ε (tab n r') j = .ok q := by
    intro j
    by_cases hj : j < n
    · have hx : nextIx n j < n := nextIx_lt (by omega)
      obtain ⟨d1, e1⟩ := hcross j hj 1 (by norm_num) (by norm_num)
      obtain ⟨d2, e2⟩ := hcross j hj (1 - Surf.cornerStep) (by norm_num [Surf.cornerStep]) (by norm_num [Surf.cornerStep])
      obtain ⟨d3, e3⟩ := hcross _ hx 0 (by norm_num) (by norm_num)
      obtain ⟨d4, e4⟩ := hcross _ hx Surf.cornerStep (by norm_num [Surf.cornerStep]) (by norm_num [Surf.cornerStep])
      have hv : ∀ a : P3 ℝ, Ribbon.vdiv a Surf.cornerStep = .ok ((1 / Surf.cornerStep : ℝ) • a) := by
        intro a
        unfold Ribbon.vdiv
        rw [fdiv_of_ne (by norm_num [Surf.cornerStep]), M_bind_ok]
      have : ∃ q, Surf.cornerOf ε (tab n r') j = .ok q := by
        unfold Surf.cornerOf
        rw [length_tab, vget_tab _ hj, M_bind_ok, vget_tab _ hx, M_bind_ok, e1, M_bind_ok, e2, M_bind_ok, hv, M_bind_ok, e3, M_bind_ok, e4, M_bind_ok,
          hv, M_bind_ok]
        exact ⟨_, rfl⟩
      obtain ⟨q, hq⟩ := this
      exact ⟨q, fun _ => hq⟩
    · exact ⟨⟨0, 0, 0, 0, 0⟩, fun q => absurd q hj⟩
  choose q hq using h2
  have hup := (Surf.updateAll_iff hS).mpr ⟨r', q, hr', hq, rfl⟩
  have hnu : ∀ (j : ℕ) (s : ℝ), ∃ m, j < n → 0 ≤ s → s ≤ 1 → (r' j).normal ε s = .ok m ∧ (∀ f, (r j).fence = some f → m = f s) ∧
      ((r j).fence = none → P3.dot m m = 1) := by
    intro j s
    by_cases h : j < n ∧ 0 ≤ s ∧ s ≤ 1
    · obtain ⟨hj, s0, s1⟩ := h
      have hfe := (Ribbon.update_keeps (hr' j hj)).2.2.1
      have hu := update_updated (hr' j hj) (by rw [(hr j hj).1]; simp)
      have hder := hl.regular j hj s s0 s1
      unfold Ribbon.normal
      rw [hfe]
      cases hf : (r j).fence with
      | some f => exact ⟨f s, fun _ _ _ => ⟨rfl, fun g hg => by cases hg; rfl, fun hg => by cases hg⟩⟩
      | none =>
        obtain ⟨a, b, w1, w2, w3⟩ := hu.rmf
        rw [(hr j hj).2] at w3
        obtain ⟨m, em⟩ := (C21_defined hε (by simp [RMF.resolution]) (P3.normalize_unit w1).2.2 w3).2 s s0 hder
        refine ⟨m, fun _ _ _ => ⟨em, fun g hg => (by cases hg), fun _ => C21_unit hε (by simp [RMF.resolution]) (P3.normalize_unit w1).2.2 w3 em⟩⟩
    · exact ⟨0, fun a b c => absurd ⟨a, b, c⟩ h⟩
  choose ν hν using hnu
  refine ⟨⟨⟨d, []⟩, ⟨d, [], [], []⟩, ⟨B.surf.useGamma, tab n r', tab n q⟩⟩, ν, ?_, ⟨hcd, Param.Fresh.new rfl, Or.inl rfl, r', rfl, fun j hj => ⟨?_, fun s s0 s1 => (hν j s hj s0 s1).1⟩⟩, rfl,
    fun j hj f hf s s0 s1 => (hν j s hj s0 s1).2.1 f hf, fun j hj hf s s0 s1 => (hν j s hj s0 s1).2.2 hf⟩
  · unfold update
    rw [hS, show (tab n r).map (fun r => r.curve) = tab n c by
      unfold tab
      rw [List.map_map]
      exact List.map_congr_left fun j hj => (hr j (List.mem_range.mp hj)).2, hd, M_bind_ok]
    change ((Except.ok _ : M _) >>= fun o => B.surf.updateAll ε >>= fun S => _) = _
    rw [M_bind_ok, hup, M_bind_ok]
  · rw [(Ribbon.update_keeps (hr' j hj)).2.1, (hr j hj).2]

/-! ### Flat data -/

section flat

variable {N : ℕ} {ts : List Tri} {bd : List ℕ} {P V : ℕ → P3 ℝ}

/-- With constant normals the outline of a ring gives zero. -/
theorem ring_zero (hm : OrientedManifold ts) (hp : ∀ t ∈ ts, ProperTri N t) (V : ℕ → P3 ℝ) {nn : ℕ → P3 ℝ} {m : P3 ℝ} (hc : ∀ k < N, nn k = m) (k : ℕ) :
    ringIntegral ts V nn k = 0 := by
  set w := unitVec (m + m + m) with hw
  have h2 : (2 : ℝ) • m + m = m + m + m := by rw [two_smul]
  set h : ℕ × ℕ → P3 ℝ := fun e => (if k = e.1 then P3.cross w (V e.2 - V e.1) else 0) - (if k = e.2 then P3.cross w (V e.1 - V e.2) else 0) with hh
  have e1 : cornerSum3 ts (fun a b c => P3.cross (unitVec (nn a + nn b + nn c)) (V c - V b)) k = - ((meshEdges ts).map h).sum := by
    unfold cornerSum3 meshEdges
    clear hm
    induction ts with
    | nil => simp
    | cons t ts ih =>
      obtain ⟨a1, a2, a3, _⟩ := hp t (by simp)
      rw [List.map_cons, List.sum_cons, List.flatMap_cons, List.map_append, List.sum_append, ih fun u hu => hp u (List.mem_cons_of_mem _ hu)]
      simp only [dirEdges, List.map_cons, List.map_nil, List.sum_cons, List.sum_nil, hh]
      rw [hc _ a1, hc _ a2, hc _ a3, ← hw]
      have split : ∀ b c : P3 ℝ, P3.cross w (c - b) = P3.cross w c - P3.cross w b := by
        intro b c
        ext <;> simp [P3.cross] <;> ring
      simp only [split]
      split_ifs <;> abel
  have e2 : ((boundaryEdges ts).map fun e => (if k = e.1 then wedge V nn e.1 e.2 else 0) - (if k = e.2 then wedge V nn e.2 e.1 else 0)) = (boundaryEdges ts).map h := by
    refine List.map_congr_left fun e he => ?_
    unfold boundaryEdges at he
    rw [List.mem_filter, decide_eq_true_eq] at he
    have h3 := hc _ (boundary_lt hp ⟨e, he.1, he.2, Or.inl rfl⟩)
    have h4 := hc _ (boundary_lt hp ⟨e, he.1, he.2, Or.inr rfl⟩)
    unfold wedge
    rw [h3, h4, h2, ← hw, hh]
  unfold ringIntegral
  rw [e1, e2, sum_boundary3 hm, neg_add_cancel]
  intro e
  rw [hh]
  simp only [Prod.fst_swap, Prod.snd_swap]
  abel

theorem lap_const (a : ℝ) (k : ℕ) : lap ts P (fun _ => a) k = 0 := by
  rw [← form_lap]
  unfold form triForm
  simp

theorem lap3_const (a : P3 ℝ) (k : ℕ) : lap3 ts P (fun _ => a) k = 0 := by
  unfold lap3
  rw [lap_const, lap_const, lap_const]
  rfl

theorem Rim.lap_congr_mesh (hr : Rim N ts bd) {Q : ℕ → P3 ℝ} (h : ∀ i < N, P i = Q i) (x : ℕ → ℝ) (k : ℕ) : lap ts P x k = lap ts Q x k := by
  rw [← form_lap, ← form_lap]
  unfold form
  congr 1
  refine List.map_congr_left fun t ht => ?_
  obtain ⟨h1, h2, h3, _⟩ := hr.proper t ht
  rw [h _ h1, h _ h2, h _ h3]

theorem triForm_linear {a b c : P3 ℝ} (h : area3 a b c ≠ 0) (m : P3 ℝ) (y1 y2 y3 : ℝ) :
    triForm a b c (P3.dot m a) (P3.dot m b) (P3.dot m c) y1 y2 y3 =
      ((y1 + y2) * P3.dot m (P3.cross (b - a) (P3.cross (b - a) (c - a))) + (y2 + y3) * P3.dot m (P3.cross (c - b) (P3.cross (b - a) (c - a))) +
        (y3 + y1) * P3.dot m (P3.cross (a - c) (P3.cross (b - a) (c - a)))) / (2 * area3 a b c) := by
  unfold triForm corner
  congr 1
  unfold P3.dot P3.cross
  simp only [P3.sub_x, P3.sub_y, P3.sub_z]
  ring

/-- A linear function has no Laplacian inside a mesh in a plane. -/
theorem lap_linear (hm : OrientedManifold ts) {uv : ℕ → P2 ℝ} (hpos : ∀ t ∈ ts, 0 < area2 (uv t.1) (uv t.2.1) (uv t.2.2)) {o p q : P3 ℝ} (hpq : P3.cross p q ≠ 0)
    (m : P3 ℝ) {k : ℕ} (hk : ¬ IsBoundaryVertex ts k) :
    lap ts (fun j => o + (uv j).x • p + (uv j).y • q) (fun j => P3.dot m (o + (uv j).x • p + (uv j).y • q)) k = 0 := by
  set Q : ℕ → P3 ℝ := fun j => o + (uv j).x • p + (uv j).y • q with hQ
  set C := P3.cross p q with hC
  have hCp := P3.norm_pos hpq
  set y : ℕ → ℝ := fun j => if j = k then 1 else 0 with hy
  rw [← form_lap]
  set g : ℕ × ℕ → ℝ := fun e => (y e.1 + y e.2) * P3.dot m (P3.cross (Q e.2 - Q e.1) C) / (2 * C.norm) with hg
  have hcross : ∀ i j l, P3.cross (Q j - Q i) (Q l - Q i) = area2 (uv i) (uv j) (uv l) • C := by
    intro i j l
    rw [hQ, hC]
    unfold area2
    ext <;> simp [P3.cross] <;> ring
  have h1 : form ts Q (fun j => P3.dot m (Q j)) y = ((meshEdges ts).map g).sum := by
    clear hm hk
    unfold form meshEdges
    induction ts with
    | nil => rfl
    | cons t ts ih =>
      have ht := hpos t (by simp)
      have harea : area3 (Q t.1) (Q t.2.1) (Q t.2.2) = area2 (uv t.1) (uv t.2.1) (uv t.2.2) * C.norm := by
        unfold area3
        rw [hcross]
        generalize area2 (uv t.1) (uv t.2.1) (uv t.2.2) = a at ht ⊢
        have h0 := P3.norm_nonneg (a • C)
        have e1 := P3.norm_mul_self (a • C)
        have e2 := P3.norm_mul_self C
        have e3 : P3.dot (a • C) (a • C) = a * a * P3.dot C C := by unfold P3.dot; simp only [P3.smul_x, P3.smul_y, P3.smul_z]; ring
        have e4 : (a • C).norm ^ 2 = (a * C.norm) ^ 2 := by rw [sq, e1, e3, ← e2]; ring
        exact (pow_left_inj₀ h0 (by positivity) two_ne_zero).mp e4
      rw [List.map_cons, List.sum_cons, List.flatMap_cons, List.map_append, List.sum_append, ih fun u hu => hpos u (List.mem_cons_of_mem _ hu),
        triForm_linear (by rw [harea]; positivity), hcross, harea]
      congr 1
      simp only [dirEdges, List.map_cons, List.map_nil, List.sum_cons, List.sum_nil, hg]
      have hsm : ∀ (w : P3 ℝ) (a : ℝ), P3.dot m (P3.cross w (a • C)) = a * P3.dot m (P3.cross w C) := by
        intro w a
        unfold P3.dot P3.cross
        simp only [P3.smul_x, P3.smul_y, P3.smul_z]
        ring
      rw [hsm, hsm, hsm]
      have h2 := ht.ne'
      have h3 := hCp.ne'
      field_simp
      ring
  rw [h1]
  refine Harmonic.sum_edges hm (fun e => ?_) fun e he hs => ?_
  · rw [hg]
    simp only [Prod.fst_swap, Prod.snd_swap]
    have : P3.dot m (P3.cross (Q e.1 - Q e.2) C) = - P3.dot m (P3.cross (Q e.2 - Q e.1) C) := by
      unfold P3.dot P3.cross
      simp only [P3.sub_x, P3.sub_y, P3.sub_z]
      ring
    rw [this]
    ring
  · have h1 : e.1 ≠ k := fun h => hk ⟨e, he, hs, Or.inl h⟩
    have h2 : e.2 ≠ k := fun h => hk ⟨e, he, hs, Or.inr h⟩
    rw [hg, hy]
    dsimp only
    rw [if_neg h1, if_neg h2]
    ring

/-- An affine map of the domain mesh has no Laplacian inside. -/
theorem lap3_affine (hm : OrientedManifold ts) {uv : ℕ → P2 ℝ} (hpos : ∀ t ∈ ts, 0 < area2 (uv t.1) (uv t.2.1) (uv t.2.2)) (o p q : P3 ℝ) {k : ℕ}
    (hk : ¬ IsBoundaryVertex ts k) : lap3 ts (fun k => ⟨(uv k).x, (uv k).y, 0⟩) (fun j => o + (uv j).x • p + (uv j).y • q) k = 0 := by
  have hne : P3.cross (⟨1, 0, 0⟩ : P3 ℝ) ⟨0, 1, 0⟩ ≠ 0 := by
    intro h
    have := congrArg P3.z h
    simp [P3.cross] at this
  have e1 : (fun k => (0 : P3 ℝ) + (uv k).x • (⟨1, 0, 0⟩ : P3 ℝ) + (uv k).y • (⟨0, 1, 0⟩ : P3 ℝ)) = fun k => ⟨(uv k).x, (uv k).y, 0⟩ := by
    funext k
    ext <;> simp
  have lin : ∀ (a b c : ℝ) (f : ℕ → ℝ), (∀ j, f j = a * (uv j).x + b * (uv j).y + c) → lap ts (fun k => ⟨(uv k).x, (uv k).y, 0⟩) f k = 0 := by
    intro a b c f hf
    have := lap_linear (o := 0) (p := ⟨1, 0, 0⟩) (q := ⟨0, 1, 0⟩) hm hpos hne ⟨a, b, 0⟩ hk
    have e2 : (fun k => P3.dot ⟨a, b, 0⟩ ((0 : P3 ℝ) + (uv k).x • (⟨1, 0, 0⟩ : P3 ℝ) + (uv k).y • (⟨0, 1, 0⟩ : P3 ℝ))) = fun k => a * (uv k).x + b * (uv k).y := by
      funext k
      simp [P3.dot]
    rw [e1, e2] at this
    rw [show f = fun j => a * (uv j).x + b * (uv j).y + c from funext hf, lap_add, lap_const, this, add_zero]
  unfold lap3
  rw [lin p.x q.x o.x _ fun j => by simp only [P3.add_x, P3.smul_x]; ring, lin p.y q.y o.y _ fun j => by simp only [P3.add_y, P3.smul_y]; ring,
    lin p.z q.z o.z _ fun j => by simp only [P3.add_z, P3.smul_z]; ring]
  rfl

theorem willmore_nonneg (hP : Nondegenerate ts P) (V : ℕ → P3 ℝ) : 0 ≤ willmore N ts P V := by
  unfold willmore
  refine Finset.sum_nonneg fun k _ => ?_
  split_ifs
  · exact le_rfl
  · exact div_nonneg (P3.dot_self_nonneg _) (cellArea_nonneg hP k)

theorem willmore_zero (h : ∀ k < N, ¬ IsBoundaryVertex ts k → lap3 ts P V k = 0) : willmore N ts P V = 0 := by
  unfold willmore
  refine Finset.sum_eq_zero fun k hk => ?_
  split_ifs with q
  · rfl
  · rw [h k (Finset.mem_range.mp hk) q]
    simp [P3.normSqr, P3.dot]

theorem LeastBending.eq_of_zero (hP : Nondegenerate ts P) (h : LeastBending N ts P V) {W : ℕ → P3 ℝ} (hb : ∀ k < N, IsBoundaryVertex ts k → W k = V k)
    (h0 : willmore N ts P W = 0) : ∀ k < N, W k = V k := by
  obtain ⟨h1, h2⟩ := h W hb
  exact h2 (le_antisymm (by rw [h0]; exact willmore_nonneg hP V) h1)

/-- With constant normals the right hand side of the equation is zero. -/
theorem rhs_zero (hm : OrientedManifold ts) (hp : ∀ t ∈ ts, ProperTri N t) {Z : ℕ → P3 ℝ} {m : P3 ℝ} (hZ : ∀ k < N, Z k = m) (V : ℕ → P3 ℝ) (k : ℕ) :
    lap3 ts V (curvatureVector ts V Z) k = 0 := by
  have : curvatureVector ts V Z = fun _ => 0 := by
    funext j
    unfold curvatureVector meanCurv
    rw [ring_zero hm hp V (nn := fun i => unitVec (Z i)) (m := unitVec m) (fun k hk => by rw [hZ k hk])]
    rw [show (0 : P3 ℝ).norm = 0 from P3.norm_eq_zero.mpr rfl, zero_div, zero_smul, neg_zero]
  rw [this, lap3_const]

end flat

section

variable {N : ℕ} {ts : List Tri} {uv : ℕ → P2 ℝ} {V Z : ℕ → P3 ℝ}

theorem MeshFacts.nondegenerate' {d : Domain ℝ} (hmf : MeshFacts d n res v uv) : Nondegenerate (allTris n res) (fun k => ⟨(uv k).x, (uv k).y, 0⟩) := hmf.nondegenerate

/-- The normals in the vertices, when they are constant along the boundary. -/
theorem normals_const {d : Domain ℝ} (hcd : ConvexDomain d n v) (hmf : MeshFacts d n res v uv)
    (hZ : ∀ k < meshSize n res, ∀ i < n, ∀ s : ℝ, 0 < s → s ≤ 1 → d.edgePoint i s = .ok (uv k) → Z k = ν i s)
    (hL : LeastBending (meshSize n res) (allTris n res) (fun k => ⟨(uv k).x, (uv k).y, 0⟩) Z) {m : P3 ℝ} (hν : ∀ i < n, ∀ s : ℝ, 0 < s → s ≤ 1 → ν i s = m) :
    ∀ k < meshSize n res, Z k = m := by
  intro k hk
  refine (hL.eq_of_zero hmf.nondegenerate' (W := fun _ => m) (fun j hj hb => ?_) (willmore_zero fun j _ _ => ?_) k hk).symm
  · obtain ⟨i, hi, s, s0, s1, es⟩ := hmf.side j hj ((hmf.edge j hj).mpr hb)
    rw [hZ j hj i hi s s0 s1 (by rw [hcd.edgePoint hi, es]), hν i hi s s0 s1]
  · exact lap3_const _ _

end

/-- C75: when the boundary curves are in a plane and the normal vectors of the ribbons are all the same, the result of `eval(resolution)` is in that plane. -/
theorem C75_plane (hε : 0 < ε) (hε1 : ε ≤ 1) (hs : Harmonic.Solver solve) (hl : Harmonic.ClosedLoop n c) (hB : Current ε n c ν v B) (hR : 1 ≤ res) {m u : P3 ℝ} {h : ℝ}
    (hν : ∀ i < n, ∀ s : ℝ, 0 < s → s ≤ 1 → ν i s = m) (hplane : ∀ i < n, ∀ s : ℝ, 0 ≤ s → s ≤ 1 → P3.dot u ((c i).pt s) = h)
    {pts : List (P3 ℝ)} {ts : List Tri} {B' : Biharmonic ℝ} (he : B.evalMesh ε solve res = .ok ((pts, ts), B')) : ∀ x ∈ pts, P3.dot u x = h := by
  have hn := hB.dom.hn
  obtain ⟨uv, V, Z, hmf, _, hZ, _, lZ, hiff, hfin⟩ := evalMesh_facts hε hε1 hs hl hB hR rfl rfl
  obtain ⟨_, _, X, e, x1, x2⟩ := hfin _ _ he
  obtain ⟨rfl, rfl⟩ := Prod.mk.inj e
  have hr := hmf.rim hn hR
  have hVn := hiff.mp ⟨_, he⟩
  have hZc := normals_const hB.dom hmf hZ lZ hν
  have key := hr.unique hVn (pr := false) (x := fun k => P3.dot u (X k) + -h) (fun k hk => by
    obtain ⟨h1, h2⟩ := mem_rim.mp hk
    obtain ⟨i, hi, s, s0, s1, es⟩ := hmf.side k h1 h2
    rw [x1 k h1 i hi s s0.le s1 (by rw [hB.dom.edgePoint hi, es]), hplane i hi s s0.le s1]
    ring) (fun k hk hb => by
    have hx := x2 k hk fun q => hb ((hr.boundary k hk).mpr q)
    rw [rhs_zero hmf.manifold hmf.proper hZc, smul_zero, ← op_bilaplace hr] at hx
    have q1 := congrArg P3.x hx
    have q2 := congrArg P3.y hx
    have q3 := congrArg P3.z hx
    rw [op_x] at q1
    rw [op_y] at q2
    rw [op_z] at q3
    have e1 : ∀ j, lap (allTris n res) V (fun k => P3.dot u (X k) + -h) j = u.x * lap (allTris n res) V (fun k => (X k).x) j +
        u.y * lap (allTris n res) V (fun k => (X k).y) j + u.z * lap (allTris n res) V (fun k => (X k).z) j := by
      intro j
      rw [lap_add, lap_const, add_zero]
      unfold P3.dot
      rw [lap_add, lap_add, lap_smul, lap_smul, lap_smul]
    have e2 : (fun j => weight (allTris n res) V (Biharmonic.rim n res) false j * lap (allTris n res) V (fun k => P3.dot u (X k) + -h) j) = fun j =>
        u.x * (weight (allTris n res) V (Biharmonic.rim n res) false j * lap (allTris n res) V (fun k => (X k).x) j) +
        u.y * (weight (allTris n res) V (Biharmonic.rim n res) false j * lap (allTris n res) V (fun k => (X k).y) j) +
        u.z * (weight (allTris n res) V (Biharmonic.rim n res) false j * lap (allTris n res) V (fun k => (X k).z) j) := by
      funext j
      rw [e1]
      ring
    rw [e2, lap_add, lap_add, lap_smul, lap_smul, lap_smul, q1, q2, q3]
    simp)
  intro x hx
  obtain ⟨k, hk, rfl⟩ := List.mem_map.mp hx
  have := key k (List.mem_range.mp hk)
  linarith

/-- C75: when the boundary curves are the images of the sides of the domain under an affine map (with two independent directions), and the normal vectors of the ribbons are all the
same, then `eval(resolution)` succeeds, and the result is the image of the domain mesh under the affine map. -/
theorem C75_affine (hε : 0 < ε) (hε1 : ε ≤ 1) (hs : Harmonic.Solver solve) (hB : Current ε n c ν v B) (hR : 1 ≤ res) {m o p q : P3 ℝ} (hpq : P3.cross p q ≠ 0)
    (hν : ∀ i < n, ∀ s : ℝ, 0 < s → s ≤ 1 → ν i s = m)
    (haff : ∀ i < n, ∀ s : ℝ, 0 ≤ s → s ≤ 1 → ∀ x y, B.dom.dom.edgePoint i s = .ok ⟨x, y⟩ → (c i).pt s = o + x • p + y • q) :
    ∃ N ts uv B', meshTopology n res = .ok (N, ts) ∧ B.dom.dom.parametersImpl res = .ok (tab N uv) ∧
      B.evalMesh ε solve res = .ok ((tab N fun k => o + (uv k).x • p + (uv k).y • q, ts), B') := by
  have hn := hB.dom.hn
  have hl : Harmonic.ClosedLoop n c := by
    refine ⟨hn, fun j hj => ?_⟩
    change (c j).pt 1 = (c (nextIx n j)).pt 0
    have hj' : nextIx n j < n := nextIx_lt (by omega)
    have e : sidePoint n v (nextIx n j) 0 = sidePoint n v j 1 := by rw [sidePoint_zero hj', prevIx_nextIx hj]
    exact (haff j hj 1 (by norm_num) le_rfl (sidePoint n v j 1).x (sidePoint n v j 1).y (hB.dom.edgePoint hj 1)).trans
      (haff _ hj' 0 le_rfl (by norm_num) _ _ (by rw [hB.dom.edgePoint hj', e])).symm
  obtain ⟨uv, V, Z, hmf, hV, hZ, lV, lZ, hiff, hfin⟩ := evalMesh_facts hε hε1 hs hl hB hR rfl rfl
  have hr := hmf.rim hn hR
  have hZc := normals_const hB.dom hmf hZ lZ hν
  set Q : ℕ → P3 ℝ := fun k => o + (uv k).x • p + (uv k).y • q with hQ
  -- the first stage
  have hbd : ∀ k < meshSize n res, IsBoundaryVertex (allTris n res) k → ∃ i < n, ∃ s : ℝ, 0 ≤ s ∧ s ≤ 1 ∧ B.dom.dom.edgePoint i s = .ok (uv k) ∧ (c i).pt s = Q k := by
    intro k hk hb
    obtain ⟨i, hi, s, s0, s1, es⟩ := hmf.side k hk ((hmf.edge k hk).mpr hb)
    have e : B.dom.dom.edgePoint i s = .ok (uv k) := by rw [hB.dom.edgePoint hi, es]
    exact ⟨i, hi, s, s0.le, s1, e, haff i hi s s0.le s1 _ _ e⟩
  have hVQ : ∀ k < meshSize n res, V k = Q k := by
    intro k hk
    refine (lV.eq_of_zero hmf.nondegenerate' (W := Q) (fun j hj hb => ?_) (willmore_zero fun j _ hb => ?_) k hk).symm
    · obtain ⟨i, hi, s, s0, s1, e, e2⟩ := hbd j hj hb
      rw [hV j hj i hi s s0 s1 e, e2]
    · exact lap3_affine hmf.manifold hmf.pos o p q hb
  have hVn : Nondegenerate (allTris n res) V := by
    intro t ht
    obtain ⟨h1, h2, h3, _⟩ := hmf.proper t ht
    rw [hVQ _ h1, hVQ _ h2, hVQ _ h3]
    unfold area3
    have : P3.cross (Q t.2.1 - Q t.1) (Q t.2.2 - Q t.1) = area2 (uv t.1) (uv t.2.1) (uv t.2.2) • P3.cross p q := by
      rw [hQ]
      unfold area2
      ext <;> simp [P3.cross] <;> ring
    rw [this, Ne, P3.norm_eq_zero, smul_eq_zero]
    rintro (h | h)
    · exact (hmf.pos t ht).ne' h
    · exact hpq h
  -- the second stage
  obtain ⟨⟨M, B'⟩, he⟩ := hiff.mpr hVn
  obtain ⟨_, _, X, rfl, x1, x2⟩ := hfin _ _ he
  have hXQ : ∀ k < meshSize n res, X k = Q k := by
    refine hr.unique3 hVn (pr := false) (fun k hk => ?_) fun k hk hb => ?_
    · have hk' := hr.lt k hk
      obtain ⟨i, hi, s, s0, s1, e, e2⟩ := hbd k hk' ((hr.boundary k hk').mp hk)
      rw [x1 k hk' i hi s s0 s1 e, e2]
    · have hx := x2 k hk fun w => hb ((hr.boundary k hk).mpr w)
      rw [rhs_zero hmf.manifold hmf.proper hZc, smul_zero, ← op_bilaplace hr] at hx
      rw [hx]
      have lin : ∀ (w : P3 ℝ) (j : ℕ), ¬ IsBoundaryVertex (allTris n res) j → lap (allTris n res) V (fun k => P3.dot w (Q k)) j = 0 := by
        intro w j hj
        rw [hr.lap_congr_mesh hVQ]
        exact lap_linear hmf.manifold hmf.pos hpq w hj
      have zero : ∀ w : P3 ℝ, (0 : ℝ) = lap (allTris n res) V (fun j => weight (allTris n res) V (Biharmonic.rim n res) false j * lap (allTris n res) V (fun k => P3.dot w (Q k)) j) k := by
        intro w
        rw [hr.lap_congr (y := fun _ => 0), lap_const]
        intro j hj
        by_cases hjb : j ∈ Biharmonic.rim n res
        · rw [weight_rim _ hjb, zero_mul]
        · rw [lin w j fun h => hjb ((hr.boundary j hj).mpr h), mul_zero]
      refine P3.ext ?_ ?_ ?_
      · rw [op_x]; refine (zero ⟨1, 0, 0⟩).trans ?_; simp [P3.dot]
      · rw [op_y]; refine (zero ⟨0, 1, 0⟩).trans ?_; simp [P3.dot]
      · rw [op_z]; refine (zero ⟨0, 0, 1⟩).trans ?_; simp [P3.dot]
  refine ⟨_, _, uv, B', hmf.topo, hmf.params, ?_⟩
  rw [he, tab_congr hXQ]

/-! ### Examples -/

/-- The ribbons of the square, with a constant normal fence. -/
noncomputable def squareRibbon (j : ℕ) : Ribbon ℝ := { Ribbon.new .compatible (squareLoop j) with fence := some fun _ => ⟨0, 0, 1⟩ }

/-- A patch with these ribbons. -/
noncomputable def squarePatch : Biharmonic ℝ := ⟨⟨⟨0, 0, [], [], []⟩, []⟩, ⟨⟨0, 0, [], [], []⟩, [], [], []⟩, ⟨false, tab 4 squareRibbon, []⟩⟩

/-- The square patch can be updated; its normals are vertical. -/
theorem square_current : ∃ B ν, squarePatch.update (1 / 10000) = .ok B ∧ Current (1 / 10000) 4 squareLoop ν squareVertex B ∧
    ∀ i < 4, ∀ s : ℝ, 0 ≤ s → s ≤ 1 → ν i s = ⟨0, 0, 1⟩ := by
  obtain ⟨d, hd, hcd⟩ := square_angular
  obtain ⟨B, ν, e, h1, _, h3, _⟩ := C73_update (B := squarePatch) (by norm_num) square_good (r := squareRibbon) rfl (fun j _ => ⟨rfl, rfl⟩) hd hcd
  exact ⟨B, ν, e, h1, fun i hi s s0 s1 => h3 i hi _ rfl s s0 s1⟩

/-- C73, C75: the square patch is evaluated: twice, with different resolutions; its second mesh is the square grid. -/
example : ∃ solve B B' B'' M N ts uv, Harmonic.Solver solve ∧ squarePatch.update (1 / 10000) = .ok B ∧ B.evalMesh (1 / 10000) solve 5 = .ok (M, B') ∧
    (∀ x ∈ M.1, x.z = 0) ∧ B'.dom.dom.parametersImpl 3 = .ok (tab N uv) ∧
    B'.evalMesh (1 / 10000) solve 3 = .ok ((tab N fun k => ⟨5 + 5 * (uv k).x, 5 + 5 * (uv k).y, 0⟩, ts), B'') := by
  obtain ⟨solve, hs⟩ := Harmonic.exists_solver
  obtain ⟨B, ν, e, hB, hν⟩ := square_current
  have hl : Harmonic.ClosedLoop 4 squareLoop := ⟨by norm_num, square_good.closed⟩
  have aff : ∀ B, Current (1 / 10000) 4 squareLoop ν squareVertex B → ∀ i < 4, ∀ s : ℝ, 0 ≤ s → s ≤ 1 → ∀ x y, B.dom.dom.edgePoint i s = .ok ⟨x, y⟩ →
      (squareLoop i).pt s = ⟨5, 5, 0⟩ + x • ⟨5, 0, 0⟩ + y • ⟨0, 5, 0⟩ := by
    intro B hB i hi s _ _ x y exy
    rw [hB.dom.edgePoint hi] at exy
    have e1 := congrArg P2.x (Except.ok.inj exy)
    have e2 := congrArg P2.y (Except.ok.inj exy)
    dsimp only at e1 e2
    rw [← e1, ← e2]
    interval_cases i <;> (ext <;> simp [squareLoop, segment, sidePoint, squareVertex] <;> ring)
  have hpq : P3.cross (⟨5, 0, 0⟩ : P3 ℝ) ⟨0, 5, 0⟩ ≠ 0 := by
    intro h
    have := congrArg P3.z h
    norm_num [P3.cross] at this
  obtain ⟨N, ts, uv, B', t1, t2, t3⟩ := C75_affine (res := 5) (by norm_num) (by norm_num) hs hB (by norm_num) hpq (fun i hi s s0 s1 => hν i hi s s0.le s1) (aff B hB)
  have hplane := C75_plane (res := 5) (u := ⟨0, 0, 1⟩) (h := 0) (by norm_num) (by norm_num) hs hl hB (by norm_num) (fun i hi s s0 s1 => hν i hi s s0.le s1) (by
    intro i hi s _ _
    interval_cases i <;> simp [squareLoop, segment, P3.dot]) t3
  obtain ⟨_, _, _, _, _, _, _, _, _, _, _, _, hfin⟩ := C73_biharmonic (res := 5) (by norm_num) (by norm_num) hs hl hB (by norm_num)
  obtain ⟨hB', _⟩ := hfin _ _ t3
  obtain ⟨N', ts', uv', B'', u1, u2, u3⟩ := C75_affine (res := 3) (by norm_num) (by norm_num) hs hB' (by norm_num) hpq (fun i hi s s0 s1 => hν i hi s s0.le s1) (aff B' hB')
  refine ⟨solve, B, B', B'', _, N', ts', uv', hs, e, t3, fun x hx => ?_, u2, ?_⟩
  · simpa [P3.dot] using hplane x hx
  · rw [u3]
    congr 3
    refine tab_congr fun k _ => ?_
    ext <;> simp <;> ring

end Biharmonic

end Transfinite
