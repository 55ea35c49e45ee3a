import Verif.Lemmas.BiharmonicFlux

/-! The boundary of biharmonic patches, and their state. -/

namespace Transfinite

open Domain Spec

namespace Biharmonic

theorem vertexBoundary_eq {n : ℕ} (hn : 3 ≤ n) {i : ℕ} (hi : i < n) {s : ℝ} (h0 : 0 < s) (h1 : s ≤ 1) :
    vertexBoundary n (tab n fun j => if j = i then s else if j = prevIx n i then 1 - s else 0) = .ok (i, s) := by
  have hp : prevIx n i < n := prevIx_lt (by omega)
  have hpne : prevIx n i ≠ i := by rw [prevIx_eq hi]; split_ifs <;> omega
  set f : ℕ → ℝ := fun j => if j = i then s else if j = prevIx n i then 1 - s else 0 with hf
  have fi : f i = s := if_pos rfl
  have fp : f (prevIx n i) = 1 - s := by rw [hf]; dsimp only; rw [if_neg hpne, if_pos rfl]
  have fo : ∀ j, j ≠ i → j ≠ prevIx n i → f j = 0 := fun j a b => by rw [hf]; dsimp only; rw [if_neg a, if_neg b]
  obtain ⟨j, hj, e, hmax⟩ := Harmonic.maxIndex_spec (n := n) (by omega) f
  unfold vertexBoundary
  rw [e, M_bind_ok, vget_tab _ (nextIx_lt (by omega)), M_bind_ok, vget_tab _ (prevIx_lt (by omega)), M_bind_ok]
  have hj' : j = i ∨ j = prevIx n i := by
    by_contra q
    rw [not_or] at q
    have a := hmax i hi
    have b := hmax _ hp
    rw [fo j q.1 q.2, fi] at a
    rw [fo j q.1 q.2, fp] at b
    linarith
  rcases hj' with rfl | rfl
  · have hnx : f (nextIx n j) = 0 := by
      refine fo _ (SPatch.nextIx_ne (by omega) hi) ?_
      rw [nextIx_eq hi, prevIx_eq hi]
      split_ifs <;> omega
    rw [hnx, fp]
    dsimp only
    rw [if_neg (by linarith), vget_tab _ hi, M_bind_ok, fi]
  · have hpp : f (prevIx n (prevIx n i)) = 0 := by
      have h2 : prevIx n (prevIx n i) ≠ prevIx n i := by rw [prevIx_eq hp]; split_ifs <;> omega
      refine fo _ ?_ h2
      rw [prevIx_eq hp, prevIx_eq hi]
      split_ifs <;> omega
    rw [nextIx_prevIx hi, fi, hpp]
    dsimp only
    rw [if_pos h0, vget_tab _ hi, M_bind_ok, fi]

theorem forEach_inv {α σ : Type} {f : α → σ → M σ} (I : List α → σ → Prop) {l : List α} {s : σ} (h0 : I [] s)
    (hstep : ∀ pre a s, a ∈ l → I pre s → ∃ s', f a s = .ok s' ∧ I (pre ++ [a]) s') : ∃ s', forEach f l s = .ok s' ∧ I l s' := by
  have key : ∀ (r pre : List α) (s : σ), (∀ a ∈ r, a ∈ l) → I pre s → ∃ s', forEach f r s = .ok s' ∧ I (pre ++ r) s' := by
    intro r
    induction r with
    | nil => intro pre s _ h; exact ⟨s, rfl, by simpa using h⟩
    | cons a r ih =>
      intro pre s hr h
      obtain ⟨s1, e1, h1⟩ := hstep pre a s (hr a (by simp)) h
      obtain ⟨s2, e2, h2⟩ := ih (pre ++ [a]) s1 (fun b hb => hr b (List.mem_cons_of_mem _ hb)) h1
      refine ⟨s2, ?_, by simpa using h2⟩
      unfold forEach
      rw [e1, M_bind_ok, e2]
  simpa using key l [] s (fun _ h => h) h0

/-- The ribbons have the curves `c` and the normals `ν`. -/
def HasSides (ε : ℝ) (n : ℕ) (c : ℕ → Curve ℝ) (ν : ℕ → ℝ → P3 ℝ) (rs : List (Ribbon ℝ)) : Prop :=
  ∃ r : ℕ → Ribbon ℝ, rs = tab n r ∧ ∀ j < n, (r j).curve = c j ∧ ∀ s : ℝ, 0 ≤ s → s ≤ 1 → (r j).normal ε s = .ok (ν j s)

variable {n res : ℕ} {ε : ℝ} {d : Domain ℝ} {c : ℕ → Curve ℝ} {ν : ℕ → ℝ → P3 ℝ} {rs : List (Ribbon ℝ)}

theorem fill_eq (hε : 0 < ε) (hε1 : ε ≤ 1) (hn : 3 ≤ n) {v : ℕ → P2 ℝ} (hcd : ConvexDomain d n v) {o : Param.Obj ℝ} (hf : Param.Fresh ε (.bary .wachspress) d o)
    (hrs : HasSides ε n c ν rs) {N : ℕ} {bd : List ℕ} (hbd : ∀ k ∈ bd, k < N) {uv : ℕ → P2 ℝ} {side : ℕ → ℕ} {par : ℕ → ℝ}
    (hside : ∀ k ∈ bd, side k < n ∧ 0 < par k ∧ par k ≤ 1 ∧ uv k = sidePoint n v (side k) (par k)) :
    ∃ f g o', forEach (fillStep ε rs (tab N uv)) bd ⟨List.replicate N 0, List.replicate N 0, o⟩ = .ok ⟨tab N f, tab N g, o'⟩ ∧
      Param.Fresh ε (.bary .wachspress) d o' ∧ ∀ k ∈ bd, f k = (c (side k)).pt (par k) ∧ g k = ν (side k) (par k) := by
  obtain ⟨r, rfl, hr⟩ := hrs
  obtain ⟨st, e, h1, f, g, h2, h3, h4⟩ := forEach_inv (l := bd) (s := (⟨List.replicate N 0, List.replicate N 0, o⟩ : Fill ℝ)) (f := fillStep ε (tab n r) (tab N uv))
    (fun pre st => Param.Fresh ε (.bary .wachspress) d st.param ∧ ∃ f g : ℕ → P3 ℝ, st.points = tab N f ∧ st.normals = tab N g ∧
      ∀ k ∈ pre, f k = (c (side k)).pt (par k) ∧ g k = ν (side k) (par k))
    ⟨hf, fun _ => 0, fun _ => 0, by rw [replicate_eq_tab], by rw [replicate_eq_tab], by simp⟩ (by
      rintro pre k st hk ⟨h1, f, g, h2, h3, h4⟩
      have hkN := hbd k hk
      obtain ⟨s1, s2, s3, s4⟩ := hside k hk
      have hb : Param.barycentric ε .wachspress d (uv k) = .ok (tab n fun j => if j = side k then par k else if j = prevIx n (side k) then 1 - par k else 0) := by
        obtain ⟨q, e1, e2⟩ := C12_coordinates hε .wachspress hn hcd.n_eq hcd.vertices_eq hcd.convex s1 s2.le s3
        rw [hcd.edgePoint s1, ← s4] at e1
        cases e1
        exact e2 fun j _ => C12_wachspress_condition hε1 _ _
      obtain ⟨o', e1⟩ := h1.bary_of_raw hb
      obtain ⟨r1, r2⟩ := hr _ s1
      unfold fillStep
      rw [vget_tab _ hkN, M_bind_ok, e1, M_bind_ok]
      dsimp only
      rw [length_tab, vertexBoundary_eq hn s1 s2 s3, M_bind_ok]
      dsimp only
      rw [vget_tab _ s1, M_bind_ok, h2, vset_tab _ _ hkN, M_bind_ok, r2 _ s2.le s3, M_bind_ok, h3, vset_tab _ _ hkN, M_bind_ok]
      refine ⟨_, rfl, h1.bary e1, _, _, rfl, rfl, fun l hl => ?_⟩
      rw [Function.update_apply, Function.update_apply]
      by_cases hlk : l = k
      · rw [if_pos hlk, if_pos hlk, hlk, r1]
        exact ⟨rfl, rfl⟩
      · rw [if_neg hlk, if_neg hlk]
        refine h4 l ?_
        rcases List.mem_append.mp hl with q | q
        · exact q
        · exact absurd (List.mem_singleton.mp q) hlk)
  refine ⟨f, g, st.param, ?_, h1, h4⟩
  rw [e, ← h2, ← h3]

/-! ### The mesh of the domain -/

/-- The vertices of the mesh on the boundary. -/
def rim (n res : ℕ) : List ℕ := (List.range (meshSize n res)).filter (onEdge n res)

theorem mem_rim {k : ℕ} : k ∈ rim n res ↔ k < meshSize n res ∧ onEdge n res k = true := by
  unfold rim
  rw [List.mem_filter, List.mem_range]

theorem area3_from2D (a b c : P2 ℝ) : area3 (Harmonic.from2D a) (Harmonic.from2D b) (Harmonic.from2D c) = |area2 a b c| := by
  unfold area3 P3.norm
  have : P3.dot (P3.cross (Harmonic.from2D b - Harmonic.from2D a) (Harmonic.from2D c - Harmonic.from2D a))
      (P3.cross (Harmonic.from2D b - Harmonic.from2D a) (Harmonic.from2D c - Harmonic.from2D a)) = area2 a b c ^ 2 := by
    unfold Harmonic.from2D P3.dot P3.cross area2
    simp only [P3.sub_x, P3.sub_y, P3.sub_z]
    ring
  rw [this]
  exact Real.sqrt_sq_eq_abs _

structure MeshFacts (d : Domain ℝ) (n res : ℕ) (v uv : ℕ → P2 ℝ) : Prop where
  topo : meshTopology n res = .ok (meshSize n res, allTris n res)
  params : d.parametersImpl res = .ok (tab (meshSize n res) uv)
  pos : ∀ t ∈ allTris n res, 0 < area2 (uv t.1) (uv t.2.1) (uv t.2.2)
  manifold : OrientedManifold (allTris n res)
  proper : ∀ t ∈ allTris n res, ProperTri (meshSize n res) t
  edge : ∀ k < meshSize n res, onEdge n res k = true ↔ IsBoundaryVertex (allTris n res) k
  side : ∀ k < meshSize n res, onEdge n res k = true → ∃ i < n, ∃ s : ℝ, 0 < s ∧ s ≤ 1 ∧ uv k = sidePoint n v i s
  inner : ∀ k < meshSize n res, ∀ i < n, ∀ s : ℝ, uv k = sidePoint n v i s → onEdge n res k = true

theorem sidePoint_zero {v : ℕ → P2 ℝ} {i : ℕ} (hi : i < n) : sidePoint n v i 0 = sidePoint n v (prevIx n i) 1 := by
  unfold sidePoint
  ext <;> simp <;> rfl

theorem mesh_facts {v : ℕ → P2 ℝ} (hcd : ConvexDomain d n v) (hR : 1 ≤ res) : ∃ uv, MeshFacts d n res v uv := by
  have hn := hcd.hn
  have hdn := hcd.n_eq
  have hv' : d.vertices = tab d.n v := by rw [hdn]; exact hcd.vertices_eq
  have hconv : StrictConvex d.n v := by rw [hdn]; exact hcd.convex
  have hins : Inside d.n v d.center := by rw [hdn]; exact hcd.inside
  obtain ⟨ts, uv, t1, t2, hpos⟩ := C05_positive_area (by omega) hv' hconv hins hR
  rw [hdn] at t1 t2
  have t1' := t1
  rw [meshTopology_eq] at t1'
  obtain rfl := (Prod.mk.inj (Except.ok.inj t1')).2
  obtain ⟨_, q1, q2⟩ := C02_oriented_manifold hn res
  obtain ⟨_, q3, _, q4⟩ := C01_mesh_counts hn res
  obtain ⟨_, q5, q6⟩ := C03_onEdge_iff hn hR
  rw [t1] at q1 q3 q5
  obtain rfl := (Prod.mk.inj (Except.ok.inj q1)).2
  obtain rfl := (Prod.mk.inj (Except.ok.inj q3)).2
  obtain rfl := (Prod.mk.inj (Except.ok.inj q5)).2
  have get : ∀ k (hk : k < meshSize n res), (tab (meshSize n res) uv)[k]'(by rw [length_tab]; exact hk) = uv k := fun k hk => by simp [tab]
  refine ⟨uv, t1, t2, hpos, q2, q4, q6, ?_, ?_⟩
  · intro k hk e
    obtain ⟨ps, q, hq⟩ := C04_onEdge_is_edgePoint (d := d) (by omega) (by rw [hcd.length_eq, hdn]) hR
    rw [t2] at q
    cases q
    obtain ⟨i, hi, s, s0, s1, es⟩ := hq k (by rw [length_tab]; exact hk) (by rw [hdn]; exact e)
    rw [hdn] at hi
    rw [hcd.edgePoint hi, get k hk] at es
    have es := (Except.ok.inj es).symm
    rcases s0.lt_or_eq with h | h
    · exact ⟨i, hi, s, h, s1, es⟩
    · rw [← h, sidePoint_zero hi] at es
      exact ⟨_, prevIx_lt (by omega), 1, by norm_num, le_rfl, es⟩
  · intro k hk i hi s es
    by_contra q
    obtain ⟨ps, q', hq⟩ := C04_not_onEdge_inside (d := d) (by omega) hv' hconv hins hR
    rw [t2] at q'
    cases q'
    have := hq k (by rw [length_tab]; exact hk) (by rw [hdn]; simpa using q) i (by omega)
    rw [get k hk, hdn, es, leftOf_sidePoint] at this
    exact lt_irrefl _ this

theorem boundary_lt {N : ℕ} {ts : List Tri} (hp : ∀ t ∈ ts, ProperTri N t) {i : ℕ} (h : IsBoundaryVertex ts i) : i < N := by
  obtain ⟨e, he, _, q⟩ := h
  unfold meshEdges at he
  obtain ⟨u, hu, he⟩ := List.mem_flatMap.mp he
  obtain ⟨a1, a2, a3, _⟩ := hp u hu
  simp only [dirEdges, List.mem_cons, List.not_mem_nil, or_false] at he
  rcases he with rfl | rfl | rfl <;> rcases q with rfl | rfl <;> assumption

theorem MeshFacts.rim (hn : 3 ≤ n) (hR : 1 ≤ res) {v uv : ℕ → P2 ℝ} (h : MeshFacts d n res v uv) : Rim (meshSize n res) (allTris n res) (rim n res) where
  proper := h.proper
  used := fun k hk => vertex_used hn hR hk
  nodup := List.Nodup.filter _ List.nodup_range
  lt := fun i hi => (mem_rim.mp hi).1
  boundary := fun i hi => by rw [mem_rim, ← h.edge i hi]; exact ⟨fun q => q.2, fun q => ⟨hi, q⟩⟩
  rigid := by
    intro x hc hb k hk
    by_contra hne
    obtain ⟨t, ht, hkt⟩ := vertex_used hn hR hk
    have hvert : ∀ i, x i ≠ 0 → ¬ IsBoundaryVertex (allTris n res) i := by
      intro i hi hbv
      have hlt := boundary_lt h.proper hbv
      exact hi (hb i (mem_rim.mpr ⟨hlt, (h.edge i hlt).mpr hbv⟩))
    refine no_closed h.manifold h.pos (p := fun i => x i ≠ 0) (fun u hu => ?_) hvert ht ?_
    · obtain ⟨a, b⟩ := hc u hu
      rw [a, b]
      exact ⟨Iff.rfl, Iff.rfl⟩
    · obtain ⟨a, b⟩ := hc t ht
      rcases hkt with rfl | rfl | rfl
      · exact hne
      · rwa [a] at hne
      · rwa [b] at hne

theorem MeshFacts.nondegenerate {v uv : ℕ → P2 ℝ} (h : MeshFacts d n res v uv) : Nondegenerate (allTris n res) (fun k => Harmonic.from2D (uv k)) := by
  intro t ht
  rw [area3_from2D]
  exact (abs_pos.mpr (h.pos t ht).ne').ne'

theorem MeshFacts.onEdge {v uv : ℕ → P2 ℝ} (h : MeshFacts d n res v uv) : ∀ k, IsBoundaryVertex (allTris n res) k → Domain.onEdge n res k = true :=
  fun k hk => (h.edge k (boundary_lt h.proper hk)).mpr hk

end Biharmonic

end Transfinite
