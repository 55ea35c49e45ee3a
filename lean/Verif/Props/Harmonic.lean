import Verif.Lemmas.HarmonicState
import Verif.Lemmas.Elastic
import Verif.Props.Total
import Mathlib.LinearAlgebra.Matrix.NonsingularInverse
import Mathlib.LinearAlgebra.Matrix.ToLin

/-! # C60: harmonic patches -/

namespace Transfinite

open Domain Spec

namespace Harmonic

/-! ### Specification -/

/-- `solve` solves the regular systems. -/
def Solver (solve : ℕ → (ℕ → ℕ → ℝ) → (ℕ → P3 ℝ) → ℕ → P3 ℝ) : Prop :=
  ∀ m A b, (∀ x : ℕ → ℝ, (∀ r < m, ∑ c ∈ Finset.range m, A r c * x c = 0) → ∀ r < m, x r = 0) →
    ∀ r < m, ∑ c ∈ Finset.range m, A r c • solve m A b c = b r

/-- A closed loop of curves. -/
structure ClosedLoop (n : ℕ) (c : ℕ → Curve ℝ) : Prop where
  sides : 3 ≤ n
  closed : ∀ j < n, (c j).pt 1 = (c ((j + 1) % n)).pt 0

/-- A vertex of the mesh at the point `p` of the domain is on the boundary. -/
def OnSide (d : Domain ℝ) (n : ℕ) (p : P2 ℝ) : Prop := ∃ i < n, ∃ s : ℝ, 0 ≤ s ∧ s ≤ 1 ∧ d.edgePoint i s = .ok p

variable {n res : ℕ} {ε : ℝ} {c : ℕ → Curve ℝ} {solve : ℕ → (ℕ → ℕ → ℝ) → (ℕ → P3 ℝ) → ℕ → P3 ℝ} {calls : List (Call ℝ)} {H : Harmonic ℝ}

/-- C60: `update()` always succeeds for at least three curves, and then the domain has as many sides as there are curves. -/
theorem C60_update (hrun : Harmonic.new.run ε solve calls = .ok H) (hn : 3 ≤ H.curves.length) :
    ∃ H', H.step ε solve .update = .ok H' ∧ H'.curves = H.curves ∧ H'.dom.dom.n = H'.curves.length := by
  have hi := run_inv (new_inv ε) hrun
  have : ∃ H1, H.updateDomain = .ok H1 := by
    unfold updateDomain
    by_cases h0 : H.dom.dom.n = H.curves.length
    · unfold Domain.regularUpdate
      rw [if_pos h0, M_bind_ok, if_neg (by simp)]
      exact ⟨_, rfl⟩
    · obtain ⟨d, r, φ, _, e, hd, _⟩ := regular_normal hn H.dom.dom h0
      rw [e, M_bind_ok, if_pos rfl]
      exact ⟨_, rfl⟩
  obtain ⟨H1, e⟩ := this
  obtain ⟨_, h2, h3⟩ := updateDomain_inv e hi
  refine ⟨{ H1 with corners := H1.curves.length }, ?_, h3, by dsimp only; rw [h2, h3]⟩
  change H.update = _
  unfold update
  rw [e, M_bind_ok]

/-- C60: whatever has been done with a harmonic patch, if it has the curves `c` of a closed loop, and its domain is up to date, then `eval(resolution)` succeeds; its
triangles are those of the domain mesh; its vertices on the boundary of the domain are the points of the boundary curves (at the right parameters); and its Dirichlet energy
is smaller than that of any other mesh with the same boundary. -/
theorem C60_harmonic (hε : 0 < ε) (hε1 : ε ≤ 1) (hs : Solver solve) (hl : ClosedLoop n c) (hrun : Harmonic.new.run ε solve calls = .ok H)
    (hc : H.curves = tab n c) (hup : H.dom.dom.n = n) (hR : 1 ≤ res) :
    ∃ (N : ℕ) (ts : List Tri) (uv : ℕ → P2 ℝ) (P : ℕ → P3 ℝ) (H' : Harmonic ℝ), H.evalMesh ε solve res = .ok ((tab N P, ts), H') ∧
      meshTopology n res = .ok (N, ts) ∧ H.dom.dom.parametersImpl res = .ok (tab N uv) ∧
      (∀ k < N, ∀ i < n, ∀ s : ℝ, 0 ≤ s → s ≤ 1 → H.dom.dom.edgePoint i s = .ok (uv k) → P k = (c i).pt s) ∧
      ∀ Q : ℕ → P3 ℝ, (∀ k < N, OnSide H.dom.dom n (uv k) → Q k = P k) →
        dirichlet3 ts uv P ≤ dirichlet3 ts uv Q ∧ (dirichlet3 ts uv Q = dirichlet3 ts uv P → ∀ k < N, Q k = P k) := by
  classical
  have hn := hl.sides
  have hi := run_inv (new_inv ε) hrun
  obtain ⟨hf, vs, e1, e2⟩ := hi.dom.resolve_left (by omega)
  rw [hup] at e1
  obtain ⟨r, φ, _, hcd, hcen⟩ := regular_convex hn e1 e2
  set v := regularVertex n r φ with hv
  have hv' : H.dom.dom.vertices = tab H.dom.dom.n v := by rw [hup]; exact hcd.vertices_eq
  have hconv : StrictConvex H.dom.dom.n v := by rw [hup]; exact hcd.convex
  have hins : Inside H.dom.dom.n v H.dom.dom.center := by rw [hup]; exact hcd.inside
  obtain ⟨ts, uv, t1, t2, hpos⟩ := C05_positive_area (by omega) hv' hconv hins hR
  rw [hup] at t1 t2
  have t1' := t1
  rw [meshTopology_eq] at t1'
  obtain rfl := (Prod.mk.inj (Except.ok.inj t1')).2
  set N := meshSize n res with hN
  have hproper : ∀ t ∈ allTris n res, ProperTri N t := by
    obtain ⟨_, q, _, hp⟩ := C01_mesh_counts hn res
    rw [meshTopology_eq] at q
    obtain rfl := (Prod.mk.inj (Except.ok.inj q)).2
    exact hp
  have hedge : ∀ k < N, onEdge n res k = true → ∃ i < n, ∃ s : ℝ, 0 ≤ s ∧ s ≤ 1 ∧ uv k = sidePoint n v i s := by
    obtain ⟨ps, q, hq⟩ := C04_onEdge_is_edgePoint (d := H.dom.dom) (by omega) (by rw [hcd.length_eq, hup]) hR
    rw [t2] at q
    cases q
    intro k hk e
    obtain ⟨i, hi, s, s0, s1, es⟩ := hq k (by rw [length_tab]; exact hk) (by rw [hup]; exact e)
    rw [hup] at hi
    refine ⟨i, hi, s, s0, s1, ?_⟩
    rw [hcd.edgePoint hi] at es
    have := (Except.ok.inj es).symm
    rwa [show (tab N uv)[k]'(by rw [length_tab]; exact hk) = uv k by simp [tab]] at this
  have hinner : ∀ k < N, OnSide H.dom.dom n (uv k) → onEdge n res k = true := by
    rintro k hk ⟨i, hi, s, s0, s1, es⟩
    by_contra q
    obtain ⟨ps, q', hq⟩ := C04_not_onEdge_inside (d := H.dom.dom) (by omega) hv' hconv hins hR
    rw [t2] at q'
    cases q'
    have := hq k (by rw [length_tab]; exact hk) (by rw [hup]; simpa using q) i (by omega)
    rw [show (tab N uv)[k]'(by rw [length_tab]; exact hk) = uv k by simp [tab], hup] at this
    rw [hcd.edgePoint hi] at es
    rw [← Except.ok.inj es, leftOf_sidePoint] at this
    exact lt_irrefl _ this
  have houter : ∀ k < N, onEdge n res k = true → OnSide H.dom.dom n (uv k) := by
    intro k hk e
    obtain ⟨i, hi, s, s0, s1, es⟩ := hedge k hk e
    exact ⟨i, hi, s, s0, s1, by rw [hcd.edgePoint hi, es]⟩
  have hclosed : ∀ j < n, (c j).pt 1 = (c (nextIx n j)).pt 0 := hl.closed
  -- the parameters
  have hpar : ∃ dc, Domain.parameters (fun d => Domain.meshSize d.n) Domain.parametersImpl H.dom res = .ok (tab N uv, dc) := by
    unfold Domain.parameters
    split_ifs with hlen
    · rcases hi.cache with e | ⟨r', e⟩
      · rw [e] at hlen
        exfalso
        have : 0 < Domain.meshSize H.dom.dom.n res := by
          unfold Domain.meshSize
          split
          · apply Nat.div_pos _ (by omega); nlinarith
          · split <;> positivity
        simp at hlen
        omega
      · have := Patch.params_length (by omega) (by rw [hcd.length_eq, hup]) e
        rw [hlen] at this
        rw [← meshSize_inj (by omega) this, t2] at e
        rw [← Except.ok.inj e]
        exact ⟨_, rfl⟩
    · rw [t2, M_bind_ok]
      exact ⟨_, rfl⟩
  obtain ⟨dc, hdc⟩ := hpar
  -- the loop over the boundary
  have hch : ∀ k, ∃ q : ℕ × ℝ, k < N → onEdge n res k = true → q.1 < n ∧ 0 ≤ q.2 ∧ q.2 ≤ 1 ∧ uv k = sidePoint n v q.1 q.2 := by
    intro k
    by_cases h1 : k < N
    · by_cases h2 : onEdge n res k = true
      · obtain ⟨i, hi, s, s0, s1, es⟩ := hedge k h1 h2
        exact ⟨(i, s), fun _ _ => ⟨hi, s0, s1, es⟩⟩
      · exact ⟨(0, 0), fun _ h => absurd h h2⟩
    · exact ⟨(0, 0), fun h => absurd h h1⟩
  choose q hq using hch
  have hboth : ∀ k < N, onEdge n res k = true → ∀ i < n, ∀ s : ℝ, 0 ≤ s → s ≤ 1 → uv k = sidePoint n v i s → (c (q k).1).pt (q k).2 = (c i).pt s := by
    intro k hk e i hi' s s0 s1 es
    obtain ⟨a1, a2, a3, a4⟩ := hq k hk e
    have hb : ∀ i' < n, ∀ s' : ℝ, 0 ≤ s' → s' ≤ 1 → uv k = sidePoint n v i' s' →
        Param.barycentric ε .wachspress H.dom.dom (uv k) = .ok (tab n fun j => if j = i' then s' else if j = prevIx n i' then 1 - s' else 0) := by
      intro i' hi' s' s0 s1 es
      obtain ⟨p, w1, w2⟩ := C12_coordinates hε .wachspress hn hcd.n_eq hcd.vertices_eq hcd.convex hi' s0 s1
      rw [hcd.edgePoint hi', ← es] at w1
      cases w1
      exact w2 fun j _ => C12_wachspress_condition hε1 _ _
    have b1 := hb _ a1 _ a2 a3 a4
    rw [hb i hi' s s0 s1 es] at b1
    have c1 := boundaryPoint_eq hn hclosed hi' s0 s1
    rw [Except.ok.inj b1, boundaryPoint_eq hn hclosed a1 a2 a3] at c1
    exact Except.ok.inj c1
  obtain ⟨st, f1, f2, f3⟩ := fill_eq (res := res) hε hε1 hn hcd hf hclosed (N := N) (uv := uv) (side := fun k => (q k).1) (par := fun k => (q k).2) hq
  -- the system
  obtain ⟨L, l1, l2, l3⟩ := addTriangles_adds (m := N) (N := N + st.boundary) (by omega) hproper hpos (fun _ _ => (0 : ℝ))
  have hL : ∀ y x, quad N L y x = form (allTris n res) uv x y := by
    intro y x
    rw [l2]
    unfold quad
    simp
  obtain ⟨S, s1, s2⟩ := constraints_steps (N := N) (n := n) (res := res) (L := L) (pts := fun k => (c (q k).1).pt (q k).2) f3 (fun k l w => by rw [l3 k l w])
  have hsys : system n res (tab N uv) (allTris n res) st = .ok S := by
    unfold system
    rw [length_tab, l1, M_bind_ok, f2, s1]
  have hreg := fun x => s2.regular (x := x) hn hR hN hpos hL
  have hsol := hs (N + rank n res N) S.A S.b hreg
  set P := solve (N + rank n res N) S.A S.b with hP
  have hx := fun r hr => congrArg P3.x (hsol r hr)
  have hy := fun r hr => congrArg P3.y (hsol r hr)
  have hz := fun r hr => congrArg P3.z (hsol r hr)
  simp only [P3.sum_x, P3.sum_y, P3.sum_z, P3.smul_x, P3.smul_y, P3.smul_z] at hx hy hz
  obtain ⟨x1, x2⟩ := s2.solution hn hR hN hpos hL (x := fun k => (P k).x) (b := fun k => (S.b k).x) (fun i hi => by rw [s2.b0 i hi]; rfl) hx
  obtain ⟨y1, y2⟩ := s2.solution hn hR hN hpos hL (x := fun k => (P k).y) (b := fun k => (S.b k).y) (fun i hi => by rw [s2.b0 i hi]; rfl) hy
  obtain ⟨z1, z2⟩ := s2.solution hn hR hN hpos hL (x := fun k => (P k).z) (b := fun k => (S.b k).z) (fun i hi => by rw [s2.b0 i hi]; rfl) hz
  refine ⟨N, allTris n res, uv, P, { H with dom := dc, param := st.param }, ?_, t1, t2, ?_, ?_⟩
  · unfold evalMesh
    rw [hup, t1, M_bind_ok, hdc, M_bind_ok]
    dsimp only
    rw [length_tab, hc, f1, M_bind_ok, hsys, M_bind_ok, f2]
  · intro k hk i hi' s s0 s1 es
    have e := hinner k hk ⟨i, hi', s, s0, s1, es⟩
    rw [hcd.edgePoint hi'] at es
    have hb : S.b (N + rank n res k) = (c i).pt s := by
      rw [s2.b1 k hk e]
      exact hboth k hk e i hi' s s0 s1 (Except.ok.inj es).symm
    refine P3.ext ?_ ?_ ?_
    · rw [← hb]; exact x1 k hk e
    · rw [← hb]; exact y1 k hk e
    · rw [← hb]; exact z1 k hk e
  · intro Q hQ
    obtain ⟨x3, x4⟩ := x2 (fun k => (Q k).x) fun i hi e => by rw [hQ i hi (houter i hi e)]
    obtain ⟨y3, y4⟩ := y2 (fun k => (Q k).y) fun i hi e => by rw [hQ i hi (houter i hi e)]
    obtain ⟨z3, z4⟩ := z2 (fun k => (Q k).z) fun i hi e => by rw [hQ i hi (houter i hi e)]
    unfold dirichlet3
    refine ⟨by linarith, fun e k hk => P3.ext (x4 (by linarith) k hk) (y4 (by linarith) k hk) (z4 (by linarith) k hk)⟩

/-! ### Examples -/

/-- There are solvers. -/
theorem exists_solver : ∃ solve, Solver solve := by
  classical
  have key : ∀ m (A : ℕ → ℕ → ℝ) (b : ℕ → P3 ℝ), (∀ x : ℕ → ℝ, (∀ r < m, ∑ c ∈ Finset.range m, A r c * x c = 0) → ∀ r < m, x r = 0) →
      ∃ P : ℕ → P3 ℝ, ∀ r < m, ∑ c ∈ Finset.range m, A r c • P c = b r := by
    intro m A b h
    have hinj : Function.Injective (Matrix.mulVecLin (Matrix.of fun (i j : Fin m) => A i j)) := by
      rw [← LinearMap.ker_eq_bot, LinearMap.ker_eq_bot']
      intro y hy
      have := h (fun k => if hk : k < m then y ⟨k, hk⟩ else 0) (by
        intro r hr
        have := congrFun hy ⟨r, hr⟩
        rw [Matrix.mulVecLin_apply, Matrix.mulVec, dotProduct] at this
        rw [Finset.sum_range, ← show _ = (0 : ℝ) from this]
        exact Finset.sum_congr rfl fun j _ => by simp)
      funext j
      have := this j j.2
      rwa [dif_pos j.2] at this
    have hsurj := LinearMap.injective_iff_surjective.mp hinj
    have one : ∀ f : ℕ → ℝ, ∃ x : ℕ → ℝ, ∀ r < m, ∑ c ∈ Finset.range m, A r c * x c = f r := by
      intro f
      obtain ⟨y, hy⟩ := hsurj fun i => f i
      refine ⟨fun k => if hk : k < m then y ⟨k, hk⟩ else 0, fun r hr => ?_⟩
      have := congrFun hy ⟨r, hr⟩
      rw [Matrix.mulVecLin_apply, Matrix.mulVec, dotProduct] at this
      rw [Finset.sum_range, ← show _ = f r from this]
      exact Finset.sum_congr rfl fun j _ => by simp
    obtain ⟨x, hx⟩ := one fun k => (b k).x
    obtain ⟨y, hy⟩ := one fun k => (b k).y
    obtain ⟨z, hz⟩ := one fun k => (b k).z
    refine ⟨fun k => ⟨x k, y k, z k⟩, fun r hr => P3.ext ?_ ?_ ?_⟩
    · rw [P3.sum_x]; exact hx r hr
    · rw [P3.sum_y]; exact hy r hr
    · rw [P3.sum_z]; exact hz r hr
  refine ⟨fun m A b => if h : ∃ P : ℕ → P3 ℝ, ∀ r < m, ∑ c ∈ Finset.range m, A r c • P c = b r then h.choose else fun _ => 0, ?_⟩
  intro m A b h
  have h' := key m A b h
  dsimp only
  rw [dif_pos h']
  exact h'.choose_spec

/-- C60 for a square, evaluated twice with different resolutions. -/
example : ∃ solve, Solver solve ∧ ∃ H : Harmonic ℝ, Harmonic.new.run (1 / 10000) solve [.curves (tab 4 squareLoop), .update, .mesh 3] = .ok H ∧
    ∃ P ts uv H', H.evalMesh (1 / 10000) solve 2 = .ok ((tab 9 P, ts), H') ∧ H.dom.dom.parametersImpl 2 = .ok (tab 9 uv) ∧
      ∀ k < 9, ∀ i < 4, ∀ s : ℝ, 0 ≤ s → s ≤ 1 → H.dom.dom.edgePoint i s = .ok (uv k) → P k = (squareLoop i).pt s := by
  obtain ⟨solve, hs⟩ := exists_solver
  have hl : ClosedLoop 4 squareLoop := ⟨by norm_num, square_good.closed⟩
  refine ⟨solve, hs, ?_⟩
  obtain ⟨H1, e1, e2, e3⟩ := C60_update (ε := 1 / 10000) (solve := solve) (calls := [.curves (tab 4 squareLoop)]) (H := { (Harmonic.new : Harmonic ℝ) with curves := tab 4 squareLoop })
    rfl (by simp)
  have r1 : Harmonic.new.run (1 / 10000) solve [.curves (tab 4 squareLoop), .update] = .ok H1 := by
    change (Harmonic.step (1 / 10000) solve { (Harmonic.new : Harmonic ℝ) with curves := tab 4 squareLoop } .update >>= fun H => .ok H) = _
    rw [e1]
    rfl
  have hc1 : H1.curves = tab 4 squareLoop := e2
  have hn1 : H1.dom.dom.n = 4 := by rw [e3, hc1, length_tab]
  obtain ⟨N, ts, uv, P, H2, w, _⟩ := C60_harmonic (res := 3) (by norm_num) (by norm_num) hs hl r1 hc1 hn1 (by norm_num)
  have r2 : Harmonic.new.run (1 / 10000) solve [.curves (tab 4 squareLoop), .update, .mesh 3] = .ok H2 := by
    change (Harmonic.step (1 / 10000) solve { (Harmonic.new : Harmonic ℝ) with curves := tab 4 squareLoop } .update >>= fun H => (H.evalMesh (1 / 10000) solve 3 >>= fun r => .ok r.2) >>= fun H => .ok H) = _
    rw [e1, M_bind_ok, w]
    rfl
  obtain ⟨_, k1, k2⟩ := evalMesh_inv (run_inv (new_inv (1 / 10000)) r1) w
  obtain ⟨N', ts', uv', P', H3, w', w1, w2, w3, _⟩ := C60_harmonic (res := 2) (by norm_num) (by norm_num) hs hl r2 (k1.trans hc1) (by rw [k2]; exact hn1) (by norm_num)
  have hN : N' = 9 := by
    rw [meshTopology_eq] at w1
    rw [← (Prod.mk.inj (Except.ok.inj w1)).1]
    decide
  subst hN
  exact ⟨H2, r2, P', ts', uv', H3, w', w2, w3⟩

end Harmonic

end Transfinite
