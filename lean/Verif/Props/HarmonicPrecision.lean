import Verif.Props.Harmonic

/-! # C70: harmonic patches of flat loops -/

namespace Transfinite

open Domain Spec

namespace Harmonic

section form

variable {ts : List Tri} {uv : ℕ → P2 ℝ}

/-- The sum of an antisymmetric function over the edges is zero, when it is zero on the boundary edges. -/
theorem sum_edges (hm : OrientedManifold ts) {g : ℕ × ℕ → ℝ} (hg : ∀ e, g e.swap = - g e) (hb : ∀ e ∈ meshEdges ts, e.swap ∉ meshEdges ts → g e = 0) :
    ((meshEdges ts).map g).sum = 0 := by
  classical
  set E := (meshEdges ts).toFinset with hE
  have e1 : ((meshEdges ts).map g).sum = ∑ e ∈ E, g e := by rw [hE, List.sum_toFinset g hm]
  have e2 : ∑ e ∈ E, g e = ∑ e ∈ E.filter (fun e => e.swap ∈ E), g e := by
    symm
    refine Finset.sum_subset (Finset.filter_subset _ _) fun e he hne => ?_
    rw [Finset.mem_filter, not_and] at hne
    refine hb e (List.mem_toFinset.mp he) fun q => hne he (List.mem_toFinset.mpr q)
  have e3 : ∑ e ∈ E.filter (fun e => e.swap ∈ E), g e = ∑ e ∈ E.filter (fun e => e.swap ∈ E), g e.swap := by
    refine Finset.sum_nbij' Prod.swap Prod.swap ?_ ?_ (fun e _ => Prod.swap_swap e) (fun e _ => Prod.swap_swap e) (fun e _ => by rw [Prod.swap_swap])
    all_goals
      intro e he
      rw [Finset.mem_filter] at he ⊢
      rw [Prod.swap_swap]
      exact ⟨he.2, he.1⟩
  simp only [hg, Finset.sum_neg_distrib] at e3
  rw [e1, e2]
  linarith

theorem triForm_linear {a b c : P2 ℝ} (h : area2 a b c ≠ 0) (o p q y1 y2 y3 : ℝ) :
    triForm a b c (o + p * a.x + q * a.y) (o + p * b.x + q * b.y) (o + p * c.x + q * c.y) y1 y2 y3 =
      (y1 + y2) / 2 * (p * (b.y - a.y) - q * (b.x - a.x)) + (y2 + y3) / 2 * (p * (c.y - b.y) - q * (c.x - b.x)) +
        (y3 + y1) / 2 * (p * (a.y - c.y) - q * (a.x - c.x)) := by
  unfold triForm halfCot
  have e1 : area2 c a b = area2 a b c := by unfold area2; ring
  have e2 : area2 b c a = area2 a b c := by unfold area2; ring
  rw [e1, e2]
  generalize hA : area2 a b c = A at h
  unfold P2.dot
  simp only [P2.sub_x, P2.sub_y]
  field_simp
  rw [← hA]
  unfold area2
  ring

/-- A linear function is orthogonal to the functions that vanish on the boundary. -/
theorem form_linear (hm : OrientedManifold ts) (hpos : ∀ t ∈ ts, 0 < area2 (uv t.1) (uv t.2.1) (uv t.2.2)) {y : ℕ → ℝ}
    (hb : ∀ k, IsBoundaryVertex ts k → y k = 0) (o p q : ℝ) : form ts uv (fun k => o + p * (uv k).x + q * (uv k).y) y = 0 := by
  set g : ℕ × ℕ → ℝ := fun e => (y e.1 + y e.2) / 2 * (p * ((uv e.2).y - (uv e.1).y) - q * ((uv e.2).x - (uv e.1).x)) with hg
  have h1 : form ts uv (fun k => o + p * (uv k).x + q * (uv k).y) y = ((meshEdges ts).map g).sum := by
    clear hm hb
    unfold form meshEdges
    induction ts with
    | nil => rfl
    | cons t ts ih =>
      rw [List.map_cons, List.sum_cons, List.flatMap_cons, List.map_append, List.sum_append, ih fun u hu => hpos u (List.mem_cons_of_mem _ hu),
        triForm_linear (hpos t (by simp)).ne']
      congr 1
      simp only [dirEdges, hg, List.map_cons, List.map_nil, List.sum_cons, List.sum_nil]
      ring
  rw [h1]
  refine sum_edges hm (fun e => ?_) fun e he hs => ?_
  · rw [hg]
    dsimp only [Prod.fst_swap, Prod.snd_swap]
    ring
  · rw [hg]
    dsimp only
    rw [hb e.1 ⟨e, he, hs, Or.inl rfl⟩, hb e.2 ⟨e, he, hs, Or.inr rfl⟩]
    ring

theorem form_combine (P : ℕ → P3 ℝ) (u : P3 ℝ) (h : ℝ) (w : ℕ → ℝ) (hw : ∀ k, w k = P3.dot u (P k) - h) :
    form ts uv (fun k => (P k - w k • u).x) (fun k => (P k - w k • u).x) + form ts uv (fun k => (P k - w k • u).y) (fun k => (P k - w k • u).y) +
      form ts uv (fun k => (P k - w k • u).z) (fun k => (P k - w k • u).z) =
    form ts uv (fun k => (P k).x) (fun k => (P k).x) + form ts uv (fun k => (P k).y) (fun k => (P k).y) + form ts uv (fun k => (P k).z) (fun k => (P k).z) -
      (2 - P3.dot u u) * form ts uv w w := by
  unfold form
  induction ts with
  | nil => simp
  | cons t ts ih =>
    simp only [List.map_cons, List.sum_cons]
    have : ∀ a b c d e f g : ℝ, a + b + c = d → e = f → a + b + c + e = d + f := fun a b c d e f g h1 h2 => by rw [h1, h2]
    have key : ∀ A1 A2 A3 A4 : ℝ, A1 + A2 + A3 = A4 → ∀ s1 s2 s3 s4 r1 r2 r3 r4 m : ℝ, s1 + s2 + s3 = r1 + r2 + r3 - m * r4 → A4 = s4 →
        (A1 + s1) + (A2 + s2) + (A3 + s3) = s4 + (r1 + r2 + r3 - m * r4) := by
      intros; linarith
    rw [key _ _ _ _ rfl _ _ _ _ _ _ _ _ _ ih rfl]
    have e : ∀ a b c : P2 ℝ, ∀ i j k : ℕ, triForm a b c ((P i - w i • u).x) ((P j - w j • u).x) ((P k - w k • u).x) ((P i - w i • u).x) ((P j - w j • u).x) ((P k - w k • u).x) +
        triForm a b c ((P i - w i • u).y) ((P j - w j • u).y) ((P k - w k • u).y) ((P i - w i • u).y) ((P j - w j • u).y) ((P k - w k • u).y) +
        triForm a b c ((P i - w i • u).z) ((P j - w j • u).z) ((P k - w k • u).z) ((P i - w i • u).z) ((P j - w j • u).z) ((P k - w k • u).z) =
        triForm a b c (P i).x (P j).x (P k).x (P i).x (P j).x (P k).x + triForm a b c (P i).y (P j).y (P k).y (P i).y (P j).y (P k).y +
        triForm a b c (P i).z (P j).z (P k).z (P i).z (P j).z (P k).z - (2 - P3.dot u u) * triForm a b c (w i) (w j) (w k) (w i) (w j) (w k) := by
      intro a b c i j k
      unfold triForm
      simp only [hw, P3.sub_x, P3.sub_y, P3.sub_z, P3.smul_x, P3.smul_y, P3.smul_z, P3.dot]
      ring
    rw [e]
    ring

end form

variable {n res : ℕ} {ε : ℝ} {c : ℕ → Curve ℝ} {solve : ℕ → (ℕ → ℕ → ℝ) → (ℕ → P3 ℝ) → ℕ → P3 ℝ} {calls : List (Call ℝ)} {H : Harmonic ℝ}

/-- The facts about the mesh in `C60_harmonic` that are used here. -/
theorem mesh_facts (hn : 3 ≤ n) (hε : 0 < ε) (hrun : Harmonic.new.run ε solve calls = .ok H) (hup : H.dom.dom.n = n) (hR : 1 ≤ res) {N : ℕ} {ts : List Tri} {uv : ℕ → P2 ℝ}
    (h1 : meshTopology n res = .ok (N, ts)) (h2 : H.dom.dom.parametersImpl res = .ok (tab N uv)) :
    OrientedManifold ts ∧ (∀ t ∈ ts, ProperTri N t) ∧ (∀ t ∈ ts, 0 < area2 (uv t.1) (uv t.2.1) (uv t.2.2)) ∧
      ∀ k < N, IsBoundaryVertex ts k → OnSide H.dom.dom n (uv k) := by
  have hi := run_inv (new_inv ε) hrun
  obtain ⟨hf, vs, e1, e2⟩ := hi.dom.resolve_left (by omega)
  rw [hup] at e1
  obtain ⟨r, φ, _, hcd, hcen⟩ := regular_convex hn e1 e2
  have hv' : H.dom.dom.vertices = tab H.dom.dom.n (regularVertex n r φ) := by rw [hup]; exact hcd.vertices_eq
  obtain ⟨ts', uv', t1, t2, hpos⟩ := C05_positive_area (d := H.dom.dom) (by omega) hv' (by rw [hup]; exact hcd.convex) (by rw [hup]; exact hcd.inside) hR
  rw [hup] at t1 t2
  rw [h1] at t1
  obtain ⟨rfl, rfl⟩ := Prod.mk.inj (Except.ok.inj t1)
  rw [h2] at t2
  have huv : ∀ k < meshSize n res, uv k = uv' k := fun k hk => tab_inj (Except.ok.inj t2) hk
  obtain ⟨_, q1, q2⟩ := C02_oriented_manifold hn res
  obtain ⟨_, q3, _, q4⟩ := C01_mesh_counts hn res
  obtain ⟨_, q5, q6⟩ := C03_onEdge_iff hn hR
  rw [h1] at q1 q3 q5
  obtain rfl := (Prod.mk.inj (Except.ok.inj q1)).2
  obtain rfl := (Prod.mk.inj (Except.ok.inj q3)).2
  obtain rfl := (Prod.mk.inj (Except.ok.inj q5)).2
  refine ⟨q2, q4, fun t ht => ?_, fun k hk hb => ?_⟩
  · obtain ⟨a1, a2, a3, _⟩ := q4 t ht
    rw [huv _ a1, huv _ a2, huv _ a3]
    exact hpos t ht
  · obtain ⟨ps, w1, w2⟩ := C04_onEdge_is_edgePoint (d := H.dom.dom) (by omega) (by rw [hcd.length_eq, hup]) hR
    rw [h2] at w1
    cases w1
    obtain ⟨i, hi, s, s0, s1, es⟩ := w2 k (by rw [length_tab]; exact hk) (by rw [hup]; exact (q6 k hk).mpr hb)
    rw [show (tab (meshSize n res) uv)[k]'(by rw [length_tab]; exact hk) = uv k by simp [tab]] at es
    exact ⟨i, by omega, s, s0, s1, es⟩

/-- C70: the harmonic patch of a loop in a plane is in the plane. -/
theorem C70_planar (hε : 0 < ε) (hε1 : ε ≤ 1) (hs : Solver solve) (hl : ClosedLoop n c) (hrun : Harmonic.new.run ε solve calls = .ok H)
    (hc : H.curves = tab n c) (hup : H.dom.dom.n = n) (hR : 1 ≤ res) {u : P3 ℝ} (hu : u ≠ 0) {h : ℝ}
    (hplane : ∀ i < n, ∀ s : ℝ, 0 ≤ s → s ≤ 1 → P3.dot u ((c i).pt s) = h) :
    ∃ pts ts H', H.evalMesh ε solve res = .ok ((pts, ts), H') ∧ ∀ p ∈ pts, P3.dot u p = h := by
  obtain ⟨N, ts, uv, P, H', e, h1, h2, h3, h4⟩ := C60_harmonic hε hε1 hs hl hrun hc hup hR
  obtain ⟨m1, m2, m3, m4⟩ := mesh_facts hl.sides hε hrun hup hR h1 h2
  refine ⟨_, ts, H', e, ?_⟩
  have huu : 0 < P3.dot u u := by
    by_contra q
    refine hu (P3.ext ?_ ?_ ?_)
    all_goals
      unfold P3.dot at q
      refine mul_self_eq_zero.mp ?_
      nlinarith [mul_self_nonneg u.x, mul_self_nonneg u.y, mul_self_nonneg u.z]
  set lam := (P3.dot u u).sqrt with hlam
  have hlam0 : 0 < lam := Real.sqrt_pos.mpr huu
  have hlam2 : lam * lam = P3.dot u u := Real.mul_self_sqrt huu.le
  set u' : P3 ℝ := lam⁻¹ • u with hu'
  have hdot : ∀ p, P3.dot u' p = lam⁻¹ * P3.dot u p := by
    intro p
    rw [hu']
    unfold P3.dot
    simp only [P3.smul_x, P3.smul_y, P3.smul_z]
    ring
  have hunit : P3.dot u' u' = 1 := by
    rw [hdot, hu']
    have : P3.dot u (lam⁻¹ • u) = lam⁻¹ * P3.dot u u := by
      unfold P3.dot
      simp only [P3.smul_x, P3.smul_y, P3.smul_z]
      ring
    rw [this, ← hlam2]
    field_simp
  set w : ℕ → ℝ := fun k => P3.dot u' (P k) - lam⁻¹ * h with hw
  obtain ⟨k1, k2⟩ := h4 (fun k => P k - w k • u') (by
    rintro k hk ⟨i, hi, s, s0, s1, es⟩
    have : w k = 0 := by
      rw [hw]
      dsimp only
      rw [hdot, h3 k hk i hi s s0 s1 es, hplane i hi s s0 s1, sub_self]
    rw [this]
    refine P3.ext ?_ ?_ ?_ <;> simp)
  have hE : dirichlet3 ts uv (fun k => P k - w k • u') = dirichlet3 ts uv P - dirichlet ts uv w := by
    unfold dirichlet3
    rw [dirichlet_form m3, dirichlet_form m3, dirichlet_form m3, dirichlet_form m3, dirichlet_form m3, dirichlet_form m3, dirichlet_form m3,
      form_combine P u' (lam⁻¹ * h) w (fun _ => rfl), hunit]
    ring
  have hw0 := dirichlet_nonneg m3 w
  have hz := k2 (by linarith)
  intro p hp
  obtain ⟨k, hk, rfl⟩ := List.mem_map.mp hp
  have hk := List.mem_range.mp hk
  have e1 := hz k hk
  have e2 : w k = 0 := by
    have e3 : P3.dot u' (P k - w k • u') = P3.dot u' (P k) := by rw [e1]
    have e4 : P3.dot u' (P k - w k • u') = P3.dot u' (P k) - w k * P3.dot u' u' := by
      unfold P3.dot
      simp only [P3.sub_x, P3.sub_y, P3.sub_z, P3.smul_x, P3.smul_y, P3.smul_z]
      ring
    rw [e4, hunit] at e3
    linarith
  rw [hw] at e2
  dsimp only at e2
  rw [hdot] at e2
  have : lam⁻¹ * (P3.dot u (P k) - h) = 0 := by linarith
  rcases mul_eq_zero.mp this with q | q
  · exact absurd q (inv_ne_zero hlam0.ne')
  · linarith

/-- C70: if the curves are the images of the sides of the domain by an affine map, then the harmonic patch is the image of the domain mesh. -/
theorem C70_affine (hε : 0 < ε) (hε1 : ε ≤ 1) (hs : Solver solve) (hl : ClosedLoop n c) (hrun : Harmonic.new.run ε solve calls = .ok H)
    (hc : H.curves = tab n c) (hup : H.dom.dom.n = n) (hR : 1 ≤ res) {o a b : P3 ℝ}
    (hside : ∀ i < n, ∀ s : ℝ, 0 ≤ s → s ≤ 1 → ∀ p, H.dom.dom.edgePoint i s = .ok p → (c i).pt s = o + p.x • a + p.y • b) :
    ∃ (N : ℕ) (ts : List Tri) (uv : ℕ → P2 ℝ) (H' : Harmonic ℝ), H.dom.dom.parametersImpl res = .ok (tab N uv) ∧
      H.evalMesh ε solve res = .ok ((tab N fun k => o + (uv k).x • a + (uv k).y • b, ts), H') := by
  obtain ⟨N, ts, uv, P, H', e, h1, h2, h3, h4⟩ := C60_harmonic hε hε1 hs hl hrun hc hup hR
  obtain ⟨m1, m2, m3, m4⟩ := mesh_facts hl.sides hε hrun hup hR h1 h2
  refine ⟨N, ts, uv, H', h2, ?_⟩
  rw [e]
  have hlt : ∀ k, IsBoundaryVertex ts k → k < N := by
    rintro k ⟨e, he, _, q⟩
    unfold meshEdges at he
    obtain ⟨t, ht, he⟩ := List.mem_flatMap.mp he
    obtain ⟨a1, a2, a3, _⟩ := m2 t ht
    simp only [dirEdges, List.mem_cons, List.not_mem_nil, or_false] at he
    rcases he with rfl | rfl | rfl <;> rcases q with rfl | rfl <;> assumption
  have hb : ∀ k < N, OnSide H.dom.dom n (uv k) → o + (uv k).x • a + (uv k).y • b = P k := by
    rintro k hk ⟨i, hi, s, s0, s1, es⟩
    rw [h3 k hk i hi s s0 s1 es, hside i hi s s0 s1 _ es]
  obtain ⟨k1, k2⟩ := h4 (fun k => o + (uv k).x • a + (uv k).y • b) hb
  have hz : ∀ k, IsBoundaryVertex ts k → P k - (o + (uv k).x • a + (uv k).y • b) = 0 := by
    intro k hk
    rw [hb k (hlt k hk) (m4 k (hlt k hk) hk)]
    refine P3.ext ?_ ?_ ?_ <;> simp
  have one : ∀ (x : ℕ → ℝ) (o p q : ℝ), (∀ k, IsBoundaryVertex ts k → x k - (o + p * (uv k).x + q * (uv k).y) = 0) →
      dirichlet ts uv (fun k => o + p * (uv k).x + q * (uv k).y) ≤ dirichlet ts uv x := by
    intro x o p q hx
    have e1 : x = fun k => (o + p * (uv k).x + q * (uv k).y) + (x k - (o + p * (uv k).x + q * (uv k).y)) := funext fun k => by ring
    have e2 := form_add (ts := ts) (uv := uv) (fun k => o + p * (uv k).x + q * (uv k).y) (fun k => x k - (o + p * (uv k).x + q * (uv k).y))
    rw [← e1, form_linear m1 m3 hx, ← dirichlet_form m3, ← dirichlet_form m3, ← dirichlet_form m3] at e2
    have := dirichlet_nonneg m3 (fun k => x k - (o + p * (uv k).x + q * (uv k).y))
    linarith
  have hle : dirichlet3 ts uv (fun k => o + (uv k).x • a + (uv k).y • b) ≤ dirichlet3 ts uv P := by
    have x1 := one (fun k => (P k).x) o.x a.x b.x fun k hk => by
      have := congrArg P3.x (hz k hk)
      simp only [P3.sub_x, P3.add_x, P3.smul_x, P3.zero_x] at this
      linarith
    have y1 := one (fun k => (P k).y) o.y a.y b.y fun k hk => by
      have := congrArg P3.y (hz k hk)
      simp only [P3.sub_y, P3.add_y, P3.smul_y, P3.zero_y] at this
      linarith
    have z1 := one (fun k => (P k).z) o.z a.z b.z fun k hk => by
      have := congrArg P3.z (hz k hk)
      simp only [P3.sub_z, P3.add_z, P3.smul_z, P3.zero_z] at this
      linarith
    unfold dirichlet3
    simp only [P3.add_x, P3.add_y, P3.add_z, P3.smul_x, P3.smul_y, P3.smul_z]
    simp only [mul_comm (a.x), mul_comm (a.y), mul_comm (a.z), mul_comm (b.x), mul_comm (b.y), mul_comm (b.z)] at x1 y1 z1
    linarith
  have := k2 (by linarith)
  rw [tab_congr fun k hk => (this k hk).symm]

/-! ### Examples -/

/-- A harmonic patch with given curves after `update`. -/
theorem run_update (solve : ℕ → (ℕ → ℕ → ℝ) → (ℕ → P3 ℝ) → ℕ → P3 ℝ) (hn : 3 ≤ n) (c : ℕ → Curve ℝ) :
    ∃ H : Harmonic ℝ, Harmonic.new.run ε solve [.curves (tab n c), .update] = .ok H ∧ H.curves = tab n c ∧ H.dom.dom.n = n := by
  obtain ⟨H, e1, e2, e3⟩ := C60_update (ε := ε) (solve := solve) (calls := [.curves (tab n c)]) (H := { (Harmonic.new : Harmonic ℝ) with curves := tab n c })
    rfl (by simpa using hn)
  refine ⟨H, ?_, e2, by rw [e3, e2]; simp⟩
  change (Harmonic.step ε solve { (Harmonic.new : Harmonic ℝ) with curves := tab n c } .update >>= fun H => .ok H) = _
  rw [e1]
  rfl

/-- `C70_planar` for a square. -/
example : ∃ solve, Solver solve ∧ ∃ H : Harmonic ℝ, Harmonic.new.run (1 / 10000) solve [.curves (tab 4 squareLoop), .update] = .ok H ∧
    ∃ pts ts H', H.evalMesh (1 / 10000) solve 5 = .ok ((pts, ts), H') ∧ ∀ p ∈ pts, p.z = 0 := by
  obtain ⟨solve, hs⟩ := exists_solver
  obtain ⟨H, r, hc, hn⟩ := run_update (ε := 1 / 10000) solve (show 3 ≤ 4 by norm_num) squareLoop
  obtain ⟨pts, ts, H', e, h⟩ := C70_planar (res := 5) (u := ⟨0, 0, 1⟩) (h := 0) (by norm_num) (by norm_num) hs ⟨by norm_num, square_good.closed⟩ r hc hn (by norm_num)
    (fun q => one_ne_zero (congrArg P3.z q)) (by
      intro i hi s _ _
      interval_cases i <;> norm_num [squareLoop, segment, P3.dot])
  exact ⟨solve, hs, H, r, pts, ts, H', e, fun p hp => by simpa [P3.dot] using h p hp⟩

/-- `C70_affine`: for any number of sides and any affine map there are such loops. -/
example (hn : 3 ≤ n) (o a b : P3 ℝ) : ∃ solve, Solver solve ∧ ∃ (c : ℕ → Curve ℝ) (H : Harmonic ℝ), ClosedLoop n c ∧
    Harmonic.new.run (1 / 10000) solve [.curves (tab n squareLoop), .update, .curves (tab n c)] = .ok H ∧ H.curves = tab n c ∧ H.dom.dom.n = n ∧
    ∀ i < n, ∀ s : ℝ, 0 ≤ s → s ≤ 1 → ∀ p, H.dom.dom.edgePoint i s = .ok p → (c i).pt s = o + p.x • a + p.y • b := by
  obtain ⟨solve, hs⟩ := exists_solver
  obtain ⟨H, r, hc, hup⟩ := run_update (ε := 1 / 10000) solve hn squareLoop
  have hi := run_inv (new_inv (1 / 10000)) r
  obtain ⟨hf, vs, e1, e2⟩ := hi.dom.resolve_left (by omega)
  rw [hup] at e1
  obtain ⟨ρ, φ, _, hcd, hcen⟩ := regular_convex hn e1 e2
  set T : P2 ℝ → P3 ℝ := fun p => o + p.x • a + p.y • b with hT
  set c : ℕ → Curve ℝ := fun i => ⟨fun s => T (sidePoint n (regularVertex n ρ φ) i s), fun _ => 0, fun _ _ => 0⟩ with hcc
  refine ⟨solve, hs, c, { H with curves := tab n c }, ⟨hn, fun j hj => ?_⟩, ?_, rfl, hup, ?_⟩
  · have e : sidePoint n (regularVertex n ρ φ) j 1 = sidePoint n (regularVertex n ρ φ) ((j + 1) % n) 0 := by
      have hp := prevIx_nextIx hj
      unfold nextIx prevIx at hp
      unfold sidePoint
      rw [hp]
      ext <;> simp
    rw [hcc]
    dsimp only
    rw [e]
  · obtain ⟨H0, r0, r⟩ := bind_ok r
    obtain ⟨H1, r1, r⟩ := bind_ok r
    cases r
    unfold run
    rw [r0, M_bind_ok]
    unfold run
    rw [r1, M_bind_ok]
    rfl
  · intro i hi s _ _ p hp
    dsimp only at hp
    rw [hcd.edgePoint hi] at hp
    rw [← Except.ok.inj hp]

end Harmonic

end Transfinite
