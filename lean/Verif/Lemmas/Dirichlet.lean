import Verif.Props.Mesh
import Verif.Spec.Dirichlet

/-! Connectivity of the mesh, and the energy of piecewise linear functions. -/

namespace Transfinite

open Domain Spec

/-! ### The mesh -/

/-- Every vertex is used by a triangle. -/
theorem vertex_used {n R : ℕ} (hn : 3 ≤ n) (hR : 1 ≤ R) {i : ℕ} (hi : i < meshSize n R) : ∃ t ∈ allTris n R, i = t.1 ∨ i = t.2.1 ∨ i = t.2.2 := by
  unfold allTris
  by_cases h3 : n = 3
  · subst h3
    rw [meshSize3] at hi
    rw [if_pos rfl]
    obtain ⟨j, hj, k, hk, rfl⟩ := enc3_exists hi
    have key : ∀ j < R, ∀ k ≤ j, (enc3 (j + 1) k, enc3 (j + 1) (k + 1), enc3 j k) ∈ all3 R := by
      intro j hj k hk
      unfold all3
      refine List.mem_flatMap.mpr ⟨j, List.mem_range.mpr hj, List.mem_flatMap.mpr ⟨k, List.mem_range.mpr (by omega), ?_⟩⟩
      unfold tris3
      split_ifs <;> simp
    by_cases c : j < R
    · exact ⟨_, key j c k hk, Or.inr (Or.inr rfl)⟩
    · obtain rfl : j = R := by omega
      obtain ⟨m, rfl⟩ : ∃ m, j = m + 1 := ⟨j - 1, by omega⟩
      by_cases c' : k ≤ m
      · exact ⟨_, key m (by omega) k c', Or.inl rfl⟩
      · obtain rfl : k = m + 1 := by omega
        exact ⟨_, key m (by omega) m le_rfl, Or.inr (Or.inl rfl)⟩
  · rw [if_neg h3]
    by_cases h4 : n = 4
    · subst h4
      rw [meshSize4] at hi
      rw [if_pos rfl]
      obtain ⟨j, hj, k, hk, rfl⟩ := enc4_exists hi
      have key : ∀ j < R, ∀ k < R, ∀ t ∈ tris4 R j k, t ∈ all4 R := fun j hj k hk t ht =>
        List.mem_flatMap.mpr ⟨j, List.mem_range.mpr hj, List.mem_flatMap.mpr ⟨k, List.mem_range.mpr hk, ht⟩⟩
      obtain ⟨m, rfl⟩ : ∃ m, R = m + 1 := ⟨R - 1, by omega⟩
      have h1 := fun j hj k hk => key j hj k hk _ (List.mem_cons_self)
      have h2 := fun j hj k hk => key j hj k hk _ (List.mem_cons_of_mem _ (List.mem_cons_self))
      rcases Nat.lt_or_ge j (m + 1) with cj | cj <;> rcases Nat.lt_or_ge k (m + 1) with ck | ck
      · exact ⟨_, h1 j cj k ck, Or.inl rfl⟩
      · obtain rfl : k = m + 1 := by omega
        exact ⟨_, h1 j cj m (by omega), Or.inr (Or.inr rfl)⟩
      · obtain rfl : j = m + 1 := by omega
        exact ⟨_, h1 m (by omega) k ck, Or.inr (Or.inl rfl)⟩
      · obtain rfl : k = m + 1 := by omega
        obtain rfl : j = m + 1 := by omega
        exact ⟨_, h2 m (by omega) m (by omega), Or.inr (Or.inr rfl)⟩
    · rw [if_neg h4]
      rw [meshSizeN h3 h4] at hi
      have key : ∀ l < R, ∀ k < n, ∀ v ≤ l, (encN n l (k * l + v), encN n (l + 1) (k * (l + 1) + v), encN n (l + 1) (k * (l + 1) + v + 1)) ∈ allN n R := by
        intro l hl k hk v hv
        simp only [allN, sideN, List.mem_flatMap, List.mem_range]
        refine ⟨l, hl, k, hk, v, by omega, ?_⟩
        unfold trisN
        split_ifs <;> simp
      rcases encN_exists hi with rfl | ⟨L, hL1, hL, k, hk, v, hv, rfl⟩
      · refine ⟨_, key 0 (by omega) 0 (by omega) 0 le_rfl, Or.inl ?_⟩
        simp [encN, ringStart]
      · obtain ⟨l, rfl⟩ : ∃ l, L = l + 1 := ⟨L - 1, by omega⟩
        refine ⟨_, key l (by omega) k hk v (by omega), Or.inr (Or.inl ?_)⟩
        rw [encN_of_pos hk hv]

section connected

variable {ts : List Tri} {uv : ℕ → P2 ℝ}

theorem area_edges (f : ℕ → P2 ℝ) (t : Tri) : ((dirEdges t).map fun e => (f e.1).x * (f e.2).y - (f e.1).y * (f e.2).x).sum =
    area2 (f t.1) (f t.2.1) (f t.2.2) := by
  simp only [dirEdges, area2, List.map_cons, List.map_nil, List.sum_cons, List.sum_nil]
  ring

theorem area_meshEdges (f : ℕ → P2 ℝ) (ts : List Tri) : ((meshEdges ts).map fun e => (f e.1).x * (f e.2).y - (f e.1).y * (f e.2).x).sum =
    (ts.map fun t => area2 (f t.1) (f t.2.1) (f t.2.2)).sum := by
  induction ts with
  | nil => rfl
  | cons t ts ih =>
    unfold meshEdges at *
    rw [List.flatMap_cons, List.map_append, List.sum_append, List.map_cons, List.sum_cons, area_edges, ih]

/-- A set of vertices that contains all vertices of a triangle or none, contains a boundary vertex or no vertex of triangles: a set of triangles without a boundary would
have zero area. -/
theorem no_closed (hm : OrientedManifold ts) (hpos : ∀ t ∈ ts, 0 < area2 (uv t.1) (uv t.2.1) (uv t.2.2)) {p : ℕ → Prop}
    (hall : ∀ t ∈ ts, (p t.1 ↔ p t.2.1) ∧ (p t.2.1 ↔ p t.2.2)) (hb : ∀ i, p i → ¬ IsBoundaryVertex ts i) {t : Tri} (ht : t ∈ ts) : ¬ p t.1 := by
  classical
  intro hp
  set us := ts.filter fun t => p t.1 with hus
  have mem : ∀ t, t ∈ us ↔ t ∈ ts ∧ p t.1 := fun t => by rw [hus, List.mem_filter, decide_eq_true_eq]
  have hmem : ∀ e, e ∈ meshEdges us ↔ e ∈ meshEdges ts ∧ p e.1 ∧ p e.2 := by
    intro e
    unfold meshEdges
    rw [List.mem_flatMap, List.mem_flatMap]
    constructor
    · rintro ⟨t, h1, h2⟩
      obtain ⟨h1, h3⟩ := (mem t).mp h1
      obtain ⟨a1, a2⟩ := hall t h1
      refine ⟨⟨t, h1, h2⟩, ?_⟩
      simp only [dirEdges, List.mem_cons, List.not_mem_nil, or_false] at h2
      rcases h2 with rfl | rfl | rfl <;> tauto
    · rintro ⟨⟨t, h1, h2⟩, h3, h4⟩
      obtain ⟨a1, a2⟩ := hall t h1
      refine ⟨t, (mem t).mpr ⟨h1, ?_⟩, h2⟩
      simp only [dirEdges, List.mem_cons, List.not_mem_nil, or_false] at h2
      rcases h2 with rfl | rfl | rfl <;> tauto
  have hnd : (meshEdges us).Nodup := by
    refine List.Nodup.sublist ?_ hm
    unfold meshEdges
    exact List.Sublist.flatMap List.filter_sublist _
  have hsw : ((meshEdges us).map Prod.swap).Perm (meshEdges us) := by
    refine (List.perm_ext_iff_of_nodup (hnd.map Prod.swap_injective) hnd).mpr fun e => ?_
    have one : ∀ e, e ∈ meshEdges us → e.swap ∈ meshEdges us := by
      intro e he
      obtain ⟨h1, h2, h3⟩ := (hmem e).mp he
      refine (hmem _).mpr ⟨?_, h3, h2⟩
      by_contra q
      exact hb e.1 h2 ⟨e, h1, q, Or.inl rfl⟩
    rw [List.mem_map]
    constructor
    · rintro ⟨a, h1, rfl⟩
      exact one a h1
    · intro h
      exact ⟨e.swap, one e h, Prod.swap_swap e⟩
  have hsum := (hsw.map fun e => (uv e.1).x * (uv e.2).y - (uv e.1).y * (uv e.2).x).sum_eq
  rw [List.map_map, area_meshEdges] at hsum
  have hneg : ((meshEdges us).map ((fun e => (uv e.1).x * (uv e.2).y - (uv e.1).y * (uv e.2).x) ∘ Prod.swap)).sum =
      - (us.map fun t => area2 (uv t.1) (uv t.2.1) (uv t.2.2)).sum := by
    rw [← area_meshEdges]
    generalize meshEdges us = l
    induction l with
    | nil => simp
    | cons e l ih =>
      rw [List.map_cons, List.map_cons, List.sum_cons, List.sum_cons, ih]
      simp only [Function.comp, Prod.fst_swap, Prod.snd_swap]
      ring
  rw [hneg] at hsum
  have hzero : (us.map fun t => area2 (uv t.1) (uv t.2.1) (uv t.2.2)).sum = 0 := by linarith
  have hlt : 0 < (us.map fun t => area2 (uv t.1) (uv t.2.1) (uv t.2.2)).sum := by
    refine List.sum_pos _ (fun x hx => ?_) ?_
    · obtain ⟨t, h1, rfl⟩ := List.mem_map.mp hx
      exact hpos t ((mem t).mp h1).1
    · intro h
      have := List.map_eq_nil_iff.mp h
      have h2 := (mem t).mpr ⟨ht, hp⟩
      rw [this] at h2
      simp at h2
  linarith

end connected

/-! ### The energy -/

/-- Half the cotangent of the angle at `a`. -/
noncomputable def halfCot (a b c : P2 ℝ) : ℝ := 1 / 2 * P2.dot (b - a) (c - a) / area2 a b c

/-- The bilinear form of the energy of a triangle. -/
noncomputable def triForm (a b c : P2 ℝ) (x1 x2 x3 y1 y2 y3 : ℝ) : ℝ :=
  halfCot c a b * (x1 - x2) * (y1 - y2) + halfCot b c a * (x1 - x3) * (y1 - y3) + halfCot a b c * (x2 - x3) * (y2 - y3)

theorem triEnergy_eq {a b c : P2 ℝ} (h : area2 a b c ≠ 0) (x1 x2 x3 : ℝ) : triEnergy a b c x1 x2 x3 = triForm a b c x1 x2 x3 x1 x2 x3 := by
  unfold triEnergy triForm gradient halfCot
  have e1 : area2 c a b = area2 a b c := by unfold area2; ring
  have e2 : area2 b c a = area2 a b c := by unfold area2; ring
  rw [e1, e2]
  generalize hA : area2 a b c = A at h
  unfold P2.dot
  simp only [P2.sub_x, P2.sub_y]
  field_simp
  ring

theorem triEnergy_nonneg {a b c : P2 ℝ} (h : 0 < area2 a b c) (x1 x2 x3 : ℝ) : 0 ≤ triEnergy a b c x1 x2 x3 := by
  unfold triEnergy P2.dot
  refine mul_nonneg (by linarith) (add_nonneg (mul_self_nonneg _) (mul_self_nonneg _))

theorem triEnergy_zero {a b c : P2 ℝ} (h : 0 < area2 a b c) {x1 x2 x3 : ℝ} (e : triEnergy a b c x1 x2 x3 = 0) : x2 = x1 ∧ x3 = x1 := by
  unfold triEnergy at e
  have e := (mul_eq_zero.mp e).resolve_left (by linarith)
  obtain ⟨h1, h2⟩ := gradient_spec h.ne' x1 x2 x3
  generalize gradient a b c x1 x2 x3 = g at *
  unfold P2.dot at *
  have g1 : g.x = 0 := mul_self_eq_zero.mp (by nlinarith [mul_self_nonneg g.x, mul_self_nonneg g.y])
  have g2 : g.y = 0 := mul_self_eq_zero.mp (by nlinarith [mul_self_nonneg g.x, mul_self_nonneg g.y])
  rw [g1, g2] at h1 h2
  constructor <;> linarith

/-- The bilinear form of the energy. -/
noncomputable def form (ts : List Tri) (uv : ℕ → P2 ℝ) (x y : ℕ → ℝ) : ℝ :=
  (ts.map fun t => triForm (uv t.1) (uv t.2.1) (uv t.2.2) (x t.1) (x t.2.1) (x t.2.2) (y t.1) (y t.2.1) (y t.2.2)).sum

section form

variable {ts : List Tri} {uv : ℕ → P2 ℝ}

theorem dirichlet_form (hpos : ∀ t ∈ ts, 0 < area2 (uv t.1) (uv t.2.1) (uv t.2.2)) (x : ℕ → ℝ) : dirichlet ts uv x = form ts uv x x := by
  unfold dirichlet form
  congr 1
  exact List.map_congr_left fun t ht => triEnergy_eq (hpos t ht).ne' _ _ _

theorem form_add (x y : ℕ → ℝ) : form ts uv (fun k => x k + y k) (fun k => x k + y k) = form ts uv x x + 2 * form ts uv x y + form ts uv y y := by
  unfold form
  induction ts with
  | nil => simp
  | cons t ts ih =>
    simp only [List.map_cons, List.sum_cons]
    rw [ih]
    unfold triForm
    ring

theorem dirichlet_nonneg (hpos : ∀ t ∈ ts, 0 < area2 (uv t.1) (uv t.2.1) (uv t.2.2)) (x : ℕ → ℝ) : 0 ≤ dirichlet ts uv x := by
  unfold dirichlet
  refine List.sum_nonneg fun y hy => ?_
  obtain ⟨t, ht, rfl⟩ := List.mem_map.mp hy
  exact triEnergy_nonneg (hpos t ht) _ _ _

theorem dirichlet_zero (hpos : ∀ t ∈ ts, 0 < area2 (uv t.1) (uv t.2.1) (uv t.2.2)) {x : ℕ → ℝ} (h : dirichlet ts uv x = 0) :
    ∀ t ∈ ts, x t.2.1 = x t.1 ∧ x t.2.2 = x t.1 := by
  induction ts with
  | nil => simp
  | cons t ts ih =>
    have h1 := triEnergy_nonneg (hpos t (by simp)) (x t.1) (x t.2.1) (x t.2.2)
    have h2 := dirichlet_nonneg (fun u hu => hpos u (List.mem_cons_of_mem _ hu)) x
    have e : dirichlet (t :: ts) uv x = triEnergy (uv t.1) (uv t.2.1) (uv t.2.2) (x t.1) (x t.2.1) (x t.2.2) + dirichlet ts uv x := by
      unfold dirichlet
      rw [List.map_cons, List.sum_cons]
    rw [e] at h
    intro u hu
    rcases List.mem_cons.mp hu with rfl | hu
    · exact triEnergy_zero (hpos u (by simp)) (by linarith)
    · exact ih (fun u hu => hpos u (List.mem_cons_of_mem _ hu)) (by linarith) u hu

/-- A function of zero energy that vanishes on the boundary is zero. -/
theorem zero_of_energy {n R : ℕ} (hn : 3 ≤ n) (hR : 1 ≤ R) (hpos : ∀ t ∈ allTris n R, 0 < area2 (uv t.1) (uv t.2.1) (uv t.2.2)) {x : ℕ → ℝ}
    (h : dirichlet (allTris n R) uv x = 0) (hb : ∀ k < meshSize n R, onEdge n R k = true → x k = 0) : ∀ k < meshSize n R, x k = 0 := by
  have hc := dirichlet_zero hpos h
  obtain ⟨_, e1, hm⟩ := C02_oriented_manifold hn R
  obtain ⟨_, e2, ho⟩ := C03_onEdge_iff hn hR
  obtain ⟨_, e3, _, hp⟩ := C01_mesh_counts hn R
  rw [meshTopology_eq] at e1 e2 e3
  obtain rfl := (Prod.mk.inj (Except.ok.inj e1)).2
  obtain rfl := (Prod.mk.inj (Except.ok.inj e2)).2
  obtain rfl := (Prod.mk.inj (Except.ok.inj e3)).2
  intro k hk
  obtain ⟨t, ht, hkt⟩ := vertex_used hn hR hk
  by_contra hne
  have hvert : ∀ i, x i ≠ 0 → ¬ IsBoundaryVertex (allTris n R) i := by
    intro i hi hbv
    have hlt : i < meshSize n R := by
      obtain ⟨e, he, _, q⟩ := hbv
      unfold meshEdges at he
      obtain ⟨u, hu, he⟩ := List.mem_flatMap.mp he
      obtain ⟨a1, a2, a3, _⟩ := hp u hu
      simp only [dirEdges, List.mem_cons, List.not_mem_nil, or_false] at he
      rcases he with rfl | rfl | rfl <;> rcases q with rfl | rfl <;> assumption
    exact hi (hb i hlt ((ho i hlt).mpr hbv))
  refine no_closed hm hpos (p := fun i => x i ≠ 0) (fun u hu => ?_) hvert ht ?_
  · obtain ⟨a, b⟩ := hc u hu
    rw [a, b]
    exact ⟨Iff.rfl, Iff.rfl⟩
  · obtain ⟨a, b⟩ := hc t ht
    rcases hkt with rfl | rfl | rfl
    · exact hne
    · rwa [a] at hne
    · rwa [b] at hne

end form

end Transfinite
