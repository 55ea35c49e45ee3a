import Verif.Lemmas.MeshAll
import Mathlib.Tactic.Positivity
import Mathlib.Algebra.BigOperators.Ring.Finset
import Mathlib.Algebra.BigOperators.Field
import Mathlib.Algebra.Order.BigOperators.Ring.Finset

/-! # Properties C01–C05: the evaluation mesh -/

namespace Transfinite

open Domain Spec

/-! ## C01 Counts and index validity -/

/-- C01: number of points and triangles, and validity of all indices, for all n and resolutions. -/
theorem C01_mesh_counts {n : ℕ} (hn : 3 ≤ n) (R : ℕ) :
    ∃ ts, meshTopology n R = .ok (meshSize n R, ts) ∧
      ts.length = (if n = 3 then R * R else if n = 4 then 2 * R * R else n * R * R) ∧
      ∀ t ∈ ts, ProperTri (meshSize n R) t := by
  refine ⟨_, meshTopology_eq n R, ?_, ?_⟩
  · unfold allTris
    split
    · exact length3 R
    · split
      · exact length4 R
      · exact lengthN n R
  · intro t ht
    unfold allTris at ht
    by_cases h3 : n = 3
    · subst h3; rw [if_pos rfl] at ht; rw [meshSize3]; exact proper3 ht
    · by_cases h4 : n = 4
      · subst h4; rw [if_neg h3, if_pos rfl] at ht; rw [meshSize4]; exact proper4 ht
      · rw [if_neg h3, if_neg h4] at ht; rw [meshSizeN h3 h4]; exact properN hn ht

/-- C01: `parameters` has as many entries as the mesh has points, and computing them does not fail
(no invalid index or division by zero) for resolutions of at least 1. -/
theorem C01_params_count {K : Type*} [Field K] [CharZero K] [DecidableEq K] {d : Domain K}
    (hn : 3 ≤ d.n) (hv : d.vertices.length = d.n) {R : ℕ} (hR : 1 ≤ R) :
    ∃ ps, d.parametersImpl R = .ok ps ∧ ps.length = meshSize d.n R := by
  have : Inhabited (P2 K) := ⟨0⟩
  obtain ⟨v, hv'⟩ := exists_tab d.vertices
  rw [hv] at hv'
  obtain ⟨f, h1, _⟩ := parametersImpl_eq hn hv' hR
  exact ⟨_, h1, by simp⟩

/-- C01: with resolution 0 the 3- and 4-sided cases divide by zero. -/
theorem C01_params_zero {K : Type*} [Field K] [DecidableEq K] {d : Domain K}
    (hn : d.n = 3 ∨ d.n = 4) : d.parametersImpl 0 = .error .divZero := by
  unfold parametersImpl
  rcases hn with h | h
  · rw [if_pos h]; simp [params3, forLoop_succ]
  · rw [if_neg (by omega), if_pos h]; simp [params4, forLoop_succ]

/-- C01 for `DomainCircle`. -/
theorem C01_circle_counts {n : ℕ} (hn : 3 ≤ n) (R : ℕ) :
    ∃ ts, circleTopology n R = .ok (circleMeshSize n R, ts) ∧ ts.length = n * R * R ∧
      ∀ t ∈ ts, ProperTri (circleMeshSize n R) t := by
  refine ⟨allN n R, by simp [circleTopology, topologyN_eq], lengthN n R, ?_⟩
  intro t ht; rw [circleMeshSize_eq]; exact properN hn ht

example : meshTopology 3 2 = .ok (6, [(1, 2, 0), (3, 4, 1), (4, 2, 1), (4, 5, 2)]) := by decide +kernel

/-! ## C02 Oriented manifold -/

/-- C02: no directed edge is used by two triangles. -/
theorem C02_oriented_manifold {n : ℕ} (hn : 3 ≤ n) (R : ℕ) :
    ∃ ts, meshTopology n R = .ok (meshSize n R, ts) ∧ OrientedManifold ts := by
  refine ⟨_, meshTopology_eq n R, ?_⟩
  unfold allTris
  split
  · exact nodup3 R
  · split
    · exact nodup4 R
    · exact nodupN hn R

/-- C02 for `DomainCircle`. -/
theorem C02_circle_manifold {n : ℕ} (hn : 3 ≤ n) (R : ℕ) :
    ∃ ts, circleTopology n R = .ok (circleMeshSize n R, ts) ∧ OrientedManifold ts :=
  ⟨allN n R, by simp [circleTopology, topologyN_eq], nodupN hn R⟩

/-- What C02 means for undirected edges: at most two triangle sides are on an edge. -/
theorem C02_edge_sharing {ts : List Tri} (h : OrientedManifold ts) (a b : ℕ) :
    (meshEdges ts).count (a, b) + (meshEdges ts).count (b, a) ≤ 2 := by
  have h1 := List.nodup_iff_count_le_one.mp h (a, b)
  have h2 := List.nodup_iff_count_le_one.mp h (b, a)
  omega

/-! ## C03 Boundary -/

/-- C03: the edges used by only one triangle form one simple closed loop of `n * R` vertices. -/
theorem C03_boundary_loop {n R : ℕ} (hn : 3 ≤ n) (hR : 1 ≤ R) :
    ∃ ts, meshTopology n R = .ok (meshSize n R, ts) ∧ ∃ b, BoundaryLoop ts (n * R) b :=
  ⟨_, meshTopology_eq n R, _, boundaryAll hn hR⟩

/-- C03: `onEdge` is true exactly for the boundary vertices of the mesh. -/
theorem C03_onEdge_iff {n R : ℕ} (hn : 3 ≤ n) (hR : 1 ≤ R) :
    ∃ ts, meshTopology n R = .ok (meshSize n R, ts) ∧
      ∀ i < meshSize n R, (onEdge n R i = true ↔ IsBoundaryVertex ts i) := by
  refine ⟨_, meshTopology_eq n R, ?_⟩
  intro i hi
  rw [onEdge_iff_loop hn hR hi, isBoundaryVertex_iff_of_loop (boundaryAll hn hR)]

/-- C03 for `DomainCircle`. -/
theorem C03_circle_onEdge_iff {n R : ℕ} (hn : 3 ≤ n) (hR : 1 ≤ R) :
    ∃ ts, circleTopology n R = .ok (circleMeshSize n R, ts) ∧ (∃ b, BoundaryLoop ts (n * R) b) ∧
      ∀ i < circleMeshSize n R, (circleOnEdge n R i = true ↔ IsBoundaryVertex ts i) := by
  refine ⟨allN n R, by simp [circleTopology, topologyN_eq], ⟨_, boundaryN hn hR⟩, ?_⟩
  intro i hi
  rw [circleMeshSize_eq] at hi
  rw [isBoundaryVertex_iff_of_loop (boundaryN hn hR), mem_loopN hn hR hi]
  unfold circleOnEdge
  rw [decide_eq_true_eq, circleMeshSize_eq]

/-- C03: Euler characteristic: vertices − edges + faces = 1 (a disk), where the number of undirected
edges is half the number of triangle sides plus half the number of boundary edges. -/
theorem C03_euler {n R : ℕ} (hn : 3 ≤ n) (hR : 1 ≤ R) :
    ∃ ts, meshTopology n R = .ok (meshSize n R, ts) ∧
      2 * meshSize n R + 2 * ts.length = (meshEdges ts).length + (boundaryEdges ts).length + 2 := by
  refine ⟨_, meshTopology_eq n R, ?_⟩
  have hb : (boundaryEdges (allTris n R)).length = n * R := by
    rw [(boundaryAll hn hR).2.length_eq]; simp
  have he : (meshEdges (allTris n R)).length = 3 * (allTris n R).length := by
    unfold meshEdges dirEdges
    rw [List.length_flatMap]; simp; ring
  rw [hb, he]
  unfold allTris
  by_cases h3 : n = 3
  · subst h3
    simp only [if_true]
    rw [length3, meshSize3]
    have := triNum_mul_two (R + 1)
    nlinarith
  · by_cases h4 : n = 4
    · subst h4
      simp only [show ¬ (4 = 3) by decide, if_false, if_true]
      rw [length4, meshSize4]; ring
    · rw [if_neg h3, if_neg h4, lengthN, meshSizeN h3 h4]
      simp only [ringStart]
      have := triNum_mul_two R
      have e : 2 * (1 + n * triNum R) = 2 + n * (triNum R * 2) := by ring
      rw [e, this]; ring

example : (List.range 6).map (onEdge 3 2) = [true, true, true, true, true, true] ∧
    (List.range 10).map (onEdge 3 3) =
      [true, true, true, true, false, true, true, true, true, true] := by decide +kernel

/-! ## C04 Edge vertices lie on the polygon's boundary -/

variable {K : Type*} [Field K] [LinearOrder K] [IsStrictOrderedRing K]

private theorem frac_mem {R a : ℕ} (hR : 1 ≤ R) (h : a ≤ R) : 0 ≤ (a : K) / R ∧ (a : K) / R ≤ 1 := by
  have hR0 : (0 : K) < R := by exact_mod_cast hR
  constructor
  · positivity
  · rw [div_le_one hR0]; exact_mod_cast h

private theorem frac_lt {R a : ℕ} (hR : 1 ≤ R) (h : a < R) : (a : K) / R < 1 := by
  have hR0 : (0 : K) < R := by exact_mod_cast hR
  rw [div_lt_one hR0]; exact_mod_cast h

private theorem frac_pos {R a : ℕ} (hR : 1 ≤ R) (h : 0 < a) : 0 < (a : K) / R := by
  have hR0 : (0 : K) < R := by exact_mod_cast hR
  have : (0 : K) < a := by exact_mod_cast h
  positivity

/-- C04: an `onEdge` vertex is an `edgePoint` with parameter in [0,1]. -/
theorem C04_onEdge_is_edgePoint {d : Domain K} (hn : 3 ≤ d.n) (hv : d.vertices.length = d.n) {R : ℕ}
    (hR : 1 ≤ R) : ∃ ps, d.parametersImpl R = .ok ps ∧
      ∀ idx (h : idx < ps.length), onEdge d.n R idx = true →
        ∃ i < d.n, ∃ s : K, 0 ≤ s ∧ s ≤ 1 ∧ d.edgePoint i s = .ok ps[idx] := by
  have : Inhabited (P2 K) := ⟨0⟩
  obtain ⟨v, hv'⟩ := exists_tab d.vertices
  rw [hv] at hv'
  obtain ⟨f, h1, h3, h4, hN⟩ := parametersImpl_eq hn hv' hR
  refine ⟨_, h1, ?_⟩
  intro idx hidx hon
  rw [length_tab] at hidx
  have hR0 : (R : K) ≠ 0 := by exact_mod_cast (show R ≠ 0 by omega)
  simp only [tab, List.getElem_map, List.getElem_range]
  suffices h : ∃ i < d.n, ∃ s : K, 0 ≤ s ∧ s ≤ 1 ∧ sidePoint d.n v i s = f idx by
    obtain ⟨i, hi, s, hs0, hs1, e⟩ := h
    exact ⟨i, hi, s, hs0, hs1, by rw [edgePoint_eq hv' hi, e]⟩
  by_cases c3 : d.n = 3
  · rw [c3] at hon hidx ⊢
    rw [meshSize3] at hidx
    obtain ⟨j, hj, k, hk, rfl⟩ := enc3_exists hidx
    rw [onEdge3 hj hk] at hon
    rw [h3 c3 j hj k hk]
    rcases hon with rfl | rfl | rfl
    · refine ⟨1, by omega, (k : K) / j, (frac_mem hR hk).1, (frac_mem hR hk).2, ?_⟩
      simp only [sidePoint, pt3]
      norm_num
      rw [sub_div, div_self hR0]; module
    · refine ⟨0, by omega, (j : K) / R, (frac_mem hR hj).1, (frac_mem hR hj).2, ?_⟩
      simp only [sidePoint, pt3]
      norm_num
      module
    · refine ⟨2, by omega, 1 - (k : K) / R, by linarith [(frac_mem (K := K) hR hj).2], by linarith [(frac_mem (K := K) hR hj).1], ?_⟩
      simp only [sidePoint, pt3]
      norm_num
  · by_cases c4 : d.n = 4
    · rw [c4] at hon hidx ⊢
      rw [meshSize4] at hidx
      obtain ⟨j, hj, k, hk, rfl⟩ := enc4_exists hidx
      rw [onEdge4 hR hj hk] at hon
      rw [h4 c4 j hj k hk]
      rcases hon with rfl | rfl | rfl | rfl
      · refine ⟨0, by omega, 1 - (k : K) / R, by linarith [(frac_mem (K := K) hR hk).2], by linarith [(frac_mem (K := K) hR hk).1], ?_⟩
        simp only [sidePoint, pt4]; norm_num
        module
      · refine ⟨2, by omega, (k : K) / j, (frac_mem hR hk).1, (frac_mem hR hk).2, ?_⟩
        simp only [sidePoint, pt4]; rw [div_self hR0]; norm_num
      · refine ⟨1, by omega, (j : K) / R, (frac_mem hR hj).1, (frac_mem hR hj).2, ?_⟩
        simp only [sidePoint, pt4]; norm_num
      · refine ⟨3, by omega, 1 - (j : K) / k, by linarith [(frac_mem (K := K) hR hj).2], by linarith [(frac_mem (K := K) hR hj).1], ?_⟩
        simp only [sidePoint, pt4]; rw [div_self hR0]; norm_num
        module
    · rw [onEdge_iff_loop hn hR hidx] at hon
      obtain ⟨p, hp, e⟩ := hon
      simp only [bLoop, if_neg c3, if_neg c4] at e
      obtain ⟨k, hk, i, hi, rfl⟩ := pos_exists hp
      rw [← e, hN c3 c4 R le_rfl k hk i (by omega)]
      refine ⟨k, hk, (i : K) / R, (frac_mem hR (by omega)).1, (frac_mem hR (by omega)).2, ?_⟩
      simp only [sidePoint, ptN, prevIx]; rw [div_self hR0]; module

/-- C04: a vertex that is not `onEdge` is strictly inside, if the polygon is strictly convex and the
centre is inside. -/
theorem C04_not_onEdge_inside {d : Domain K} (hn : 3 ≤ d.n) {v : ℕ → P2 K}
    (hv : d.vertices = tab d.n v) (hconv : StrictConvex d.n v) (hc : Inside d.n v d.center) {R : ℕ}
    (hR : 1 ≤ R) : ∃ ps, d.parametersImpl R = .ok ps ∧
      ∀ idx (h : idx < ps.length), onEdge d.n R idx = false → Inside d.n v ps[idx] := by
  obtain ⟨f, h1, h3, h4, hN⟩ := parametersImpl_eq hn hv hR
  refine ⟨_, h1, ?_⟩
  intro idx hidx hon
  rw [length_tab] at hidx
  have hR0 : (R : K) ≠ 0 := by exact_mod_cast (show R ≠ 0 by omega)
  simp only [tab, List.getElem_map, List.getElem_range]
  by_cases c3 : d.n = 3
  · rw [c3] at hon hidx ⊢
    rw [c3] at hconv
    rw [meshSize3] at hidx
    obtain ⟨j, hj, k, hk, rfl⟩ := enc3_exists hidx
    have hon' : ¬ (j = R ∨ k = 0 ∨ k = j) := by
      rw [← onEdge3 hj hk, hon]; simp
    rw [h3 c3 j hj k hk]
    have w2 : 0 < 1 - (j : K) / R := by linarith [frac_lt (K := K) hR (show j < R by omega)]
    have w1 : 0 < (k : K) / R := frac_pos hR (by omega)
    have w0 : 0 < ((j : K) - k) / R := by
      have : (j : K) - k = ((j - k : ℕ) : K) := by rw [Nat.cast_sub hk]
      rw [this]; exact frac_pos hR (by omega)
    intro i hi
    unfold pt3
    rw [leftOf_comb3 3 v i (by field_simp; ring)]
    have a0 := hconv.nonneg hi (show 0 < 3 by omega)
    have a1 := hconv.nonneg hi (show 1 < 3 by omega)
    have a2 := hconv.nonneg hi (show 2 < 3 by omega)
    have : i = 0 ∨ i = 1 ∨ i = 2 := by omega
    rcases this with rfl | rfl | rfl
    · have := hconv 0 (by omega) 1 (by omega) (by omega) (by omega)
      have := mul_pos w1 this
      nlinarith [mul_nonneg w0.le a0, mul_nonneg w2.le a2]
    · have := hconv 1 (by omega) 2 (by omega) (by omega) (by omega)
      have := mul_pos w2 this
      nlinarith [mul_nonneg w0.le a0, mul_nonneg w1.le a1]
    · have := hconv 2 (by omega) 0 (by omega) (by omega) (by omega)
      have := mul_pos w0 this
      nlinarith [mul_nonneg w1.le a1, mul_nonneg w2.le a2]
  · by_cases c4 : d.n = 4
    · rw [c4] at hon hidx ⊢
      rw [c4] at hconv
      rw [meshSize4] at hidx
      obtain ⟨j, hj, k, hk, rfl⟩ := enc4_exists hidx
      have hon' : ¬ (j = 0 ∨ j = R ∨ k = 0 ∨ k = R) := by
        rw [← onEdge4 hR hj hk, hon]; simp
      rw [h4 c4 j hj k hk]
      have u0 : 0 < (j : K) / R := frac_pos hR (by omega)
      have u1 : 0 < 1 - (j : K) / R := by linarith [frac_lt (K := K) hR (show j < R by omega)]
      have w0 : 0 < (k : K) / R := frac_pos hR (by omega)
      have w1 : 0 < 1 - (k : K) / R := by linarith [frac_lt (K := K) hR (show k < R by omega)]
      intro i hi
      unfold pt4
      rw [leftOf_comb2 4 v i (by ring), leftOf_comb2 4 v i (by ring), leftOf_comb2 4 v i (by ring)]
      have a0 := hconv.nonneg hi (show 0 < 4 by omega)
      have a1 := hconv.nonneg hi (show 1 < 4 by omega)
      have a2 := hconv.nonneg hi (show 2 < 4 by omega)
      have a3 := hconv.nonneg hi (show 3 < 4 by omega)
      have : i = 0 ∨ i = 1 ∨ i = 2 ∨ i = 3 := by omega
      rcases this with rfl | rfl | rfl | rfl
      · have b := hconv 0 (by omega) 1 (by omega) (by omega) (by omega)
        have e1 : 0 < (1 - (k : K) / R) * ((1 - (j : K) / R) * leftOf 4 v 0 (v 0) + (j : K) / R * leftOf 4 v 0 (v 1)) := by
          have := mul_pos u0 b; have := mul_nonneg u1.le a0; exact mul_pos w1 (by linarith)
        have e2 : 0 ≤ (k : K) / R * ((1 - (j : K) / R) * leftOf 4 v 0 (v 3) + (j : K) / R * leftOf 4 v 0 (v 2)) := by positivity
        linarith
      · have b := hconv 1 (by omega) 2 (by omega) (by omega) (by omega)
        have e1 : 0 ≤ (1 - (k : K) / R) * ((1 - (j : K) / R) * leftOf 4 v 1 (v 0) + (j : K) / R * leftOf 4 v 1 (v 1)) := by positivity
        have e2 : 0 < (k : K) / R * ((1 - (j : K) / R) * leftOf 4 v 1 (v 3) + (j : K) / R * leftOf 4 v 1 (v 2)) := by
          have := mul_pos u0 b; have := mul_nonneg u1.le a3; exact mul_pos w0 (by linarith)
        linarith
      · have b := hconv 2 (by omega) 3 (by omega) (by omega) (by omega)
        have e1 : 0 ≤ (1 - (k : K) / R) * ((1 - (j : K) / R) * leftOf 4 v 2 (v 0) + (j : K) / R * leftOf 4 v 2 (v 1)) := by positivity
        have e2 : 0 < (k : K) / R * ((1 - (j : K) / R) * leftOf 4 v 2 (v 3) + (j : K) / R * leftOf 4 v 2 (v 2)) := by
          have := mul_pos u1 b; have := mul_nonneg u0.le a2; exact mul_pos w0 (by linarith)
        linarith
      · have b := hconv 3 (by omega) 0 (by omega) (by omega) (by omega)
        have e1 : 0 < (1 - (k : K) / R) * ((1 - (j : K) / R) * leftOf 4 v 3 (v 0) + (j : K) / R * leftOf 4 v 3 (v 1)) := by
          have := mul_pos u1 b; have := mul_nonneg u0.le a1; exact mul_pos w1 (by linarith)
        have e2 : 0 ≤ (k : K) / R * ((1 - (j : K) / R) * leftOf 4 v 3 (v 3) + (j : K) / R * leftOf 4 v 3 (v 2)) := by positivity
        linarith
    · have hon' := (onEdge_iff_loop hn hR hidx).not.mp (by simp [hon])
      rw [meshSizeN c3 c4] at hidx
      rcases encN_exists hidx with rfl | ⟨L, hL1, hLR, k, hk, i, hi, rfl⟩
      · have := hN c3 c4 0 (by omega) 0 (by omega) 0 (by omega)
        have e : encN d.n 0 (0 * 0 + 0) = 0 := by simp [encN, ringStart]
        rw [e] at this
        rw [this]; unfold ptN; simpa using hc
      · have hL : L < R := by
          rcases Nat.lt_or_ge L R with h | h
          · exact h
          · have hLR' : L = R := by omega
            subst hLR'
            exact absurd ⟨k * L + i, pos_lt hk hi, by simp only [bLoop, if_neg c3, if_neg c4]; exact encN_of_pos hk hi⟩ hon'
        rw [← encN_of_pos hk hi, hN c3 c4 L (by omega) k hk i (by omega)]
        intro m hm
        unfold ptN
        rw [leftOf_comb3 d.n v m (by ring)]
        have w0 : 0 < 1 - (L : K) / R := by linarith [frac_lt (K := K) hR hL]
        have w1 : 0 ≤ (L : K) / R - (i : K) / R := by
          rw [← sub_div, ← Nat.cast_sub (by omega)]; exact (frac_mem hR (by omega)).1
        have w2 : 0 ≤ (i : K) / R := (frac_mem hR (by omega)).1
        have b0 := mul_pos w0 (hc m hm)
        have b1 := mul_nonneg w1 (hconv.nonneg hm (prevIx_lt (i := k) (j := 1) (show 0 < d.n by omega)))
        have b2 := mul_nonneg w2 (hconv.nonneg hm hk)
        linarith

/-! ## C05 The parameter mesh tiles the domain -/

/-- C05: every triangle of the mesh has positive area (counterclockwise) in parameter space. -/
theorem C05_positive_area {d : Domain K} (hn : 3 ≤ d.n) {v : ℕ → P2 K}
    (hv : d.vertices = tab d.n v) (hconv : StrictConvex d.n v) (hc : Inside d.n v d.center) {R : ℕ}
    (hR : 1 ≤ R) : ∃ ts f, meshTopology d.n R = .ok (meshSize d.n R, ts) ∧
      d.parametersImpl R = .ok (tab (meshSize d.n R) f) ∧
      ∀ t ∈ ts, 0 < area2 (f t.1) (f t.2.1) (f t.2.2) := by
  obtain ⟨f, h1, h3, h4, hN⟩ := parametersImpl_eq hn hv hR
  refine ⟨_, f, meshTopology_eq _ _, h1, ?_⟩
  have hR0 : (0 : K) < R := by exact_mod_cast hR
  have hR0' : (R : K) ≠ 0 := hR0.ne'
  intro t ht
  unfold allTris at ht
  by_cases c3 : d.n = 3
  · rw [c3] at hconv
    rw [if_pos c3] at ht
    simp only [all3, List.mem_flatMap, List.mem_range, tris3] at ht
    obtain ⟨i, hi, j, hj, ht⟩ := ht
    have A : 0 < area2 (v 0) (v 1) (v 2) := hconv 1 (by omega) 2 (by omega) (by omega) (by omega)
    have T1 : 0 < area2 (f (enc3 (i + 1) j)) (f (enc3 (i + 1) (j + 1))) (f (enc3 i j)) := by
      rw [h3 c3 _ (by omega) _ (by omega), h3 c3 _ (by omega) _ (by omega), h3 c3 _ (by omega) _ (by omega)]
      have : area2 (pt3 R v (i + 1) j) (pt3 R v (i + 1) (j + 1)) (pt3 R v i j) = area2 (v 0) (v 1) (v 2) / R ^ 2 := by
        simp only [area2, pt3, P2.add_x, P2.add_y, P2.smul_x, P2.smul_y]; push_cast; field_simp; ring
      rw [this]; positivity
    split at ht <;> simp only [List.mem_cons, List.not_mem_nil, or_false] at ht
    · rcases ht with rfl | rfl
      · exact T1
      · simp only
        rw [h3 c3 _ (by omega) _ (by omega), h3 c3 _ (by omega) _ (by omega), h3 c3 _ (by omega) _ (by omega)]
        have : area2 (pt3 R v (i + 1) (j + 1)) (pt3 R v i (j + 1)) (pt3 R v i j) = area2 (v 0) (v 1) (v 2) / R ^ 2 := by
          simp only [area2, pt3, P2.add_x, P2.add_y, P2.smul_x, P2.smul_y]; push_cast; field_simp; ring
        rw [this]; positivity
    · subst ht; exact T1
  · by_cases c4 : d.n = 4
    · rw [c4] at hconv
      rw [if_neg c3, if_pos c4] at ht
      simp only [all4, List.mem_flatMap, List.mem_range, tris4, List.mem_cons, List.not_mem_nil, or_false] at ht
      obtain ⟨i, hi, j, hj, ht⟩ := ht
      -- the four corner areas
      have A0 : 0 < area2 (v 0) (v 1) (v 3) := hconv 1 (by omega) 3 (by omega) (by omega) (by omega)
      have A1 : 0 < area2 (v 0) (v 1) (v 2) := hconv 1 (by omega) 2 (by omega) (by omega) (by omega)
      have A2 : 0 < area2 (v 2) (v 3) (v 0) := hconv 3 (by omega) 0 (by omega) (by omega) (by omega)
      have A3 : 0 < area2 (v 2) (v 3) (v 1) := hconv 3 (by omega) 1 (by omega) (by omega) (by omega)
      -- the Jacobian is a convex combination of the corner areas
      have J : ∀ a b : ℕ, a ≤ R → b ≤ R → 0 < (1 - (a : K) / R) * (1 - (b : K) / R) * area2 (v 0) (v 1) (v 3) +
          (a : K) / R * (1 - (b : K) / R) * area2 (v 0) (v 1) (v 2) +
          (1 - (a : K) / R) * ((b : K) / R) * area2 (v 2) (v 3) (v 0) +
          (a : K) / R * ((b : K) / R) * area2 (v 2) (v 3) (v 1) := by
        intro a b ha hb
        obtain ⟨x0, x1⟩ := frac_mem (K := K) hR ha
        obtain ⟨y0, y1⟩ := frac_mem (K := K) hR hb
        generalize (a : K) / R = x at *
        generalize (b : K) / R = y at *
        have hx : 0 ≤ 1 - x := by linarith
        have hy : 0 ≤ 1 - y := by linarith
        obtain ⟨m, hm, l0, l1, l2, l3⟩ : ∃ m : K, 0 < m ∧ m ≤ area2 (v 0) (v 1) (v 3) ∧ m ≤ area2 (v 0) (v 1) (v 2) ∧
            m ≤ area2 (v 2) (v 3) (v 0) ∧ m ≤ area2 (v 2) (v 3) (v 1) :=
          ⟨min (min (area2 (v 0) (v 1) (v 3)) (area2 (v 0) (v 1) (v 2))) (min (area2 (v 2) (v 3) (v 0)) (area2 (v 2) (v 3) (v 1))),
            by simp [A0, A1, A2, A3], by simp, by simp, by simp, by simp⟩
        have e0 := mul_le_mul_of_nonneg_left l0 (mul_nonneg hx hy)
        have e1 := mul_le_mul_of_nonneg_left l1 (mul_nonneg x0 hy)
        have e2 := mul_le_mul_of_nonneg_left l2 (mul_nonneg hx y0)
        have e3 := mul_le_mul_of_nonneg_left l3 (mul_nonneg x0 y0)
        have : (1 - x) * (1 - y) * m + x * (1 - y) * m + (1 - x) * y * m + x * y * m = m := by ring
        linarith
      rcases ht with rfl | rfl
      · simp only
        rw [h4 c4 _ (by omega) _ (by omega), h4 c4 _ (by omega) _ (by omega), h4 c4 _ (by omega) _ (by omega)]
        have := J i j (by omega) (by omega)
        have e : area2 (pt4 R v i j) (pt4 R v (i + 1) j) (pt4 R v i (j + 1)) = ((1 - (i : K) / R) * (1 - (j : K) / R) * area2 (v 0) (v 1) (v 3) +
          (i : K) / R * (1 - (j : K) / R) * area2 (v 0) (v 1) (v 2) +
          (1 - (i : K) / R) * ((j : K) / R) * area2 (v 2) (v 3) (v 0) +
          (i : K) / R * ((j : K) / R) * area2 (v 2) (v 3) (v 1)) / R ^ 2 := by
          simp only [area2, pt4, P2.add_x, P2.add_y, P2.smul_x, P2.smul_y]; push_cast; field_simp; ring
        rw [e]; positivity
      · simp only
        rw [h4 c4 _ (by omega) _ (by omega), h4 c4 _ (by omega) _ (by omega), h4 c4 _ (by omega) _ (by omega)]
        have := J (i + 1) (j + 1) (by omega) (by omega)
        have e : area2 (pt4 R v i (j + 1)) (pt4 R v (i + 1) j) (pt4 R v (i + 1) (j + 1)) = ((1 - ((i + 1 : ℕ) : K) / R) * (1 - ((j + 1 : ℕ) : K) / R) * area2 (v 0) (v 1) (v 3) +
          ((i + 1 : ℕ) : K) / R * (1 - ((j + 1 : ℕ) : K) / R) * area2 (v 0) (v 1) (v 2) +
          (1 - ((i + 1 : ℕ) : K) / R) * (((j + 1 : ℕ) : K) / R) * area2 (v 2) (v 3) (v 0) +
          ((i + 1 : ℕ) : K) / R * (((j + 1 : ℕ) : K) / R) * area2 (v 2) (v 3) (v 1)) / R ^ 2 := by
          simp only [area2, pt4, P2.add_x, P2.add_y, P2.smul_x, P2.smul_y]; push_cast; field_simp; ring
        rw [e]; positivity
    · rw [if_neg c3, if_neg c4] at ht
      simp only [allN, sideN, List.mem_flatMap, List.mem_range, trisN] at ht
      obtain ⟨l, hl, k, hk, i, hi, ht⟩ := ht
      have A : 0 < leftOf d.n v k d.center := hc k hk
      have T1 : 0 < area2 (f (encN d.n l (k * l + i))) (f (encN d.n (l + 1) (k * (l + 1) + i)))
          (f (encN d.n (l + 1) (k * (l + 1) + i + 1))) := by
        rw [show k * (l + 1) + i + 1 = k * (l + 1) + (i + 1) from rfl]
        rw [hN c3 c4 _ (by omega) k hk _ (by omega), hN c3 c4 _ (by omega) k hk _ (by omega), hN c3 c4 _ (by omega) k hk _ (by omega)]
        have : area2 (ptN d.n R d.center v l k i) (ptN d.n R d.center v (l + 1) k i) (ptN d.n R d.center v (l + 1) k (i + 1)) = leftOf d.n v k d.center / R ^ 2 := by
          simp only [leftOf, area2, ptN, prevIx, P2.add_x, P2.add_y, P2.smul_x, P2.smul_y]; push_cast; field_simp; ring
        rw [this]; positivity
      split at ht <;> simp only [List.mem_cons, List.not_mem_nil, or_false] at ht
      · rcases ht with rfl | rfl
        · exact T1
        · simp only
          rw [show k * (l + 1) + i + 1 = k * (l + 1) + (i + 1) from rfl, show k * l + i + 1 = k * l + (i + 1) from rfl]
          rw [hN c3 c4 _ (by omega) k hk _ (by omega), hN c3 c4 _ (by omega) k hk _ (by omega), hN c3 c4 _ (by omega) k hk _ (by omega)]
          have : area2 (ptN d.n R d.center v l k i) (ptN d.n R d.center v (l + 1) k (i + 1)) (ptN d.n R d.center v l k (i + 1)) = leftOf d.n v k d.center / R ^ 2 := by
            simp only [leftOf, area2, ptN, prevIx, P2.add_x, P2.add_y, P2.smul_x, P2.smul_y]; push_cast; field_simp; ring
          rw [this]; positivity
      · subst ht; exact T1

private theorem sum_flatMap_range {α : Type*} (m : ℕ) (g : ℕ → List α) (a : α → K) :
    (((List.range m).flatMap g).map a).sum = ∑ k ∈ Finset.range m, ((g k).map a).sum := by
  induction m with
  | zero => simp
  | succ m ih => rw [List.range_succ, List.flatMap_append, List.map_append, List.sum_append, ih, Finset.sum_range_succ]; simp

private theorem sum_odd (m : ℕ) : ∑ k ∈ Finset.range m, (2 * (k : K) + 1) = (m : K) ^ 2 := by
  induction m with
  | zero => simp
  | succ m ih => rw [Finset.sum_range_succ, ih]; push_cast; ring

/-- C05: the signed areas of the triangles add up to the signed area of the polygon (any polygon). -/
theorem C05_area_sum {d : Domain K} (hn : 3 ≤ d.n) {v : ℕ → P2 K} (hv : d.vertices = tab d.n v)
    {R : ℕ} (hR : 1 ≤ R) : ∃ ts f, meshTopology d.n R = .ok (meshSize d.n R, ts) ∧
      d.parametersImpl R = .ok (tab (meshSize d.n R) f) ∧
      (ts.map fun t => area2 (f t.1) (f t.2.1) (f t.2.2)).sum = polyArea2 d.n v := by
  obtain ⟨f, h1, h3, h4, hN⟩ := parametersImpl_eq hn hv hR
  refine ⟨_, f, meshTopology_eq _ _, h1, ?_⟩
  have hR0 : (0 : K) < R := by exact_mod_cast hR
  have hR0' : (R : K) ≠ 0 := hR0.ne'
  unfold allTris
  by_cases c3 : d.n = 3
  · rw [if_pos c3]
    have key : ∀ i < R, ∀ j < i + 1, ((tris3 i j).map fun t => area2 (f t.1) (f t.2.1) (f t.2.2)).sum =
        (if j < i then 2 else 1) * (area2 (v 0) (v 1) (v 2) / (R : K) ^ 2) := by
      intro i hi j hj
      unfold tris3
      have e1 : area2 (pt3 R v (i + 1) j) (pt3 R v (i + 1) (j + 1)) (pt3 R v i j) = area2 (v 0) (v 1) (v 2) / R ^ 2 := by
        simp only [area2, pt3, P2.add_x, P2.add_y, P2.smul_x, P2.smul_y]; push_cast; field_simp; ring
      split
      · have e2 : area2 (pt3 R v (i + 1) (j + 1)) (pt3 R v i (j + 1)) (pt3 R v i j) = area2 (v 0) (v 1) (v 2) / R ^ 2 := by
          simp only [area2, pt3, P2.add_x, P2.add_y, P2.smul_x, P2.smul_y]; push_cast; field_simp; ring
        simp only [List.map_cons, List.map_nil, List.sum_cons, List.sum_nil]
        rw [h3 c3 _ (by omega) _ (by omega), h3 c3 _ (by omega) _ (by omega), h3 c3 _ (by omega) _ (by omega),
          h3 c3 _ (by omega) _ (by omega), e1, e2]; ring
      · simp only [List.map_cons, List.map_nil, List.sum_cons, List.sum_nil]
        rw [h3 c3 _ (by omega) _ (by omega), h3 c3 _ (by omega) _ (by omega), h3 c3 _ (by omega) _ (by omega), e1]; ring
    unfold all3
    rw [sum_flatMap_range]
    have : ∀ i ∈ Finset.range R, (((List.range (i + 1)).flatMap fun j => tris3 i j).map
        fun t => area2 (f t.1) (f t.2.1) (f t.2.2)).sum = (2 * (i : K) + 1) * (area2 (v 0) (v 1) (v 2) / (R : K) ^ 2) := by
      intro i hi
      rw [sum_flatMap_range, Finset.sum_congr rfl (fun j hj => key i (Finset.mem_range.mp hi) j (Finset.mem_range.mp hj)),
        Finset.sum_range_succ, Finset.sum_congr rfl (fun j hj => by rw [if_pos (Finset.mem_range.mp hj)])]
      simp; ring
    rw [Finset.sum_congr rfl this, ← Finset.sum_mul, sum_odd, c3]
    rw [mul_div_cancel₀ _ (by positivity)]
    simp [polyArea2, Finset.sum_range_succ, area2]; ring
  · by_cases c4 : d.n = 4
    · rw [if_neg c3, if_pos c4]
      obtain ⟨c, hc⟩ : ∃ c, c = area2 (v 0) (v 1) (v 3) := ⟨_, rfl⟩
      obtain ⟨a, ha⟩ : ∃ a, a = area2 (v 0) (v 1) (v 2) - area2 (v 0) (v 1) (v 3) := ⟨_, rfl⟩
      obtain ⟨b, hb⟩ : ∃ b, b = area2 (v 2) (v 3) (v 0) - area2 (v 0) (v 1) (v 3) := ⟨_, rfl⟩
      have key : ∀ i < R, ∀ j < R, ((tris4 R i j).map fun t => area2 (f t.1) (f t.2.1) (f t.2.2)).sum =
          (2 * c + a / R * (2 * (i : K) + 1) + b / R * (2 * (j : K) + 1)) / (R : K) ^ 2 := by
        intro i hi j hj
        unfold tris4
        simp only [List.map_cons, List.map_nil, List.sum_cons, List.sum_nil]
        rw [h4 c4 _ (by omega) _ (by omega), h4 c4 _ (by omega) _ (by omega), h4 c4 _ (by omega) _ (by omega),
          h4 c4 _ (by omega) _ (by omega), hc, ha, hb]
        simp only [area2, pt4, P2.add_x, P2.add_y, P2.smul_x, P2.smul_y]; push_cast; field_simp; ring
      unfold all4
      rw [sum_flatMap_range]
      have : ∀ i ∈ Finset.range R, (((List.range R).flatMap fun j => tris4 R i j).map
          fun t => area2 (f t.1) (f t.2.1) (f t.2.2)).sum = (R * (2 * c + a / R * (2 * (i : K) + 1)) + b * R) / (R : K) ^ 2 := by
        intro i hi
        rw [sum_flatMap_range, Finset.sum_congr rfl (fun j hj => key i (Finset.mem_range.mp hi) j (Finset.mem_range.mp hj)),
          ← Finset.sum_div, Finset.sum_add_distrib, ← Finset.mul_sum, sum_odd]
        simp; field_simp
      rw [Finset.sum_congr rfl this, ← Finset.sum_div, Finset.sum_add_distrib, ← Finset.mul_sum, Finset.sum_add_distrib,
        Finset.sum_const, ← Finset.mul_sum (f := fun x : ℕ => 2 * (x : K) + 1), sum_odd, c4]
      simp only [Finset.sum_const, Finset.card_range, nsmul_eq_mul]
      have : (R * (R * (2 * c) + a / R * (R : K) ^ 2) + R * (b * R)) / (R : K) ^ 2 = 2 * c + a + b := by
        field_simp
      rw [this, hc, ha, hb]
      simp [polyArea2, Finset.sum_range_succ, area2]; ring
    · rw [if_neg c3, if_neg c4]
      have key : ∀ l < R, ∀ k < d.n, ∀ i < l + 1, ((trisN d.n l k i).map fun t => area2 (f t.1) (f t.2.1) (f t.2.2)).sum =
          (if i < l then 2 else 1) * (leftOf d.n v k d.center / (R : K) ^ 2) := by
        intro l hl k hk i hi
        unfold trisN
        have e1 : area2 (ptN d.n R d.center v l k i) (ptN d.n R d.center v (l + 1) k i) (ptN d.n R d.center v (l + 1) k (i + 1)) = leftOf d.n v k d.center / R ^ 2 := by
          simp only [leftOf, area2, ptN, prevIx, P2.add_x, P2.add_y, P2.smul_x, P2.smul_y]; push_cast; field_simp; ring
        rw [show k * (l + 1) + i + 1 = k * (l + 1) + (i + 1) from rfl, show k * l + i + 1 = k * l + (i + 1) from rfl]
        split
        · have e2 : area2 (ptN d.n R d.center v l k i) (ptN d.n R d.center v (l + 1) k (i + 1)) (ptN d.n R d.center v l k (i + 1)) = leftOf d.n v k d.center / R ^ 2 := by
            simp only [leftOf, area2, ptN, prevIx, P2.add_x, P2.add_y, P2.smul_x, P2.smul_y]; push_cast; field_simp; ring
          simp only [List.map_cons, List.map_nil, List.sum_cons, List.sum_nil]
          rw [hN c3 c4 _ (by omega) k hk _ (by omega), hN c3 c4 _ (by omega) k hk _ (by omega), hN c3 c4 _ (by omega) k hk _ (by omega),
            hN c3 c4 _ (by omega) k hk _ (by omega), e1, e2]; ring
        · simp only [List.map_cons, List.map_nil, List.sum_cons, List.sum_nil]
          rw [hN c3 c4 _ (by omega) k hk _ (by omega), hN c3 c4 _ (by omega) k hk _ (by omega), hN c3 c4 _ (by omega) k hk _ (by omega), e1]; ring
      unfold allN
      rw [sum_flatMap_range]
      have : ∀ l ∈ Finset.range R, (((List.range d.n).flatMap fun k => sideN d.n l k).map
          fun t => area2 (f t.1) (f t.2.1) (f t.2.2)).sum =
          (2 * (l : K) + 1) * ((∑ k ∈ Finset.range d.n, leftOf d.n v k d.center) / (R : K) ^ 2) := by
        intro l hl
        rw [sum_flatMap_range]
        have : ∀ k ∈ Finset.range d.n, ((sideN d.n l k).map fun t => area2 (f t.1) (f t.2.1) (f t.2.2)).sum =
            (2 * (l : K) + 1) * (leftOf d.n v k d.center / (R : K) ^ 2) := by
          intro k hk
          unfold sideN
          rw [sum_flatMap_range, Finset.sum_congr rfl (fun j hj => key l (Finset.mem_range.mp hl) k (Finset.mem_range.mp hk) j (Finset.mem_range.mp hj)),
            Finset.sum_range_succ, Finset.sum_congr rfl (fun j hj => by rw [if_pos (Finset.mem_range.mp hj)])]
          simp; ring
        rw [Finset.sum_congr rfl this, ← Finset.mul_sum, Finset.sum_div]
      rw [Finset.sum_congr rfl this, ← Finset.sum_mul, sum_odd, mul_div_cancel₀ _ (by positivity)]
      exact sum_leftOf (by omega) v d.center

/-- C04: conversely, the corner points and all other points dividing a side into `R` equal parts are
mesh points marked by `onEdge`. -/
theorem C04_edgePoint_is_vertex {d : Domain K} (hn : 3 ≤ d.n) (hv : d.vertices.length = d.n) {R : ℕ}
    (hR : 1 ≤ R) {i m : ℕ} (hi : i < d.n) (hm : m ≤ R) : ∃ ps, d.parametersImpl R = .ok ps ∧
      ∃ idx, ∃ h : idx < ps.length, onEdge d.n R idx = true ∧ d.edgePoint i ((m : K) / R) = .ok ps[idx] := by
  have : Inhabited (P2 K) := ⟨0⟩
  obtain ⟨v, hv'⟩ := exists_tab d.vertices
  rw [hv] at hv'
  obtain ⟨f, h1, h3, h4, hN⟩ := parametersImpl_eq hn hv' hR
  refine ⟨_, h1, ?_⟩
  have hR0 : (R : K) ≠ 0 := by exact_mod_cast (show R ≠ 0 by omega)
  suffices h : ∃ idx < meshSize d.n R, onEdge d.n R idx = true ∧ f idx = sidePoint d.n v i ((m : K) / R) by
    obtain ⟨idx, h1, h2, h3⟩ := h
    refine ⟨idx, by simpa using h1, h2, ?_⟩
    rw [edgePoint_eq hv' hi, ← h3]; simp
  by_cases c3 : d.n = 3
  · rw [c3] at hi ⊢
    rw [meshSize3]
    have : i = 0 ∨ i = 1 ∨ i = 2 := by omega
    rcases this with rfl | rfl | rfl
    · refine ⟨enc3 m 0, enc3_lt hm (by omega), (onEdge3 hm (by omega)).mpr (by omega), ?_⟩
      rw [h3 c3 _ hm _ (by omega)]; simp only [sidePoint, pt3]; norm_num; module
    · refine ⟨enc3 R m, enc3_lt le_rfl hm, (onEdge3 le_rfl hm).mpr (by omega), ?_⟩
      rw [h3 c3 _ le_rfl _ hm]; simp only [sidePoint, pt3]; norm_num; rw [sub_div, div_self hR0]; module
    · refine ⟨enc3 (R - m) (R - m), enc3_lt (by omega) le_rfl, (onEdge3 (by omega) le_rfl).mpr (by omega), ?_⟩
      rw [h3 c3 _ (by omega) _ le_rfl]
      simp only [sidePoint, pt3]
      rw [Nat.cast_sub hm, sub_self, zero_div, sub_div, div_self hR0]; norm_num
  · by_cases c4 : d.n = 4
    · rw [c4] at hi ⊢
      rw [meshSize4]
      have : i = 0 ∨ i = 1 ∨ i = 2 ∨ i = 3 := by omega
      rcases this with rfl | rfl | rfl | rfl
      · refine ⟨enc4 R 0 (R - m), enc4_lt (by omega) (by omega), (onEdge4 hR (by omega) (by omega)).mpr (by omega), ?_⟩
        rw [h4 c4 _ (by omega) _ (by omega)]; simp only [sidePoint, pt4]; rw [Nat.cast_sub hm, sub_div, div_self hR0]; norm_num; module
      · refine ⟨enc4 R m 0, enc4_lt (by omega) (by omega), (onEdge4 hR (by omega) (by omega)).mpr (by omega), ?_⟩
        rw [h4 c4 _ (by omega) _ (by omega)]; simp only [sidePoint, pt4]; norm_num
      · refine ⟨enc4 R R m, enc4_lt (by omega) (by omega), (onEdge4 hR (by omega) (by omega)).mpr (by omega), ?_⟩
        rw [h4 c4 _ (by omega) _ (by omega)]; simp only [sidePoint, pt4]; rw [div_self hR0]; norm_num
      · refine ⟨enc4 R (R - m) R, enc4_lt (by omega) (by omega), (onEdge4 hR (by omega) (by omega)).mpr (by omega), ?_⟩
        rw [h4 c4 _ (by omega) _ (by omega)]; simp only [sidePoint, pt4]; rw [Nat.cast_sub hm, sub_div, div_self hR0]; norm_num; module
    · have key : ∀ k < d.n, ∀ j < R, ∃ idx < meshSize d.n R, onEdge d.n R idx = true ∧ f idx = sidePoint d.n v k ((j : K) / R) := by
        intro k hk j hj
        have hlt : encN d.n R (k * R + j) < meshSize d.n R := by
          rw [meshSizeN c3 c4]; exact encN_lt (by omega) (by omega)
        refine ⟨encN d.n R (k * R + j), hlt, ?_, ?_⟩
        · rw [onEdge_iff_loop hn hR hlt]
          exact ⟨k * R + j, pos_lt hk hj, by simp [bLoop, c3, c4]⟩
        · rw [hN c3 c4 R le_rfl k hk j (by omega)]
          simp only [sidePoint, ptN, prevIx]; rw [div_self hR0]; module
      rcases Nat.lt_or_ge m R with h | h
      · exact key i hi m h
      · have hmR : m = R := by omega
        subst hmR
        obtain ⟨idx, a, b, e⟩ := key (nextIx d.n i) (nextIx_lt (by omega)) 0 (by omega)
        refine ⟨idx, a, b, ?_⟩
        rw [e]
        have := prevIx_nextIx hi
        simp only [prevIx] at this
        simp only [sidePoint, this]; rw [div_self hR0]; norm_num

/-- A strictly convex pentagon with a centre in its inside: the hypotheses of C04 and C05 can be met. -/
def samplePentagon : Domain ℚ :=
  ⟨5, ⟨0, 0⟩, [⟨2, -1⟩, ⟨2, 1⟩, ⟨0, 2⟩, ⟨-2, 1⟩, ⟨-1, -2⟩], [], []⟩

example : samplePentagon.vertices = tab samplePentagon.n (fun i => samplePentagon.vertices.getD i 0) ∧
    StrictConvex samplePentagon.n (fun i => samplePentagon.vertices.getD i 0) ∧
    Inside samplePentagon.n (fun i => samplePentagon.vertices.getD i 0) samplePentagon.center := by
  unfold StrictConvex Inside
  decide +kernel

example : ∃ ps, samplePentagon.parametersImpl 2 = .ok ps ∧ ps.length = 16 ∧ ps[6]? = some ⟨-1, -2⟩ ∧
    ps[7]? = some ⟨1/2, -3/2⟩ :=
  ⟨_, rfl, by decide +kernel, by decide +kernel, by decide +kernel⟩

end Transfinite
