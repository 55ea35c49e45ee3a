import Verif.Lemmas.MeshAll
import Mathlib.Analysis.Real.Pi.Bounds

/-! # C04 on the disc: the points of the mesh -/

namespace Transfinite

open Spec Domain

/-- The points of the mesh of a disc, by ring, side and position. -/
theorem circleParams_eq {n R : ℕ} (hn : 0 < n) (hR : 1 ≤ R) :
    ∃ ps, circleParams (K := ℝ) n R = .ok ps ∧ ps.length = ringStart n (R + 1) ∧ ps[0]? = some 0 ∧
      ∀ L, 1 ≤ L → L ≤ R → ∀ k < n, ∀ i < L, ps[ringStart n L + (k * L + i)]? = some ⟨(L : ℝ) / R, (k + (i : ℝ) / L) * 2 * Real.pi / n⟩ := by
  have hR0 : (R : ℝ) ≠ 0 := by exact_mod_cast (show R ≠ 0 by omega)
  have hn0 : (n : ℝ) ≠ 0 := by exact_mod_cast hn.ne'
  set pt : ℕ → ℕ → ℕ → P2 ℝ := fun L k i => ⟨(L : ℝ) / R, (k + (i : ℝ) / L) * 2 * Real.pi / n⟩ with hpt
  have hin : ∀ l, ((List.range n).flatMap fun k => tab (l + 1) (pt (l + 1) k)).length = n * (l + 1) := by
    intro l
    rw [length_flatMap_range n _ (fun k => k * (l + 1)) (by simp)]
    intro k _; rw [length_tab]; ring
  refine ⟨0 :: (List.range R).flatMap fun l => (List.range n).flatMap fun k => tab (l + 1) (pt (l + 1) k), ?_, ?_, ?_, ?_⟩
  · unfold circleParams
    rw [forLoop_flatMap R _ (fun l => (List.range n).flatMap fun k => tab (l + 1) (pt (l + 1) k))]
    · simp
    · intro l s _
      dsimp only
      rw [fdiv_of_ne hR0]
      simp only [M_bind_ok]
      rw [forLoop_flatMap n _ (fun k => tab (l + 1) (pt (l + 1) k))]
      intro k s hk
      rw [forLoop_push (l + 1) _ (pt (l + 1) k)]
      intro i s hi
      have hl0 : ((l + 1 : ℕ) : ℝ) ≠ 0 := by exact_mod_cast Nat.succ_ne_zero l
      rw [fdiv_of_ne hl0, M_bind_ok, fdiv_of_ne hn0, M_bind_ok]
      rfl
  · rw [List.length_cons, length_flatMap_range R _ (fun l => n * triNum l) (by simp)]
    · simp only [ringStart]; ring
    · intro l _; rw [hin, triNum_succ]; ring
  · simp
  · intro L h1 hL k hk i hi
    obtain ⟨l, rfl⟩ : ∃ l, L = l + 1 := ⟨L - 1, by omega⟩
    have e : ringStart n (l + 1) + (k * (l + 1) + i) = (n * triNum l + (k * (l + 1) + i)) + 1 := by
      simp only [ringStart]; ring
    rw [e, List.getElem?_cons_succ]
    rw [getElem?_flatMap_range R _ (fun l => n * triNum l) (by simp)
      (by intro l _; rw [hin, triNum_succ]; ring) (by omega)
      (by rw [hin]; exact pos_lt hk hi)]
    rw [getElem?_flatMap_range n _ (fun k => k * (l + 1)) (by simp)
      (by intro k _; rw [length_tab]; ring) hk (by rw [length_tab]; exact hi)]
    simp [tab, hi, hpt]

/-- C04 on the disc: there is a point for every index of the mesh, and it is in the disc. The `onEdge` ones are on the boundary: the `i`-th one on side `k` is
the edge point of this side at `i / R`. All others are in the interior. (The points are in polar coordinates.) -/
theorem C04_circle {n R : ℕ} (hn : 3 ≤ n) (hR : 1 ≤ R) : ∃ ps, circleParams (K := ℝ) n R = .ok ps ∧ ps.length = circleMeshSize n R ∧
    (∀ idx (h : idx < ps.length), 0 ≤ ps[idx].x ∧ 0 ≤ ps[idx].y ∧ ps[idx].y < 2 * Real.pi ∧
      if circleOnEdge n R idx then ∃ k < n, ∃ i < R, circleEdgePoint n k ((i : ℝ) / R) = .ok ps[idx] else ps[idx].x < 1) ∧
    ∀ k < n, ∀ i < R, ∃ idx, ∃ h : idx < ps.length, circleOnEdge n R idx = true ∧ circleEdgePoint n k ((i : ℝ) / R) = .ok ps[idx] := by
  obtain ⟨ps, h1, h2, h3, h4⟩ := circleParams_eq (show 0 < n by omega) hR
  have hpi := Real.pi_pos
  have hR0 : (0 : ℝ) < R := by exact_mod_cast hR
  have hn0 : (0 : ℝ) < n := by exact_mod_cast (by omega : 0 < n)
  have ed : ∀ k i : ℕ, circleEdgePoint n k ((i : ℝ) / R) = .ok ⟨1, (k + (i : ℝ) / R) * 2 * Real.pi / n⟩ := by
    intro k i
    unfold circleEdgePoint
    rw [fdiv_of_ne hn0.ne', M_bind_ok]
    rfl
  have on : ∀ L, 1 ≤ L → L ≤ R → ∀ k < n, ∀ i < L, (circleOnEdge n R (ringStart n L + (k * L + i)) = true ↔ L = R) := by
    intro L l1 l2 k hk i hi
    unfold circleOnEdge
    rw [decide_eq_true_eq, ge_iff_le, circleMeshSize_eq, ringStart_succ' n hR, Nat.add_sub_cancel]
    constructor
    · intro w
      by_contra q
      have a := ringStart_mono n (show L + 1 ≤ R by omega)
      rw [ringStart_succ' n l1] at a
      have := pos_lt hk hi
      omega
    · rintro rfl
      omega
  refine ⟨ps, h1, by rw [h2, circleMeshSize_eq], fun idx h => ?_, fun k hk i hi => ?_⟩
  · rcases encN_exists (by rw [← h2]; exact h) with rfl | ⟨L, l1, l2, k, hk, i, hi, rfl⟩
    · have e : ps[0] = 0 := by
        have := h3
        rw [List.getElem?_eq_getElem h] at this
        exact Option.some.inj this
      rw [e]
      refine ⟨le_rfl, le_rfl, by change (0 : ℝ) < _; positivity, ?_⟩
      rw [if_neg]
      · exact one_pos
      · unfold circleOnEdge
        rw [decide_eq_true_eq, circleMeshSize_eq, ringStart_succ' n hR, Nat.add_sub_cancel]
        have : 1 ≤ ringStart n R := by
          obtain ⟨l, rfl⟩ : ∃ l, R = l + 1 := ⟨R - 1, by omega⟩
          exact Nat.le_add_right _ _
        omega
    · have e : ps[ringStart n L + (k * L + i)] = ⟨(L : ℝ) / R, (k + (i : ℝ) / L) * 2 * Real.pi / n⟩ := by
        have := h4 L l1 l2 k hk i hi
        rw [List.getElem?_eq_getElem h] at this
        exact Option.some.inj this
      have hL0 : (0 : ℝ) < L := by exact_mod_cast l1
      have f1 : (i : ℝ) / L < 1 := by rw [div_lt_one hL0]; exact_mod_cast hi
      rw [e]
      refine ⟨by positivity, by positivity, ?_, ?_⟩
      · dsimp only
        rw [div_lt_iff₀ hn0]
        have : (k : ℝ) + 1 ≤ n := by exact_mod_cast hk
        nlinarith
      · split_ifs with q
        · obtain rfl := (on L l1 l2 k hk i hi).mp q
          exact ⟨k, hk, i, hi, by rw [ed, div_self hL0.ne']⟩
        · have : L < R := lt_of_le_of_ne l2 fun w => q ((on L l1 l2 k hk i hi).mpr w)
          rw [div_lt_one hR0]
          exact_mod_cast this
  · have hb : ringStart n R + (k * R + i) < ps.length := by
      rw [h2, ringStart_succ' n hR]
      have := pos_lt hk hi
      omega
    refine ⟨_, hb, (on R hR le_rfl k hk i hi).mpr rfl, ?_⟩
    have := h4 R hR le_rfl k hk i hi
    rw [List.getElem?_eq_getElem hb] at this
    rw [ed, Option.some.inj this, div_self hR0.ne']

/-- A disc with five sides and resolution 7. -/
example : 3 ≤ 5 ∧ 1 ≤ 7 ∧ circleMeshSize 5 7 = 141 ∧ circleOnEdge 5 7 106 = true ∧ circleOnEdge 5 7 105 = false := by decide

end Transfinite
