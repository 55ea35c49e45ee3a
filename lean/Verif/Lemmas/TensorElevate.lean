import Verif.Props.GenBezierElevate
import Verif.Props.Tensor

/-! Degree elevation of four-sided Generalized Bézier patches. -/

namespace Transfinite

open Spec

namespace GB

variable {ε : ℝ} {arc : List (P3 ℝ) → ℝ → ℝ → ℝ} {n d : ℕ} {calls : List (Call ℝ)} {S : GB ℝ}

/-- All points set by `elevateDegree`. -/
theorem elevate_net (hn : 3 ≤ n) (hd : 1 ≤ d) {kind : GBKind ℝ} (hS : Usable ε arc kind n d calls S) {s : ℕ → ℕ → ℕ → P3 ℝ} (hs : HasNet S n d s) (g0 l0 : ℕ) :
    ∃ (R : GB ℝ) (W : List (Name × P3 ℝ)), S.elevateDegree arc g0 l0 = .ok R ∧ (∀ x ∈ W, x.1.InRange n (d + 1)) ∧
      (∀ x ∈ W, (x.1.row = 0 ∧ x.1.col ≤ d ∧ x.2 = ((x.1.col : ℝ) / ((d + 1 : ℕ) : ℝ)) • s x.1.side (x.1.col - 1) 0 + (1 - (x.1.col : ℝ) / ((d + 1 : ℕ) : ℝ)) • s x.1.side x.1.col 0) ∨
        (1 ≤ x.1.col ∧ x.1.col ≤ (d + 1) / 2 ∧ 1 ≤ x.1.row ∧ x.1.row < (d + 1 + 1) / 2 ∧
          ∃ p, S.elevateUpper n (d + 1) x.1.side x.1.col x.1.row = .ok p ∧ x.2 = (((x.1.col : ℕ) : ℝ) / ((d + 1 : ℕ) : ℝ) * (((x.1.row : ℕ) : ℝ) / ((d + 1 : ℕ) : ℝ))) • s x.1.side (x.1.col - 1) (x.1.row - 1) +
            ((1 - ((x.1.col : ℕ) : ℝ) / ((d + 1 : ℕ) : ℝ)) * (((x.1.row : ℕ) : ℝ) / ((d + 1 : ℕ) : ℝ))) • s x.1.side x.1.col (x.1.row - 1) +
            ((((x.1.col : ℕ) : ℝ) / ((d + 1 : ℕ) : ℝ)) * (1 - ((x.1.row : ℕ) : ℝ) / ((d + 1 : ℕ) : ℝ))) • p.1 +
            ((1 - ((x.1.col : ℕ) : ℝ) / ((d + 1 : ℕ) : ℝ)) * (1 - ((x.1.row : ℕ) : ℝ) / ((d + 1 : ℕ) : ℝ))) • p.2)) ∧
      (∀ a : Name, a.InRange n (d + 1) → ∀ y, (∀ x ∈ W, SamePoint n (d + 1) a x.1 → x.2 = y) → R.controlPoint a.side a.col a.row = .ok y) ∧
      ∀ f : ℕ → P3 ℝ, (∀ i < n, R.controlPoint i ((d + 1 + 1) / 2) ((d + 1 + 1) / 2 - 1) = .ok (f i)) → R.central = (1 / (n : ℝ)) • ∑ i ∈ Finset.range n, f i := by
  obtain ⟨hi, _, hdn, _, _⟩ := hS.state (by omega)
  obtain ⟨w, hw, hwr, hwcov, -, hwv⟩ := inner_eq hs
  set l := (d + 1 + 1) / 2 with hl
  set W := wCorners n s ++ wBoundary n (d + 1) s ++ w with hW
  have hWr : ∀ x ∈ W, x.1.InRange n (d + 1) := by
    intro x hx
    rw [hW, List.mem_append, List.mem_append] at hx
    rcases hx with (hx | hx) | hx
    · simp only [wCorners, List.mem_flatMap, List.mem_range, List.mem_singleton] at hx
      obtain ⟨i, hi, rfl⟩ := hx
      exact ⟨hi, by dsimp only; omega, by dsimp only; omega⟩
    · simp only [wBoundary, List.mem_flatMap, List.mem_range, List.mem_singleton] at hx
      obtain ⟨j, hj, i, hi, rfl⟩ := hx
      exact ⟨hi, by dsimp only; omega, by dsimp only; omega⟩
    · obtain ⟨h1, h2, h3, h4, h5⟩ := hwr x hx
      exact ⟨h1, by omega, h5⟩
  have hne : ¬(n = (GB.new .side g0 l0 : GB ℝ).n ∧ d + 1 = (GB.new .side g0 l0 : GB ℝ).degree) := by
    rintro ⟨h, -⟩
    change n = 0 at h
    omega
  set R0 := (GB.new .side g0 l0 : GB ℝ).initBase n (d + 1) with hR0
  have hN0 : HasNet R0 n (d + 1) (fun _ _ _ => 0) := initBase_net hne
  obtain ⟨R1, e1, q1, hN1⟩ := sets_eq hWr hN0
  obtain ⟨c, ec, hcC⟩ : ∃ c, elevateCentre n l R1 = .ok (R1.setCentral c) ∧
      ∀ f : ℕ → P3 ℝ, (∀ i < n, R1.controlPoint i l (l - 1) = .ok (f i)) → c = (1 / (n : ℝ)) • ∑ i ∈ Finset.range n, f i := by
    unfold elevateCentre
    rw [forLoop_sum n _ (fun i => _) 0 (fun i c hi => by
      rw [usub_of_le (show 1 ≤ l by omega), show R1.controlPoint i l (l - 1) = _ from hN1.cpt hi (by omega) (by omega), M_bind_ok]), M_bind_ok, fdiv_of_ne (by positivity), M_bind_ok]
    refine ⟨_, rfl, fun f hf => ?_⟩
    rw [zero_add]
    congr 1
    refine Finset.sum_congr rfl fun i hi => ?_
    have hi := Finset.mem_range.mp hi
    have := hf i hi
    rw [show R1.controlPoint i l (l - 1) = _ from hN1.cpt hi (by omega) (by omega)] at this
    exact Except.ok.inj this
  have hN2 : HasNet (R1.setCentral c) n (d + 1) _ := ⟨hN1.n_eq, hN1.degree, hN1.layers, hN1.nets⟩
  obtain ⟨R3, e3⟩ := setupLoop_total (arc := arc) hN2 hn (by omega)
  have k3 := setupLoop_keeps e3
  have hN3 := k3.hasNet hN2
  have hcov : ∀ a : Name, a.InRange n (d + 1) → ∃ x ∈ W, SamePoint n (d + 1) a x.1 := by
    have h1 : ∀ i < n, ∀ j ≤ (d + 1) / 2, ∀ k < l, ∃ x ∈ W, SamePoint n (d + 1) ⟨i, j, k⟩ x.1 := by
      have h0 : ∀ i < n, ∀ j < d + 1, ∃ x ∈ W, x.1 = ⟨i, j, 0⟩ := by
        intro i hi j hj
        by_cases c0 : j = 0
        · subst c0
          exact ⟨(⟨i, 0, 0⟩, s i 0 0), by rw [hW]; simp [wCorners, hi], rfl⟩
        · obtain ⟨j, rfl⟩ := Nat.exists_eq_add_of_le' (Nat.pos_of_ne_zero c0)
          refine ⟨(⟨i, j + 1, 0⟩, (((j + 1 : ℕ) : ℝ) / ((d + 1 : ℕ) : ℝ)) • s i j 0 + (1 - ((j + 1 : ℕ) : ℝ) / ((d + 1 : ℕ) : ℝ)) • s i (j + 1) 0), ?_, rfl⟩
          rw [hW]
          refine List.mem_append_left _ (List.mem_append_right _ ?_)
          simp only [wBoundary, List.mem_flatMap, List.mem_range, List.mem_singleton]
          exact ⟨j, by omega, i, hi, rfl⟩
      intro i hi j hj k hk
      by_cases c0 : k = 0
      · subst c0
        obtain ⟨x, hx, e⟩ := h0 i hi j (by omega)
        exact ⟨x, hx, Or.inl e.symm⟩
      · by_cases c1 : j = 0
        · subst c1
          obtain ⟨x, hx, e⟩ := h0 ((i + n - 1) % n) (Nat.mod_lt _ (by omega)) (d + 1 - k) (by omega)
          exact ⟨x, hx, Or.inr (Or.inl ⟨by dsimp only; omega, hk, e⟩)⟩
        · obtain ⟨x, hx, e⟩ := hwcov i hi j (by omega) hj k (by omega) hk
          exact ⟨x, by rw [hW]; exact List.mem_append_right _ hx, Or.inl e.symm⟩
    rintro ⟨i, j, k⟩ ⟨hi, hj, hk⟩
    dsimp only at hi hj hk
    by_cases c0 : j ≤ (d + 1) / 2
    · exact h1 i hi j c0 k hk
    · have hnx : (i + 1) % n < n := Nat.mod_lt _ (by omega)
      obtain ⟨x, hx, e⟩ := h1 ((i + 1) % n) hnx k (by omega) (d + 1 - j) (by omega)
      refine ⟨x, hx, samePoint_trans hi (hWr x hx).1 (Or.inr (Or.inr ⟨hk, by dsimp only; omega, ?_⟩)) e⟩
      simp only [Name.mk.injEq]
      exact ⟨(prevIx_nextIx hi).symm, by omega, trivial⟩
  refine ⟨R3, W, ?_, hWr, ?_, ?_, ?_⟩
  · unfold elevateDegree
    dsimp only
    rw [hi.len, hdn, hs.degree, show (GB.new .side g0 l0 : GB ℝ).initNetwork n (d + 1) = .ok R0 from rfl, M_bind_ok, show R0.layers = l from hN0.layers,
      corners_eq hs hd]
    rw [hW, sets_append, sets_append] at e1
    cases x1 : sets (wCorners n s) R0 with
    | error er => rw [x1] at e1; cases e1
    | ok X1 =>
      rw [x1, M_bind_ok] at e1
      rw [M_bind_ok, boundaryPts_eq hs hd]
      cases x2 : sets (wBoundary n (d + 1) s) X1 with
      | error er => rw [x2] at e1; cases e1
      | ok X2 =>
        rw [x2, M_bind_ok] at e1
        rw [M_bind_ok, hw, e1, M_bind_ok, ec, M_bind_ok, e3]
  · intro x hx
    rw [hW, List.mem_append, List.mem_append] at hx
    rcases hx with (hx | hx) | hx
    · simp only [wCorners, List.mem_flatMap, List.mem_range, List.mem_singleton] at hx
      obtain ⟨i, hi, rfl⟩ := hx
      exact Or.inl ⟨rfl, by dsimp only; omega, by simp⟩
    · simp only [wBoundary, List.mem_flatMap, List.mem_range, List.mem_singleton] at hx
      obtain ⟨j, hj, i, hi, rfl⟩ := hx
      exact Or.inl ⟨rfl, by dsimp only; omega, rfl⟩
    · obtain ⟨h1, h2, h3, h4, h5⟩ := hwr x hx
      exact Or.inr ⟨h2, h3, h4, h5, hwv x hx⟩
  · intro a ha y h1
    rw [show R3.controlPoint a.side a.col a.row = _ from hN3.cpt ha.1 ha.2.1 ha.2.2]
    exact congrArg _ (foldl_const h1 _ (Or.inr (hcov a ha)))
  · intro f hf
    rw [k3.central]
    refine hcC f fun i hi => ?_
    rw [← hf i hi]
    unfold controlPoint
    rw [k3.nets]
    rfl

/-- The grid point of a name seen from the previous side. -/
theorem gridPlace_prev {i j k : ℕ} (hi : i < 4) (hj : j ≤ d) (hk : k ≤ d) : gridPlace d (prevIx 4 i) (d - k) j = gridPlace d i j k := by
  interval_cases i <;> simp [gridPlace, prevIx] <;> omega

theorem gridPlace_same {a b : Name} (ha : a.InRange 4 d) (hb : b.InRange 4 d) (h : SamePoint 4 d a b) : gridPlace d a.side a.col a.row = gridPlace d b.side b.col b.row := by
  have key : ∀ {a b : Name}, a.InRange 4 d → AtCorner 4 d a b → gridPlace d a.side a.col a.row = gridPlace d b.side b.col b.row := by
    rintro ⟨i, j, k⟩ b ⟨h1, h2, h3⟩ ⟨_, _, rfl⟩
    exact (gridPlace_prev h1 h2 (by dsimp only at h3 ⊢; omega)).symm
  rcases h with rfl | h | h
  · rfl
  · exact key ha h
  · exact (key hb h).symm

end GB

end Transfinite
