import Verif.Model.GBFit
import Verif.Lemmas.GenBezierSets
import Verif.Props.GenBezier
import Verif.Props.Utilities
import Mathlib.Analysis.Convex.Basic
import Mathlib.Analysis.Convex.Combination

/-! # C48: degree elevation of Generalized Bézier patches -/

namespace Transfinite

open Spec Param

namespace GB

section

variable {n e : ℕ} {S : GB ℝ} {s : ℕ → ℕ → ℕ → P3 ℝ}

/-- The points set by `elevateCorners`. -/
noncomputable def wCorners (n : ℕ) (s : ℕ → ℕ → ℕ → P3 ℝ) : List (Name × P3 ℝ) := (List.range n).flatMap fun i => [(⟨i, 0, 0⟩, s i 0 0)]

/-- The points set by `elevateBoundary` (of degree `d`). -/
noncomputable def wBoundary (n d : ℕ) (s : ℕ → ℕ → ℕ → P3 ℝ) : List (Name × P3 ℝ) :=
  (List.range (d - 1)).flatMap fun j => (List.range n).flatMap fun i =>
    [(⟨i, j + 1, 0⟩, (((j + 1 : ℕ) : ℝ) / (d : ℝ)) • s i j 0 + (1 - ((j + 1 : ℕ) : ℝ) / (d : ℝ)) • s i (j + 1) 0)]

theorem corners_eq (h : HasNet S n e s) (he : 1 ≤ e) (R : GB ℝ) : S.elevateCorners n R = sets (wCorners n s) R := by
  refine forLoop_sets (fun i hi R => ?_) R
  rw [show S.controlPoint i 0 0 = _ from h.cpt hi (by omega) (by omega), M_bind_ok, sets_single]

theorem boundaryPts_eq (h : HasNet S n e s) (he : 1 ≤ e) (R : GB ℝ) : S.elevateBoundary n (e + 1) R = sets (wBoundary n (e + 1) s) R := by
  refine forLoop_sets (fun j hj R => ?_) R
  dsimp only
  rw [fdiv_of_ne (by positivity), M_bind_ok]
  refine forLoop_sets (fun i hi R => ?_) R
  rw [Nat.add_sub_cancel, show S.controlPoint i j 0 = _ from h.cpt hi (by omega) (by omega), M_bind_ok, show S.controlPoint i (j + 1) 0 = _ from h.cpt hi (by omega) (by omega), M_bind_ok, sets_single]

/-- A point of the network. -/
def NetPoint (S : GB ℝ) (n e : ℕ) (s : ℕ → ℕ → ℕ → P3 ℝ) (p : P3 ℝ) : Prop :=
  p = S.central ∨ ∃ i < n, ∃ j ≤ e, ∃ k < (e + 1) / 2, p = s i j k

theorem netPoint {i j k : ℕ} (hi : i < n) (hj : j ≤ e) (hk : k < (e + 1) / 2) : NetPoint S n e s (s i j k) := Or.inr ⟨i, hi, j, hj, k, hk, rfl⟩

theorem upper_ok (h : HasNet S n e s) {i j k : ℕ} (hi : i < n) (hj : j ≤ (e + 1) / 2) (hj1 : 1 ≤ j) (hk : k < (e + 1 + 1) / 2) (hk1 : 1 ≤ k) :
    ∃ p, S.elevateUpper n (e + 1) i j k = .ok p ∧ NetPoint S n e s p.1 ∧ NetPoint S n e s p.2 := by
  have hp : (i + n - 1) % n < n := Nat.mod_lt _ (by omega)
  have hlast : ¬((e + 1) % 2 = 0 ∨ k < (e + 1) / 2) → ∃ p, S.elevateLast n (e + 1) i j k = .ok p ∧ NetPoint S n e s p := by
    intro c
    unfold elevateLast
    split_ifs with hjd
    · exact ⟨_, rfl, Or.inl rfl⟩
    · rw [usub_of_le (show k ≤ e + 1 by omega), usub_of_le (show 1 ≤ e + 1 - k by omega)]
      exact ⟨_, h.cpt hp (by omega) (by omega), netPoint hp (by omega) (by omega)⟩
  unfold elevateUpper
  by_cases c : (e + 1) % 2 = 0 ∨ k < (e + 1) / 2
  · rw [if_pos c, show S.controlPoint i (j - 1) k = _ from h.cpt hi (by omega) (by omega), M_bind_ok, show S.controlPoint i j k = _ from h.cpt hi (by omega) (by omega), M_bind_ok]
    exact ⟨_, rfl, netPoint hi (by omega) (by omega), netPoint hi (by omega) (by omega)⟩
  · obtain ⟨p, ep, np⟩ := hlast c
    rw [if_neg c, usub_of_le (show k ≤ e + 1 by omega), usub_of_le (show 1 ≤ e + 1 - k by omega)]
    rw [show S.controlPoint ((i + n - 1) % n) (e + 1 - k - 1) (j - 1) = _ from h.cpt hp (by omega) (by omega), M_bind_ok, ep, M_bind_ok]
    exact ⟨_, rfl, netPoint hp (by omega) (by omega), np⟩

/-- The other points have indices away from the boundary. -/
theorem inner_eq (h : HasNet S n e s) : ∃ w : List (Name × P3 ℝ), (∀ R, S.elevateInner n (e + 1) ((e + 1 + 1) / 2) R = sets w R) ∧
    (∀ x ∈ w, x.1.side < n ∧ 1 ≤ x.1.col ∧ x.1.col ≤ (e + 1) / 2 ∧ 1 ≤ x.1.row ∧ x.1.row < (e + 1 + 1) / 2) ∧
    (∀ i < n, ∀ j, 1 ≤ j → j ≤ (e + 1) / 2 → ∀ k, 1 ≤ k → k < (e + 1 + 1) / 2 → ∃ x ∈ w, x.1 = ⟨i, j, k⟩) ∧
    (∀ C : Set (P3 ℝ), Convex ℝ C → (∀ p, NetPoint S n e s p → p ∈ C) → ∀ x ∈ w, x.2 ∈ C) ∧
    ∀ x ∈ w, ∃ p, S.elevateUpper n (e + 1) x.1.side x.1.col x.1.row = .ok p ∧ x.2 = (((x.1.col : ℕ) : ℝ) / ((e + 1 : ℕ) : ℝ) * (((x.1.row : ℕ) : ℝ) / ((e + 1 : ℕ) : ℝ))) • s x.1.side (x.1.col - 1) (x.1.row - 1) +
      ((1 - ((x.1.col : ℕ) : ℝ) / ((e + 1 : ℕ) : ℝ)) * (((x.1.row : ℕ) : ℝ) / ((e + 1 : ℕ) : ℝ))) • s x.1.side x.1.col (x.1.row - 1) +
      ((((x.1.col : ℕ) : ℝ) / ((e + 1 : ℕ) : ℝ)) * (1 - ((x.1.row : ℕ) : ℝ) / ((e + 1 : ℕ) : ℝ))) • p.1 + ((1 - ((x.1.col : ℕ) : ℝ) / ((e + 1 : ℕ) : ℝ)) * (1 - ((x.1.row : ℕ) : ℝ) / ((e + 1 : ℕ) : ℝ))) • p.2 := by
  have key : ∀ j < (e + 1) / 2, ∀ k < (e + 1 + 1) / 2 - 1, ∀ i < n, ∃ p : P3 ℝ × P3 ℝ, S.elevateUpper n (e + 1) i (j + 1) (k + 1) = .ok p ∧ NetPoint S n e s p.1 ∧ NetPoint S n e s p.2 := fun j hj k hk i hi =>
    upper_ok h hi (by omega) (by omega) (by omega) (by omega)
  choose! P hP using key
  refine ⟨(List.range ((e + 1) / 2)).flatMap fun j => (List.range ((e + 1 + 1) / 2 - 1)).flatMap fun k => (List.range n).flatMap fun i =>
    [(⟨i, j + 1, k + 1⟩, ((((j + 1 : ℕ) : ℝ) / ((e + 1 : ℕ) : ℝ)) * (((k + 1 : ℕ) : ℝ) / ((e + 1 : ℕ) : ℝ))) • s i j k +
      ((1 - ((j + 1 : ℕ) : ℝ) / ((e + 1 : ℕ) : ℝ)) * (((k + 1 : ℕ) : ℝ) / ((e + 1 : ℕ) : ℝ))) • s i (j + 1) k +
      ((((j + 1 : ℕ) : ℝ) / ((e + 1 : ℕ) : ℝ)) * (1 - ((k + 1 : ℕ) : ℝ) / ((e + 1 : ℕ) : ℝ))) • (P j k i).1 +
      ((1 - ((j + 1 : ℕ) : ℝ) / ((e + 1 : ℕ) : ℝ)) * (1 - ((k + 1 : ℕ) : ℝ) / ((e + 1 : ℕ) : ℝ))) • (P j k i).2)], fun R => ?_, ?_, ?_, ?_, ?_⟩
  · refine forLoop_sets (fun j hj R => ?_) R
    dsimp only
    rw [fdiv_of_ne (by positivity), M_bind_ok]
    refine forLoop_sets (fun k hk R => ?_) R
    rw [fdiv_of_ne (by positivity), M_bind_ok]
    refine forLoop_sets (fun i hi R => ?_) R
    rw [Nat.add_sub_cancel, Nat.add_sub_cancel, show S.controlPoint i j k = _ from h.cpt hi (by omega) (by omega), M_bind_ok,
      show S.controlPoint i (j + 1) k = _ from h.cpt hi (by omega) (by omega), M_bind_ok, (hP j hj k hk i hi).1, M_bind_ok, sets_single]
  · intro x hx
    simp only [List.mem_flatMap, List.mem_range, List.mem_singleton] at hx
    obtain ⟨j, hj, k, hk, i, hi, rfl⟩ := hx
    exact ⟨hi, by dsimp only; omega, by dsimp only; omega, by dsimp only; omega, by dsimp only; omega⟩
  · intro i hi j h1 h2 k h3 h4
    obtain ⟨j, rfl⟩ := Nat.exists_eq_add_of_le' h1
    obtain ⟨k, rfl⟩ := Nat.exists_eq_add_of_le' h3
    refine ⟨_, List.mem_flatMap.mpr ⟨j, List.mem_range.mpr (by omega), List.mem_flatMap.mpr ⟨k, List.mem_range.mpr (by omega),
      List.mem_flatMap.mpr ⟨i, List.mem_range.mpr hi, List.mem_singleton.mpr rfl⟩⟩⟩, rfl⟩
  · intro C hC hin x hx
    simp only [List.mem_flatMap, List.mem_range, List.mem_singleton] at hx
    obtain ⟨j, hj, k, hk, i, hi, rfl⟩ := hx
    dsimp only
    obtain ⟨_, n3, n4⟩ := hP j hj k hk i hi
    have n1 := hin _ (netPoint (S := S) (s := s) hi (show j ≤ e by omega) (show k < (e + 1) / 2 by omega))
    have n2 := hin _ (netPoint (S := S) (s := s) hi (show j + 1 ≤ e by omega) (show k < (e + 1) / 2 by omega))
    have n3 := hin _ n3
    have n4 := hin _ n4
    have he : (0 : ℝ) < ((e + 1 : ℕ) : ℝ) := by positivity
    set η : ℝ := ((j + 1 : ℕ) : ℝ) / ((e + 1 : ℕ) : ℝ) with hη
    set θ : ℝ := ((k + 1 : ℕ) : ℝ) / ((e + 1 : ℕ) : ℝ) with hθ
    have η0 : 0 ≤ η := by positivity
    have θ0 : 0 ≤ θ := by positivity
    have η1 : 0 ≤ 1 - η := by rw [sub_nonneg, hη, div_le_one he]; exact_mod_cast (by omega : j + 1 ≤ e + 1)
    have θ1 : 0 ≤ 1 - θ := by rw [sub_nonneg, hθ, div_le_one he]; exact_mod_cast (by omega : k + 1 ≤ e + 1)
    have := hC (hC n1 n3 θ0 θ1 (by ring)) (hC n2 n4 θ0 θ1 (by ring)) η0 η1 (by ring)
    convert this using 1
    simp only [smul_add, smul_smul]
    abel
  · intro x hx
    simp only [List.mem_flatMap, List.mem_range, List.mem_singleton] at hx
    obtain ⟨j, hj, k, hk, i, hi, rfl⟩ := hx
    exact ⟨_, (hP j hj k hk i hi).1, rfl⟩

end

section

variable {ε : ℝ} {arc : List (P3 ℝ) → ℝ → ℝ → ℝ} {n d : ℕ} {calls : List (Call ℝ)} {S : GB ℝ}

/-- Curves with elevated control points. -/
theorem bezier_elevated {e : ℕ} (he : 1 ≤ e) {p q : ℕ → P3 ℝ} (h0 : q 0 = p 0) (h1 : q (e + 1) = p e)
    (h : ∀ j, 1 ≤ j → j ≤ e → q j = ((j : ℝ) / ((e + 1 : ℕ) : ℝ)) • p (j - 1) + (1 - (j : ℝ) / ((e + 1 : ℕ) : ℝ)) • p j) (u : ℝ) : bezier (e + 1) q u = bezier e p u := by
  obtain ⟨q', e1, e2, e3, e4⟩ := C56_bezierElevate e p
  rw [← e4 u]
  have e5 := e1.symm.trans (bezierElevate_eq e p)
  have e6 := Except.ok.inj e5
  unfold bezier
  refine Finset.sum_congr rfl fun j hj => ?_
  have hj' := Finset.mem_range.mp hj
  have := tab_inj e6 hj'
  rw [this]
  congr 1
  by_cases c0 : j = 0
  · subst c0; simp [h0]
  · by_cases c1 : j = e + 1
    · subst c1; simp [h1]
    · rw [if_neg c0, if_neg c1, h j (by omega) (by omega)]
      congr 2
      rw [Nat.cast_sub (by omega)]
      have : ((e + 1 : ℕ) : ℝ) ≠ 0 := by positivity
      field_simp

/-- C48: degree elevation of a patch (with consistent network) of degree at least 1 never fails; the result is a side-based patch, the same as one built by usual calls (so
that all properties of these hold for it), with degree one higher, whose boundary curves are pointwise the same, with the same corners. All of its control points are in the convex
hull of the original ones. -/
theorem C48_elevate (hn : 3 ≤ n) (hd : 1 ≤ d) {kind : GBKind ℝ} (hS : Usable ε arc kind n d calls S) (hreg : ∀ c ∈ calls, c.regular = true) (g0 l0 : ℕ) :
    ∃ R calls', S.elevateDegree arc g0 l0 = .ok R ∧ Usable ε arc .side n (d + 1) calls' R ∧ (∀ c ∈ calls', c.regular = true) ∧ R.squared = false ∧
      (∀ i < n, ∃ p q : ℕ → P3 ℝ, (∀ j ≤ d, S.controlPoint i j 0 = .ok (p j)) ∧ (∀ j ≤ d + 1, R.controlPoint i j 0 = .ok (q j)) ∧ q 0 = p 0 ∧ q (d + 1) = p d ∧
        ∀ u : ℝ, bezier (d + 1) q u = bezier d p u) ∧
      ∀ C : Set (P3 ℝ), Convex ℝ C → S.central ∈ C → (∀ a : Name, a.InRange n d → ∃ p ∈ C, S.controlPoint a.side a.col a.row = .ok p) →
        R.central ∈ C ∧ ∀ a : Name, a.InRange n (d + 1) → ∃ p ∈ C, R.controlPoint a.side a.col a.row = .ok p := by
  obtain ⟨hi, _, hdn, _, _⟩ := hS.state (by omega)
  obtain ⟨s, hs, hcons⟩ := hS.consistent hn hreg
  obtain ⟨w, hw, hwr, hwcov, hwC, _⟩ := inner_eq hs
  set l := (d + 1 + 1) / 2 with hl
  set W := wCorners n s ++ wBoundary n (d + 1) s ++ w with hW
  have hWr : ∀ x ∈ W, x.1.InRange n (d + 1) := by
    intro x hx
    rw [hW, List.mem_append, List.mem_append] at hx
    rcases hx with (hx | hx) | hx
    · simp only [wCorners, List.mem_flatMap, List.mem_range, List.mem_singleton] at hx
      obtain ⟨i, hi, rfl⟩ := hx
      exact ⟨hi, by dsimp only; omega, by dsimp only; omega⟩
    · simp only [wBoundary, List.mem_flatMap, List.mem_range, List.mem_singleton] at hx
      obtain ⟨j, hj, i, hi, rfl⟩ := hx
      exact ⟨hi, by dsimp only; omega, by dsimp only; omega⟩
    · obtain ⟨h1, h2, h3, h4, h5⟩ := hwr x hx
      exact ⟨h1, by omega, h5⟩
  have hne : ¬(n = (GB.new .side g0 l0 : GB ℝ).n ∧ d + 1 = (GB.new .side g0 l0 : GB ℝ).degree) := by
    rintro ⟨h, -⟩
    change n = 0 at h
    omega
  set R0 := (GB.new .side g0 l0 : GB ℝ).initBase n (d + 1) with hR0
  have hN0 : HasNet R0 n (d + 1) (fun _ _ _ => 0) := initBase_net hne
  obtain ⟨R1, e1, q1, hN1⟩ := sets_eq hWr hN0
  obtain ⟨c, ec, hcC⟩ : ∃ c, elevateCentre n l R1 = .ok (R1.setCentral c) ∧
      ∀ C : Set (P3 ℝ), Convex ℝ C → (∀ a : Name, a.InRange n (d + 1) → ∃ p ∈ C, R1.controlPoint a.side a.col a.row = .ok p) → c ∈ C := by
    unfold elevateCentre
    rw [forLoop_sum n _ (fun i => _) 0 (fun i c hi => by
      rw [usub_of_le (show 1 ≤ l by omega), show R1.controlPoint i l (l - 1) = _ from hN1.cpt hi (by omega) (by omega), M_bind_ok]), M_bind_ok, fdiv_of_ne (by positivity), M_bind_ok]
    refine ⟨_, rfl, fun C hC hin => ?_⟩
    have hn0 : (0 : ℝ) < (n : ℝ) := by positivity
    rw [zero_add, Finset.smul_sum]
    refine hC.sum_mem (fun _ _ => by positivity) ?_ ?_
    · rw [Finset.sum_const, Finset.card_range, nsmul_eq_mul]
      field_simp
    · intro i hi
      have hi := Finset.mem_range.mp hi
      obtain ⟨p, hp, ep⟩ := hin ⟨i, l, l - 1⟩ ⟨hi, by dsimp only; omega, by dsimp only; omega⟩
      rw [show R1.controlPoint i l (l - 1) = _ from hN1.cpt hi (by omega) (by omega)] at ep
      rw [Except.ok.inj ep]
      exact hp
  have hN2 : HasNet (R1.setCentral c) n (d + 1) _ := ⟨hN1.n_eq, hN1.degree, hN1.layers, hN1.nets⟩
  obtain ⟨R3, e3⟩ := setupLoop_total (arc := arc) hN2 hn (by omega)
  have k3 := setupLoop_keeps e3
  have hN3 := k3.hasNet hN2
  refine ⟨R3, (.init n (d + 1) :: (W.map fun x => Call.set x.1.side x.1.col x.1.row x.2) ++ [.central c]) ++ [.loop], ?_, ⟨g0, l0, _, [], rfl, ?_, ?_, ?_, hN3.n_eq, hN3.degree⟩, ?_, ?_, ?_, ?_⟩
  · unfold elevateDegree
    dsimp only
    rw [hi.len, hdn, hs.degree, show (GB.new .side g0 l0 : GB ℝ).initNetwork n (d + 1) = .ok R0 from rfl, M_bind_ok, show R0.layers = l from hN0.layers,
      corners_eq hs hd]
    rw [hW, sets_append, sets_append] at e1
    cases x1 : sets (wCorners n s) R0 with
    | error er => rw [x1] at e1; cases e1
    | ok X1 =>
      rw [x1, M_bind_ok] at e1
      rw [M_bind_ok, boundaryPts_eq hs hd]
      cases x2 : sets (wBoundary n (d + 1) s) X1 with
      | error er => rw [x2] at e1; cases e1
      | ok X2 =>
        rw [x2, M_bind_ok] at e1
        rw [M_bind_ok, hw, e1, M_bind_ok, ec, M_bind_ok, e3]
  · refine run_join (G1 := R1.setCentral c) (run_join (G1 := R1) ?_ rfl) ?_
    · unfold run
      rw [show (GB.new .side g0 l0 : GB ℝ).step ε arc (.init n (d + 1)) = .ok R0 from rfl, M_bind_ok, sets_run, e1]
    · unfold run
      rw [show (R1.setCentral c).step ε arc .loop = .ok R3 from e3, M_bind_ok]
      rfl
  · intro x hx
    simp only [List.cons_append, List.mem_cons, List.mem_append, List.mem_map, List.not_mem_nil, or_false] at hx
    rcases hx with rfl | ⟨_, _, rfl⟩ | rfl <;> rfl
  · simp
  · intro x hx
    simp only [List.cons_append, List.mem_cons, List.mem_append, List.mem_map, List.not_mem_nil, or_false] at hx
    rcases hx with rfl | (⟨_, _, rfl⟩ | rfl) | rfl <;> rfl
  · rw [k3.squared]
    change R1.squared = false
    rw [q1]
    change R0.squared = false
    rw [hR0]
    unfold initBase
    rw [if_neg hne]
    rfl
  · intro i hi
    -- the values of the first row
    have val : ∀ a : Name, a.InRange n (d + 1) → ∀ y : P3 ℝ, (∀ x ∈ W, SamePoint n (d + 1) a x.1 → x.2 = y) → (∃ x ∈ W, SamePoint n (d + 1) a x.1) →
        R3.controlPoint a.side a.col a.row = .ok y := by
      intro a ha y h1 h2
      rw [show R3.controlPoint a.side a.col a.row = _ from hN3.cpt ha.1 ha.2.1 ha.2.2]
      exact congrArg _ (foldl_const h1 _ (Or.inr h2))
    set f : ℕ → P3 ℝ := fun j => ((j : ℝ) / ((d + 1 : ℕ) : ℝ)) • s i (j - 1) 0 + (1 - (j : ℝ) / ((d + 1 : ℕ) : ℝ)) • s i j 0 with hf
    set q : ℕ → P3 ℝ := fun j => if j = 0 then s i 0 0 else if j = d + 1 then s i d 0 else f j with hq
    have hq0 : q 0 = s i 0 0 := by simp [hq]
    have hq1 : q (d + 1) = s i d 0 := by simp [hq]
    have hqj : ∀ j, 1 ≤ j → j ≤ d → q j = f j := by
      intro j h1 h2
      simp only [hq]
      rw [if_neg (by omega), if_neg (by omega)]
    refine ⟨fun j => s i j 0, q, fun j hj => hs.cpt hi hj (by omega), ?_, hq0, hq1, bezier_elevated hd hq0 hq1 hqj⟩
    intro j hj
    have hin : (⟨i, j, 0⟩ : Name).InRange n (d + 1) := ⟨hi, hj, by dsimp only; omega⟩
    have hnx : (i + 1) % n < n := Nat.mod_lt _ (by omega)
    have hcor : s i d 0 = s ((i + 1) % n) 0 0 := hcons ⟨i, d, 0⟩ ⟨(i + 1) % n, 0, 0⟩ ⟨hi, le_rfl, by dsimp only; omega⟩ ⟨hnx, Nat.zero_le _, by dsimp only; omega⟩
      (samePoint_corner hd hi)
    refine val ⟨i, j, 0⟩ hin _ ?_ ?_
    · intro x hx hsame
      rw [hW, List.mem_append, List.mem_append] at hx
      rcases hx with (hx | hx) | hx
      · simp only [wCorners, List.mem_flatMap, List.mem_range, List.mem_singleton] at hx
        obtain ⟨i', hi', rfl⟩ := hx
        dsimp only
        rcases hsame with h | ⟨h1, h2, h3⟩ | ⟨h1, h2, h3⟩
        · simp only [Name.mk.injEq] at h
          obtain ⟨rfl, rfl, _⟩ := h
          exact hq0.symm
        · simp only [Name.mk.injEq] at h3
          omega
        · simp only [Name.mk.injEq] at h3
          obtain ⟨h3, h4, _⟩ := h3
          rw [Nat.sub_zero] at h4
          subst h4
          rw [hq1, hcor, h3]
          exact congrArg (fun i => s i 0 0) (nextIx_prevIx hi').symm
      · simp only [wBoundary, List.mem_flatMap, List.mem_range, List.mem_singleton] at hx
        obtain ⟨j', hj', i', hi', rfl⟩ := hx
        dsimp only
        rcases hsame with h | ⟨h1, h2, h3⟩ | ⟨h1, h2, h3⟩
        · simp only [Name.mk.injEq] at h
          obtain ⟨rfl, rfl, _⟩ := h
          rw [hqj _ (by omega) (by omega), hf]
          dsimp only
          rw [Nat.add_sub_cancel]
        · simp only [Name.mk.injEq] at h3
          omega
        · simp only [Name.mk.injEq] at h3
          omega
      · obtain ⟨x1, x2, x3, x4, x5⟩ := hwr x hx
        obtain ⟨⟨a, b, c⟩, v⟩ := x
        dsimp only at *
        rcases hsame with h | ⟨h1, h2, h3⟩ | ⟨h1, h2, h3⟩
        · simp only [Name.mk.injEq] at h
          omega
        · simp only [Name.mk.injEq] at h3
          omega
        · simp only [Name.mk.injEq] at h3
          omega
    · by_cases c0 : j = 0
      · subst c0
        exact ⟨(⟨i, 0, 0⟩, s i 0 0), by rw [hW]; simp [wCorners, hi], Or.inl rfl⟩
      · by_cases c1 : j = d + 1
        · subst c1
          exact ⟨(⟨(i + 1) % n, 0, 0⟩, s ((i + 1) % n) 0 0), by rw [hW]; simp [wCorners, hnx], samePoint_corner (by omega) hi⟩
        · refine ⟨(⟨i, j, 0⟩, f j), ?_, Or.inl rfl⟩
          rw [hW]
          refine List.mem_append_left _ (List.mem_append_right _ ?_)
          simp only [wBoundary, List.mem_flatMap, List.mem_range, List.mem_singleton]
          exact ⟨j - 1, by omega, i, hi, by rw [show j - 1 + 1 = j by omega, hf]⟩
  · intro C hC hc hin
    have hnp : ∀ p, NetPoint S n d s p → p ∈ C := by
      rintro p (rfl | ⟨i, hi, j, hj, k, hk, rfl⟩)
      · exact hc
      · obtain ⟨p, hp, ep⟩ := hin ⟨i, j, k⟩ ⟨hi, hj, hk⟩
        rw [show S.controlPoint i j k = _ from hs.cpt hi hj hk] at ep
        rw [Except.ok.inj ep]
        exact hp
    have hWC : ∀ x ∈ W, x.2 ∈ C := by
      intro x hx
      rw [hW, List.mem_append, List.mem_append] at hx
      rcases hx with (hx | hx) | hx
      · simp only [wCorners, List.mem_flatMap, List.mem_range, List.mem_singleton] at hx
        obtain ⟨i, hi, rfl⟩ := hx
        exact hnp _ (netPoint hi (by omega) (by omega))
      · simp only [wBoundary, List.mem_flatMap, List.mem_range, List.mem_singleton] at hx
        obtain ⟨j, hj, i, hi, rfl⟩ := hx
        have hd0 : (0 : ℝ) < ((d + 1 : ℕ) : ℝ) := by positivity
        refine hC (hnp _ (netPoint hi (by omega) (by omega))) (hnp _ (netPoint hi (by omega) (by omega))) (by positivity) ?_ (by ring)
        rw [sub_nonneg, div_le_one hd0]
        exact_mod_cast (by omega : j + 1 ≤ d + 1)
      · exact hwC C hC hnp x hx
    have hcov : ∀ a : Name, a.InRange n (d + 1) → ∃ x ∈ W, SamePoint n (d + 1) a x.1 := by
      have h1 : ∀ i < n, ∀ j ≤ (d + 1) / 2, ∀ k < l, ∃ x ∈ W, SamePoint n (d + 1) ⟨i, j, k⟩ x.1 := by
        have h0 : ∀ i < n, ∀ j < d + 1, ∃ x ∈ W, x.1 = ⟨i, j, 0⟩ := by
          intro i hi j hj
          by_cases c0 : j = 0
          · subst c0
            exact ⟨(⟨i, 0, 0⟩, s i 0 0), by rw [hW]; simp [wCorners, hi], rfl⟩
          · obtain ⟨j, rfl⟩ := Nat.exists_eq_add_of_le' (Nat.pos_of_ne_zero c0)
            refine ⟨(⟨i, j + 1, 0⟩, (((j + 1 : ℕ) : ℝ) / ((d + 1 : ℕ) : ℝ)) • s i j 0 + (1 - ((j + 1 : ℕ) : ℝ) / ((d + 1 : ℕ) : ℝ)) • s i (j + 1) 0), ?_, rfl⟩
            rw [hW]
            refine List.mem_append_left _ (List.mem_append_right _ ?_)
            simp only [wBoundary, List.mem_flatMap, List.mem_range, List.mem_singleton]
            exact ⟨j, by omega, i, hi, rfl⟩
        intro i hi j hj k hk
        by_cases c0 : k = 0
        · subst c0
          obtain ⟨x, hx, e⟩ := h0 i hi j (by omega)
          exact ⟨x, hx, Or.inl e.symm⟩
        · by_cases c1 : j = 0
          · subst c1
            obtain ⟨x, hx, e⟩ := h0 ((i + n - 1) % n) (Nat.mod_lt _ (by omega)) (d + 1 - k) (by omega)
            exact ⟨x, hx, Or.inr (Or.inl ⟨by dsimp only; omega, hk, e⟩)⟩
          · obtain ⟨x, hx, e⟩ := hwcov i hi j (by omega) hj k (by omega) hk
            exact ⟨x, by rw [hW]; exact List.mem_append_right _ hx, Or.inl e.symm⟩
      rintro ⟨i, j, k⟩ ⟨hi, hj, hk⟩
      dsimp only at hi hj hk
      by_cases c0 : j ≤ (d + 1) / 2
      · exact h1 i hi j c0 k hk
      · have hnx : (i + 1) % n < n := Nat.mod_lt _ (by omega)
        obtain ⟨x, hx, e⟩ := h1 ((i + 1) % n) hnx k (by omega) (d + 1 - j) (by omega)
        refine ⟨x, hx, samePoint_trans hi (hWr x hx).1 (Or.inr (Or.inr ⟨hk, by dsimp only; omega, ?_⟩)) e⟩
        simp only [Name.mk.injEq]
        exact ⟨(prevIx_nextIx hi).symm, by omega, trivial⟩
    have hall : ∀ a : Name, a.InRange n (d + 1) → ∃ p ∈ C, R1.controlPoint a.side a.col a.row = .ok p := by
      intro a ha
      refine ⟨_, ?_, hN1.cpt ha.1 ha.2.1 ha.2.2⟩
      exact foldl_mem hWC (hcov a ha) _
    refine ⟨?_, ?_⟩
    · rw [k3.central]
      exact hcC C hC hall
    · intro a ha
      obtain ⟨p, hp, ep⟩ := hall a ha
      refine ⟨p, hp, ?_⟩
      unfold controlPoint at ep ⊢
      rw [k3.nets]
      exact ep

/-- C48, the surface: for side-based patches of degree at least 2, the elevated patch has the same value at the points of the sides (outside of the corner tolerance). -/
theorem C48_side (hε : 0 < ε) (hε1 : ε ≤ 1 / 2) (hn : 3 ≤ n) (hd : 2 ≤ d) (hS : Usable ε arc .side n d calls S) (hreg : ∀ c ∈ calls, c.regular = true) (g0 l0 : ℕ) {i : ℕ}
    (hi : i < n) {s : ℝ} (h0 : ε ≤ s) (h1 : s ≤ 1 - ε) :
    ∃ R uv p S' R', S.elevateDegree arc g0 l0 = .ok R ∧ S.dom.dom.edgePoint i s = .ok uv ∧ R.dom.dom.edgePoint i s = .ok uv ∧ S.eval ε uv = .ok (p, S') ∧ R.eval ε uv = .ok (p, R') := by
  obtain ⟨R, calls', e1, hR, _, _, hb, _⟩ := C48_elevate hn (by omega) hS hreg g0 l0
  obtain ⟨uv, cp, S', a1, a2, a3⟩ := C42_side hε hε1 hn hd hS hi h0 h1
  obtain ⟨uv', cp', R', b1, b2, b3⟩ := C42_side hε hε1 hn (by omega) hR hi h0 h1
  obtain ⟨p, q, c1, c2, _, _, c3⟩ := hb i hi
  have hdom : R.dom.dom = S.dom.dom := by
    obtain ⟨i1, k1, n1, _, _⟩ := hS.state (by omega)
    obtain ⟨i2, k2, n2, _, _⟩ := hR.state (by omega)
    obtain ⟨vs, x1, x2⟩ := (i1.regular k1).resolve_left (by omega)
    obtain ⟨vs', y1, y2⟩ := (i2.regular k2).resolve_left (by omega)
    rw [n1] at x1
    rw [n2, x1] at y1
    cases y1
    rw [x2] at y2
    exact (Except.ok.inj y2).symm
  rw [hdom, a1] at b1
  cases b1
  have e2 : bezier d cp s = bezier d p s := Finset.sum_congr rfl fun j hj => by
    have hj' := Finset.mem_range.mp hj
    have := (a2 j (by omega)).symm.trans (c1 j (by omega))
    rw [Except.ok.inj this]
  have e3 : bezier (d + 1) cp' s = bezier (d + 1) q s := Finset.sum_congr rfl fun j hj => by
    have hj' := Finset.mem_range.mp hj
    have := (b2 j (by omega)).symm.trans (c2 j (by omega))
    rw [Except.ok.inj this]
  rw [e2] at a3
  rw [e3, c3] at b3
  exact ⟨R, uv, _, S', R', e1, a1, by rw [hdom]; exact a1, a3, b3⟩

/-- The hypotheses are satisfiable. -/
example : ∃ (calls : List (Call ℝ)) (G : GB ℝ), Usable (1 / 10000) (fun _ _ _ => 0) .side 5 4 calls G ∧ (∀ c ∈ calls, c.regular = true) ∧
    G.controlPoint 1 2 0 = .ok ⟨1, 2, 3⟩ := by
  obtain ⟨G, hG, hr, _, _, hp⟩ := built (ε := 1 / 10000) (arc := fun _ _ _ => 0) .side (n := 5) (d := 4) (by omega) (by omega) (Or.inl rfl)
    (w := [(⟨1, 2, 0⟩, ⟨1, 2, 3⟩)]) (by intro x hx; simp only [List.mem_singleton] at hx; subst hx; exact ⟨by decide, by decide, by decide⟩) 0 false
  refine ⟨_, G, hG, hr, ?_⟩
  rw [hp ⟨1, 2, 0⟩ ⟨by decide, by decide, by decide⟩]
  rfl

end

end GB

end Transfinite
