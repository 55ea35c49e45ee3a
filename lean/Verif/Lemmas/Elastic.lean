import Verif.Model.Elastic
import Verif.Spec.Elastic
import Verif.Lemmas.PatchSide
import Verif.Lemmas.Total
import Mathlib.Analysis.SpecialFunctions.Integrals.Basic
import Mathlib.Analysis.Calculus.Deriv.Polynomial
import Mathlib.LinearAlgebra.Matrix.ToLinearEquiv

/-! Lemmas for the elastic patch. -/

namespace Transfinite

namespace Spec

private theorem cubic_deriv (a b c d : ℝ) : deriv (fun w : ℝ => a + b * w + c * w ^ 2 + d * w ^ 3) = fun w => b + 2 * c * w + 3 * d * w ^ 2 := by
  funext w
  have h1 := ((hasDerivAt_id w).const_mul b)
  have h2 := ((hasDerivAt_pow 2 w).const_mul c)
  have h3 := ((hasDerivAt_pow 3 w).const_mul d)
  have := (((hasDerivAt_const w a).add h1).add h2).add h3
  refine (this.congr_deriv ?_).deriv
  push_cast
  ring

private theorem quadratic_deriv (a b c : ℝ) : deriv (fun w : ℝ => a + b * w + c * w ^ 2) = fun w => b + 2 * c * w := by
  have := cubic_deriv a b c 0
  simpa using this

/-- The end points and end derivatives of `strip`. -/
theorem strip_ends {L : ℝ} (hL : L ≠ 0) (P a p b : ℝ) : strip L P a p b 0 = P ∧ deriv (strip L P a p b) 0 = a ∧
    strip L P a p b L = p ∧ deriv (strip L P a p b) L = b := by
  have e : deriv (strip L P a p b) = _ := cubic_deriv P a (3 * (p - P) / L ^ 2 - (2 * a + b) / L) ((a + b) / L ^ 2 - 2 * (p - P) / L ^ 3)
  rw [e]
  refine ⟨by unfold strip; ring, by ring, ?_, ?_⟩
  · unfold strip; field_simp; ring
  · dsimp only; field_simp; ring

theorem bending_strip {L : ℝ} (hL : L ≠ 0) (P a p b : ℝ) : bending L (strip L P a p b) =
    (12 * (p - P) ^ 2 - 12 * (p - P) * (L * (a + b)) + 4 * L ^ 2 * (a ^ 2 + a * b + b ^ 2)) / L ^ 3 := by
  have e : deriv (strip L P a p b) = _ := cubic_deriv P a (3 * (p - P) / L ^ 2 - (2 * a + b) / L) ((a + b) / L ^ 2 - 2 * (p - P) / L ^ 3)
  unfold bending
  generalize hc : 3 * (p - P) / L ^ 2 - (2 * a + b) / L = c at e
  generalize hd : (a + b) / L ^ 2 - 2 * (p - P) / L ^ 3 = d at e
  rw [e]
  have e2 : deriv (fun w : ℝ => a + 2 * c * w + 3 * d * w ^ 2) = fun w => 2 * c + 2 * (3 * d) * w := quadratic_deriv a (2 * c) (3 * d)
  rw [e2]
  have e3 : ∫ w in (0 : ℝ)..L, (2 * c + 2 * (3 * d) * w) ^ 2 = 4 * c ^ 2 * L + 12 * c * d * L ^ 2 + 12 * d ^ 2 * L ^ 3 := by
    have : ∀ w ∈ Set.uIcc 0 L, HasDerivAt (fun w : ℝ => 4 * c ^ 2 * w + 12 * c * d * w ^ 2 + 12 * d ^ 2 * w ^ 3) ((2 * c + 2 * (3 * d) * w) ^ 2) w := by
      intro w _
      have h1 := ((hasDerivAt_id w).const_mul (4 * c ^ 2))
      have h2 := ((hasDerivAt_pow 2 w).const_mul (12 * c * d))
      have h3 := ((hasDerivAt_pow 3 w).const_mul (12 * d ^ 2))
      refine ((h1.add h2).add h3).congr_deriv ?_
      push_cast
      ring
    rw [intervalIntegral.integral_eq_sub_of_hasDerivAt this (by
      apply Continuous.intervalIntegrable
      fun_prop)]
    ring
  rw [e3, ← hc, ← hd]
  field_simp
  ring

end Spec

theorem P3.sum_x {ι : Type*} (s : Finset ι) (f : ι → P3 ℝ) : (∑ i ∈ s, f i).x = ∑ i ∈ s, (f i).x := by
  classical
  induction s using Finset.induction_on with
  | empty => rfl
  | insert a s ha ih => rw [Finset.sum_insert ha, Finset.sum_insert ha, P3.add_x, ih]

theorem P3.sum_y {ι : Type*} (s : Finset ι) (f : ι → P3 ℝ) : (∑ i ∈ s, f i).y = ∑ i ∈ s, (f i).y := by
  classical
  induction s using Finset.induction_on with
  | empty => rfl
  | insert a s ha ih => rw [Finset.sum_insert ha, Finset.sum_insert ha, P3.add_y, ih]

theorem P3.sum_z {ι : Type*} (s : Finset ι) (f : ι → P3 ℝ) : (∑ i ∈ s, f i).z = ∑ i ∈ s, (f i).z := by
  classical
  induction s using Finset.induction_on with
  | empty => rfl
  | insert a s ha ih => rw [Finset.sum_insert ha, Finset.sum_insert ha, P3.add_z, ih]

namespace Elastic

open Spec

/-- The three rows of the summand of one side, for one coordinate: matrix times `x` minus right hand side, without the denominator. -/
def row (w : P2 ℝ) (P T x0 x1 x2 : ℝ) : Fin 3 → ℝ
  | 0 => 2 * (x0 - P) + (w.x * x1 + w.y * x2) - T
  | 1 => w.x * (3 * (x0 - P) + 2 * (w.x * x1 + w.y * x2) - T)
  | 2 => w.y * (3 * (x0 - P) + 2 * (w.x * x1 + w.y * x2) - T)

/-- Matrix times `x` minus right hand side. -/
noncomputable def resid (S : Sys ℝ) (x : Fin 3 → P3 ℝ) (k : Fin 3) : P3 ℝ := ∑ l, S.A k l • x l - S.b k

/-- The summand of one side. -/
noncomputable def rodRow (r : Rod) (uv : P2 ℝ) (x : Fin 3 → P3 ℝ) (k : Fin 3) : P3 ℝ :=
  let w := uv - r.foot
  let L := w.norm
  let T := L • r.cross
  (1 / (L * L * L)) • (⟨row w r.pos.x T.x (x 0).x (x 1).x (x 2).x k, row w r.pos.y T.y (x 0).y (x 1).y (x 2).y k,
    row w r.pos.z T.z (x 0).z (x 1).z (x 2).z k⟩ : P3 ℝ)

theorem resid_zero (x : Fin 3 → P3 ℝ) (k : Fin 3) : resid Sys.zero x k = 0 := by
  unfold resid Sys.zero
  simp

private theorem add_A (S : Sys ℝ) (x y q : ℝ) (P T : P3 ℝ) :
    (S.add x y q P T).A 0 0 = S.A 0 0 + 2 * q ∧
    (S.add x y q P T).A 0 1 = S.A 0 1 + x * q ∧
    (S.add x y q P T).A 0 2 = S.A 0 2 + y * q ∧
    (S.add x y q P T).A 1 0 = S.A 1 0 + 3 * x * q ∧
    (S.add x y q P T).A 1 1 = S.A 1 1 + 2 * (x * x) * q ∧
    (S.add x y q P T).A 1 2 = S.A 1 2 + 2 * x * y * q ∧
    (S.add x y q P T).A 2 0 = S.A 2 0 + 3 * y * q ∧
    (S.add x y q P T).A 2 1 = S.A 2 1 + 2 * x * y * q ∧
    (S.add x y q P T).A 2 2 = S.A 2 2 + 2 * (y * y) * q := ⟨rfl, rfl, rfl, rfl, rfl, rfl, rfl, rfl, rfl⟩

private theorem add_b (S : Sys ℝ) (x y q : ℝ) (P T : P3 ℝ) : (S.add x y q P T).b 0 = S.b 0 + q • ((2 : ℝ) • P + T) ∧
    (S.add x y q P T).b 1 = S.b 1 + q • ((3 * x) • P + x • T) ∧ (S.add x y q P T).b 2 = S.b 2 + q • ((3 * y) • P + y • T) := ⟨rfl, rfl, rfl⟩

theorem row_zero (w : P2 ℝ) (P T x0 x1 x2 : ℝ) : row w P T x0 x1 x2 0 = 2 * (x0 - P) + (w.x * x1 + w.y * x2) - T := rfl
theorem row_one (w : P2 ℝ) (P T x0 x1 x2 : ℝ) : row w P T x0 x1 x2 1 = w.x * (3 * (x0 - P) + 2 * (w.x * x1 + w.y * x2) - T) := rfl
theorem row_two (w : P2 ℝ) (P T x0 x1 x2 : ℝ) : row w P T x0 x1 x2 2 = w.y * (3 * (x0 - P) + 2 * (w.x * x1 + w.y * x2) - T) := rfl

theorem resid_add (S : Sys ℝ) (x : Fin 3 → P3 ℝ) (k : Fin 3) (w : P2 ℝ) (r : Rod) (uv : P2 ℝ) (hw : w = uv - r.foot) :
    resid (S.add w.x w.y (1 / (w.norm * w.norm * w.norm)) r.pos (w.norm • r.cross)) x k = resid S x k + rodRow r uv x k := by
  unfold resid rodRow
  rw [← hw]
  dsimp only
  generalize 1 / (w.norm * w.norm * w.norm) = q
  obtain ⟨a1, a2, a3, a4, a5, a6, a7, a8, a9⟩ := add_A S w.x w.y q r.pos (w.norm • r.cross)
  obtain ⟨b1, b2, b3⟩ := add_b S w.x w.y q r.pos (w.norm • r.cross)
  obtain rfl | rfl | rfl : k = 0 ∨ k = 1 ∨ k = 2 := by fin_cases k <;> simp
  all_goals
    simp only [Fin.sum_univ_three, a1, a2, a3, a4, a5, a6, a7, a8, a9, b1, b2, b3, row_zero, row_one, row_two]
    ext <;> simp only [P3.add_x, P3.add_y, P3.add_z, P3.sub_x, P3.sub_y, P3.sub_z, P3.smul_x, P3.smul_y, P3.smul_z] <;> ring

/-- The result of the loop. -/
theorem loop_cases {ε tol : ℝ} (htol : 0 < tol) (solve : Sys ℝ → Fin 3 → P3 ℝ) {d : Domain ℝ} {S : Surf ℝ} {n : ℕ} {v f : ℕ → P2 ℝ} {uv : P2 ℝ}
    (hv : d.vertices = tab n v) (hS : S.n = n) {rod : ℕ → Rod}
    (hrod : ∀ j < n, (rod j).foot = sidePoint n v j (Domain.clamp (f j).x 0 1) ∧ ∃ r, vget S.ribbons j = .ok r ∧
      r.eval ε ⟨Domain.clamp (f j).x 0 1, 0⟩ = .ok (rod j).pos ∧ r.crossDerivative ε (Domain.clamp (f j).x 0 1) = .ok (rod j).cross) :
    ∀ (k i : ℕ), i + k = n → ∀ sys,
      (∃ j, i ≤ j ∧ j < n ∧ (uv - (rod j).foot).norm < tol ∧ (∀ m, i ≤ m → m < j → tol ≤ (uv - (rod m).foot).norm) ∧
        loop ε tol solve d S uv (tab n f) k i sys = .ok (rod j).pos) ∨
      ((∀ j, i ≤ j → j < n → tol ≤ (uv - (rod j).foot).norm) ∧ ∃ sys', loop ε tol solve d S uv (tab n f) k i sys = .ok (solve sys' 0) ∧
        ∀ x k, resid sys' x k = resid sys x k + ∑ j ∈ Finset.Ico i n, rodRow (rod j) uv x k) := by
  intro k
  induction k with
  | zero =>
    intro i hi sys
    right
    refine ⟨fun j h1 h2 => by omega, sys, rfl, fun x k => ?_⟩
    rw [show i = n by omega]
    simp
  | succ k ih =>
    intro i hi sys
    obtain ⟨e1, r, e2, e3, e4⟩ := hrod i (by omega)
    unfold loop
    rw [vget_tab _ (by omega : i < n), M_bind_ok, hv, hS, vget_tab _ (prevIx_lt (by omega)), M_bind_ok, vget_tab _ (by omega : i < n), M_bind_ok]
    have ef : affineCombine2 (v (prevIx n i)) (Domain.clamp (f i).x 0 1) (v i) = (rod i).foot := by
      rw [e1]; rfl
    rw [ef]
    dsimp only
    rw [e2, M_bind_ok, e3, M_bind_ok]
    by_cases hlt : (uv - (rod i).foot).norm < tol
    · left
      rw [if_pos hlt]
      exact ⟨i, le_rfl, by omega, hlt, fun m h1 h2 => by omega, rfl⟩
    · rw [if_neg hlt, e4, M_bind_ok]
      have hL : 0 < (uv - (rod i).foot).norm := lt_of_lt_of_le htol (not_lt.mp hlt)
      rw [fdiv_of_ne (by positivity), M_bind_ok]
      rcases ih (i + 1) (by omega) (sys.add (uv - (rod i).foot).x (uv - (rod i).foot).y
        (1 / ((uv - (rod i).foot).norm * (uv - (rod i).foot).norm * (uv - (rod i).foot).norm)) (rod i).pos
        ((uv - (rod i).foot).norm • (rod i).cross)) with ⟨j, j1, j2, j3, j4, j5⟩ | ⟨q1, sys', q2, q3⟩
      · left
        refine ⟨j, by omega, j2, j3, ?_, ?_⟩
        · intro m h1 h2
          rcases Nat.eq_or_lt_of_le h1 with rfl | h1
          · exact not_lt.mp hlt
          · exact j4 m h1 h2
        · exact j5
      · right
        refine ⟨?_, sys', ?_, ?_⟩
        · intro j h1 h2
          rcases Nat.eq_or_lt_of_le h1 with rfl | h1
          · exact not_lt.mp hlt
          · exact q1 j h1 h2
        · exact q2
        · intro x k
          rw [q3, resid_add _ _ _ _ _ uv rfl, add_assoc, Finset.sum_eq_sum_Ico_succ_bot (by omega : i < n) (fun j => rodRow (rod j) uv x k)]

/-! ### Energy -/

/-- One coordinate of the energy of one side. -/
noncomputable def energy1 (w : P2 ℝ) (P T x0 x1 x2 : ℝ) : ℝ :=
  let L := w.norm
  let D := x0 - P
  let T1 := -(w.x * x1 + w.y * x2)
  (12 * D ^ 2 - 12 * D * (T + T1) + 4 * (T ^ 2 + T * T1 + T1 ^ 2)) / L ^ 3

theorem energy_eq {r : Rod} {uv : P2 ℝ} (hL : (uv - r.foot).norm ≠ 0) (x : Fin 3 → P3 ℝ) :
    r.energy uv (x 0) (-(x 1)) (-(x 2)) =
      energy1 (uv - r.foot) r.pos.x ((uv - r.foot).norm * r.cross.x) (x 0).x (x 1).x (x 2).x +
      energy1 (uv - r.foot) r.pos.y ((uv - r.foot).norm * r.cross.y) (x 0).y (x 1).y (x 2).y +
      energy1 (uv - r.foot) r.pos.z ((uv - r.foot).norm * r.cross.z) (x 0).z (x 1).z (x 2).z := by
  unfold Rod.energy energy1
  dsimp only
  rw [bending_strip hL, bending_strip hL, bending_strip hL]
  generalize (uv - r.foot).norm = L at hL
  generalize uv - r.foot = w
  simp only [P3.add_x, P3.add_y, P3.add_z, P3.smul_x, P3.smul_y, P3.smul_z, P3.neg_x, P3.neg_y, P3.neg_z]
  congr 1
  · congr 1
    · congr 1; field_simp; ring
    · congr 1; field_simp; ring
  · congr 1; field_simp; ring

/-- Second order expansion of the energy. -/
theorem energy1_add (w : P2 ℝ) (P T x0 x1 x2 y0 y1 y2 : ℝ) :
    energy1 w P T (x0 + y0) (x1 + y1) (x2 + y2) = energy1 w P T x0 x1 x2 +
      (12 * y0 * row w P T x0 x1 x2 0 + 4 * (y1 * row w P T x0 x1 x2 1 + y2 * row w P T x0 x1 x2 2)) / w.norm ^ 3 +
      (3 * y0 ^ 2 + (3 * y0 + 2 * (w.x * y1 + w.y * y2)) ^ 2) / w.norm ^ 3 := by
  unfold energy1
  rw [row_zero, row_one, row_two, ← add_div, ← add_div]
  congr 1
  ring

/-- The second order term of the energy. -/
noncomputable def quad (w : P2 ℝ) (y0 y1 y2 : ℝ) : ℝ := (3 * y0 ^ 2 + (3 * y0 + 2 * (w.x * y1 + w.y * y2)) ^ 2) / w.norm ^ 3

theorem quad_nonneg {w : P2 ℝ} (hw : 0 < w.norm) (y0 y1 y2 : ℝ) : 0 ≤ quad w y0 y1 y2 := by
  unfold quad; positivity

theorem quad_eq_zero {w : P2 ℝ} (hw : 0 < w.norm) {y0 y1 y2 : ℝ} (h : quad w y0 y1 y2 = 0) : y0 = 0 ∧ w.x * y1 + w.y * y2 = 0 := by
  unfold quad at h
  rw [div_eq_zero_iff] at h
  rcases h with h | h
  · have h0 : y0 = 0 := by
      by_contra hc
      have : 0 < y0 ^ 2 := by positivity
      nlinarith [sq_nonneg (3 * y0 + 2 * (w.x * y1 + w.y * y2))]
    rw [h0] at h
    refine ⟨h0, ?_⟩
    have : (2 * (w.x * y1 + w.y * y2)) ^ 2 = 0 := by linarith
    have := pow_eq_zero_iff (n := 2) (by norm_num) |>.mp this
    linarith
  · exact absurd h (by positivity)

variable {n : ℕ} {rod : ℕ → Rod} {uv : P2 ℝ}

/-- The energy around a solution of the system. -/
theorem total_expand (hpos : ∀ j < n, 0 < (uv - (rod j).foot).norm) {x : Fin 3 → P3 ℝ}
    (hx : ∀ k, ∑ j ∈ Finset.range n, rodRow (rod j) uv x k = 0) (y : Fin 3 → P3 ℝ) :
    totalEnergy n rod uv (x 0 + y 0) (-(x 1 + y 1)) (-(x 2 + y 2)) = totalEnergy n rod uv (x 0) (-(x 1)) (-(x 2)) +
      ∑ j ∈ Finset.range n, (quad (uv - (rod j).foot) (y 0).x (y 1).x (y 2).x + quad (uv - (rod j).foot) (y 0).y (y 1).y (y 2).y +
        quad (uv - (rod j).foot) (y 0).z (y 1).z (y 2).z) := by
  have hzero : ∑ j ∈ Finset.range n, (
      12 * (y 0).x * (rodRow (rod j) uv x 0).x + 4 * ((y 1).x * (rodRow (rod j) uv x 1).x + (y 2).x * (rodRow (rod j) uv x 2).x) +
      (12 * (y 0).y * (rodRow (rod j) uv x 0).y + 4 * ((y 1).y * (rodRow (rod j) uv x 1).y + (y 2).y * (rodRow (rod j) uv x 2).y)) +
      (12 * (y 0).z * (rodRow (rod j) uv x 0).z + 4 * ((y 1).z * (rodRow (rod j) uv x 1).z + (y 2).z * (rodRow (rod j) uv x 2).z))) = 0 := by
    have hX : ∀ k, ∑ j ∈ Finset.range n, (rodRow (rod j) uv x k).x = 0 := fun k => by rw [← P3.sum_x, hx]; rfl
    have hY : ∀ k, ∑ j ∈ Finset.range n, (rodRow (rod j) uv x k).y = 0 := fun k => by rw [← P3.sum_y, hx]; rfl
    have hZ : ∀ k, ∑ j ∈ Finset.range n, (rodRow (rod j) uv x k).z = 0 := fun k => by rw [← P3.sum_z, hx]; rfl
    simp only [Finset.sum_add_distrib, ← Finset.mul_sum, hX, hY, hZ]
    ring
  unfold totalEnergy
  rw [← add_zero (∑ j ∈ Finset.range n, (rod j).energy uv (x 0) (-(x 1)) (-(x 2))), ← hzero, ← Finset.sum_add_distrib, ← Finset.sum_add_distrib]
  apply Finset.sum_congr rfl
  intro j hj
  have hp := hpos j (Finset.mem_range.mp hj)
  have e1 := energy_eq (r := rod j) (uv := uv) hp.ne' x
  have e2 := energy_eq (r := rod j) (uv := uv) hp.ne' (fun k => x k + y k)
  rw [e1, e2]
  simp only [P3.add_x, P3.add_y, P3.add_z, energy1_add]
  unfold rodRow quad
  dsimp only
  simp only [P3.smul_x, P3.smul_y, P3.smul_z]
  generalize (uv - (rod j).foot).norm = L at *
  generalize uv - (rod j).foot = w
  ring

/-- Solutions of the system minimize the energy. -/
theorem total_min (hpos : ∀ j < n, 0 < (uv - (rod j).foot).norm) {x : Fin 3 → P3 ℝ}
    (hx : ∀ k, ∑ j ∈ Finset.range n, rodRow (rod j) uv x k = 0) (p pu pv : P3 ℝ) :
    totalEnergy n rod uv (x 0) (-(x 1)) (-(x 2)) ≤ totalEnergy n rod uv p pu pv := by
  have := total_expand hpos hx ![p - x 0, -pu - x 1, -pv - x 2]
  simp only [Matrix.cons_val_zero, Matrix.cons_val_one, Matrix.cons_val] at this
  rw [show x 0 + (p - x 0) = p by abel, show -(x 1 + (-pu - x 1)) = pu by abel, show -(x 2 + (-pv - x 2)) = pv by abel] at this
  rw [this]
  refine le_add_of_nonneg_right (Finset.sum_nonneg fun j hj => ?_)
  have hp := hpos j (Finset.mem_range.mp hj)
  exact add_nonneg (add_nonneg (quad_nonneg hp _ _ _) (quad_nonneg hp _ _ _)) (quad_nonneg hp _ _ _)

/-- Two sides with independent directions. -/
def Spread (n : ℕ) (rod : ℕ → Rod) (uv : P2 ℝ) : Prop := ∃ j < n, ∃ k < n,
  (uv - (rod j).foot).x * (uv - (rod k).foot).y - (uv - (rod j).foot).y * (uv - (rod k).foot).x ≠ 0

theorem Spread.zero (h : Spread n rod uv) (hpos : ∀ j < n, 0 < (uv - (rod j).foot).norm) {y0 y1 y2 : ℝ}
    (hq : ∀ j < n, quad (uv - (rod j).foot) y0 y1 y2 = 0) : y0 = 0 ∧ y1 = 0 ∧ y2 = 0 := by
  obtain ⟨j, hj, k, hk, hne⟩ := h
  obtain ⟨a1, a2⟩ := quad_eq_zero (hpos j hj) (hq j hj)
  obtain ⟨_, b2⟩ := quad_eq_zero (hpos k hk) (hq k hk)
  refine ⟨a1, ?_, ?_⟩
  · have : ((uv - (rod j).foot).x * (uv - (rod k).foot).y - (uv - (rod j).foot).y * (uv - (rod k).foot).x) * y1 = 0 := by
      linear_combination (uv - (rod k).foot).y * a2 - (uv - (rod j).foot).y * b2
    exact (mul_eq_zero.mp this).resolve_left hne
  · have : ((uv - (rod j).foot).x * (uv - (rod k).foot).y - (uv - (rod j).foot).y * (uv - (rod k).foot).x) * y2 = 0 := by
      linear_combination -(uv - (rod k).foot).x * a2 + (uv - (rod j).foot).x * b2
    exact (mul_eq_zero.mp this).resolve_left hne

/-- The minimum is unique. -/
theorem total_unique (hs : Spread n rod uv) (hpos : ∀ j < n, 0 < (uv - (rod j).foot).norm) {x : Fin 3 → P3 ℝ}
    (hx : ∀ k, ∑ j ∈ Finset.range n, rodRow (rod j) uv x k = 0) {p pu pv : P3 ℝ}
    (he : totalEnergy n rod uv p pu pv ≤ totalEnergy n rod uv (x 0) (-(x 1)) (-(x 2))) : p = x 0 ∧ pu = -(x 1) ∧ pv = -(x 2) := by
  have := total_expand hpos hx ![p - x 0, -pu - x 1, -pv - x 2]
  simp only [Matrix.cons_val_zero, Matrix.cons_val_one, Matrix.cons_val] at this
  rw [show x 0 + (p - x 0) = p by abel, show -(x 1 + (-pu - x 1)) = pu by abel, show -(x 2 + (-pv - x 2)) = pv by abel] at this
  have h0 : ∀ j ∈ Finset.range n, 0 ≤ quad (uv - (rod j).foot) (p - x 0).x (-pu - x 1).x (-pv - x 2).x +
      quad (uv - (rod j).foot) (p - x 0).y (-pu - x 1).y (-pv - x 2).y + quad (uv - (rod j).foot) (p - x 0).z (-pu - x 1).z (-pv - x 2).z := by
    intro j hj
    have hp := hpos j (Finset.mem_range.mp hj)
    exact add_nonneg (add_nonneg (quad_nonneg hp _ _ _) (quad_nonneg hp _ _ _)) (quad_nonneg hp _ _ _)
  have hz := (Finset.sum_eq_zero_iff_of_nonneg h0).mp (le_antisymm (by linarith) (Finset.sum_nonneg h0))
  have hall : ∀ j < n, quad (uv - (rod j).foot) (p - x 0).x (-pu - x 1).x (-pv - x 2).x = 0 ∧
      quad (uv - (rod j).foot) (p - x 0).y (-pu - x 1).y (-pv - x 2).y = 0 ∧ quad (uv - (rod j).foot) (p - x 0).z (-pu - x 1).z (-pv - x 2).z = 0 := by
    intro j hj
    have e := hz j (Finset.mem_range.mpr hj)
    have hp := hpos j hj
    have g1 := quad_nonneg hp (p - x 0).x (-pu - x 1).x (-pv - x 2).x
    have g2 := quad_nonneg hp (p - x 0).y (-pu - x 1).y (-pv - x 2).y
    have g3 := quad_nonneg hp (p - x 0).z (-pu - x 1).z (-pv - x 2).z
    exact ⟨by linarith, by linarith, by linarith⟩
  obtain ⟨a1, a2, a3⟩ := hs.zero hpos (fun j hj => (hall j hj).1)
  obtain ⟨b1, b2, b3⟩ := hs.zero hpos (fun j hj => (hall j hj).2.1)
  obtain ⟨c1, c2, c3⟩ := hs.zero hpos (fun j hj => (hall j hj).2.2)
  refine ⟨?_, ?_, ?_⟩
  · ext
    · simpa [sub_eq_zero] using a1
    · simpa [sub_eq_zero] using b1
    · simpa [sub_eq_zero] using c1
  · ext
    · simp only [P3.sub_x, P3.neg_x] at a2 ⊢; linarith
    · simp only [P3.sub_y, P3.neg_y] at b2 ⊢; linarith
    · simp only [P3.sub_z, P3.neg_z] at c2 ⊢; linarith
  · ext
    · simp only [P3.sub_x, P3.neg_x] at a3 ⊢; linarith
    · simp only [P3.sub_y, P3.neg_y] at b3 ⊢; linarith
    · simp only [P3.sub_z, P3.neg_z] at c3 ⊢; linarith

/-- The system has a solution. -/
theorem exists_solution (hs : Spread n rod uv) (hpos : ∀ j < n, 0 < (uv - (rod j).foot).norm) {sys : Sys ℝ}
    (hsys : ∀ x k, resid sys x k = ∑ j ∈ Finset.range n, rodRow (rod j) uv x k) : ∃ x, ∀ k, resid sys x k = 0 := by
  let A : Matrix (Fin 3) (Fin 3) ℝ := Matrix.of sys.A
  have hdet : A.det ≠ 0 := by
    intro hdet
    obtain ⟨y, hy, hAy⟩ := Matrix.exists_mulVec_eq_zero_iff.mpr hdet
    apply hy
    -- difference of two residuals
    have key : ∀ k, ∑ j ∈ Finset.range n, ((rodRow (rod j) uv (fun k => ⟨y k, 0, 0⟩) k).x - (rodRow (rod j) uv (fun _ => 0) k).x) = 0 := by
      intro k
      rw [Finset.sum_sub_distrib, ← P3.sum_x, ← P3.sum_x, ← hsys, ← hsys]
      have := congrFun hAy k
      simp only [Matrix.mulVec, dotProduct, Fin.sum_univ_three, A, Matrix.of_apply, Pi.zero_apply] at this
      simp only [resid, Fin.sum_univ_three, P3.sub_x, P3.add_x, P3.smul_x, P3.zero_x]
      linarith
    have hq : ∑ j ∈ Finset.range n, quad (uv - (rod j).foot) (y 0) (y 1) (y 2) = 0 := by
      have e : ∀ j ∈ Finset.range n, quad (uv - (rod j).foot) (y 0) (y 1) (y 2) =
          6 * y 0 * ((rodRow (rod j) uv (fun k => ⟨y k, 0, 0⟩) 0).x - (rodRow (rod j) uv (fun _ => 0) 0).x) +
          2 * (y 1 * ((rodRow (rod j) uv (fun k => ⟨y k, 0, 0⟩) 1).x - (rodRow (rod j) uv (fun _ => 0) 1).x) +
            y 2 * ((rodRow (rod j) uv (fun k => ⟨y k, 0, 0⟩) 2).x - (rodRow (rod j) uv (fun _ => 0) 2).x)) := by
        intro j hj
        unfold quad rodRow
        simp only [P3.smul_x, P3.zero_x, row_zero, row_one, row_two]
        ring
      rw [Finset.sum_congr rfl e]
      simp only [Finset.sum_add_distrib, ← Finset.mul_sum, key]
      ring
    have h0 : ∀ j ∈ Finset.range n, 0 ≤ quad (uv - (rod j).foot) (y 0) (y 1) (y 2) := fun j hj => quad_nonneg (hpos j (Finset.mem_range.mp hj)) _ _ _
    have hz := (Finset.sum_eq_zero_iff_of_nonneg h0).mp hq
    obtain ⟨a, b, c⟩ := hs.zero hpos (fun j hj => hz j (Finset.mem_range.mpr hj))
    funext k
    fin_cases k
    · exact a
    · exact b
    · exact c
  have hu : IsUnit A.det := isUnit_iff_ne_zero.mpr hdet
  have solve1 : ∀ b : Fin 3 → ℝ, ∃ x : Fin 3 → ℝ, ∀ k, sys.A k 0 * x 0 + sys.A k 1 * x 1 + sys.A k 2 * x 2 = b k := by
    intro b
    refine ⟨A⁻¹.mulVec b, fun k => ?_⟩
    have : A.mulVec (A⁻¹.mulVec b) = b := by rw [Matrix.mulVec_mulVec, Matrix.mul_nonsing_inv A hu, Matrix.one_mulVec]
    have := congrFun this k
    rw [← this]
    simp only [Matrix.mulVec, dotProduct, Fin.sum_univ_three, A, Matrix.of_apply]
  obtain ⟨x1, h1⟩ := solve1 fun k => (sys.b k).x
  obtain ⟨x2, h2⟩ := solve1 fun k => (sys.b k).y
  obtain ⟨x3, h3⟩ := solve1 fun k => (sys.b k).z
  refine ⟨fun k => ⟨x1 k, x2 k, x3 k⟩, fun k => ?_⟩
  simp only [resid, Fin.sum_univ_three]
  ext <;> simp only [P3.sub_x, P3.add_x, P3.smul_x, P3.zero_x, P3.sub_y, P3.add_y, P3.smul_y, P3.zero_y, P3.sub_z, P3.add_z, P3.smul_z, P3.zero_z]
  · linarith [h1 k]
  · linarith [h2 k]
  · linarith [h3 k]

end Elastic

end Transfinite
