import Verif.Model.BCurve
import Verif.Lemmas.Bernstein
import Verif.Lemmas.Ribbon
import Mathlib.RingTheory.Polynomial.Bernstein
import Mathlib.Analysis.Calculus.IteratedDeriv.Defs
import Mathlib.Analysis.Calculus.Deriv.Polynomial
import Mathlib.Algebra.BigOperators.Ring.Finset

/-! # The loops of `BCurve`, and derivatives of Bézier curves -/

namespace Transfinite.BCurve

open Spec

section field
variable {K : Type} [Field K]

/-- The curve with the control points `P 0`, ..., `P n`. -/
def mk' (n : ℕ) (P : ℕ → P3 K) : BCurve K := ⟨n, tab (n + 1) P⟩

theorem ofPoints_eq (n : ℕ) (P : ℕ → P3 K) : ofPoints (tab (n + 1) P) = mk' n P := by
  unfold ofPoints mk' usub
  rw [length_tab, if_pos (by omega), Nat.add_sub_cancel]

theorem eval_eq (n : ℕ) (P : ℕ → P3 K) (u : K) : (mk' n P).eval u = .ok (bezier n P u) := by
  unfold eval mk'
  dsimp only
  rw [bernsteinAll_eq, M_bind_ok]
  refine (forLoop_sum (n + 1) _ (fun k => bern n k u • P k) 0 ?_).trans ?_
  · intro k s hk
    rw [vget_tab _ hk, M_bind_ok, vget_tab _ hk, M_bind_ok]
  · rw [zero_add]; rfl

theorem rowStep_eq (j : ℕ) (u : K) (m : ℕ) (hm : m ≤ j + 1) :
    forLoop m (rowStep (tab (j + 1) fun i => bern j i u) u) ([], 0) =
      .ok (tab m fun i => bern (j + 1) i u, if m = 0 then 0 else bern j (m - 1) u * u) := by
  apply forLoop_eq (fun k => (tab k fun i => bern (j + 1) i u, if k = 0 then 0 else bern j (k - 1) u * u))
  · simp [tab]
  · intro k hk
    unfold rowStep
    rw [vget_tab _ (by omega), M_bind_ok, tab_succ, bern_succ]
    simp

theorem bernsteinRows_eq (n : ℕ) (u : K) : bernsteinRows n u = .ok (tab (n + 1) fun j => tab (j + 1) fun i => bern j i u) := by
  unfold bernsteinRows
  refine (forLoop_eq (fun m => tab (n + 1) fun j => if j ≤ m then tab (j + 1) fun i => bern j i u else []) ?_ ?_).trans ?_
  · symm
    refine eq_tab_of_get (by simp) fun i hi => ?_
    rcases i with _ | i
    · simp [tab, bern_zero_zero]
    · simp
  · intro j hj
    rw [vget_tab _ (by omega), M_bind_ok, if_pos le_rfl, rowStep_eq j u (j + 1) le_rfl, M_bind_ok, vset_tab _ _ (by omega)]
    congr 1
    refine tab_congr fun i hi => ?_
    by_cases h : i = j + 1
    · subst h
      rw [Function.update_self, if_pos le_rfl, if_neg (by omega), tab_succ (j + 1)]
      dsimp only
      rw [bern_succ_succ, bern_of_lt (Nat.lt_succ_self j)]
      simp
    · rw [Function.update_of_ne h]
      by_cases h2 : i ≤ j
      · rw [if_pos h2, if_pos (by omega)]
      · rw [if_neg h2, if_neg (by omega)]
  · congr 1
    exact tab_congr fun i hi => if_pos (by omega)

/-- The `k`-th differences with the factors of the degrees `n`, `n-1`, ... -/
def diff {V : Type} [AddCommGroup V] [Module K V] (n : ℕ) (P : ℕ → V) : ℕ → ℕ → V
  | 0, i => P i
  | k + 1, i => ((n - k : ℕ) : K) • (diff n P k (i + 1) - diff n P k i)

theorem derivativeControlPoints_eq (n : ℕ) (P : ℕ → P3 K) {d : ℕ} (hd : d ≤ n) :
    (mk' n P).derivativeControlPoints d = .ok (tab (d + 1) fun k => tab (n - k + 1) (diff (K := K) n P k)) := by
  unfold derivativeControlPoints mk'
  dsimp only
  refine (forLoop_eq (fun m => tab (d + 1) fun k => if k ≤ m then tab (n - k + 1) (diff (K := K) n P k) else []) ?_ ?_).trans ?_
  · symm
    refine eq_tab_of_get (by simp) fun i hi => ?_
    rcases i with _ | i
    · simp [diff]
    · simp
  · intro k hk
    rw [vget_tab _ (by omega), M_bind_ok, if_pos le_rfl]
    have e : usub n (k + 1) + 1 = n - (k + 1) + 1 := by unfold usub; rw [if_pos (by omega)]
    have e' : usub n k = n - k := by unfold usub; rw [if_pos (by omega)]
    rw [e, e']
    have : forLoop (n - (k + 1) + 1) (fun i row => do
        let q ← vget (tab (n - k + 1) (diff (K := K) n P k)) (i + 1)
        let p ← vget (tab (n - k + 1) (diff (K := K) n P k)) i
        (.ok (row ++ [((n - k : ℕ) : K) • (q - p)]) : M (List (P3 K)))) [] = .ok (tab (n - (k + 1) + 1) (diff (K := K) n P (k + 1))) := by
      refine (forLoop_push _ _ (diff (K := K) n P (k + 1)) [] ?_).trans (by rw [List.nil_append, tab])
      intro i s hi
      rw [vget_tab _ (by omega), M_bind_ok, vget_tab _ (by omega), M_bind_ok]
      rfl
    rw [this, M_bind_ok, vset_tab _ _ (by omega)]
    congr 1
    refine tab_congr fun i hi => ?_
    by_cases h : i = k + 1
    · subst h
      rw [Function.update_self, if_pos le_rfl]
    · rw [Function.update_of_ne h]
      by_cases h2 : i ≤ k
      · rw [if_pos h2, if_pos (by omega)]
      · rw [if_neg h2, if_neg (by omega)]
  · congr 1
    exact tab_congr fun i hi => if_pos (by omega)

theorem derSum_eq (m : ℕ) (P : ℕ → P3 K) (b : ℕ → K) : derSum (tab m P) (tab m b) m = .ok (∑ j ∈ Finset.range m, b j • P j) := by
  unfold derSum
  refine (forLoop_sum m _ (fun k => b k • P k) 0 ?_).trans (by rw [zero_add])
  intro k s hk
  rw [vget_tab _ hk, M_bind_ok, vget_tab _ hk, M_bind_ok]

/-- The `k`-th derivative, as computed. -/
def dcurve (n : ℕ) (P : ℕ → P3 K) (u : K) (k : ℕ) : P3 K := if k ≤ n then bezier (n - k) (diff (K := K) n P k) u else 0

theorem evalDer_eq (n : ℕ) (P : ℕ → P3 K) (u : K) (nr : ℕ) :
    (mk' n P).evalDer u nr = .ok (bezier n P u, tab (nr + 1) (dcurve n P u)) := by
  unfold evalDer
  dsimp only
  have hn : (mk' n P).n = n := rfl
  rw [hn, bernsteinRows_eq, M_bind_ok, derivativeControlPoints_eq n P (min_le_right _ _), M_bind_ok]
  have e1 : forLoop (min nr n + 1) (fun k der => do
      let row ← vget (tab (min nr n + 1) fun k => tab (n - k + 1) (diff (K := K) n P k)) k
      let b ← vget (tab (n + 1) fun j => tab (j + 1) fun i => bern j i u) (n - k)
      let s ← derSum row b (n - k + 1)
      (.ok (der ++ [s]) : M (List (P3 K)))) [] = .ok (tab (min nr n + 1) (dcurve n P u)) := by
    refine (forLoop_push _ _ (dcurve n P u) [] ?_).trans (by rw [List.nil_append, tab])
    intro k s hk
    rw [vget_tab _ hk, M_bind_ok, vget_tab _ (by omega), M_bind_ok, derSum_eq, M_bind_ok]
    unfold dcurve
    rw [if_pos (by omega)]
    rfl
  rw [e1, M_bind_ok]
  have e2 : forLoop (nr - n) (fun _ der => (.ok (der ++ [(0 : P3 K)]) : M (List (P3 K)))) (tab (min nr n + 1) (dcurve n P u)) =
      .ok (tab (nr + 1) (dcurve n P u)) := by
    refine (forLoop_eq (fun m => tab (min nr n + 1 + m) (dcurve n P u)) rfl ?_).trans ?_
    · intro k hk
      rw [← add_assoc, tab_succ]
      congr 3
      unfold dcurve
      rw [if_neg (by omega)]
    · congr 2; omega
  rw [e2, M_bind_ok, vget_tab _ (by omega), M_bind_ok]
  congr 2

end field

/-! ### Derivatives -/

theorem bern_eq_poly (n j : ℕ) (u : ℝ) : bern n j u = (bernsteinPolynomial ℝ n j).eval u := by
  simp [bern, bernsteinPolynomial]

theorem bern_deriv (m j : ℕ) (u : ℝ) : HasDerivAt (fun t => bern (m + 1) j t) (((m + 1 : ℕ) : ℝ) * ((if j = 0 then 0 else bern m (j - 1) u) - bern m j u)) u := by
  have h := (bernsteinPolynomial ℝ (m + 1) j).hasDerivAt u
  have e : (fun t => bern (m + 1) j t) = fun t => (bernsteinPolynomial ℝ (m + 1) j).eval t := funext fun t => bern_eq_poly _ _ t
  rw [e]
  refine h.congr_deriv ?_
  rcases j with _ | j
  · rw [bernsteinPolynomial.derivative_zero, bern_eq_poly]
    simp
    ring
  · rw [bernsteinPolynomial.derivative_succ, bern_eq_poly, bern_eq_poly]
    simp

theorem bezier_deriv (m : ℕ) (p : ℕ → ℝ) (u : ℝ) : HasDerivAt (fun t => bezier (m + 1) p t) (bezier m (fun i => ((m + 1 : ℕ) : ℝ) • (p (i + 1) - p i)) u) u := by
  unfold bezier
  have h : HasDerivAt (fun t => ∑ j ∈ Finset.range (m + 1 + 1), bern (m + 1) j t • p j)
      (∑ j ∈ Finset.range (m + 1 + 1), (((m + 1 : ℕ) : ℝ) * ((if j = 0 then 0 else bern m (j - 1) u) - bern m j u)) * p j) u := by
    have := HasDerivAt.fun_sum (u := Finset.range (m + 1 + 1)) (A := fun j t => bern (m + 1) j t • p j)
      (A' := fun j => (((m + 1 : ℕ) : ℝ) * ((if j = 0 then 0 else bern m (j - 1) u) - bern m j u)) * p j) (x := u)
      (fun j _ => (bern_deriv m j u).mul_const (p j))
    exact this
  refine h.congr_deriv ?_
  symm
  have e1 : ∑ j ∈ Finset.range (m + 1 + 1), (if j = 0 then 0 else bern m (j - 1) u) * p j = ∑ j ∈ Finset.range (m + 1), bern m j u * p (j + 1) := by
    rw [Finset.sum_range_succ']
    simp
  have e2 : ∑ j ∈ Finset.range (m + 1 + 1), bern m j u * p j = ∑ j ∈ Finset.range (m + 1), bern m j u * p j := by
    rw [Finset.sum_range_succ, bern_of_lt (Nat.lt_succ_self m)]
    simp
  have e3 : ∑ j ∈ Finset.range (m + 1 + 1), (((m + 1 : ℕ) : ℝ) * ((if j = 0 then 0 else bern m (j - 1) u) - bern m j u)) * p j =
      ((m + 1 : ℕ) : ℝ) * (∑ j ∈ Finset.range (m + 1 + 1), (if j = 0 then 0 else bern m (j - 1) u) * p j - ∑ j ∈ Finset.range (m + 1 + 1), bern m j u * p j) := by
    rw [← Finset.sum_sub_distrib, Finset.mul_sum]
    exact Finset.sum_congr rfl fun j _ => by ring
  rw [e3, e1, e2, ← Finset.sum_sub_distrib, Finset.mul_sum]
  refine Finset.sum_congr rfl fun j _ => ?_
  simp only [smul_eq_mul]
  ring

theorem bezier_iteratedDeriv (n : ℕ) (p : ℕ → ℝ) (k : ℕ) :
    iteratedDeriv k (fun t : ℝ => bezier n p t) = fun t => if k ≤ n then bezier (n - k) (diff (K := ℝ) n p k) t else 0 := by
  induction k with
  | zero => rw [iteratedDeriv_zero]; simp only [Nat.zero_le, if_true, Nat.sub_zero]; rfl
  | succ k ih =>
    rw [iteratedDeriv_succ, ih]
    funext t
    by_cases h : k + 1 ≤ n
    · have e : (fun t : ℝ => if k ≤ n then bezier (n - k) (diff (K := ℝ) n p k) t else 0) = fun t : ℝ => bezier (n - (k + 1) + 1) (diff (K := ℝ) n p k) t := by
        funext t
        rw [if_pos (by omega), show n - (k + 1) + 1 = n - k by omega]
      rw [e, (bezier_deriv _ _ _).deriv, if_pos h, show n - (k + 1) + 1 = n - k by omega]
      rfl
    · rw [if_neg h]
      by_cases h2 : k ≤ n
      · have : k = n := by omega
        subst this
        have e : (fun t : ℝ => if k ≤ k then bezier (k - k) (diff (K := ℝ) k p k) t else 0) = fun _ => diff (K := ℝ) k p k 0 := by
          funext t
          rw [if_pos le_rfl, Nat.sub_self]
          simp [bezier, bern]
        rw [e, deriv_const]
      · simp only [if_neg h2, deriv_const]

/-! ### Coordinates -/

section field
variable {K : Type} [Field K]

theorem bezier_x (n : ℕ) (P : ℕ → P3 K) (u : K) : (bezier n P u).x = bezier n (fun j => (P j).x) u := by
  unfold bezier
  induction n + 1 with
  | zero => rfl
  | succ m ih => rw [Finset.sum_range_succ, Finset.sum_range_succ, P3.add_x, ih]; rfl
theorem bezier_y (n : ℕ) (P : ℕ → P3 K) (u : K) : (bezier n P u).y = bezier n (fun j => (P j).y) u := by
  unfold bezier
  induction n + 1 with
  | zero => rfl
  | succ m ih => rw [Finset.sum_range_succ, Finset.sum_range_succ, P3.add_y, ih]; rfl
theorem bezier_z (n : ℕ) (P : ℕ → P3 K) (u : K) : (bezier n P u).z = bezier n (fun j => (P j).z) u := by
  unfold bezier
  induction n + 1 with
  | zero => rfl
  | succ m ih => rw [Finset.sum_range_succ, Finset.sum_range_succ, P3.add_z, ih]; rfl

theorem diff_x (n : ℕ) (P : ℕ → P3 K) (k i : ℕ) : (diff (K := K) n P k i).x = diff (K := K) n (fun j => (P j).x) k i := by
  induction k generalizing i with
  | zero => rfl
  | succ k ih => simp only [diff, P3.smul_x, P3.sub_x, ih, smul_eq_mul]
theorem diff_y (n : ℕ) (P : ℕ → P3 K) (k i : ℕ) : (diff (K := K) n P k i).y = diff (K := K) n (fun j => (P j).y) k i := by
  induction k generalizing i with
  | zero => rfl
  | succ k ih => simp only [diff, P3.smul_y, P3.sub_y, ih, smul_eq_mul]
theorem diff_z (n : ℕ) (P : ℕ → P3 K) (k i : ℕ) : (diff (K := K) n P k i).z = diff (K := K) n (fun j => (P j).z) k i := by
  induction k generalizing i with
  | zero => rfl
  | succ k ih => simp only [diff, P3.smul_z, P3.sub_z, ih, smul_eq_mul]

theorem diff_sub (n : ℕ) (P : ℕ → P3 K) (i : ℕ) : diff (K := K) n P 1 i = (n : K) • (P (i + 1) - P i) := rfl

end field

theorem dcurve_coords (n : ℕ) (P : ℕ → P3 ℝ) (u : ℝ) (k : ℕ) :
    (dcurve n P u k).x = iteratedDeriv k (fun t => (bezier n P t).x) u ∧ (dcurve n P u k).y = iteratedDeriv k (fun t => (bezier n P t).y) u ∧
      (dcurve n P u k).z = iteratedDeriv k (fun t => (bezier n P t).z) u := by
  simp only [bezier_x, bezier_y, bezier_z, bezier_iteratedDeriv]
  unfold dcurve
  split
  · rw [bezier_x, bezier_y, bezier_z]
    exact ⟨by congr 1; funext i; rw [diff_x], by congr 1; funext i; rw [diff_y], by congr 1; funext i; rw [diff_z]⟩
  · exact ⟨rfl, rfl, rfl⟩

end Transfinite.BCurve
