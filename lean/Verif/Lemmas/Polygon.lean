import Verif.Spec.Polygon
import Verif.Model.Domain
import Verif.Lemmas.Lists
import Mathlib.Algebra.BigOperators.Ring.Finset
import Mathlib.Algebra.Order.BigOperators.Ring.Finset

namespace Transfinite

open Spec

variable {K : Type*} [Field K]

theorem leftOf_comb2 (n : ℕ) (v : ℕ → P2 K) (i : ℕ) {a b : K} (h : a + b = 1) (p q : P2 K) :
    leftOf n v i (a • p + b • q) = a * leftOf n v i p + b * leftOf n v i q := by
  have : b = 1 - a := by linear_combination h
  subst this
  simp only [leftOf, area2, P2.add_x, P2.add_y, P2.smul_x, P2.smul_y]; ring

theorem leftOf_comb3 (n : ℕ) (v : ℕ → P2 K) (i : ℕ) {a b c : K} (h : a + b + c = 1) (p q r : P2 K) :
    leftOf n v i (a • p + b • q + c • r) =
      a * leftOf n v i p + b * leftOf n v i q + c * leftOf n v i r := by
  have : c = 1 - a - b := by linear_combination h
  subst this
  simp only [leftOf, area2, P2.add_x, P2.add_y, P2.smul_x, P2.smul_y]; ring

theorem leftOf_self (n : ℕ) (v : ℕ → P2 K) (i : ℕ) : leftOf n v i (v i) = 0 := by
  simp only [leftOf, area2]; ring

theorem leftOf_prev (n : ℕ) (v : ℕ → P2 K) (i : ℕ) : leftOf n v i (v ((i + n - 1) % n)) = 0 := by
  simp only [leftOf, area2]; ring

theorem leftOf_sidePoint (n : ℕ) (v : ℕ → P2 K) (i : ℕ) (s : K) : leftOf n v i (sidePoint n v i s) = 0 := by
  unfold sidePoint
  rw [leftOf_comb2 n v i (by ring), leftOf_prev, leftOf_self]; ring

theorem Spec.StrictConvex.nonneg [LinearOrder K] {n : ℕ} {v : ℕ → P2 K} (h : StrictConvex n v) {i j : ℕ}
    (hi : i < n) (hj : j < n) : 0 ≤ leftOf n v i (v j) := by
  by_cases h1 : j = i
  · rw [h1, leftOf_self]
  · by_cases h2 : j = (i + n - 1) % n
    · rw [h2, leftOf_prev]
    · exact (h i hi j hj h1 h2).le

theorem edgePoint_eq {d : Domain K} {v : ℕ → P2 K} (hv : d.vertices = tab d.n v) {i : ℕ} (hi : i < d.n)
    (s : K) : d.edgePoint i s = .ok (sidePoint d.n v i s) := by
  unfold Domain.edgePoint
  rw [hv, vget_tab v hi, vget_tab v (prevIx_lt (by omega))]
  simp only [M_bind_ok, sidePoint, prevIx]
  rw [add_comm]

theorem sum_range_prev {β : Type*} [AddCommMonoid β] {n : ℕ} (hn : 0 < n) (g : ℕ → β) :
    ∑ i ∈ Finset.range n, g ((i + n - 1) % n) = ∑ i ∈ Finset.range n, g i := by
  apply Finset.sum_bij' (fun i _ => prevIx n i) (fun i _ => nextIx n i)
  · intro i _; exact Finset.mem_range.mpr (prevIx_lt hn)
  · intro i _; exact Finset.mem_range.mpr (nextIx_lt hn)
  · intro i hi; exact nextIx_prevIx (Finset.mem_range.mp hi)
  · intro i hi; exact prevIx_nextIx (Finset.mem_range.mp hi)
  · intro i _; rfl

theorem sum_range_next {β : Type*} [AddCommMonoid β] {n : ℕ} (hn : 0 < n) (g : ℕ → β) :
    ∑ i ∈ Finset.range n, g (nextIx n i) = ∑ i ∈ Finset.range n, g i := by
  apply Finset.sum_bij' (fun i _ => nextIx n i) (fun i _ => prevIx n i)
  · intro i _; exact Finset.mem_range.mpr (nextIx_lt hn)
  · intro i _; exact Finset.mem_range.mpr (prevIx_lt hn)
  · intro i hi; exact prevIx_nextIx (Finset.mem_range.mp hi)
  · intro i hi; exact nextIx_prevIx (Finset.mem_range.mp hi)
  · intro i _; rfl

/-- The areas of the triangles spanned by the sides and a common point add up to the polygon's. -/
theorem sum_leftOf {n : ℕ} (hn : 0 < n) (v : ℕ → P2 K) (c : P2 K) :
    ∑ i ∈ Finset.range n, leftOf n v i c = polyArea2 n v := by
  have h1 := sum_range_prev hn (fun i => (v i).x)
  have h2 := sum_range_prev hn (fun i => (v i).y)
  unfold polyArea2
  have : ∀ i ∈ Finset.range n, leftOf n v i c =
      ((v ((i + n - 1) % n)).x * (v i).y - (v ((i + n - 1) % n)).y * (v i).x) +
      (c.y * ((v i).x - (v ((i + n - 1) % n)).x) - c.x * ((v i).y - (v ((i + n - 1) % n)).y)) := by
    intro i _; simp only [leftOf, area2]; ring
  have h3 : ∑ i ∈ Finset.range n, (c.y * ((v i).x - (v ((i + n - 1) % n)).x) -
      c.x * ((v i).y - (v ((i + n - 1) % n)).y)) = 0 := by
    rw [Finset.sum_sub_distrib, ← Finset.mul_sum, ← Finset.mul_sum, Finset.sum_sub_distrib,
      Finset.sum_sub_distrib, h1, h2]; simp
  rw [Finset.sum_congr rfl this, Finset.sum_add_distrib, h3, add_zero]

theorem leftOf_sum {ι : Type*} (n : ℕ) (v : ℕ → P2 K) (i : ℕ) (s : Finset ι) (w : ι → K) (p : ι → P2 K)
    (h : ∑ j ∈ s, w j = 1) : leftOf n v i (∑ j ∈ s, w j • p j) = ∑ j ∈ s, w j * leftOf n v i (p j) := by
  have e : ∀ q : P2 K, leftOf n v i q = (area2 (v ((i + n - 1) % n)) (v i) 0) * 1 +
      ((v i).x - (v ((i + n - 1) % n)).x) * q.y - ((v i).y - (v ((i + n - 1) % n)).y) * q.x := by
    intro q; simp only [leftOf, area2, P2.zero_x, P2.zero_y]; ring
  rw [e, P2.sum_x, P2.sum_y, ← h, Finset.mul_sum, Finset.mul_sum, Finset.mul_sum,
    ← Finset.sum_add_distrib, ← Finset.sum_sub_distrib]
  apply Finset.sum_congr rfl
  intro j _
  rw [e]; simp only [P2.smul_x, P2.smul_y]; ring

/-- A combination of all vertices with positive weights is strictly inside. -/
theorem inside_of_weights [LinearOrder K] [IsStrictOrderedRing K] {n : ℕ} (hn : 3 ≤ n) {v : ℕ → P2 K}
    (hc : StrictConvex n v) (w : ℕ → K) (hw : ∀ i < n, 0 < w i) (h1 : ∑ i ∈ Finset.range n, w i = 1) :
    Inside n v (∑ i ∈ Finset.range n, w i • v i) := by
  intro i hi
  rw [leftOf_sum n v i _ w v h1]
  apply Finset.sum_pos'
  · intro j hj
    rw [Finset.mem_range] at hj
    exact mul_nonneg (hw j hj).le (hc.nonneg hi hj)
  · refine ⟨nextIx n i, Finset.mem_range.mpr (nextIx_lt (by omega)), mul_pos (hw _ (nextIx_lt (by omega))) ?_⟩
    have hp : (i + n - 1) % n = prevIx n i := rfl
    have h2 := nextIx_eq hi
    have h3 := prevIx_eq hi
    apply hc i hi _ (nextIx_lt (by omega))
    · rw [h2]; split_ifs <;> omega
    · rw [hp, h2, h3]; split_ifs <;> omega

end Transfinite
