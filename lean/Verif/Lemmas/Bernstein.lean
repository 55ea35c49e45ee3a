import Verif.Spec.Bezier
import Verif.Model.Utilities
import Verif.Lemmas.Lists
import Mathlib.Data.Nat.Choose.Basic

namespace Transfinite

open Spec

variable {K : Type*} [Field K]

theorem bern_zero_zero (u : K) : bern 0 0 u = 1 := by simp [bern]

theorem bern_of_lt {n j : ℕ} (h : n < j) (u : K) : bern n j u = 0 := by
  simp [bern, Nat.choose_eq_zero_of_lt h]

theorem bern_succ_zero (n : ℕ) (u : K) : bern (n + 1) 0 u = bern n 0 u * (1 - u) := by
  simp [bern, pow_succ]

theorem bern_succ_succ (n j : ℕ) (u : K) :
    bern (n + 1) (j + 1) u = bern n j u * u + bern n (j + 1) u * (1 - u) := by
  unfold bern
  rw [Nat.choose_succ_succ]
  rcases Nat.lt_or_ge j n with h | h
  · have e : n - j = (n - (j + 1)) + 1 := by omega
    have e2 : n + 1 - (j + 1) = (n - (j + 1)) + 1 := by omega
    rw [e, e2]; push_cast; ring
  · rcases Nat.eq_or_lt_of_le h with h | h
    · subst h; simp [pow_succ]
    · rw [Nat.choose_eq_zero_of_lt h, Nat.choose_eq_zero_of_lt (by omega)]; simp

/-- The one-line form of the recursion. -/
theorem bern_succ (n j : ℕ) (u : K) :
    bern (n + 1) j u = (if j = 0 then 0 else bern n (j - 1) u * u) + bern n j u * (1 - u) := by
  cases j with
  | zero => simp [bern_succ_zero]
  | succ j => simp [bern_succ_succ]

theorem bern_sum (n : ℕ) (u : K) : ∑ j ∈ Finset.range (n + 1), bern n j u = 1 := by
  have h := add_pow u (1 - u) n
  rw [add_sub_cancel, one_pow] at h
  rw [h]; apply Finset.sum_congr rfl; intro j _; unfold bern; ring

theorem bern_at_zero (n j : ℕ) : bern n j (0 : K) = if j = 0 then 1 else 0 := by
  unfold bern; split
  · subst_vars; simp
  · simp [zero_pow ‹_›]

theorem bern_at_one {n j : ℕ} (h : j ≤ n) : bern n j (1 : K) = if j = n then 1 else 0 := by
  unfold bern; split
  · subst_vars; simp
  · have : n - j ≠ 0 := by omega
    simp [zero_pow this]

theorem bern_symm {n j : ℕ} (h : j ≤ n) (u : K) : bern n j (1 - u) = bern n (n - j) u := by
  unfold bern; rw [Nat.choose_symm h]
  have : n - (n - j) = j := by omega
  rw [this]; ring

theorem bern_nonneg [LinearOrder K] [IsStrictOrderedRing K] (n j : ℕ) {u : K} (h0 : 0 ≤ u) (h1 : u ≤ 1) :
    0 ≤ bern n j u := by
  unfold bern
  have : 0 ≤ 1 - u := by linarith
  positivity

/-! ### The loops -/

/-- Contents of `coeff` inside of the inner loop after `k` steps. -/
private def mid (j k : ℕ) (u : K) (i : ℕ) : K := if i < k then bern (j + 1) i u else bern j i u

private theorem inner_loop (j : ℕ) (u : K) (m : ℕ) (hm : m ≤ j + 1) :
    forLoop m (bernsteinInner u) (tab (j + 1) (fun i => bern j i u), 0) =
      .ok (tab (j + 1) (mid j m u), if m = 0 then 0 else bern j (m - 1) u * u) := by
  apply forLoop_eq (fun k => (tab (j + 1) (mid j k u), if k = 0 then 0 else bern j (k - 1) u * u))
  · simp [mid]
  · intro k hk
    have hk' : k < j + 1 := by omega
    simp only [bernsteinInner, vget_tab _ hk', vset_tab _ _ hk', M_bind_ok]
    congr 2
    · apply tab_congr; intro i hi
      simp only [Function.update_apply, mid]
      by_cases h : i = k
      · subst h; simp only [if_true, lt_irrefl, if_false, Nat.lt_succ_self]
        rw [bern_succ]
      · by_cases h2 : i < k
        · simp [h, h2, Nat.lt_succ_of_lt h2]
        · have : ¬ i < k + 1 := by omega
          simp [h, h2, this]
    · simp [mid]

theorem bernsteinAll_eq (n : ℕ) (u : K) :
    bernsteinAll n u = .ok (tab (n + 1) (fun j => bern n j u)) := by
  unfold bernsteinAll
  apply forLoop_eq (fun m => tab (m + 1) (fun j => bern m j u))
  · simp [tab, bern_zero_zero]
  · intro j _
    simp only [bernsteinOuter, inner_loop j u (j + 1) le_rfl, M_bind_ok]
    congr 1
    rw [tab_push]
    apply tab_congr; intro i hi
    simp only [Function.update_apply, mid]
    split
    · subst_vars; simp only [Nat.succ_ne_zero, if_false, Nat.add_sub_cancel]
      rw [bern_succ_succ, bern_of_lt (Nat.lt_succ_self j)]; ring
    · have : i < j + 1 := by omega
      simp [this]

/-- contents of `tmp` after `k` full rounds: position `p ≥ k` holds B^k_{p-(n-i)} -/
private def rnd (i n k : ℕ) (u : K) (p : ℕ) : K :=
  if p < n - i then 0 else bern k (p - (n - i)) u

private theorem one_inner (i n k : ℕ) (u : K) (hk : k < n) (f : ℕ → K)
    (hf : ∀ p, k ≤ p → p ≤ n → f p = rnd i n k u p) :
    ∃ g : ℕ → K, forLoop (n - k) (bernsteinOneInner n u) (tab (n + 1) f) = .ok (tab (n + 1) g) ∧
      (∀ p, k + 1 ≤ p → p ≤ n → g p = rnd i n (k + 1) u p) := by
  obtain ⟨s, e, g, hg, h1, _⟩ := forLoop_inv (n := n - k) (body := bernsteinOneInner n u)
    (s := tab (n + 1) f)
    (fun t s => ∃ g : ℕ → K, s = tab (n + 1) g ∧
      (∀ p, n - t < p → p ≤ n → g p = rnd i n (k + 1) u p) ∧
      (∀ p, p ≤ n - t → g p = f p))
    ⟨f, rfl, by intro p h1 h2; omega, fun _ _ => rfl⟩
    (by
      rintro t s ht ⟨g, rfl, h1, h2⟩
      have a1 : n - t - 1 < n + 1 := by omega
      have a2 : n - t < n + 1 := by omega
      refine ⟨_, by
        simp only [bernsteinOneInner, vget_tab _ a1, vget_tab _ a2, vset_tab _ _ a2, M_bind_ok]
        rfl, _, rfl, ?_, ?_⟩
      · intro p hp hpn
        by_cases hq : p = n - t
        · subst hq
          rw [Function.update_self, h2 _ (by omega), h2 _ (by omega), hf _ (by omega) (by omega),
            hf _ (by omega) (by omega)]
          unfold rnd
          by_cases c1 : n - t < n - i
          · have : n - t - 1 < n - i := by omega
            simp [c1, this]
          · by_cases c2 : n - t - 1 < n - i
            · have : n - t - (n - i) = 0 := by omega
              simp [c1, c2, this, bern_succ_zero]
            · obtain ⟨q, hq⟩ : ∃ q, n - t - (n - i) = q + 1 := ⟨n - t - (n - i) - 1, by omega⟩
              have : n - t - 1 - (n - i) = q := by omega
              simp only [c1, c2, if_false, this, hq, bern_succ_succ]
        · rw [Function.update_of_ne hq, h1 p (by omega) hpn]
      · intro p hp
        rw [Function.update_of_ne (by omega), h2 p (by omega)])
  exact ⟨g, by rw [e, hg], fun p hp hpn => h1 p (by omega) hpn⟩

theorem bernsteinOne_eq {i n : ℕ} (h : i ≤ n) (u : K) : bernsteinOne i n u = .ok (bern n i u) := by
  unfold bernsteinOne
  rw [if_neg (by omega), replicate_eq_tab, vset_tab _ _ (by omega), M_bind_ok]
  obtain ⟨s, e, g, rfl, hg⟩ := forLoop_inv (n := n)
    (body := fun k tmp => forLoop (n - k) (bernsteinOneInner n u) tmp)
    (s := tab (n + 1) (Function.update (fun _ => (0 : K)) (n - i) 1))
    (fun k s => ∃ g : ℕ → K, s = tab (n + 1) g ∧ ∀ p, k ≤ p → p ≤ n → g p = rnd i n k u p)
    ⟨_, rfl, by
      intro p _ hp
      unfold rnd
      rw [Function.update_apply]
      split
      · subst_vars; simp [bern_zero_zero]
      · split
        · rfl
        · rw [bern_of_lt (by omega)]⟩
    (by
      rintro k s hk ⟨g, rfl, hg⟩
      obtain ⟨g', e', hg'⟩ := one_inner i n k u hk g hg
      exact ⟨_, e', g', rfl, hg'⟩)
  rw [e, M_bind_ok, vget_tab _ (by omega), hg n le_rfl le_rfl]
  unfold rnd
  have h1 : ¬ n < n - i := by omega
  have h2 : n - (n - i) = i := by omega
  simp [h1, h2]

/-! ### Degree elevation -/

theorem bezierElevate_eq (n : ℕ) (f : ℕ → P3 K) :
    bezierElevate (tab (n + 1) f) = .ok (tab (n + 2) (fun i =>
      if i = 0 then f 0 else if i = n + 1 then f n else
        ((i : ℕ) / ((n + 1 : ℕ) : K)) • f (i - 1) + ((n + 1 - i : ℕ) / ((n + 1 : ℕ) : K)) • f i)) := by
  set G : ℕ → P3 K := fun i =>
      if i = 0 then f 0 else if i = n + 1 then f n else
        ((i : ℕ) / ((n + 1 : ℕ) : K)) • f (i - 1) + ((n + 1 - i : ℕ) / ((n + 1 : ℕ) : K)) • f i with hG
  unfold bezierElevate
  rw [vget_tab _ (by omega), M_bind_ok, length_tab, Nat.add_sub_cancel]
  have h := forLoop_eq (n := n) (body := elevateStep (n + 1)) (s := (tab (n + 1) f, f 0))
    (fun k => (tab (n + 1) (fun i => if i ≤ k then G i else f i), f k))
    (by
      simp only [Prod.mk.injEq, and_true]
      apply tab_congr; intro i _
      split
      · have : i = 0 := by omega
        subst this; simp [hG]
      · rfl)
    (by
      intro k hk
      have hk1 : k + 1 < n + 1 := by omega
      simp only [elevateStep, vget_tab _ hk1, vset_tab _ _ hk1, M_bind_ok]
      congr 2
      · apply tab_congr; intro i hi
        rw [Function.update_apply]
        by_cases h : i = k + 1
        · subst h
          have : ¬ (k = n) := by omega
          simp [hG, this]
        · by_cases h2 : i ≤ k
          · simp [h, h2, Nat.le_succ_of_le h2]
          · have : ¬ i ≤ k + 1 := by omega
            simp [h, h2, this]
      · simp)
  rw [h, M_bind_ok, tab_push]
  congr 1
  apply tab_congr; intro i hi
  rw [Function.update_apply]
  split
  · subst_vars; simp [hG]
  · have : i ≤ n := by omega
    simp [this]

end Transfinite
