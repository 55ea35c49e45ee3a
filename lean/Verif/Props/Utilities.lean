import Verif.Lemmas.Bernstein
import Mathlib.Analysis.Calculus.Deriv.Pow
import Mathlib.Analysis.Calculus.Deriv.Mul
import Mathlib.Analysis.Calculus.Deriv.Add
import Mathlib.Tactic.IntervalCases

/-! # Properties C53–C56: `utilities.cc` -/

namespace Transfinite

open Spec

variable {K : Type*} [Field K]

/-! ## C53 Bernstein evaluation -/

/-- C53: the table version returns exactly the `n+1` Bernstein values (in particular it never
accesses the vector out of range). -/
theorem C53_bernstein_table (n : ℕ) (u : K) :
    ∃ l, bernsteinAll n u = .ok l ∧ l.length = n + 1 ∧
      ∀ j (h : j < l.length), l[j] = (n.choose j : K) * u ^ j * (1 - u) ^ (n - j) :=
  ⟨_, bernsteinAll_eq n u, by simp, fun j h => by simp [bern]⟩

/-- C53: the values of the table sum up to 1. -/
theorem C53_bernstein_sum (n : ℕ) (u : K) : ∃ l, bernsteinAll n u = .ok l ∧ l.sum = 1 :=
  ⟨_, bernsteinAll_eq n u, by rw [sum_tab, bern_sum]⟩

/-- C53: for parameters in [0,1] no value is negative. -/
theorem C53_bernstein_nonneg [LinearOrder K] [IsStrictOrderedRing K] (n : ℕ) {u : K} (h0 : 0 ≤ u)
    (h1 : u ≤ 1) : ∃ l, bernsteinAll n u = .ok l ∧ ∀ x ∈ l, 0 ≤ x :=
  ⟨_, bernsteinAll_eq n u, by
    intro x hx; simp only [tab, List.mem_map] at hx
    obtain ⟨j, _, rfl⟩ := hx; exact bern_nonneg n j h0 h1⟩

/-- C53: the single value version agrees with the table for `i ≤ n`. -/
theorem C53_bernstein_agree {i n : ℕ} (h : i ≤ n) (u : K) :
    ∃ l, bernsteinAll n u = .ok l ∧ ∃ hi : i < l.length, bernsteinOne i n u = .ok l[i] :=
  ⟨_, bernsteinAll_eq n u, by simp; omega, by rw [bernsteinOne_eq h]; simp⟩

/-- C53: the precondition `i ≤ n` is needed: otherwise there is an out-of-range write. -/
theorem C53_bernstein_oob {i n : ℕ} (h : n < i) (u : K) : bernsteinOne i n u = .error .oob := by
  simp [bernsteinOne, h]

example : bernsteinAll 3 (1 / 3 : ℚ) = .ok [8 / 27, 4 / 9, 2 / 9, 1 / 27] := by
  rw [bernsteinAll_eq]; norm_num [tab, List.range_succ, bern, Nat.choose]
example : bernsteinOne 2 3 (1 / 3 : ℚ) = .ok (2 / 9) := by
  rw [bernsteinOne_eq (by norm_num)]; norm_num [bern, Nat.choose]

/-! ## C54 Binomial coefficients -/

/-- C54: if every intermediate product fits in 64 bits, the result is the binomial coefficient. -/
theorem C54_binomial_correct (n k : ℕ) (h : ∀ d < k, n.choose d * (n - d) < 2 ^ 64) :
    binomial n k = .ok (n.choose k) := by
  unfold binomial
  split
  · rename_i hk; rw [Nat.choose_eq_zero_of_lt hk]
  · rw [forLoop_eq (fun d => (n.choose d, n - d)) (by simp)]
    · rfl
    · intro d hd
      simp only [binomialStep, Except.ok.injEq, Prod.mk.injEq]
      refine ⟨?_, by omega⟩
      rw [Nat.mod_eq_of_lt (h d hd), ← Nat.choose_succ_right_eq]
      exact Nat.mul_div_cancel _ (Nat.succ_pos d)

/-- C54: in particular, it is correct for all `n ≤ 62`. -/
theorem C54_binomial_small (n k : ℕ) (hn : n ≤ 62) : binomial n k = .ok (n.choose k) := by
  apply C54_binomial_correct
  intro d _
  cases n with
  | zero => simp
  | succ m =>
    have h1 : (m + 1).choose d * (m + 1 - d) = (m + 1) * m.choose d := by
      have a := Nat.add_one_mul_choose_eq m d
      have b := Nat.choose_succ_right_eq (m + 1) d
      rw [← b, ← a]
    rw [h1]
    have h2 : m.choose d ≤ Nat.choose 61 30 := by
      refine le_trans (Nat.choose_le_choose d (show m ≤ 61 by omega)) ?_
      exact Nat.choose_le_middle d 61
    calc (m + 1) * m.choose d ≤ 62 * Nat.choose 61 30 := Nat.mul_le_mul (by omega) h2
      _ < 2 ^ 64 := by norm_num [Nat.choose_eq_descFactorial_div_factorial, Nat.descFactorial, Nat.factorial]

/-- C54: the bound is sharp: for n = 63 the 64-bit arithmetic overflows although the result would
fit. -/
theorem C54_binomial_overflow :
    ∃ k r, Nat.choose 63 k < 2 ^ 64 ∧ binomial 63 k = .ok r ∧ r ≠ Nat.choose 63 k := by
  refine ⟨32, 148894686314746622, ?_, ?_, ?_⟩
  · norm_num [Nat.choose_eq_descFactorial_div_factorial, Nat.descFactorial, Nat.factorial]
  · decide +kernel
  · norm_num [Nat.choose_eq_descFactorial_div_factorial, Nat.descFactorial, Nat.factorial]

example : binomial 10 3 = .ok 120 := by decide +kernel

/-! ## C55 Hermite blending functions -/

/-- C55: the positional blends are complementary. -/
theorem C55_hermite_sum (t : K) : hermite 0 t + hermite 3 t = 1 := by simp [hermite]; ring

/-- C55: reversal symmetry. -/
theorem C55_hermite_symm (t : K) :
    hermite 0 (1 - t) = hermite 3 t ∧ hermite 1 (1 - t) = hermite 2 t := by
  constructor <;> simp [hermite] <;> ring

/-- C55: end values of the four functions (positions, then tangents). -/
theorem C55_hermite_values :
    (hermite 0 (0 : K) = 1 ∧ hermite 0 (1 : K) = 0) ∧ (hermite 1 (0 : K) = 0 ∧ hermite 1 (1 : K) = 0) ∧
    (hermite 2 (0 : K) = 0 ∧ hermite 2 (1 : K) = 0) ∧ (hermite 3 (0 : K) = 0 ∧ hermite 3 (1 : K) = 1) := by
  simp [hermite]

/-- C55: end derivatives of the four functions. -/
theorem C55_hermite_derivs :
    (HasDerivAt (hermite 0 : ℝ → ℝ) 0 0 ∧ HasDerivAt (hermite 0 : ℝ → ℝ) 0 1) ∧
    (HasDerivAt (hermite 1 : ℝ → ℝ) 1 0 ∧ HasDerivAt (hermite 1 : ℝ → ℝ) 0 1) ∧
    (HasDerivAt (hermite 2 : ℝ → ℝ) 0 0 ∧ HasDerivAt (hermite 2 : ℝ → ℝ) (-1) 1) ∧
    (HasDerivAt (hermite 3 : ℝ → ℝ) 0 0 ∧ HasDerivAt (hermite 3 : ℝ → ℝ) 0 1) := by
  have hx : ∀ x : ℝ, HasDerivAt (fun t : ℝ => t) 1 x := hasDerivAt_id
  have hy : ∀ x : ℝ, HasDerivAt (fun t : ℝ => 1 - t) (-1) x := fun x => by
    simpa using (hx x).const_sub 1
  have h0 : ∀ x : ℝ, HasDerivAt (hermite 0 : ℝ → ℝ) (-6 * x * (1 - x)) x := fun x => by
    have := ((hy x).pow 3).add ((((hy x).pow 2).const_mul 3).mul (hx x))
    refine (this.congr_of_eventuallyEq (.of_forall fun t => by simp [hermite])).congr_deriv ?_
    simp; ring
  have h1 : ∀ x : ℝ, HasDerivAt (hermite 1 : ℝ → ℝ) ((1 - x) * (1 - 3 * x)) x := fun x => by
    have := ((hy x).pow 2).mul (hx x)
    refine (this.congr_of_eventuallyEq (.of_forall fun t => by simp [hermite])).congr_deriv ?_
    simp; ring
  have h2 : ∀ x : ℝ, HasDerivAt (hermite 2 : ℝ → ℝ) (x * (2 - 3 * x)) x := fun x => by
    have := (hy x).mul ((hx x).pow 2)
    refine (this.congr_of_eventuallyEq (.of_forall fun t => by simp [hermite])).congr_deriv ?_
    simp; ring
  have h3 : ∀ x : ℝ, HasDerivAt (hermite 3 : ℝ → ℝ) (6 * x * (1 - x)) x := fun x => by
    have := (((hy x).const_mul 3).mul ((hx x).pow 2)).add ((hx x).pow 3)
    refine (this.congr_of_eventuallyEq (.of_forall fun t => by simp [hermite])).congr_deriv ?_
    simp; ring
  refine ⟨⟨?_, ?_⟩, ⟨?_, ?_⟩, ⟨?_, ?_⟩, ⟨?_, ?_⟩⟩
  all_goals first
    | exact (h0 _).congr_deriv (by norm_num)
    | exact (h1 _).congr_deriv (by norm_num)
    | exact (h2 _).congr_deriv (by norm_num)
    | exact (h3 _).congr_deriv (by norm_num)

/-- C55: `hermite(0, ·)` is decreasing on [0,1] with values in [0,1]. -/
theorem C55_hermite_mono [LinearOrder K] [IsStrictOrderedRing K] {t t' : K} (h0 : 0 ≤ t)
    (h : t ≤ t') (h1 : t' ≤ 1) :
    hermite 0 t' ≤ hermite 0 t ∧ 0 ≤ hermite 0 t' ∧ hermite 0 t ≤ 1 := by
  have e : ∀ x : K, hermite 0 x = 1 - 3 * x ^ 2 + 2 * x ^ 3 := fun x => by simp [hermite]; ring
  rw [e, e]
  have a : 0 ≤ t' - t := by linarith
  have b : 0 ≤ 1 - t' := by linarith
  have c : 0 ≤ 1 - t := by linarith
  have d : 0 ≤ t' := by linarith
  refine ⟨?_, ?_, ?_⟩
  · have : 1 - 3 * t ^ 2 + 2 * t ^ 3 - (1 - 3 * t' ^ 2 + 2 * t' ^ 3) =
      (t' - t) * (t * (1 - t) * 3 + 3 * t' * (1 - t') + (t' - t) ^ 2) := by ring
    have : 0 ≤ (t' - t) * (t * (1 - t) * 3 + 3 * t' * (1 - t') + (t' - t) ^ 2) := by positivity
    linarith
  · have : 1 - 3 * t' ^ 2 + 2 * t' ^ 3 = (1 - t') ^ 2 * (1 + 2 * t') := by ring
    rw [this]; positivity
  · have : 1 - (1 - 3 * t ^ 2 + 2 * t ^ 3) = t ^ 2 * (1 + 2 * (1 - t)) := by ring
    have : 0 ≤ t ^ 2 * (1 + 2 * (1 - t)) := by positivity
    linarith

example : hermite 0 (1 / 4 : ℚ) = 27 / 32 ∧ hermite 7 (1 / 4 : ℚ) = -1 := by norm_num [hermite]

/-! ## C56 Degree elevation -/

/-- C56: degree elevation of `n+1` control points gives `n+2` control points of the same curve with
the same end points. (`K` of characteristic zero, such as ℝ.) -/
theorem C56_bezierElevate [CharZero K] (n : ℕ) (p : ℕ → P3 K) :
    ∃ q : ℕ → P3 K, bezierElevate (tab (n + 1) p) = .ok (tab (n + 2) q) ∧
      q 0 = p 0 ∧ q (n + 1) = p n ∧ ∀ u : K, bezier (n + 1) q u = bezier n p u := by
  refine ⟨_, bezierElevate_eq n p, by simp, by simp, fun u => ?_⟩
  unfold bezier
  have hn : ((n + 1 : ℕ) : K) ≠ 0 := by exact_mod_cast Nat.succ_ne_zero n
  -- coefficients of the two contributions
  have key : ∀ i ∈ Finset.range (n + 2),
      bern (n + 1) i u • (if i = 0 then p 0 else if i = n + 1 then p n else
        ((i : ℕ) / ((n + 1 : ℕ) : K)) • p (i - 1) + ((n + 1 - i : ℕ) / ((n + 1 : ℕ) : K)) • p i) =
      (if i = 0 then 0 else (u * bern n (i - 1) u) • p (i - 1)) +
      (if i = n + 1 then 0 else ((1 - u) * bern n i u) • p i) := by
    intro i hi
    rw [Finset.mem_range] at hi
    have A : ∀ j, j + 1 ≤ n + 1 → bern (n + 1) (j + 1) u * (((j + 1 : ℕ) : K) / ((n + 1 : ℕ) : K)) = u * bern n j u := by
      intro j hj
      unfold bern
      have hc : ((n + 1).choose (j + 1) : K) * ((j + 1 : ℕ) : K) = ((n + 1 : ℕ) : K) * (n.choose j : K) := by
        exact_mod_cast (Nat.add_one_mul_choose_eq n j).symm
      have e : n + 1 - (j + 1) = n - j := by omega
      rw [e, mul_div_assoc', div_eq_iff hn]
      calc _ = (((n + 1).choose (j + 1) : K) * ((j + 1 : ℕ) : K)) * u ^ (j + 1) * (1 - u) ^ (n - j) := by ring
        _ = _ := by rw [hc]; ring
    have B : ∀ j, j ≤ n → bern (n + 1) j u * (((n + 1 - j : ℕ) : K) / ((n + 1 : ℕ) : K)) = (1 - u) * bern n j u := by
      intro j hj
      unfold bern
      have hc : ((n + 1).choose j : K) * ((n + 1 - j : ℕ) : K) = ((n + 1 : ℕ) : K) * (n.choose j : K) := by
        have a := Nat.choose_mul_succ_eq n j
        have : (n + 1).choose j * (n + 1 - j) = (n + 1) * n.choose j := by rw [← a]; ring
        exact_mod_cast this
      have e : n + 1 - j = (n - j) + 1 := by omega
      rw [mul_div_assoc', div_eq_iff hn]
      calc _ = (((n + 1).choose j : K) * ((n + 1 - j : ℕ) : K)) * u ^ j * (1 - u) ^ (n + 1 - j) := by ring
        _ = _ := by rw [hc, e]; ring
    rcases Nat.eq_zero_or_pos i with h0 | h0
    · subst h0
      have := B 0 (by omega)
      rw [Nat.sub_zero, div_self hn, mul_one] at this
      simp [this]
    · obtain ⟨j, rfl⟩ : ∃ j, i = j + 1 := ⟨i - 1, by omega⟩
      by_cases h1 : j = n
      · subst h1
        have := A j (by omega)
        rw [div_self hn, mul_one] at this
        simp [this]
      · have a := A j (by omega)
        have b := B (j + 1) (by omega)
        have h2 : ¬ (j + 1 = n + 1) := by omega
        simp only [Nat.succ_ne_zero, if_false, h2, Nat.add_sub_cancel, smul_add, smul_smul, a, b]
  rw [Finset.sum_congr rfl key, Finset.sum_add_distrib, Finset.sum_range_succ' _ (n + 1)]
  rw [Finset.sum_range_succ (fun i => if i = n + 1 then (0 : P3 K) else _) (n + 1)]
  have e1 : ∑ k ∈ Finset.range (n + 1), (if k + 1 = 0 then (0 : P3 K) else (u * bern n (k + 1 - 1) u) • p (k + 1 - 1))
      = ∑ k ∈ Finset.range (n + 1), (u * bern n k u) • p k := by simp
  have e2 : ∑ k ∈ Finset.range (n + 1), (if k = n + 1 then (0 : P3 K) else ((1 - u) * bern n k u) • p k)
      = ∑ k ∈ Finset.range (n + 1), ((1 - u) * bern n k u) • p k := by
    apply Finset.sum_congr rfl; intro k hk
    rw [Finset.mem_range] at hk
    rw [if_neg (by omega)]
  rw [e1, e2]
  simp only [if_true, add_zero]
  rw [← Finset.sum_add_distrib]
  apply Finset.sum_congr rfl; intro k _
  rw [← add_smul]; congr 1; ring

/-- C56: elevating the empty list is an access to a non-existing element. -/
theorem C56_bezierElevate_empty : bezierElevate ([] : List (P3 K)) = .error .oob := by
  simp [bezierElevate, vget]

example : bezierElevate [(⟨0, 0, 0⟩ : P3 ℚ), ⟨2, 0, 0⟩, ⟨2, 2, 1⟩] =
    .ok [⟨0, 0, 0⟩, ⟨4 / 3, 0, 0⟩, ⟨2, 2 / 3, 1 / 3⟩, ⟨2, 2, 1⟩] := by decide +kernel

end Transfinite
