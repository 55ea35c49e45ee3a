import Verif.Lemmas.BCurve
import Verif.Spec.Curve
import Mathlib.Analysis.Convex.Combination
import Mathlib.Analysis.Calculus.Deriv.Shift
import Mathlib.Data.Rat.Cast.Order

/-! # C57: Bézier curves -/

namespace Transfinite.BCurve

open Spec

section field
variable {K : Type} [Field K]

/-- C57: the curve of `n+1` points is the Bézier curve of degree `n`; it starts in the first and ends in the last point. -/
theorem C57_eval (n : ℕ) (P : ℕ → P3 K) : (∀ u : K, (ofPoints (tab (n + 1) P)).eval u = .ok (∑ j ∈ Finset.range (n + 1), ((n.choose j : K) * u ^ j * (1 - u) ^ (n - j)) • P j)) ∧
    (ofPoints (tab (n + 1) P)).eval 0 = .ok (P 0) ∧ (ofPoints (tab (n + 1) P)).eval 1 = .ok (P n) := by
  rw [ofPoints_eq]
  refine ⟨fun u => eval_eq n P u, ?_, ?_⟩
  · rw [eval_eq, Ribbon.bezier_zero]
  · rw [eval_eq, Ribbon.bezier_one]

theorem reverse_eq (n : ℕ) (P : ℕ → P3 K) : reverse (mk' n P) = mk' n fun j => P (n - j) := by
  unfold reverse mk'
  congr 1
  refine eq_tab_of_get (by simp) fun i hi => ?_
  simp [tab]

theorem bezier_rev (d : ℕ) (p : ℕ → P3 K) (u : K) : bezier d (fun j => p (d - j)) u = bezier d p (1 - u) := by
  unfold bezier
  rw [← Finset.sum_range_reflect]
  refine Finset.sum_congr rfl fun j hj => ?_
  have := Finset.mem_range.mp hj
  rw [show d + 1 - 1 - j = d - j by omega, ← bern_symm (by omega)]
  dsimp only
  rw [show d - (d - j) = j by omega]

/-- C57: `reverse` reverses the curve, and doing it twice restores it. -/
theorem C57_reverse (pts : List (P3 K)) (h : pts ≠ []) : (∀ u : K, (reverse (ofPoints pts)).eval u = (ofPoints pts).eval (1 - u)) ∧
    reverse (reverse (ofPoints pts)) = ofPoints pts := by
  constructor
  · intro u
    haveI : Inhabited (P3 K) := ⟨0⟩
    obtain ⟨P, e⟩ := exists_tab pts
    obtain ⟨n, hn⟩ : ∃ n, pts.length = n + 1 := ⟨pts.length - 1, by have := List.length_pos_iff.mpr h; omega⟩
    rw [hn] at e
    rw [e, ofPoints_eq, reverse_eq, eval_eq, eval_eq, bezier_rev]
  · simp [reverse]

/-- C57: for parameters in `[0, 1]` the curve stays in the convex hull of its control points. -/
theorem C57_hull [LinearOrder K] [IsStrictOrderedRing K] (pts : List (P3 K)) (h : pts ≠ []) {u : K} (h0 : 0 ≤ u) (h1 : u ≤ 1) :
    ∃ p, (ofPoints pts).eval u = .ok p ∧ p ∈ convexHull K {q | q ∈ pts} := by
  haveI : Inhabited (P3 K) := ⟨0⟩
  obtain ⟨P, e⟩ := exists_tab pts
  obtain ⟨n, hn⟩ : ∃ n, pts.length = n + 1 := ⟨pts.length - 1, by have := List.length_pos_iff.mpr h; omega⟩
  rw [hn] at e
  refine ⟨bezier n P u, by rw [e, ofPoints_eq, eval_eq], ?_⟩
  refine (convex_convexHull K _).sum_mem (fun j _ => bern_nonneg n j h0 h1) (bern_sum n u) fun j hj => subset_convexHull K _ ?_
  rw [e]
  exact List.mem_map.mpr ⟨j, List.mem_range.mpr (Finset.mem_range.mp hj), rfl⟩

end field

/-- C57: the array of derivatives has `nr + 1` elements, and these are the derivatives of the curve of orders 0, ..., `nr`. The same point is returned as by the evaluation without derivatives. -/
theorem C57_derivatives (pts : List (P3 ℝ)) (h : pts ≠ []) : ∃ C : ℝ → P3 ℝ, (∀ t, (ofPoints pts).eval t = .ok (C t)) ∧
    ∀ u nr, ∃ D : ℕ → P3 ℝ, (ofPoints pts).evalDer u nr = .ok (C u, tab (nr + 1) D) ∧ ∀ k ≤ nr, IsDer C u k (D k) := by
  haveI : Inhabited (P3 ℝ) := ⟨0⟩
  obtain ⟨P, e⟩ := exists_tab pts
  obtain ⟨n, hn⟩ : ∃ n, pts.length = n + 1 := ⟨pts.length - 1, by have := List.length_pos_iff.mpr h; omega⟩
  rw [hn] at e
  refine ⟨fun t => bezier n P t, fun t => by rw [e, ofPoints_eq, eval_eq], fun u nr => ⟨dcurve n P u, by rw [e, ofPoints_eq, evalDer_eq], fun k _ => ?_⟩⟩
  exact dcurve_coords n P u k

theorem speed_eq (n : ℕ) (P : ℕ → P3 ℝ) (u : ℝ) : (dcurve n P u 1).norm = speed (fun t => bezier n P t) u := by
  obtain ⟨h1, h2, h3⟩ := dcurve_coords n P u 1
  rw [iteratedDeriv_one] at h1 h2 h3
  unfold P3.norm P3.dot speed
  rw [h1, h2, h3]
  simp only [Libm.sqrt, ← sq]

theorem arcLength_eq (n : ℕ) (P : ℕ → P3 ℝ) {a b : ℝ} (h : a < b) : (mk' n P).arcLength a b = .ok ((b - a) / 2 *
    (347854845 / 1000000000 * (speed (fun t => bezier n P t) ((a + b) / 2 - 861136312 / 1000000000 * ((b - a) / 2)) + speed (fun t => bezier n P t) ((a + b) / 2 + 861136312 / 1000000000 * ((b - a) / 2))) +
    652145155 / 1000000000 * (speed (fun t => bezier n P t) ((a + b) / 2 - 339981044 / 1000000000 * ((b - a) / 2)) + speed (fun t => bezier n P t) ((a + b) / 2 + 339981044 / 1000000000 * ((b - a) / 2))))) := by
  unfold arcLength
  rw [if_neg (by simpa using h)]
  unfold arcSum
  set g : ℕ → ℝ × ℝ := fun i => (gauss (K := ℝ)).getD i 0 with hg
  have hgs : (gauss (K := ℝ)) = tab 4 g := rfl
  refine (forLoop_sum 4 _ (fun i => speed (fun t => bezier n P t) (((b - a) * (g i).1 + a + b) * (1 / 2)) * (g i).2 * (b - a) * (1 / 2)) 0 ?_).trans ?_
  · intro i s hi
    rw [hgs, vget_tab _ hi, M_bind_ok, evalDer_eq, M_bind_ok]
    dsimp only
    rw [vget_tab _ (by omega), M_bind_ok, speed_eq]
  · congr 1
    simp only [Finset.sum_range_succ, Finset.sum_range_zero, zero_add]
    have g0 : g 0 = (-(861136312 / 1000000000), 347854845 / 1000000000) := rfl
    have g1 : g 1 = (-(339981044 / 1000000000), 652145155 / 1000000000) := rfl
    have g2 : g 2 = (339981044 / 1000000000, 652145155 / 1000000000) := rfl
    have g3 : g 3 = (861136312 / 1000000000, 347854845 / 1000000000) := rfl
    rw [g0, g1, g2, g3]
    dsimp only
    rw [show ((b - a) * -(861136312 / 1000000000) + a + b) * (1 / 2) = (a + b) / 2 - 861136312 / 1000000000 * ((b - a) / 2) by ring,
      show ((b - a) * -(339981044 / 1000000000) + a + b) * (1 / 2) = (a + b) / 2 - 339981044 / 1000000000 * ((b - a) / 2) by ring,
      show ((b - a) * (339981044 / 1000000000) + a + b) * (1 / 2) = (a + b) / 2 + 339981044 / 1000000000 * ((b - a) / 2) by ring,
      show ((b - a) * (861136312 / 1000000000) + a + b) * (1 / 2) = (a + b) / 2 + 861136312 / 1000000000 * ((b - a) / 2) by ring]
    ring

theorem of_list (pts : List (P3 ℝ)) (h : pts ≠ []) : ∃ n P, ofPoints pts = mk' n P := by
  haveI : Inhabited (P3 ℝ) := ⟨0⟩
  obtain ⟨P, e⟩ := exists_tab pts
  obtain ⟨n, hn⟩ : ∃ n, pts.length = n + 1 := ⟨pts.length - 1, by have := List.length_pos_iff.mpr h; omega⟩
  rw [hn] at e
  exact ⟨n, P, by rw [e, ofPoints_eq]⟩

theorem fun_eq_of_eval {n : ℕ} {P : ℕ → P3 ℝ} {C : ℝ → P3 ℝ} (hC : ∀ t, (mk' n P).eval t = .ok (C t)) : C = fun t => bezier n P t := by
  funext t
  have := hC t
  rw [eval_eq] at this
  exact (Except.ok.inj this).symm

/-- C57: the arc length is never negative, it is 0 if the interval is empty, and bounds on the speed of the curve give the corresponding bounds on its arc length. -/
theorem C57_arc_bounds {pts : List (P3 ℝ)} (h : pts ≠ []) {C : ℝ → P3 ℝ} (hC : ∀ t, (ofPoints pts).eval t = .ok (C t)) (a b : ℝ) :
    ∃ L, (ofPoints pts).arcLength a b = .ok L ∧ 0 ≤ L ∧ (b ≤ a → L = 0) ∧
      ∀ m M, a ≤ b → (∀ t ∈ Set.Icc a b, m ≤ speed C t ∧ speed C t ≤ M) → m * (b - a) ≤ L ∧ L ≤ M * (b - a) := by
  obtain ⟨n, P, e⟩ := of_list pts h
  rw [e] at hC ⊢
  obtain rfl := fun_eq_of_eval hC
  by_cases hab : a < b
  · refine ⟨_, arcLength_eq n P hab, ?_, fun h => absurd h (not_le.mpr hab), ?_⟩
    · have : ∀ t, 0 ≤ speed (fun t => bezier n P t) t := fun t => Real.sqrt_nonneg _
      have hp : 0 ≤ (b - a) / 2 := by linarith
      have h1 := this ((a + b) / 2 - 861136312 / 1000000000 * ((b - a) / 2))
      have h2 := this ((a + b) / 2 + 861136312 / 1000000000 * ((b - a) / 2))
      have h3 := this ((a + b) / 2 - 339981044 / 1000000000 * ((b - a) / 2))
      have h4 := this ((a + b) / 2 + 339981044 / 1000000000 * ((b - a) / 2))
      positivity
    · intro m M _ hm
      obtain ⟨l1, u1⟩ := hm ((a + b) / 2 - 861136312 / 1000000000 * ((b - a) / 2)) ⟨by linarith, by linarith⟩
      obtain ⟨l2, u2⟩ := hm ((a + b) / 2 + 861136312 / 1000000000 * ((b - a) / 2)) ⟨by linarith, by linarith⟩
      obtain ⟨l3, u3⟩ := hm ((a + b) / 2 - 339981044 / 1000000000 * ((b - a) / 2)) ⟨by linarith, by linarith⟩
      obtain ⟨l4, u4⟩ := hm ((a + b) / 2 + 339981044 / 1000000000 * ((b - a) / 2)) ⟨by linarith, by linarith⟩
      generalize speed (fun t => bezier n P t) ((a + b) / 2 - 861136312 / 1000000000 * ((b - a) / 2)) = s1 at *
      generalize speed (fun t => bezier n P t) ((a + b) / 2 + 861136312 / 1000000000 * ((b - a) / 2)) = s2 at *
      generalize speed (fun t => bezier n P t) ((a + b) / 2 - 339981044 / 1000000000 * ((b - a) / 2)) = s3 at *
      generalize speed (fun t => bezier n P t) ((a + b) / 2 + 339981044 / 1000000000 * ((b - a) / 2)) = s4 at *
      have hp : 0 ≤ (b - a) / 2 := by linarith
      constructor
      · rw [show m * (b - a) = (b - a) / 2 * (2 * m) by ring]
        exact mul_le_mul_of_nonneg_left (by linarith) hp
      · rw [show M * (b - a) = (b - a) / 2 * (2 * M) by ring]
        exact mul_le_mul_of_nonneg_left (by linarith) hp
  · refine ⟨0, ?_, le_rfl, fun _ => rfl, fun m M hle _ => ?_⟩
    · unfold arcLength
      rw [if_pos (not_lt.mp hab)]
    · have : b - a = 0 := by linarith
      rw [this]; simp

/-- C57: the arc length is exact whenever the speed of the curve is a linear function of the parameter; in particular for lines parameterized uniformly. -/
theorem C57_arc_exact {pts : List (P3 ℝ)} (h : pts ≠ []) {C : ℝ → P3 ℝ} (hC : ∀ t, (ofPoints pts).eval t = .ok (C t)) {a b : ℝ} (hab : a ≤ b) {k l : ℝ}
    (hs : ∀ t ∈ Set.Icc a b, speed C t = k + l * t) : (ofPoints pts).arcLength a b = .ok (k * (b - a) + l * (b ^ 2 - a ^ 2) / 2) := by
  obtain ⟨n, P, e⟩ := of_list pts h
  rw [e] at hC ⊢
  obtain rfl := fun_eq_of_eval hC
  rcases hab.lt_or_eq with hab | rfl
  · rw [arcLength_eq n P hab, hs _ ⟨by linarith, by linarith⟩, hs _ ⟨by linarith, by linarith⟩, hs _ ⟨by linarith, by linarith⟩, hs _ ⟨by linarith, by linarith⟩]
    congr 1
    ring
  · unfold arcLength
    rw [if_pos le_rfl]
    congr 1
    ring

theorem speed_rev (C : ℝ → P3 ℝ) (u : ℝ) : speed (fun t => C (1 - t)) u = speed C (1 - u) := by
  unfold speed
  rw [deriv_comp_const_sub (f := fun t => (C t).x) (a := 1), deriv_comp_const_sub (f := fun t => (C t).y) (a := 1), deriv_comp_const_sub (f := fun t => (C t).z) (a := 1), neg_sq, neg_sq, neg_sq]

/-- C57: the arc length does not depend on the direction of the curve. -/
theorem C57_arc_reverse {pts : List (P3 ℝ)} (h : pts ≠ []) (a b : ℝ) : (reverse (ofPoints pts)).arcLength a b = (ofPoints pts).arcLength (1 - b) (1 - a) := by
  obtain ⟨n, P, e⟩ := of_list pts h
  rw [e, reverse_eq]
  by_cases hab : a < b
  · rw [arcLength_eq n _ hab, arcLength_eq n _ (by linarith)]
    congr 1
    have e : ∀ t, speed (fun t => bezier n (fun j => P (n - j)) t) t = speed (fun t => bezier n P t) (1 - t) := by
      intro t
      rw [← speed_rev]
      congr 1
      funext t
      rw [bezier_rev]
    rw [e, e, e, e]
    ring_nf
  · unfold arcLength
    rw [if_pos (not_lt.mp hab), if_pos (by linarith [not_lt.mp hab])]

section examples

/-- A quadratic curve with its derivatives; the third one is 0. -/
example : (ofPoints [⟨0, 0, 0⟩, ⟨1, 2, 0⟩, ⟨2, 0, 4⟩] : BCurve ℚ).evalDer (1 / 2) 3 = .ok (⟨1, 1, 1⟩, [⟨1, 1, 1⟩, ⟨2, 0, 4⟩, ⟨0, -8, 8⟩, ⟨0, 0, 0⟩]) := by decide +kernel

/-- The curve without control points is no curve: the degree wraps around. -/
example : (ofPoints [] : BCurve ℚ).n = 2 ^ 64 - 1 := by decide +kernel

/-- A curve to which the theorem on the exactness of the arc length applies. -/
example : (ofPoints [⟨0, 0, 0⟩, ⟨3, 4, 0⟩] : BCurve ℝ).arcLength 0 (1 / 2) = .ok (5 / 2) := by
  have hC : ∀ t : ℝ, (ofPoints [⟨0, 0, 0⟩, ⟨3, 4, 0⟩] : BCurve ℝ).eval t = .ok ⟨3 * t, 4 * t, 0⟩ := by
    intro t
    have e : ([⟨0, 0, 0⟩, ⟨3, 4, 0⟩] : List (P3 ℝ)) = tab 2 fun j => if j = 0 then ⟨0, 0, 0⟩ else ⟨3, 4, 0⟩ := by simp [tab, List.range_succ]
    rw [e, (C57_eval 1 _).1 t]
    congr 1
    ext <;> simp [Finset.sum_range_succ] <;> ring
  rw [C57_arc_exact (by simp) hC (k := 5) (l := 0) (by norm_num) (fun t _ => ?_)]
  · norm_num
  · unfold speed
    have h1 : deriv (fun t : ℝ => 3 * t) t = 3 := by simpa using (hasDerivAt_id t).const_mul 3 |>.deriv
    have h2 : deriv (fun t : ℝ => 4 * t) t = 4 := by simpa using (hasDerivAt_id t).const_mul 4 |>.deriv
    simp only [h1, h2, deriv_const]
    rw [show (3 : ℝ) ^ 2 + 4 ^ 2 + 0 ^ 2 = 5 ^ 2 by norm_num, Real.sqrt_sq (by norm_num)]
    ring

end examples

end Transfinite.BCurve
