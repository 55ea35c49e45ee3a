import Verif.Lemmas.Polygon
import Verif.Model.DomainKinds
import Mathlib.Analysis.SpecialFunctions.Trigonometric.Basic
import Mathlib.Analysis.SpecialFunctions.Trigonometric.Bounds
import Mathlib.Tactic.Positivity

namespace Transfinite

open Spec Real

/-- Point of the unit circle. -/
noncomputable def circ (a : ℝ) : P2 ℝ := ⟨cos a, sin a⟩

theorem area2_circ (a b c : ℝ) : area2 (circ a) (circ b) (circ c) =
    4 * sin ((b - a) / 2) * sin ((c - b) / 2) * sin ((c - a) / 2) := by
  have e1 : b = a + 2 * ((b - a) / 2) := by ring
  have e2 : c = a + 2 * ((b - a) / 2) + 2 * ((c - b) / 2) := by ring
  have e3 : (c - a) / 2 = (b - a) / 2 + (c - b) / 2 := by ring
  rw [e3]
  generalize (b - a) / 2 = x at *
  generalize (c - b) / 2 = y at *
  subst e1
  subst e2
  have A : area2 (circ a) (circ (a + 2 * x)) (circ (a + 2 * x + 2 * y)) =
      sin (2 * x) + sin (2 * y) - sin (2 * x + 2 * y) := by
    have h1 : sin (2 * x) = sin ((a + 2 * x) - a) := by ring_nf
    have h2 : sin (2 * y) = sin ((a + 2 * x + 2 * y) - (a + 2 * x)) := by ring_nf
    have h3 : sin (2 * x + 2 * y) = sin ((a + 2 * x + 2 * y) - a) := by ring_nf
    rw [h1, h2, h3, sin_sub, sin_sub, sin_sub]
    simp only [area2, circ]; ring
  rw [A, sin_add (2 * x), sin_add x y, sin_two_mul, sin_two_mul, cos_two_mul, cos_two_mul]
  have hx := sin_sq_add_cos_sq x
  have hy := sin_sq_add_cos_sq y
  have hx' : cos x ^ 2 = 1 - sin x ^ 2 := by linarith
  have hy' : cos y ^ 2 = 1 - sin y ^ 2 := by linarith
  rw [hx', hy']; ring

/-- Points of the unit circle with increasing angles within one turn form a strictly convex polygon. -/
theorem strictConvex_circ {n : ℕ} (θ : ℕ → ℝ) (hmono : ∀ i j, i < j → j < n → θ i < θ j)
    (hturn : ∀ i j, i < n → j < n → θ j - θ i < 2 * π) : StrictConvex n (fun i => circ (θ i)) := by
  have pos : ∀ i j, i < j → j < n → 0 < sin ((θ j - θ i) / 2) := by
    intro i j hij hj
    apply sin_pos_of_pos_of_lt_pi
    · have := hmono i j hij hj; linarith
    · have := hturn i j (by omega) hj; linarith
  have neg : ∀ i j, i < j → j < n → sin ((θ i - θ j) / 2) < 0 := by
    intro i j hij hj
    have := pos i j hij hj
    have e : (θ i - θ j) / 2 = -((θ j - θ i) / 2) := by ring
    rw [e, sin_neg]; linarith
  intro i hi j hj hji hjp
  unfold leftOf
  rw [area2_circ]
  have hp : (i + n - 1) % n = prevIx n i := rfl
  rw [hp] at hjp ⊢
  rw [prevIx_eq hi] at hjp ⊢
  by_cases h0 : i = 0
  · subst h0
    rw [if_pos rfl] at hjp ⊢
    have a := neg 0 (n - 1) (by omega) (by omega)
    have b := pos 0 j (by omega) hj
    have c := neg j (n - 1) (by omega) (by omega)
    have := mul_pos_of_neg_of_neg (mul_neg_of_neg_of_pos a b) c
    linarith
  · rw [if_neg h0] at hjp ⊢
    have a := pos (i - 1) i (by omega) hi
    rcases Nat.lt_or_ge i j with h | h
    · have b := pos i j h hj
      have c := pos (i - 1) j (by omega) hj
      positivity
    · have b := neg j i (by omega) hi
      have c := neg j (i - 1) (by omega) (by omega)
      have := mul_pos a (mul_pos_of_neg_of_neg b c)
      linarith

theorem inside_circ {n : ℕ} (θ : ℕ → ℝ) (hstep : ∀ i, i + 1 < n → 0 < θ (i + 1) - θ i ∧ θ (i + 1) - θ i < π)
    (hlast : 0 < θ 0 + 2 * π - θ (n - 1) ∧ θ 0 + 2 * π - θ (n - 1) < π) :
    Inside n (fun i => circ (θ i)) 0 := by
  have key : ∀ a b, area2 (circ a) (circ b) 0 = sin (b - a) := by
    intro a b; rw [sin_sub]; simp [area2, circ]; ring
  intro i hi
  unfold leftOf
  have hp : (i + n - 1) % n = prevIx n i := rfl
  rw [hp, prevIx_eq hi]
  by_cases h0 : i = 0
  · subst h0
    rw [if_pos rfl]
    have := key (θ (n - 1)) (θ 0)
    rw [this, ← sin_add_two_pi]
    apply sin_pos_of_pos_of_lt_pi <;> linarith [hlast.1, hlast.2]
  · rw [if_neg h0]
    have := key (θ (i - 1)) (θ i)
    rw [this]
    have h := hstep (i - 1) (by omega)
    rw [Nat.sub_add_cancel (by omega)] at h
    exact sin_pos_of_pos_of_lt_pi h.1 h.2

end Transfinite
