import Verif.Lemmas.Circle
import Verif.Lemmas.ConvexDomain
import Verif.Props.DomainNormal

/-! The vertices of regular domains. -/

namespace Transfinite

open Spec Real

theorem circ_add_two_pi (a : ℝ) : circ (a + 2 * π) = circ a := by
  simp [circ, cos_add_two_pi, sin_add_two_pi]

theorem circ_add_nat (a : ℝ) (k : ℕ) : circ (a + k * (2 * π)) = circ a := by
  simp [circ, cos_add_nat_mul_two_pi, sin_add_nat_mul_two_pi]

/-- The regular polygon with radius `r` and starting angle `φ`. -/
noncomputable def regularVertex (n : ℕ) (r φ : ℝ) (i : ℕ) : P2 ℝ := r • circ (φ + 2 * π / n * i)

theorem regularVertex_mod {n : ℕ} (hn : 0 < n) (r φ : ℝ) (k : ℕ) :
    regularVertex n r φ (k % n) = r • circ (φ + 2 * π / n * k) := by
  unfold regularVertex
  have hn' : (n : ℝ) ≠ 0 := by positivity
  have e : (k : ℝ) = ((k % n : ℕ) : ℝ) + n * ((k / n : ℕ) : ℝ) := by
    rw [← Nat.cast_mul, ← Nat.cast_add, Nat.mod_add_div]
  have : φ + 2 * π / n * k = φ + 2 * π / n * ((k % n : ℕ) : ℝ) + (k / n : ℕ) * (2 * π) := by
    rw [e]; field_simp; ring
  rw [this, circ_add_nat]

theorem regularVertices_form' {n : ℕ} (hn : 3 ≤ n) :
    ∃ r φ, 1 ≤ r ∧ Domain.regularVertices (K := ℝ) n = .ok (tab n (regularVertex n r φ)) := by
  unfold Domain.regularVertices
  by_cases h4 : n = 4
  · subst h4
    refine ⟨√2, π / 4, Real.one_le_sqrt.mpr (by norm_num), ?_⟩
    rw [if_pos rfl]
    have h2 : √2 * √2 = (2 : ℝ) := Real.mul_self_sqrt (by norm_num)
    have a0 : regularVertex 4 (√2) (π / 4) 0 = ⟨1, 1⟩ := by
      ext <;> simp [regularVertex, circ, cos_pi_div_four, sin_pi_div_four] <;> linarith
    have a1 : regularVertex 4 (√2) (π / 4) 1 = ⟨-1, 1⟩ := by
      have : π / 4 + 2 * π / ((4 : ℕ) : ℝ) * ((1 : ℕ) : ℝ) = π / 4 + π / 2 := by push_cast; ring
      unfold regularVertex; rw [this]
      ext <;> simp [circ, cos_add_pi_div_two, sin_add_pi_div_two, cos_pi_div_four, sin_pi_div_four] <;> linarith
    have a2 : regularVertex 4 (√2) (π / 4) 2 = ⟨-1, -1⟩ := by
      have : π / 4 + 2 * π / ((4 : ℕ) : ℝ) * ((2 : ℕ) : ℝ) = π / 4 + π := by push_cast; ring
      unfold regularVertex; rw [this]
      ext <;> simp [circ, cos_add_pi, sin_add_pi, cos_pi_div_four, sin_pi_div_four] <;> linarith
    have a3 : regularVertex 4 (√2) (π / 4) 3 = ⟨1, -1⟩ := by
      have : π / 4 + 2 * π / ((4 : ℕ) : ℝ) * ((3 : ℕ) : ℝ) = π / 4 + π / 2 + π := by push_cast; ring
      unfold regularVertex; rw [this]
      ext <;> simp [circ, cos_add_pi, sin_add_pi, cos_add_pi_div_two, sin_add_pi_div_two, cos_pi_div_four, sin_pi_div_four] <;> linarith
    change _ = Except.ok [regularVertex 4 (√2) (π / 4) 0, regularVertex 4 (√2) (π / 4) 1, regularVertex 4 (√2) (π / 4) 2, regularVertex 4 (√2) (π / 4) 3]
    rw [a0, a1, a2, a3]
  · rw [if_neg h4]
    have hn' : (n : ℝ) ≠ 0 := by positivity
    refine ⟨1, 0, le_rfl, ?_⟩
    rw [fdiv_of_ne hn', M_bind_ok, forLoop_push n _ (regularVertex n 1 0)]
    · simp [tab]
    · intro k s _
      congr 3
      ext <;> simp [regularVertex, circ] <;> rfl

theorem regularVertices_form {n : ℕ} (hn : 3 ≤ n) :
    ∃ r φ, 0 < r ∧ Domain.regularVertices (K := ℝ) n = .ok (tab n (regularVertex n r φ)) := by
  obtain ⟨r, φ, h, e⟩ := regularVertices_form' hn
  exact ⟨r, φ, by linarith, e⟩

/-- A regular domain, in the state after its last `update()` with change. -/
theorem regular_convex {n : ℕ} (hn : 3 ≤ n) {vs : List (P2 ℝ)} {d : Domain ℝ} (h1 : Domain.regularVertices n = .ok vs)
    (h2 : Domain.updateFrom vs 0 = .ok d) : ∃ r φ, 1 ≤ r ∧ ConvexDomain d n (regularVertex n r φ) ∧ d.center = 0 := by
  obtain ⟨r, φ, hr, e⟩ := regularVertices_form' hn
  obtain ⟨v, e', k1, k2⟩ := C08_regular hn
  have hv : ∀ i < n, v i = regularVertex n r φ i := by
    intro i hi
    rw [e] at e'
    exact tab_inj (Except.ok.inj e').symm hi
  have hl : ∀ i < n, ∀ p, leftOf n v i p = leftOf n (regularVertex n r φ) i p := by
    intro i hi p
    unfold leftOf
    rw [hv i hi, hv _ (Nat.mod_lt _ (by omega))]
  rw [e] at h1
  cases h1
  have hc : d.center = 0 := by
    rw [updateFrom_eq] at h2
    cases h2; rfl
  refine ⟨r, φ, hr, ⟨hn, ?_, ?_, by rw [hc]; exact h2⟩, hc⟩
  · intro i hi j hj a b
    rw [← hl i hi, ← hv j hj]; exact k1 i hi j hj a b
  · intro i hi
    rw [hc, ← hl i hi]; exact k2 i hi

/-- A regular domain in normal state, with explicit vertices. -/
theorem regular_normal {n : ℕ} (hn : 3 ≤ n) (d0 : Domain ℝ) (h : d0.n ≠ n) :
    ∃ d r φ, 0 < r ∧ d0.regularUpdate n = .ok (d, true) ∧ ConvexDomain d n (regularVertex n r φ) ∧ d.center = 0 := by
  obtain ⟨r, φ, hr, e⟩ := regularVertices_form hn
  obtain ⟨v, e', h1, h2⟩ := C08_regular hn
  have hv : ∀ i < n, v i = regularVertex n r φ i := by
    intro i hi
    rw [e] at e'
    exact tab_inj (Except.ok.inj e').symm hi
  have hl : ∀ i < n, ∀ p, leftOf n v i p = leftOf n (regularVertex n r φ) i p := by
    intro i hi p
    unfold leftOf
    rw [hv i hi, hv _ (Nat.mod_lt _ (by omega))]
  refine ⟨⟨n, 0, tab n (regularVertex n r φ), tab n (duOf n (regularVertex n r φ)), tab n (dvOf n (regularVertex n r φ) 0)⟩,
    r, φ, hr, ?_, ⟨hn, ?_, ?_, updateFrom_eq n _ 0⟩, rfl⟩
  · unfold Domain.regularUpdate
    rw [if_neg h, e, M_bind_ok, updateFrom_eq, M_bind_ok]
  · intro i hi j hj a b
    rw [← hl i hi, ← hv j hj]; exact h1 i hi j hj a b
  · intro i hi
    rw [← hl i hi]; exact h2 i hi

theorem area2_smul (r : ℝ) (a b c : P2 ℝ) : area2 (r • a) (r • b) (r • c) = r ^ 2 * area2 a b c := by
  simp only [area2, P2.smul_x, P2.smul_y]; ring

end Transfinite
