import Verif.Lemmas.CircularParam
import Verif.Props.Polar

/-! # C65: the circular parameterization -/

namespace Transfinite

namespace Param

/-- C65: on side `i` of the disc (`edgePoint(i, s)` of the circle domain) the distance parameter of side `i` is 0, those of the next and the previous side
are `1 - s` and `s`, and all others are 1. The side parameter always equals the distance. -/
theorem C65_side {ε : ℝ} (hε : 0 < ε) {fmod : ℝ → ℝ → ℝ} (hf : IsFmod fmod) {n i : ℕ} (hn : 3 ≤ n) (hi : i < n) {s : ℝ} (h0 : 0 ≤ s) (h1 : s ≤ 1) :
    ∃ uv, ∃ h : ℕ → ℝ, Domain.circleEdgePoint n i s = .ok uv ∧ (∀ j < n, circularMap ε fmod n j uv = .ok ⟨h j, h j⟩) ∧
      h i = 0 ∧ h ((i + 1) % n) = 1 - s ∧ h ((i + n - 1) % n) = s ∧ ∀ j < n, j ≠ i → j ≠ (i + 1) % n → j ≠ (i + n - 1) % n → h j = 1 := by
  have hex : ∀ j, ∃ h : ℝ, j < n → circularMap ε fmod n j ⟨1, (i + s) * 2 * Real.pi / n⟩ = .ok ⟨h, h⟩ ∧ (j = i → h = 0) ∧ (j = nextIx n i → h = 1 - s) ∧
      (j = prevIx n i → h = s) ∧ (j ≠ i → j ≠ nextIx n i → j ≠ prevIx n i → h = 1) := by
    intro j
    by_cases hj : j < n
    · obtain ⟨h, q⟩ := circle_side hε hf hn hi hj h0 h1
      exact ⟨h, fun _ => q⟩
    · exact ⟨0, fun q => absurd q hj⟩
  choose h hh using hex
  refine ⟨_, h, ?_, fun j hj => (hh j hj).1, (hh i hi).2.1 rfl, (hh (nextIx n i) (nextIx_lt (by omega))).2.2.1 rfl,
    (hh (prevIx n i) (prevIx_lt (by omega))).2.2.2.1 rfl, fun j hj a b c => (hh j hj).2.2.2.2 a b c⟩
  unfold Domain.circleEdgePoint
  rw [fdiv_of_ne (by have : 0 < n := by omega
                     positivity), M_bind_ok]
  rfl

theorem hcircle_total {ε : ℝ} (hε : 0 < ε) {n : ℕ} (hn : 0 < n) (h : ℝ) : ∃ r, hcircle ε n h = .ok r := by
  unfold hcircle
  rw [fdiv_of_ne (by positivity), M_bind_ok]
  dsimp only
  split_ifs with q
  · exact ⟨_, rfl⟩
  · rw [fdiv_of_ne (fun w => q (by rw [w]; simpa using hε)), M_bind_ok]
    exact ⟨_, rfl⟩

theorem circleDeviation_total {ε : ℝ} (hε : 0 < ε) {n : ℕ} (hn : 0 < n) (p : P2 ℝ) (h : ℝ) : ∃ r, circleDeviation ε n p h = .ok r := by
  obtain ⟨r, e⟩ := hcircle_total hε hn h
  unfold circleDeviation
  rw [e, M_bind_ok]
  dsimp only
  split_ifs <;> exact ⟨_, rfl⟩

theorem bisect_total {ε : ℝ} {f : ℝ → M (Option ℝ)} (hf : ∀ x, ∃ y, f x = .ok y) (k : ℕ) (xl xh xm : ℝ) : ∃ r, bisect ε f k xl xh xm = .ok r := by
  induction k generalizing xl xh xm with
  | zero => exact ⟨_, rfl⟩
  | succ k ih =>
    unfold bisect
    dsimp only
    split_ifs
    · exact ⟨_, rfl⟩
    · obtain ⟨a, ea⟩ := hf xl
      obtain ⟨b, eb⟩ := hf ((xl + xh) / 2)
      rw [ea, M_bind_ok, eb, M_bind_ok]
      split
      · split_ifs
        · exact ih _ _ _
        · exact ih _ _ _
        · exact ⟨_, rfl⟩
      · exact ⟨_, rfl⟩

/-- C65: `mapToRibbon` never fails, both parameters are equal, and they are between 0 and 1, in every point and for every side. -/
theorem C65_range {ε : ℝ} (hε : 0 < ε) (fmod : ℝ → ℝ → ℝ) {n : ℕ} (hn : 0 < n) (j : ℕ) (uv : P2 ℝ) :
    ∃ h, circularMap ε fmod n j uv = .ok ⟨h, h⟩ ∧ 0 ≤ h ∧ h ≤ 1 := by
  have hn' : (n : ℝ) ≠ 0 := by positivity
  by_cases hr : uv.x > 1 - ε
  · refine ⟨_, circularMap_circle hn hr (T := (fmod (uv.y + (3 - ((j : ℝ) * 2 + 1) / n) * Real.pi) (2 * Real.pi) - Real.pi) * n / Real.pi) ?_, ?_, ?_⟩
    · have := Real.pi_pos.ne'
      field_simp
    · exact le_max_left _ _
    · exact max_le zero_le_one (min_le_left _ _)
  · unfold circularMap
    simp only [fdiv_of_ne hn', M_bind_ok]
    rw [if_neg hr]
    have tot := fun p => bisect_total (ε := ε) (circleDeviation_total hε hn p)
    split_ifs with q
    · obtain ⟨r, e⟩ := tot ⟨uv.x * Libm.cos (fmod (uv.y + (3 - ((j : ℝ) * 2 + 1) / n) * Libm.pi) (2 * Libm.pi) - Libm.pi),
        uv.x * Libm.sin (fmod (uv.y + (3 - ((j : ℝ) * 2 + 1) / n) * Libm.pi) (2 * Libm.pi) - Libm.pi)⟩ 100 (1 / 5) 1 (1 / 5)
      rw [e, M_bind_ok]
      have := C61_in_bracket ε _ (by norm_num) (by norm_num) e
      exact ⟨r, rfl, by linarith, this.2⟩
    · obtain ⟨r, e⟩ := tot ⟨uv.x * Libm.cos (fmod (uv.y + (3 - ((j : ℝ) * 2 + 1) / n) * Libm.pi) (2 * Libm.pi) - Libm.pi),
        uv.x * Libm.sin (fmod (uv.y + (3 - ((j : ℝ) * 2 + 1) / n) * Libm.pi) (2 * Libm.pi) - Libm.pi)⟩ 100 0 (4 / 5) 0
      rw [e, M_bind_ok]
      have := C61_in_bracket ε _ (by norm_num) (by norm_num) e
      exact ⟨r, rfl, this.1, by linarith⟩

/-- The square root in `deviation` is a NaN: for 12 sides and `h = 2/5` the circle has a radius below `√2 / 2`. -/
theorem deviation_nan {ε : ℝ} (hε1 : ε ≤ 1 / 10) {p : P2 ℝ} (hy : 1 / 2 ≤ p.y * p.y) : circleDeviation ε 12 p (2 / 5) = .ok none := by
  have hp := Real.pi_pos
  set a := 3 * Real.pi / 20 with ha
  have ht : Real.sin (Real.pi / 4) ≠ 0 := by rw [Real.sin_pi_div_four]; positivity
  have hq : |Real.sin (Real.pi / 4)| ≥ ε := by
    rw [Real.sin_pi_div_four, abs_of_pos (by positivity)]
    have : (1 : ℝ) ≤ √2 := Real.one_le_sqrt.mpr (by norm_num)
    linarith
  have e : hcircle ε 12 (2 / 5) = .ok (⟨Real.cos a + Real.sin a, 0⟩, P2.norm ((⟨Real.cos a + Real.sin a, 0⟩ : P2 ℝ) - ⟨Real.cos a, Real.sin a⟩)) := by
    have e1 : (2 * (2 / 5) + 1) * Real.pi / ((12 : ℕ) : ℝ) = a := by rw [ha]; push_cast; ring
    have e2 : 2 / 5 * Real.pi - a = Real.pi / 4 := by rw [ha]; ring
    unfold hcircle
    simp only [show (Libm.pi : ℝ) = Real.pi from rfl, show (Libm.cos : ℝ → ℝ) = Real.cos from rfl, show (Libm.sin : ℝ → ℝ) = Real.sin from rfl]
    rw [fdiv_of_ne (by norm_num), M_bind_ok]
    simp only [e1, e2]
    rw [if_neg (not_lt.mpr hq), fdiv_of_ne ht, M_bind_ok, Real.cos_pi_div_four, ← Real.sin_pi_div_four, mul_div_assoc, div_self ht, mul_one]
  have sa : 0 < Real.sin a := Real.sin_pos_of_pos_of_lt_pi (by rw [ha]; positivity) (by rw [ha]; linarith)
  set R := P2.norm ((⟨Real.cos a + Real.sin a, 0⟩ : P2 ℝ) - ⟨Real.cos a, Real.sin a⟩) with hR
  have RR : R * R = 2 * (Real.sin a * Real.sin a) := by
    rw [hR]
    change √(P2.dot _ _) * √(P2.dot _ _) = _
    rw [Real.mul_self_sqrt]
    · simp [P2.dot]; ring
    · simp only [P2.dot]
      nlinarith [mul_self_nonneg (((⟨Real.cos a + Real.sin a, 0⟩ : P2 ℝ) - ⟨Real.cos a, Real.sin a⟩ : P2 ℝ)).x,
        mul_self_nonneg (((⟨Real.cos a + Real.sin a, 0⟩ : P2 ℝ) - ⟨Real.cos a, Real.sin a⟩ : P2 ℝ)).y]
  have R0 : R ≠ 0 := by
    intro w
    rw [w] at RR
    nlinarith
  have small : R * R < 1 / 2 := by
    have c : Real.cos (Real.pi / 3) < Real.cos (2 * a) :=
      Real.cos_lt_cos_of_nonneg_of_le_pi (by rw [ha]; positivity) (by linarith) (by rw [ha]; linarith)
    rw [Real.cos_pi_div_three, Real.cos_two_mul'] at c
    nlinarith [Real.sin_sq_add_cos_sq a]
  unfold circleDeviation
  rw [e, M_bind_ok]
  dsimp only
  rw [if_neg R0, if_neg (by norm_num), if_pos]
  rw [sub_zero]
  linarith

/-- A defect of the circular parameterization: for 12 sides it is not continuous at the circle. In the direction of the angle 5π/12 the parameter of side 0
is 1 on the circle, but 2/5 in all points with radius between 9/10 and `1 - ε`, because the square root of a negative number ends the bisection. -/
theorem C65_jump {ε : ℝ} (hε : 0 < ε) (hε1 : ε ≤ 1 / 10) {fmod : ℝ → ℝ → ℝ} (hf : IsFmod fmod) :
    circularMap ε fmod 12 0 ⟨1, 5 * Real.pi / 12⟩ = .ok ⟨1, 1⟩ ∧
      ∀ r : ℝ, 9 / 10 ≤ r → r ≤ 1 - ε → circularMap ε fmod 12 0 ⟨r, 5 * Real.pi / 12⟩ = .ok ⟨2 / 5, 2 / 5⟩ := by
  have hp := Real.pi_pos
  have key : fmod (5 * Real.pi / 12 + (3 - (((0 : ℕ) : ℝ) * 2 + 1) / ((12 : ℕ) : ℝ)) * Real.pi) (2 * Real.pi) - Real.pi = 4 * Real.pi / ((12 : ℕ) : ℝ) := by
    obtain ⟨m, e, m0, m1⟩ := hf (5 * Real.pi / 12 + (3 - (((0 : ℕ) : ℝ) * 2 + 1) / ((12 : ℕ) : ℝ)) * Real.pi) (2 * Real.pi) (by push_cast; nlinarith)
      (by positivity)
    rw [e] at m0 m1 ⊢
    push_cast at *
    have a1 : (m : ℝ) < 2 := by nlinarith
    have a2 : (0 : ℝ) < m := by nlinarith
    have : m = 1 := by
      have b1 : m < 2 := by exact_mod_cast a1
      have b2 : 0 < m := by exact_mod_cast a2
      omega
    rw [this]
    push_cast
    ring
  constructor
  · rw [circularMap_circle (T := 4) (by norm_num) (by dsimp only; linarith) key, circVal_one (by norm_num)]
  · intro r r0 r1
    unfold circularMap
    have h12 : ((12 : ℕ) : ℝ) ≠ 0 := by norm_num
    simp only [fdiv_of_ne h12, M_bind_ok, show (Libm.pi : ℝ) = Real.pi from rfl, show (Libm.cos : ℝ → ℝ) = Real.cos from rfl,
      show (Libm.sin : ℝ → ℝ) = Real.sin from rfl]
    rw [if_neg (by linarith), key, show 4 * Real.pi / ((12 : ℕ) : ℝ) = Real.pi / 3 by push_cast; ring, Real.cos_pi_div_three, Real.sin_pi_div_three,
      if_neg (by push Not; linarith)]
    obtain ⟨v, ev⟩ := circleDeviation_total hε (by norm_num : 0 < 12) ⟨r * (1 / 2), r * (√3 / 2)⟩ 0
    have hb : bisect ε (circleDeviation ε 12 ⟨r * (1 / 2), r * (√3 / 2)⟩) 100 0 (4 / 5) 0 = .ok (2 / 5) := by
      rw [show (100 : ℕ) = 99 + 1 from rfl]
      unfold bisect
      dsimp only
      rw [show ((0 : ℝ) + 4 / 5) / 2 = 2 / 5 by norm_num, if_neg (by norm_num; linarith), ev, M_bind_ok, deviation_nan hε1 ?_, M_bind_ok]
      · cases v <;> rfl
      · dsimp only
        have : √3 * √3 = 3 := Real.mul_self_sqrt (by norm_num)
        have : r * (√3 / 2) * (r * (√3 / 2)) = r * r * (3 / 4) := by linear_combination (r * r / 4) * this
        nlinarith
    rw [hb, M_bind_ok]

/-- The hypotheses are satisfiable. -/
example : ∃ fmod, IsFmod fmod := exists_fmod

end Param

end Transfinite
