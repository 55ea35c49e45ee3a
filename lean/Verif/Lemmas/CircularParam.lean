import Verif.Model.Parameterization
import Verif.Lemmas.Interp

/-! The circular parameterization on the boundary of the disc, and its range. -/

namespace Transfinite

namespace Param

/-- The meaning of `std::fmod` for nonnegative numbers. -/
def IsFmod (fmod : ℝ → ℝ → ℝ) : Prop := ∀ x y, 0 ≤ x → 0 < y → ∃ m : ℕ, fmod x y = x - m * y ∧ 0 ≤ fmod x y ∧ fmod x y < y

/-- Such functions exist. -/
theorem exists_fmod : ∃ f, IsFmod f := by
  refine ⟨fun x y => x - ⌊x / y⌋₊ * y, fun x y hx hy => ⟨⌊x / y⌋₊, rfl, ?_, ?_⟩⟩
  · have := Nat.floor_le (div_nonneg hx hy.le)
    rw [le_div_iff₀ hy] at this
    linarith
  · have := Nat.lt_floor_add_one (x / y)
    rw [div_lt_iff₀ hy] at this
    linarith

/-- The value near the circle, for a local angle of `T` half side lengths. -/
noncomputable def circVal (T : ℝ) : ℝ := max 0 (min 1 ((|T| - 1) / 2))

theorem circularMap_circle {ε : ℝ} {fmod : ℝ → ℝ → ℝ} {n j : ℕ} (hn : 0 < n) {uv : P2 ℝ} (hr : uv.x > 1 - ε) {T : ℝ}
    (hT : fmod (uv.y + (3 - ((j : ℝ) * 2 + 1) / n) * Real.pi) (2 * Real.pi) - Real.pi = T * Real.pi / n) :
    circularMap ε fmod n j uv = .ok ⟨circVal T, circVal T⟩ := by
  have hn' : (n : ℝ) ≠ 0 := by positivity
  have hn0 : (0 : ℝ) < n := by positivity
  have hp := Real.pi_pos
  have habs : |T * Real.pi / n| = |T| * Real.pi / n := by
    rw [abs_div, abs_mul, abs_of_pos hp, abs_of_pos hn0]
  unfold circularMap
  simp only [fdiv_of_ne hn', M_bind_ok, show (Libm.pi : ℝ) = Real.pi from rfl]
  rw [if_pos hr]
  rw [hT, habs]
  have c1 : |T| * Real.pi / n ≤ Real.pi / n ↔ |T| ≤ 1 := by
    rw [div_le_div_iff_of_pos_right hn0]
    constructor
    · intro h; by_contra q; push Not at q; nlinarith
    · intro h; nlinarith
  have c2 : |T| * Real.pi / n ≥ 3 * Real.pi / n ↔ 3 ≤ |T| := by
    rw [ge_iff_le, div_le_div_iff_of_pos_right hn0]
    exact mul_le_mul_iff_left₀ hp
  unfold circVal
  by_cases h1 : |T| ≤ 1
  · rw [if_pos (c1.mpr h1), max_eq_left ((min_le_right _ _).trans (by linarith))]
  · rw [if_neg (fun q => h1 (c1.mp q))]
    push Not at h1
    by_cases h3 : 3 ≤ |T|
    · rw [if_pos (c2.mpr h3), min_eq_left (by linarith), max_eq_right zero_le_one]
    · rw [if_neg (fun q => h3 (c2.mp q))]
      push Not at h3
      rw [min_eq_right (by linarith), max_eq_right (by linarith)]
      rw [fdiv_of_ne hp.ne', M_bind_ok]
      have : |T| * Real.pi / n * n / Real.pi = |T| := by field_simp
      simp only [this]

/-- The local angle of side `j` on side `i`. -/
theorem circle_angle {fmod : ℝ → ℝ → ℝ} (hf : IsFmod fmod) {n i j : ℕ} (hi : i < n) (hj : j < n) {s : ℝ} (h0 : 0 ≤ s) :
    ∃ q : ℤ, ∃ T : ℝ, T = 2 * ((i : ℝ) - j) + 2 * s - 1 + 2 * n * q ∧ -(n : ℝ) ≤ T ∧ T < n ∧
      fmod ((i + s) * 2 * Real.pi / n + (3 - ((j : ℝ) * 2 + 1) / n) * Real.pi) (2 * Real.pi) - Real.pi = T * Real.pi / n := by
  have hp := Real.pi_pos
  have hn0 : (0 : ℝ) < n := by have : 0 < n := by omega
                               positivity
  have hj' : (j : ℝ) + 1 ≤ n := by exact_mod_cast hj
  have hi' : (0 : ℝ) ≤ i := by positivity
  set X := (i + s) * 2 * Real.pi / n + (3 - ((j : ℝ) * 2 + 1) / n) * Real.pi with hX
  have eX : X = (2 * (i + s) + 3 * n - (2 * j + 1)) * Real.pi / n := by rw [hX]; field_simp; ring
  have X0 : 0 ≤ X := by rw [eX]; apply div_nonneg (mul_nonneg _ hp.le) hn0.le; nlinarith
  obtain ⟨m, e, m0, m1⟩ := hf X (2 * Real.pi) X0 (by positivity)
  refine ⟨1 - m, 2 * ((i : ℝ) - j) + 2 * s - 1 + 2 * n * (1 - m), by push_cast; ring, ?_, ?_, ?_⟩
  all_goals
    have key : fmod X (2 * Real.pi) - Real.pi = (2 * ((i : ℝ) - j) + 2 * s - 1 + 2 * n * (1 - m)) * Real.pi / n := by
      rw [e, eX]; field_simp; ring
  · have : -Real.pi ≤ (2 * ((i : ℝ) - j) + 2 * s - 1 + 2 * n * (1 - m)) * Real.pi / n := by rw [← key]; linarith
    rw [le_div_iff₀ hn0] at this
    nlinarith
  · have : (2 * ((i : ℝ) - j) + 2 * s - 1 + 2 * n * (1 - m)) * Real.pi / n < Real.pi := by rw [← key]; linarith
    rw [div_lt_iff₀ hn0] at this
    nlinarith
  · exact key

theorem circVal_eq {T h : ℝ} (h0 : 0 ≤ h) (h1 : h ≤ 1) (hT : |T| = 2 * h + 1) : circVal T = h := by
  unfold circVal
  rw [hT, show (2 * h + 1 - 1) / 2 = h by ring, min_eq_right h1, max_eq_right h0]

theorem circVal_zero {T : ℝ} (hT : |T| ≤ 1) : circVal T = 0 := by
  unfold circVal
  exact max_eq_left ((min_le_right _ _).trans (by linarith))

theorem circVal_one {T : ℝ} (hT : 3 ≤ |T|) : circVal T = 1 := by
  unfold circVal
  rw [min_eq_left (by linarith), max_eq_right zero_le_one]

/-- The values on side `i`. -/
theorem circle_side {ε : ℝ} (hε : 0 < ε) {fmod : ℝ → ℝ → ℝ} (hf : IsFmod fmod) {n i j : ℕ} (hn : 3 ≤ n) (hi : i < n) (hj : j < n) {s : ℝ} (h0 : 0 ≤ s) (h1 : s ≤ 1) :
    ∃ h, circularMap ε fmod n j ⟨1, (i + s) * 2 * Real.pi / n⟩ = .ok ⟨h, h⟩ ∧ (j = i → h = 0) ∧ (j = nextIx n i → h = 1 - s) ∧ (j = prevIx n i → h = s) ∧
      (j ≠ i → j ≠ nextIx n i → j ≠ prevIx n i → h = 1) := by
  obtain ⟨q, T, e, l, u, hT⟩ := circle_angle hf hi hj h0
  refine ⟨circVal T, circularMap_circle (by omega) (by dsimp only; linarith) hT, ?_⟩
  -- `T = 2 D + 2 s - 1` with an integer `D`
  have hn3 : (3 : ℝ) ≤ n := by exact_mod_cast hn
  set D : ℤ := (i : ℤ) - j + n * q with hD
  have eD : T = 2 * D + 2 * s - 1 := by rw [e, hD]; push_cast; ring
  have lD : -(n : ℤ) ≤ 2 * D + 1 := by
    have : -(n : ℝ) ≤ 2 * D + 1 := by linarith
    exact_mod_cast this
  have uD : 2 * D - 1 < (n : ℤ) := by
    have : 2 * (D : ℝ) - 1 < n := by linarith
    exact_mod_cast this
  -- the multiple of `n` is determined
  have hq : ∀ {k : ℤ}, k * n + k * n = k * (2 * n) := by intro k; ring
  have bound : ∀ a : ℤ, D = a + n * 0 ∨ D = a + n * 1 ∨ D = a + n * (-1) ∨ (∃ r : ℤ, D = a + n * r ∧ 2 ≤ |r|) ∨ ¬ ∃ r : ℤ, D = a + n * r := by
    intro a
    by_cases h : ∃ r : ℤ, D = a + n * r
    · obtain ⟨r, hr⟩ := h
      rcases lt_or_ge |r| 2 with w | w
      · rw [abs_lt] at w
        have : r = 0 ∨ r = 1 ∨ r = -1 := by omega
        rcases this with rfl | rfl | rfl
        · exact Or.inl hr
        · exact Or.inr (Or.inl hr)
        · exact Or.inr (Or.inr (Or.inl hr))
      · exact Or.inr (Or.inr (Or.inr (Or.inl ⟨r, hr, w⟩)))
    · exact Or.inr (Or.inr (Or.inr (Or.inr h)))
  have solve : ∀ a : ℤ, -1 ≤ a → a ≤ 1 → (∃ r : ℤ, D = a + n * r) → D = a ∨ D = a - n ∨ D = a + n := by
    intro a a0 a1 h
    rcases bound a with w | w | w | ⟨r, hr, w⟩ | w
    · left; linarith
    · right; right; linarith
    · right; left; linarith
    · exfalso
      rcases le_abs'.mp w with w | w
      · have : (n : ℤ) * r ≤ n * (-2) := mul_le_mul_of_nonneg_left w (by omega)
        omega
      · have : (n : ℤ) * 2 ≤ n * r := mul_le_mul_of_nonneg_left w (by omega)
        omega
    · exact absurd h w
  refine ⟨fun hj => ?_, fun hj => ?_, fun hj => ?_, fun n1 n2 n3 => ?_⟩
  · rcases solve 0 (by omega) (by omega) ⟨q, by rw [hD, hj]; ring⟩ with w | w | w
    · apply circVal_zero
      rw [eD, w, abs_le]
      push_cast
      constructor <;> linarith
    · omega
    · omega
  · have hr : ∃ r : ℤ, D = -1 + n * r := by
      rw [nextIx_eq hi] at hj
      split_ifs at hj with w
      · refine ⟨q + 1, ?_⟩
        rw [hD, hj]
        push_cast
        have : (i : ℤ) + 1 = n := by exact_mod_cast w
        linear_combination this
      · refine ⟨q, ?_⟩
        rw [hD, hj]
        push_cast
        ring
    rcases solve (-1) (by omega) (by omega) hr with w | w | w
    · apply circVal_eq (by linarith) (by linarith)
      rw [eD, w, abs_of_nonpos (by push_cast; linarith)]
      push_cast
      ring
    · omega
    · omega
  · have hr : ∃ r : ℤ, D = 1 + n * r := by
      rw [prevIx_eq hi] at hj
      split_ifs at hj with w
      · refine ⟨q - 1, ?_⟩
        have : (j : ℤ) = n - 1 := by omega
        rw [hD, w, this]
        push_cast
        ring
      · refine ⟨q, ?_⟩
        have : (j : ℤ) = i - 1 := by omega
        rw [hD, this]
        ring
    rcases solve 1 (by omega) (by omega) hr with w | w | w
    · apply circVal_eq h0 h1
      rw [eD, w, abs_of_nonneg (by push_cast; linarith)]
      push_cast
      ring
    · -- only for `n = 3` and `s = 1`
      have wr : (D : ℝ) = 1 - n := by rw [w]; push_cast; ring
      have s1 : s = 1 := by
        rw [eD, wr] at l
        linarith
      have n3 : (n : ℝ) = 3 := by
        rw [eD, wr] at l
        linarith
      rw [s1]
      apply circVal_one
      rw [eD, wr, n3, s1]
      norm_num
    · omega
  · have hD1 : D ≠ 0 ∧ D ≠ 1 ∧ D ≠ -1 := by
      rw [nextIx_eq hi] at n2
      rw [prevIx_eq hi] at n3
      have hq0 : q ≤ -2 ∨ q = -1 ∨ q = 0 ∨ q = 1 ∨ 2 ≤ q := by omega
      rcases hq0 with w | w | w | w | w
      · have : (n : ℤ) * q ≤ n * (-2) := mul_le_mul_of_nonneg_left w (by omega)
        omega
      · rw [w] at hD
        split_ifs at n2 n3 <;> omega
      · rw [w] at hD
        split_ifs at n2 n3 <;> omega
      · rw [w] at hD
        split_ifs at n2 n3 <;> omega
      · have : (n : ℤ) * 2 ≤ n * q := mul_le_mul_of_nonneg_left w (by omega)
        omega
    apply circVal_one
    rw [le_abs']
    have : D ≤ -2 ∨ 2 ≤ D := by omega
    rcases this with w | w
    · left
      have : (D : ℝ) ≤ -2 := by exact_mod_cast w
      rw [eD]; linarith
    · right
      have : (2 : ℝ) ≤ D := by exact_mod_cast w
      rw [eD]; linarith

end Param

end Transfinite
