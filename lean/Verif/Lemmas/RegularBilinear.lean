import Verif.Lemmas.Bilinear
import Verif.Lemmas.Regular

/-! # The bilinear parameterization of regular domains -/

namespace Transfinite

open Spec Param

section general
variable {K : Type} [Field K] [LinearOrder K] [IsStrictOrderedRing K] [Libm K]

theorem prevIx_two {n i : ℕ} (hn : 3 ≤ n) (hi : i < n) : prevIx n i 2 = prevIx n (prevIx n i) := by
  have hp : prevIx n i < n := prevIx_lt (by omega)
  rw [prevIx_eq hp, prevIx_eq hi]
  unfold prevIx
  by_cases h0 : i = 0
  · rw [if_pos h0, if_neg (by omega), h0, Nat.mod_eq_of_lt (by omega)]; omega
  · rw [if_neg h0]
    by_cases h1 : i = 1
    · rw [h1, if_pos (by omega), Nat.mod_eq_of_lt (by omega)]; omega
    · rw [if_neg (by omega), show i + n - 2 = (i - 2) + n by omega, Nat.add_mod_right, Nat.mod_eq_of_lt (by omega)]; omega

/-- If the neighbouring sides end at the same distance from side `i`, the side parameter is the ratio of the distances from the
neighbouring sides. -/
theorem bilinearMap_ratio {d : Domain K} {n : ℕ} {v : ℕ → P2 K} (h : ConvexDomain d n v) {ε : K} (hε : 0 < ε) {i : ℕ} (hi : i < n)
    (hH : leftOf n v i (v (prevIx n (prevIx n i))) = leftOf n v i (v (nextIx n i)))
    {uv : P2 K} (h1 : 0 ≤ leftOf n v (prevIx n i) uv) (h2 : 0 ≤ leftOf n v (nextIx n i) uv) :
    bilinearMap ε d i uv = .ok ⟨
      if (leftOf n v (prevIx n i) uv + leftOf n v (nextIx n i) uv) / P2.dot (duOf n v i) (duOf n v i) < ε then 0
        else leftOf n v (prevIx n i) uv / (leftOf n v (prevIx n i) uv + leftOf n v (nextIx n i) uv),
      leftOf n v i uv / leftOf n v i (v (nextIx n i))⟩ := by
  have hn := h.hn
  have hp : prevIx n i < n := prevIx_lt (by omega)
  have hx : nextIx n i < n := nextIx_lt (by omega)
  have hN := h.du_pos hi
  have hHpos : 0 < leftOf n v i (v (nextIx n i)) := h.convex i hi _ hx (next_ne (by omega) hi) (next_ne_prev hn hi)
  have hnp : (prevIx n i + n - 1) % n = prevIx n (prevIx n i) := rfl
  have hnx : (nextIx n i + n - 1) % n = i := prevIx_nextIx hi
  have hni : (i + n - 1) % n = prevIx n i := rfl
  have key : ∀ w, d.toLocal i w = .ok ⟨P2.dot w (duOf n v i) / P2.dot (duOf n v i) (duOf n v i),
      ((duOf n v i).x * w.y - (duOf n v i).y * w.x) / P2.dot (duOf n v i) (duOf n v i)⟩ := by
    intro w
    have := h.toLocal_prev hi (v (prevIx n i) + w)
    rw [add_sub_cancel_left] at this
    rw [this]
    congr 3
    simp only [leftOf, area2, P2.add_x, P2.add_y, duOf, prevIx, P2.sub_x, P2.sub_y]; ring
  unfold bilinearMap
  rw [h.length_eq]
  dsimp only
  rw [prevIx_two hn hi, h.vget_vertex (prevIx_lt (by omega)), M_bind_ok, h.vget_vertex hp, M_bind_ok, h.vget_vertex hi, M_bind_ok,
    h.vget_vertex hx, M_bind_ok, key, M_bind_ok, key, M_bind_ok, key, M_bind_ok]
  unfold leftOf at h1 h2 hH hHpos ⊢
  rw [hnp] at h1 ⊢
  rw [hnx] at h2 ⊢
  rw [hni] at hH hHpos ⊢
  have hdu : duOf n v i = v i - v (prevIx n i) := rfl
  rw [hdu] at hN ⊢
  clear hdu key
  generalize v (prevIx n (prevIx n i)) = v0 at *
  generalize v (prevIx n i) = v1 at *
  generalize v (nextIx n i) = v3 at *
  generalize v i = v2 at *
  dsimp only
  have hN0 := hN.ne'
  have y1 : ((v2 - v1).x * (v0 - v1).y - (v2 - v1).y * (v0 - v1).x) = area2 v1 v2 v3 := by
    rw [← hH]; simp only [area2, P2.sub_x, P2.sub_y]
  have y2 : ((v2 - v1).x * (v3 - v2).y - (v2 - v1).y * (v3 - v2).x) = area2 v1 v2 v3 := by
    simp only [area2, P2.sub_x, P2.sub_y]; ring
  have y3 : ((v2 - v1).x * (uv - v1).y - (v2 - v1).y * (uv - v1).x) = area2 v1 v2 uv := by
    simp only [area2, P2.sub_x, P2.sub_y]
  rw [y1, y2, y3]
  -- the coefficients
  have hc : P2.dot (uv - v1) (v2 - v1) * area2 v1 v2 v3 - area2 v1 v2 uv * P2.dot (v0 - v1) (v2 - v1) =
      area2 v0 v1 uv * P2.dot (v2 - v1) (v2 - v1) := by
    rw [← hH]; simp only [area2, P2.sub_x, P2.sub_y, P2.dot]; ring
  have hc2 : P2.dot (v3 - v2) (v2 - v1) * area2 v1 v2 uv + (P2.dot (v2 - v1) (v2 - v1) - P2.dot (uv - v1) (v2 - v1)) * area2 v1 v2 v3 =
      area2 v2 v3 uv * P2.dot (v2 - v1) (v2 - v1) := by
    simp only [area2, P2.sub_x, P2.sub_y, P2.dot]; ring
  generalize P2.dot (v2 - v1) (v2 - v1) = N at *
  generalize P2.dot (v3 - v2) (v2 - v1) = x2 at *
  generalize P2.dot (v0 - v1) (v2 - v1) = x1 at *
  generalize P2.dot (uv - v1) (v2 - v1) = x at *
  generalize area2 v1 v2 v3 = H at *
  generalize area2 v1 v2 uv = y at *
  generalize area2 v0 v1 uv = lp at *
  generalize area2 v2 v3 uv = ln at *
  have ec : x / N * (H / N) - y / N * (x1 / N) = lp / N := by
    field_simp; linear_combination hc
  have eb : x / N * (H / N) - (x / N + 1) * (H / N) + (x1 / N - x2 / N) * (y / N) = -((lp + ln) / N) := by
    field_simp; linear_combination -hc - hc2
  rw [ec, eb, sub_self]
  unfold bilinearSolve
  rw [abs_zero, if_pos hε, abs_neg, abs_of_nonneg (by positivity : 0 ≤ (lp + ln) / N)]
  have hfin : ∀ s : K, (do
      let t ← fdiv (y / N) (H / N * (1 - s) + H / N * s)
      Except.ok (⟨s, t⟩ : P2 K) : M (P2 K)) = .ok ⟨s, y / H⟩ := by
    intro s
    have e : H / N * (1 - s) + H / N * s = H / N := by ring
    rw [e, fdiv_of_ne (div_pos hHpos hN).ne', M_bind_ok]
    congr 2
    have := hHpos.ne'
    field_simp
  split_ifs with hlt
  · rw [M_bind_ok]; exact hfin 0
  · have hs : lp + ln ≠ 0 := by
      intro e; rw [e, zero_div] at hlt; exact hlt hε
    have : -((lp + ln) / N) ≠ 0 := neg_ne_zero.mpr (div_ne_zero hs hN0)
    rw [fdiv_of_ne this, M_bind_ok]
    have e : -(lp / N) / -((lp + ln) / N) = lp / (lp + ln) := by
      rw [neg_div_neg_eq]; field_simp
    rw [e]
    exact hfin _

end general

open Real

/-- Cosine at the odd multiples of `π/n` between `3π/n` and `2π-3π/n`. -/
theorem cos_odd_le {n m : ℕ} (hn : 3 ≤ n) (h1 : 1 ≤ m) (h2 : m + 2 ≤ n) :
    cos ((2 * m + 1) * (π / n)) ≤ cos (3 * (π / n)) := by
  have hn0 : (0 : ℝ) < n := by positivity
  have hx : 0 < π / n := by positivity
  have hn' : (n : ℝ) * (π / n) = π := by field_simp
  have m1 : (1 : ℝ) ≤ m := by exact_mod_cast h1
  have m2 : (m : ℝ) + 2 ≤ n := by exact_mod_cast h2
  have hn3 : (3 : ℝ) ≤ n := by exact_mod_cast hn
  set x := π / n with hxd
  have a1 : 0 ≤ 3 * x := by positivity
  have a2 : 3 * x ≤ π := by rw [← hn']; nlinarith
  rcases le_total ((2 * m + 1) * x) π with h | h
  · exact cos_le_cos_of_nonneg_of_le_pi a1 h (by nlinarith)
  · have e : cos ((2 * m + 1) * x) = cos (2 * π - (2 * m + 1) * x) := by rw [cos_two_pi_sub]
    rw [e]
    refine cos_le_cos_of_nonneg_of_le_pi a1 (by linarith) ?_
    have : ((2 : ℝ) * m + 1 + 3) * x ≤ 2 * n * x := by
      apply mul_le_mul_of_nonneg_right _ hx.le
      linarith
    nlinarith

/-- Distances of the vertices of a regular polygon from its sides. -/
theorem regular_leftOf {n : ℕ} (hn : 3 ≤ n) {r φ : ℝ} {j m : ℕ} (hj : j < n) (hm : m ≤ n) :
    leftOf n (regularVertex n r φ) j (regularVertex n r φ ((j + m) % n)) =
      r ^ 2 * (4 * sin (π / n) * sin (m * (π / n)) * sin ((m + 1) * (π / n))) := by
  have hn0 : (0 : ℝ) < n := by positivity
  have e1 : regularVertex n r φ ((j + n - 1) % n) = r • circ (φ + 2 * π / n * j - 2 * π / n) := by
    rw [regularVertex_mod (by omega), Nat.cast_sub (by omega)]
    rw [show φ + 2 * π / n * (((j + n : ℕ) : ℝ) - ((1 : ℕ) : ℝ)) = φ + 2 * π / n * j - 2 * π / n + 2 * π by
      push_cast; field_simp; ring, circ_add_two_pi]
  have e2 : regularVertex n r φ j = r • circ (φ + 2 * π / n * j) := rfl
  unfold leftOf
  rw [e1, e2, regularVertex_mod (by omega), area2_smul, area2_circ]
  have a1 : (φ + 2 * π / n * j - (φ + 2 * π / n * j - 2 * π / n)) / 2 = π / n := by ring
  have a2 : (φ + 2 * π / n * ((j + m : ℕ) : ℝ) - (φ + 2 * π / n * j)) / 2 = m * (π / n) := by push_cast; ring
  have a3 : (φ + 2 * π / n * ((j + m : ℕ) : ℝ) - (φ + 2 * π / n * j - 2 * π / n)) / 2 = (m + 1) * (π / n) := by push_cast; ring
  rw [a1, a2, a3]

theorem regular_du {n : ℕ} (hn : 3 ≤ n) {r φ : ℝ} {j : ℕ} :
    P2.dot (duOf n (regularVertex n r φ) j) (duOf n (regularVertex n r φ) j) = r ^ 2 * (4 * sin (π / n) ^ 2) := by
  have hn0 : (0 : ℝ) < n := by positivity
  have e1 : regularVertex n r φ ((j + n - 1) % n) = r • circ (φ + 2 * π / n * j - 2 * π / n) := by
    rw [regularVertex_mod (by omega), Nat.cast_sub (by omega)]
    rw [show φ + 2 * π / n * (((j + n : ℕ) : ℝ) - ((1 : ℕ) : ℝ)) = φ + 2 * π / n * j - 2 * π / n + 2 * π by
      push_cast; field_simp; ring, circ_add_two_pi]
  have e2 : regularVertex n r φ j = r • circ (φ + 2 * π / n * j) := rfl
  unfold duOf
  rw [show prevIx n j = (j + n - 1) % n from rfl, e1, e2]
  set θ := φ + 2 * π / n * j
  have hα : 2 * π / n = 2 * (π / n) := by ring
  rw [hα]
  generalize π / n = x
  simp only [P2.dot, P2.sub_x, P2.sub_y, P2.smul_x, P2.smul_y, circ]
  have e : cos (2 * x) = 1 - 2 * sin x ^ 2 := by
    have := cos_two_mul x
    have h := sin_sq_add_cos_sq x
    linarith
  have e3 : cos (2 * x) = cos θ * cos (θ - 2 * x) + sin θ * sin (θ - 2 * x) := by
    rw [← cos_sub]; congr 1; ring
  have k1 := sin_sq_add_cos_sq θ
  have k2 := sin_sq_add_cos_sq (θ - 2 * x)
  linear_combination r ^ 2 * k1 + r ^ 2 * k2 - 2 * r ^ 2 * e + 2 * r ^ 2 * e3

theorem sin_pi_div_pos {n : ℕ} (hn : 3 ≤ n) : 0 < sin (π / n) ∧ 0 < sin (2 * π / n) := by
  have hn3 : (3 : ℝ) ≤ n := by exact_mod_cast hn
  have hn' : (n : ℝ) * (π / n) = π := by field_simp
  have hx : 0 < π / n := by have := pi_pos; positivity
  have : 2 * π / n = 2 * (π / n) := by ring
  rw [this]
  constructor
  · exact sin_pos_of_pos_of_lt_pi hx (by nlinarith)
  · exact sin_pos_of_pos_of_lt_pi (by linarith) (by nlinarith)

/-- Vertices not on side `j` of a regular polygon are at least as far from it as the ends of the neighbouring sides. -/
theorem regular_leftOf_ge {n : ℕ} (hn : 3 ≤ n) {r φ : ℝ} {j m : ℕ} (hj : j < n) (h1 : 1 ≤ m) (h2 : m + 2 ≤ n) :
    r ^ 2 * (4 * sin (π / n) ^ 2) * sin (2 * π / n) ≤
      leftOf n (regularVertex n r φ) j (regularVertex n r φ ((j + m) % n)) := by
  rw [regular_leftOf hn hj (by omega)]
  have hs := (sin_pi_div_pos hn).1
  have key : sin (π / n) * sin (2 * π / n) ≤ sin (m * (π / n)) * sin ((m + 1) * (π / n)) := by
    have hc := cos_odd_le hn h1 h2
    rw [show 2 * π / n = 2 * (π / n) by ring]
    generalize π / n = x at *
    have e1 : cos (3 * x) = cos x - 2 * (sin x * sin (2 * x)) := by
      have a := cos_add (2 * x) x
      have b := cos_sub (2 * x) x
      rw [show 2 * x + x = 3 * x by ring] at a
      rw [show 2 * x - x = x by ring] at b
      linarith
    have e2 : cos ((2 * m + 1) * x) = cos x - 2 * (sin (m * x) * sin ((m + 1) * x)) := by
      have a := cos_add ((m + 1) * x) (m * x)
      have b := cos_sub ((m + 1) * x) (m * x)
      rw [show ((m : ℝ) + 1) * x + m * x = (2 * m + 1) * x by ring] at a
      rw [show ((m : ℝ) + 1) * x - m * x = x by ring] at b
      linarith
    linarith
  have := mul_le_mul_of_nonneg_left key (show 0 ≤ r ^ 2 * (4 * sin (π / n)) by positivity)
  linarith

theorem regular_leftOf_le {n : ℕ} (hn : 3 ≤ n) {r φ : ℝ} {j m : ℕ} (hj : j < n) (hm : m ≤ n) :
    leftOf n (regularVertex n r φ) j (regularVertex n r φ ((j + m) % n)) ≤ r ^ 2 * (4 * sin (π / n)) := by
  rw [regular_leftOf hn hj hm]
  have hs := (sin_pi_div_pos hn).1
  have : sin (m * (π / n)) * sin ((m + 1) * (π / n)) ≤ 1 := by
    have a1 := sin_le_one (m * (π / n))
    have a2 := neg_one_le_sin (m * (π / n))
    have b1 := sin_le_one ((m + 1) * (π / n))
    have b2 := neg_one_le_sin ((m + 1) * (π / n))
    nlinarith
  have := mul_le_mul_of_nonneg_left this (show 0 ≤ r ^ 2 * (4 * sin (π / n)) by positivity)
  linarith

theorem exists_offset {n j k : ℕ} (hj : j < n) (hk : k < n) (h1 : k ≠ j) (h2 : k ≠ prevIx n j) :
    ∃ m, 1 ≤ m ∧ m + 2 ≤ n ∧ (j + m) % n = k := by
  rw [prevIx_eq hj] at h2
  by_cases h : j < k
  · refine ⟨k - j, by omega, ?_, ?_⟩
    · split_ifs at h2 <;> omega
    · rw [show j + (k - j) = k by omega, Nat.mod_eq_of_lt hk]
  · refine ⟨k + n - j, by omega, ?_, ?_⟩
    · split_ifs at h2 <;> omega
    · rw [show j + (k + n - j) = k + n by omega, Nat.add_mod_right, Nat.mod_eq_of_lt hk]

/-- The ends of the neighbouring sides of a regular polygon. -/
theorem regular_leftOf_next {n : ℕ} (hn : 3 ≤ n) {r φ : ℝ} {j : ℕ} (hj : j < n) :
    leftOf n (regularVertex n r φ) j (regularVertex n r φ (nextIx n j)) = r ^ 2 * (4 * sin (π / n) ^ 2) * sin (2 * π / n) := by
  have := regular_leftOf hn (r := r) (φ := φ) hj (m := 1) (by omega)
  unfold nextIx
  rw [this]
  push_cast
  rw [one_mul, show ((1 : ℝ) + 1) * (π / n) = 2 * π / n by ring]
  ring

theorem regular_leftOf_prev {n : ℕ} (hn : 3 ≤ n) {r φ : ℝ} {j : ℕ} (hj : j < n) :
    leftOf n (regularVertex n r φ) j (regularVertex n r φ (prevIx n (prevIx n j))) = r ^ 2 * (4 * sin (π / n) ^ 2) * sin (2 * π / n) := by
  have e : (j + (n - 2)) % n = prevIx n (prevIx n j) := by
    rw [← prevIx_two hn hj]
    unfold prevIx
    congr 1
    omega
  have := regular_leftOf hn (r := r) (φ := φ) hj (m := n - 2) (by omega)
  rw [e] at this
  rw [this]
  have hn0 : (0 : ℝ) < n := by positivity
  have c : ((n - 2 : ℕ) : ℝ) = n - 2 := by rw [Nat.cast_sub (by omega)]; norm_num
  rw [c, show ((n : ℝ) - 2) * (π / n) = π - 2 * π / n by field_simp, show ((n : ℝ) - 2 + 1) * (π / n) = π - π / n by field_simp; ring,
    sin_pi_sub, sin_pi_sub]
  ring

end Transfinite
