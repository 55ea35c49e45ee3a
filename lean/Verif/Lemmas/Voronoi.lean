import Verif.Model.Biharmonic
import Verif.Spec.Biharmonic
import Verif.Lemmas.RMF
import Verif.Lemmas.Harmonic

/-! The function `voronoiArea` in closed form. -/

namespace Transfinite

open Spec

namespace Biharmonic

theorem corner_symm (p q r : P3 ℝ) : corner p r q = corner p q r := P3.dot_comm _ _

theorem area3_rot (p q r : P3 ℝ) : area3 q r p = area3 p q r := by
  unfold area3 P3.norm
  congr 1
  unfold P3.cross P3.dot
  simp only [P3.sub_x, P3.sub_y, P3.sub_z]
  ring

theorem area3_swap (p q r : P3 ℝ) : area3 p r q = area3 p q r := by
  unfold area3 P3.norm
  congr 1
  unfold P3.cross P3.dot
  simp only [P3.sub_x, P3.sub_y, P3.sub_z]
  ring

theorem area3_sq (p q r : P3 ℝ) : area3 p q r * area3 p q r =
    corner p q r * corner q r p + corner q r p * corner r p q + corner r p q * corner p q r := by
  unfold area3
  rw [P3.norm_mul_self]
  unfold corner P3.cross P3.dot
  simp only [P3.sub_x, P3.sub_y, P3.sub_z]
  ring

theorem side_sq (p q r : P3 ℝ) : P3.dot (q - p) (q - p) = corner p q r + corner q r p := by
  unfold corner P3.dot
  simp only [P3.sub_x, P3.sub_y, P3.sub_z]
  ring

theorem normSqr_side (p q r : P3 ℝ) : P3.normSqr (q - p) = corner p q r + corner q r p := side_sq p q r

theorem normSqr_side' (p q r : P3 ℝ) : P3.normSqr (p - q) = corner p q r + corner q r p := by
  rw [← normSqr_side]
  unfold P3.normSqr P3.dot
  simp only [P3.sub_x, P3.sub_y, P3.sub_z]
  ring

theorem side_pos {p q r : P3 ℝ} (h : 0 < area3 p q r) : 0 < corner p q r + corner q r p := by
  rw [← side_sq]
  refine lt_of_le_of_ne (P3.dot_self_nonneg _) fun e => ?_
  have := P3.eq_zero_of_dot_self e.symm
  unfold area3 at h
  rw [this] at h
  have e2 : P3.cross (0 : P3 ℝ) (r - p) = 0 := by unfold P3.cross; refine P3.ext ?_ ?_ ?_ <;> simp
  rw [e2, P3.norm_eq_zero.mpr rfl] at h
  exact lt_irrefl _ h

theorem sub_ne {p q r : P3 ℝ} (h : 0 < area3 p q r) : q - p ≠ 0 := by
  intro e
  have := side_pos h
  rw [← side_sq, e, P3.dot_zero_left] at this
  exact lt_irrefl _ this

/-- The angle at `p`. -/
theorem angle_eq {p q r : P3 ℝ} (h : 0 < area3 p q r) : ∃ α : ℝ, computeAngle (q - p) (r - p) = .ok α ∧
    Real.cos α = corner p q r / ((q - p).norm * (r - p).norm) ∧ Real.sin α = area3 p q r / ((q - p).norm * (r - p).norm) := by
  have hu := sub_ne h
  have hv : r - p ≠ 0 := sub_ne (r := q) (by rw [area3_swap]; exact h)
  have nu := P3.norm_pos hu
  have nv := P3.norm_pos hv
  unfold computeAngle
  rw [P3.normalize_ok hu, M_bind_ok, P3.normalize_ok hv, M_bind_ok]
  have hx : P3.dot ((q - p).norm⁻¹ • (q - p)) ((r - p).norm⁻¹ • (r - p)) = corner p q r / ((q - p).norm * (r - p).norm) := by
    rw [P3.dot_smul_left, P3.dot_smul_right]
    unfold corner
    field_simp
  rw [hx]
  set x := corner p q r / ((q - p).norm * (r - p).norm) with hxd
  have hD : area3 p q r * area3 p q r = (q - p).norm * (q - p).norm * ((r - p).norm * (r - p).norm) - corner p q r * corner p q r := by
    rw [area3_sq, P3.norm_mul_self, P3.norm_mul_self, side_sq p q r, side_sq p r q, corner_symm r p q, corner_symm p q r]
    rw [show corner r p q = corner r q p from (corner_symm r p q).symm]
    ring
  have hsq : 1 - x ^ 2 = (area3 p q r / ((q - p).norm * (r - p).norm)) ^ 2 := by
    rw [hxd, div_pow, div_pow, eq_div_iff (by positivity), sub_mul, div_mul_cancel₀ _ (by positivity)]
    nlinarith [hD]
  have hpos : 0 < area3 p q r / ((q - p).norm * (r - p).norm) := by positivity
  have h1 : x ^ 2 ≤ 1 := by nlinarith [sq_nonneg (area3 p q r / ((q - p).norm * (r - p).norm))]
  have hle : -1 ≤ x ∧ x ≤ 1 := ⟨by nlinarith, by nlinarith⟩
  refine ⟨_, rfl, ?_, ?_⟩
  · rw [max_eq_left (by linarith), min_eq_left (by linarith)]
    exact Real.cos_arccos hle.1 hle.2
  · rw [max_eq_left (by linarith), min_eq_left (by linarith)]
    change Real.sin (Real.arccos x) = _
    rw [Real.sin_arccos, hsq, Real.sqrt_sq hpos.le]

theorem tan_eq {p q r : P3 ℝ} (h : 0 < area3 p q r) (hc : corner p q r ≠ 0) : ∃ α : ℝ, computeAngle (q - p) (r - p) = .ok α ∧
    tan α = .ok (area3 p q r / corner p q r) ∧ Real.sin α = area3 p q r / ((q - p).norm * (r - p).norm) := by
  obtain ⟨α, e, h1, h2⟩ := angle_eq h
  have nu := P3.norm_pos (sub_ne h)
  have nv : 0 < (r - p).norm := P3.norm_pos (sub_ne (r := q) (by rw [area3_swap]; exact h))
  refine ⟨α, e, ?_, h2⟩
  unfold tan
  change fdiv (Real.sin α) (Real.cos α) = _
  rw [h1, h2, fdiv_of_ne (by positivity)]
  congr 1
  field_simp

theorem voronoiArea_eq {p q r : P3 ℝ} (h : 0 < area3 p q r) :
    voronoiArea p q r = .ok (vorCell p q r) := by
  have hab := side_pos h
  have hbc : 0 < corner q r p + corner r p q := side_pos (by rw [area3_rot]; exact h)
  have hca : 0 < corner r p q + corner p q r := side_pos (by rw [area3_rot, area3_rot]; exact h)
  have hD := area3_sq p q r
  have nu := P3.norm_mul_self (q - p)
  have nv := P3.norm_mul_self (r - p)
  rw [side_sq p q r] at nu
  rw [side_sq p r q, corner_symm p q r, ← corner_symm r q p] at nv
  have pu := P3.norm_pos (sub_ne h)
  have pv : 0 < (r - p).norm := P3.norm_pos (sub_ne (r := q) (by rw [area3_swap]; exact h))
  unfold voronoiArea vorCell
  rw [normSqr_side q r p, normSqr_side r p q, normSqr_side p q r]
  have w1 := angle_eq h
  have w2 := tan_eq h
  have w3 : corner q r p ≠ 0 → _ := tan_eq (p := q) (q := p) (r := r) (by rw [area3_swap, area3_rot]; exact h) ∘ (by rw [corner_symm]; exact id)
  have w4 : corner r p q ≠ 0 → _ := tan_eq (p := r) (q := p) (r := q) (by rw [area3_rot, area3_rot]; exact h)
  rw [corner_symm q r p, area3_swap q r p, area3_rot] at w3
  rw [show area3 r p q = area3 p q r by rw [area3_rot q r p, area3_rot]] at w4
  generalize corner p q r = A at *
  generalize corner q r p = B at *
  generalize corner r p q = C at *
  generalize area3 p q r = D at *
  unfold vor
  by_cases hC : C < 0
  · have hA : 0 < A := by linarith
    obtain ⟨α, e, t, _⟩ := w2 hA.ne'
    rw [e, M_bind_ok, if_pos (by linarith), t, M_bind_ok, if_pos hC]
    congr 1
    field_simp
    ring
  rw [if_neg hC]
  by_cases hB : B < 0
  · have hA : 0 < A := by linarith
    obtain ⟨α, e, t, _⟩ := w2 hA.ne'
    rw [e, M_bind_ok, if_neg (by linarith), if_pos (by linarith), t, M_bind_ok, if_pos hB]
    congr 1
    field_simp
  rw [if_neg hB]
  by_cases hA : A < 0
  · obtain ⟨α, e, t, s⟩ := w2 hA.ne
    have hB' : 0 < B := by linarith
    have hC' : 0 < C := by linarith
    obtain ⟨β, eb, tb, _⟩ := w3 hB'.ne'
    obtain ⟨γ, ec, tc, _⟩ := w4 hC'.ne'
    rw [e, M_bind_ok, if_neg (by linarith), if_neg (by linarith), if_pos (by linarith), eb, M_bind_ok, ec, M_bind_ok, tc, M_bind_ok, tb, M_bind_ok, if_pos hA]
    congr 1
    change 1 / 2 * Real.sqrt (C + A) * Real.sqrt (A + B) * Real.sin α - _ = _
    have s1 : Real.sqrt (A + B) = (q - p).norm := by rw [← nu, Real.sqrt_mul_self pu.le]
    have s2 : Real.sqrt (C + A) = (r - p).norm := by rw [add_comm, ← nv, Real.sqrt_mul_self pv.le]
    rw [s, s1, s2]
    field_simp
    ring
  · obtain ⟨α, e, _, s⟩ := w1
    rw [e, M_bind_ok, if_neg (by linarith), if_neg (by linarith), if_neg (by linarith), if_neg hA]
    push Not at hA hB hC
    change (fdiv _ (Real.sin α ^ 2) >>= _) = _
    rw [s, fdiv_of_ne (by positivity), M_bind_ok]
    dsimp only
    congr 1
    change 1 / 8 * Real.sqrt _ * Real.sqrt _ + 1 / 8 * Real.sqrt _ * Real.sqrt _ = _
    have hr : 4 * (1 / 4 * (B + C) / (D / ((q - p).norm * (r - p).norm)) ^ 2) = (B + C) * ((A + B) * (C + A)) / (D * D) := by
      rw [← nu, show C + A = (r - p).norm * (r - p).norm by linarith]
      field_simp
    rw [hr]
    have one : ∀ x y : ℝ, 0 < x → 0 ≤ y → (B + C) * ((A + B) * (C + A)) = x * (D * D + y * y) →
        1 / 8 * Real.sqrt x * Real.sqrt (max ((B + C) * ((A + B) * (C + A)) / (D * D) - x) 0) = x * y / (8 * D) := by
      intro x y hx hy e
      have : (B + C) * ((A + B) * (C + A)) / (D * D) - x = x * (y / D) ^ 2 := by rw [e]; field_simp; ring
      rw [this, max_eq_left (by positivity), Real.sqrt_mul hx.le, Real.sqrt_sq (by positivity), show 1 / 8 * Real.sqrt x * (Real.sqrt x * (y / D)) = Real.sqrt x * Real.sqrt x * (y / (8 * D)) by field_simp,
        Real.mul_self_sqrt hx.le]
      ring
    rw [one (C + A) B hca hB (by rw [hD]; ring), one (A + B) C hab hC (by rw [hD]; ring)]
    ring

theorem vor_pos {A B C D : ℝ} (hab : 0 < A + B) (hbc : 0 < B + C) (hca : 0 < C + A) (hD : 0 < D) (hD2 : D * D = A * B + B * C + C * A) : 0 < vor A B C D := by
  unfold vor
  split_ifs with h1 h2 h3
  · have : 0 < A := by linarith
    have : 0 < A + C := by linarith
    positivity
  · have : 0 < A := by linarith
    positivity
  · have hB : 0 < B := by linarith
    have hC : 0 < C := by linarith
    have : D / 2 - D / 8 * ((A + C) / C + (A + B) / B) = D / 8 * (2 + (-A) / C + (-A) / B) := by field_simp; ring
    rw [this]
    have : 0 < -A := by linarith
    positivity
  · push Not at h1 h2 h3
    refine div_pos ?_ (by linarith)
    nlinarith [mul_nonneg h1 h2, mul_pos hD hD]

theorem vor_sum {A B C D : ℝ} (hab : 0 < A + B) (hbc : 0 < B + C) (hca : 0 < C + A) (hD : 0 < D) (hD2 : D * D = A * B + B * C + C * A) :
    vor A B C D + vor B C A D + vor C A B D = D / 2 := by
  unfold vor
  by_cases hC : C < 0
  · have hA : 0 < A := by linarith
    have hB : 0 < B := by linarith
    simp only [if_pos hC, if_neg hA.le.not_gt, if_neg hB.le.not_gt]
    field_simp
    ring
  by_cases hB : B < 0
  · have hA : 0 < A := by linarith
    have hC' : 0 < C := by linarith
    simp only [if_pos hB, if_neg hA.le.not_gt, if_neg hC]
    field_simp
    ring
  by_cases hA : A < 0
  · have hB' : 0 < B := by linarith
    have hC' : 0 < C := by linarith
    simp only [if_pos hA, if_neg hB, if_neg hC]
    field_simp
    ring
  · simp only [if_neg hA, if_neg hB, if_neg hC]
    field_simp
    linarith

end Biharmonic

end Transfinite
