import Verif.Lemmas.TangentParallel
import Verif.Lemmas.TangentConstrained
import Verif.Lemmas.TangentSurfaces
import Verif.Lemmas.Agreed
import Verif.Lemmas.PatchSide
import Mathlib.Analysis.Calculus.Deriv.MeanValue

/-! # From the derivatives of the surface formulas to the surface objects -/

namespace Transfinite

open Spec Set Filter Topology Real

namespace Spec

theorem Close.nonneg {δ : ℝ} {a b : P3 ℝ} (h : Close δ a b) : 0 ≤ δ := (abs_nonneg _).trans h.1

theorem Close.symm {δ : ℝ} {a b : P3 ℝ} (h : Close δ a b) : Close δ b a := by
  unfold Close
  rw [abs_sub_comm b.x, abs_sub_comm b.y, abs_sub_comm b.z]
  exact h

/-- Positive combinations of small vectors. -/
theorem close_split {δ a b β : ℝ} {u v : P3 ℝ} (ha : 0 ≤ a) (hb : 0 ≤ b) (hs : a + b ≤ β) (hu : Close δ u 0) (hv : Close δ v 0) :
    ∃ e, Close δ e 0 ∧ a • u + b • v = β • e := by
  rcases eq_or_lt_of_le (show 0 ≤ β by linarith) with q | q
  · have a0 : a = 0 := by linarith
    have b0 : b = 0 := by linarith
    refine ⟨0, ?_, by rw [a0, b0, ← q]; simp⟩
    have := hu.nonneg
    refine ⟨?_, ?_, ?_⟩ <;> simpa using this
  · have one : ∀ x y : ℝ, |x - 0| ≤ δ → |y - 0| ≤ δ → |β⁻¹ * (a * x + b * y) - 0| ≤ δ := by
      intro x y hx hy
      rw [sub_zero] at hx hy ⊢
      rw [abs_mul, abs_of_pos (inv_pos.mpr q), inv_mul_le_iff₀ q]
      have k1 : |a * x| ≤ a * δ := by rw [abs_mul, abs_of_nonneg ha]; exact mul_le_mul_of_nonneg_left hx ha
      have k2 : |b * y| ≤ b * δ := by rw [abs_mul, abs_of_nonneg hb]; exact mul_le_mul_of_nonneg_left hy hb
      have k3 := mul_le_mul_of_nonneg_right hs hu.nonneg
      linarith only [abs_add_le (a * x) (b * y), k1, k2, k3]
    refine ⟨β⁻¹ • (a • u + b • v), ⟨one _ _ hu.1 hv.1, one _ _ hu.2.1 hv.2.1, one _ _ hu.2.2 hv.2.2⟩, ?_⟩
    rw [smul_smul, mul_inv_cancel₀ q.ne', one_smul]

/-- The difference quotient is close to the derivative in the end points. -/
theorem quotient_close {F F' : ℝ → P3 ℝ} {δ a b : ℝ} {V : P3 ℝ} (h : ∀ s, 0 ≤ s → s ≤ 1 → UnitDer F (F' s) s) (h0 : 0 ≤ a) (hab : a < b) (h1 : b ≤ 1)
    (hc : ∀ s, a ≤ s → s ≤ b → Close δ (F' s) V) : Close δ ((b - a)⁻¹ • (F b - F a)) V := by
  have one : ∀ (g g' : ℝ → ℝ) (y : ℝ), (∀ s, 0 ≤ s → s ≤ 1 → HasDerivWithinAt g (g' s) (Icc 0 1) s) → (∀ s, a ≤ s → s ≤ b → |g' s - y| ≤ δ) →
      |(b - a)⁻¹ * (g b - g a) - y| ≤ δ := by
    intro g g' y hg hy
    obtain ⟨ξ, hξ, e⟩ := exists_hasDerivAt_eq_slope g g' hab
      (fun s hs => ((hg s (h0.trans hs.1) (hs.2.trans h1)).continuousWithinAt).mono (Icc_subset_Icc h0 h1))
      (fun s hs => (hg s (h0.trans hs.1.le) (hs.2.le.trans h1)).hasDerivAt (Icc_mem_nhds (h0.trans_lt hs.1) (hs.2.trans_le h1)))
    rw [inv_mul_eq_div, ← e]
    exact hy ξ hξ.1.le hξ.2.le
  exact ⟨one (fun s => (F s).x) (fun s => (F' s).x) V.x (fun s p q => (h s p q).1) (fun s p q => (hc s p q).1),
    one (fun s => (F s).y) (fun s => (F' s).y) V.y (fun s p q => (h s p q).2.1) (fun s p q => (hc s p q).2.1),
    one (fun s => (F s).z) (fun s => (F' s).z) V.z (fun s p q => (h s p q).2.2) (fun s p q => (hc s p q).2.2)⟩

end Spec

namespace Surf

variable {ε δ : ℝ} {n : ℕ} {c : ℕ → Curve ℝ} {F : ℕ → Option (ℝ → P3 ℝ)} {S : Surf ℝ} {T T' : ℕ → ℝ → P3 ℝ}

/-- The twists stored in the corners. -/
theorem corner_twists {r : ℕ → Ribbon ℝ} {j : ℕ} (hj : j < n) (hv : ∀ i < n, ∀ s, 0 ≤ s → s ≤ 1 → (r i).crossDerivative ε s = .ok (T i s)) :
    cornerOf ε (tab n r) j = .ok ⟨(r j).curve.pt 1, -(r j).curve.der 1, (r (nextIx n j)).curve.der 0,
      (1 / 10000 : ℝ)⁻¹ • (T j (1 - 1 / 10000) - T j 1), (1 / 10000 : ℝ)⁻¹ • (T (nextIx n j) (1 / 10000) - T (nextIx n j) 0)⟩ := by
  have hx : nextIx n j < n := nextIx_lt (by omega)
  unfold cornerOf cornerStep
  rw [length_tab, vget_tab _ hj, M_bind_ok, vget_tab _ hx, M_bind_ok, hv j hj 1 zero_le_one le_rfl, M_bind_ok, hv j hj _ (by norm_num) (by norm_num), M_bind_ok,
    hv _ hx 0 le_rfl zero_le_one, hv _ hx (1 / 10000) (by norm_num) (by norm_num)]
  have k : ∀ v : P3 ℝ, Ribbon.vdiv v (1 / 10000) = .ok ((1 / 10000 : ℝ)⁻¹ • v) := by
    intro v
    unfold Ribbon.vdiv
    rw [fdiv_of_ne (by norm_num), M_bind_ok, one_div]
  rw [k, M_bind_ok, M_bind_ok, M_bind_ok, k, M_bind_ok]

/-- The surface is smooth, and the twists of the corners are almost the derivatives of the cross derivatives. -/
theorem Agreed.smooth {r : ℕ → Ribbon ℝ} (h : S.Agreed ε .handler n c F r) (hn : 3 ≤ n) (closed : ∀ j < n, (c j).pt 1 = (c (nextIx n j)).pt 0)
    (hv : ∀ j < n, ∀ s, 0 ≤ s → s ≤ 1 → (r j).crossDerivative ε s = .ok (T j s))
    (hcd : ∀ j < n, ∀ s, 0 ≤ s → s ≤ 1 → UnitDer (c j).pt ((c j).der s) s) (hT : ∀ j < n, ∀ s, 0 ≤ s → s ≤ 1 → UnitDer (T j) (T' j s) s)
    (h0 : ∀ j < n, T j 0 = -(c (prevIx n j)).der 1) (h1 : ∀ j < n, T j 1 = (c (nextIx n j)).der 0)
    (ht : ∀ j < n, ∀ s, 0 ≤ s → s ≤ 1 / 10000 → Close δ (T' j s) (T' j 0) ∧ Close δ (T' j (1 - s)) (T' j 1)) :
    ∃ w1 w2 : ℕ → P3 ℝ, Smooth ε S n c T T' w1 w2 ∧ ∀ j < n, Close δ (T' (nextIx n j) 0 - w2 j) 0 ∧ Close δ (-T' j 1 - w1 j) 0 := by
  obtain ⟨q, q1, q2⟩ := h.corners
  refine ⟨fun j => (1 / 10000 : ℝ)⁻¹ • (T j (1 - 1 / 10000) - T j 1), fun j => (1 / 10000 : ℝ)⁻¹ • (T (nextIx n j) (1 / 10000) - T (nextIx n j) 0),
    ⟨hn, by unfold Surf.n; rw [h.ribs, length_tab], ?_, hcd, hT, h0, h1, ?_, closed⟩, ?_⟩
  · intro j hj
    have hb := (h.ready j hj).basic
    exact ⟨r j, by rw [h.ribs, vget_tab _ hj], hb.2.1, by rw [hb.1]; simp, by rw [hb.1]; simp, hv j hj⟩
  · intro j hj
    have hx : nextIx n j < n := nextIx_lt (by omega)
    have e := q2 j hj
    rw [corner_twists hj hv] at e
    rw [q1, vget_tab _ hj, ← Except.ok.inj e, (h.ready j hj).basic.2.1, (h.ready _ hx).basic.2.1]
  · intro j hj
    have hx : nextIx n j < n := nextIx_lt (by omega)
    constructor
    · have k := (quotient_close (hT _ hx) le_rfl (show (0 : ℝ) < 1 / 10000 by norm_num) (by norm_num) (fun s a b => (ht _ hx s a b).1)).symm
      rw [sub_zero] at k
      unfold Close at k ⊢
      simpa using k
    · have k := quotient_close (hT _ hj) (show (0 : ℝ) ≤ 1 - 1 / 10000 by norm_num) (by norm_num) le_rfl (V := T' j 1) (δ := δ) (fun s a b => by
        have := (ht _ hj (1 - s) (by linarith) (by linarith)).2
        rwa [sub_sub_cancel] at this)
      rw [sub_sub_cancel] at k
      unfold Close at k ⊢
      simp only [P3.sub_x, P3.sub_y, P3.sub_z, P3.neg_x, P3.neg_y, P3.neg_z, P3.smul_x, P3.smul_y, P3.smul_z, P3.zero_x, P3.zero_y, P3.zero_z, sub_zero] at k ⊢
      have flip : ∀ a b d x : ℝ, |a * (b - d) - x| ≤ δ → |-x - a * (d - b)| ≤ δ := fun a b d x hx => by
        rw [show -x - a * (d - b) = a * (b - d) - x by ring]; exact hx
      exact ⟨flip _ _ _ _ k.1, flip _ _ _ _ k.2.1, flip _ _ _ _ k.2.2⟩

/-- The error of the twists is small relative to the cross derivative. -/
theorem twist_split {i : ℕ} {s a b β : ℝ} {w1 w2 : ℕ → P3 ℝ} (hi : i < n) (s0 : 0 < s) (s1 : s < 1)
    (ht : ∀ j < n, Close δ (T' (nextIx n j) 0 - w2 j) 0 ∧ Close δ (-T' j 1 - w1 j) 0) (ha : 0 ≤ a) (hb : 0 ≤ b)
    (hs : (1 - s) * a + s * b ≤ β) : ∃ e, Close δ e 0 ∧ twistError S n T' w1 w2 i s a b = β • e := by
  have g1 := S.gam_nonneg (d := 1 - s) (by linarith)
  have g2 := S.gam_nonneg (d := s) s0.le
  have le : ∀ d : ℝ, 0 ≤ d → S.gam d ≤ d := by
    intro d hd
    unfold gam
    split_ifs
    · rw [div_le_iff₀ (by linarith)]; nlinarith
    · exact le_rfl
  have k1 := mul_le_mul_of_nonneg_right (le (1 - s) (by linarith)) ha
  have k2 := mul_le_mul_of_nonneg_right (le s s0.le) hb
  unfold twistError
  exact close_split (mul_nonneg g1 ha) (mul_nonneg g2 hb) (by linarith) (ht i hi).1 (ht _ (prevIx_lt (by omega))).2

theorem endWeight_range (s : ℝ) : 0 ≤ endWeight s ∧ endWeight s ≤ 1 := by
  have h : 0 < (1 - s) ^ 2 + s ^ 2 := by nlinarith [sq_nonneg (1 - s), sq_nonneg s, sq_nonneg (1 - 2 * s)]
  unfold endWeight
  refine ⟨by positivity, ?_⟩
  rw [div_le_one h]
  nlinarith [sq_nonneg (1 - s)]

end Surf

end Transfinite
