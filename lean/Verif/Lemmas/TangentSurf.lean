import Verif.Lemmas.Tangent
import Verif.Lemmas.Interp

/-! # Derivatives of the building blocks of the surfaces, at a side -/

namespace Transfinite

namespace Surf

open Spec Set Filter Topology

/-- What the tangents of the surfaces depend on: smooth curves `c`, smooth cross derivatives `T` with the derivatives `T'`, matching at the corners, and the
twists `w1`, `w2` of the corners. -/
structure Smooth (ε : ℝ) (S : Surf ℝ) (n : ℕ) (c : ℕ → Curve ℝ) (T T' : ℕ → ℝ → P3 ℝ) (w1 w2 : ℕ → P3 ℝ) : Prop where
  hn : 3 ≤ n
  len : S.n = n
  ribbon : ∀ j < n, ∃ r, vget S.ribbons j = .ok r ∧ r.curve = c j ∧ r.kind ≠ .coons ∧ r.kind ≠ .nsided ∧
    ∀ s, 0 ≤ s → s ≤ 1 → r.crossDerivative ε s = .ok (T j s)
  curveDer : ∀ j < n, ∀ s, 0 ≤ s → s ≤ 1 → UnitDer (c j).pt ((c j).der s) s
  crossDer : ∀ j < n, ∀ s, 0 ≤ s → s ≤ 1 → UnitDer (T j) (T' j s) s
  start : ∀ j < n, T j 0 = -(c (prevIx n j)).der 1
  fin : ∀ j < n, T j 1 = (c (nextIx n j)).der 0
  corner : ∀ j < n, vget S.corners j = .ok ⟨(c j).pt 1, -(c j).der 1, (c (nextIx n j)).der 0, w1 j, w2 j⟩
  closed : ∀ j < n, (c j).pt 1 = (c (nextIx n j)).pt 0

/-- The derivative of `gamma`. -/
noncomputable def gam' (S : Surf ℝ) (d : ℝ) : ℝ := if S.useGamma then 1 / (2 * d + 1) ^ 2 else 1

theorem gam'_zero (S : Surf ℝ) : S.gam' 0 = 1 := by unfold gam'; split_ifs <;> norm_num

theorem gam_pos (S : Surf ℝ) {d : ℝ} (h : 0 < d) : 0 < S.gam d := by
  unfold gam; split_ifs
  · positivity
  · exact h

/-- `gamma(d)` is at least a third of `d`. -/
theorem gam_third (S : Surf ℝ) {d : ℝ} (h : 0 ≤ d) (h1 : d ≤ 1) : d / 3 ≤ S.gam d := by
  unfold gam; split_ifs
  · rw [div_le_div_iff₀ (by norm_num) (by linarith)]
    nlinarith
  · linarith

theorem gam_der (S : Surf ℝ) {d : ℝ → ℝ} {d' : ℝ} (h : RightDer d d') (h0 : 0 ≤ d 0) : RightDer (fun t => S.gam (d t)) (S.gam' (d 0) * d') := by
  unfold gam gam'
  split_ifs
  · refine (h.div (((RightDer.const 2).mul h).add (RightDer.const 1)) (by linarith)).congr_der ?_
    field_simp
    ring
  · simpa using h

/-- The value of the side interpolants. -/
noncomputable def sideF (S : Surf ℝ) (c : ℕ → Curve ℝ) (T : ℕ → ℝ → P3 ℝ) (j : ℕ) (x d : ℝ) : P3 ℝ := (c j).pt x + S.gam d • T j x

/-- The value of the corner corrections. -/
noncomputable def corrF (S : Surf ℝ) (n : ℕ) (c : ℕ → Curve ℝ) (w1 w2 : ℕ → P3 ℝ) (j : ℕ) (s1 s2 : ℝ) : P3 ℝ :=
  (c j).pt 1 + S.gam s1 • -(c j).der 1 + S.gam s2 • (c (nextIx n j)).der 0 +
    (S.gam s1 * S.gam s2 / (S.gam s1 + S.gam s2)) • (S.gam s1 • w2 j + S.gam s2 • w1 j)

namespace Smooth

variable {ε : ℝ} {S : Surf ℝ} {n : ℕ} {c : ℕ → Curve ℝ} {T T' : ℕ → ℝ → P3 ℝ} {w1 w2 : ℕ → P3 ℝ}

theorem compatible (h : Smooth ε S n c T T' w1 w2) : Compatible ε S n c := by
  refine ⟨h.hn, h.len, fun j hj => ?_, fun j hj => ⟨_, _, h.corner j hj⟩, h.closed⟩
  obtain ⟨r, h1, h2, h3, h4, h5⟩ := h.ribbon j hj
  exact ⟨r, h1, h2, h3, h4, by rw [h5 0 le_rfl zero_le_one, h.start j hj], by rw [h5 1 zero_le_one le_rfl, h.fin j hj], fun s s0 s1 => ⟨_, h5 s s0 s1⟩⟩

theorem side_eq (h : Smooth ε S n c T T' w1 w2) {j : ℕ} (hj : j < n) {x d : ℝ} (x0 : 0 ≤ x) (x1 : x ≤ 1) (hd : 0 ≤ d) :
    S.sideInterpolant ε j x d = .ok (S.sideF c T j x d) := by
  obtain ⟨r, hr, hc, k1, k2, hx⟩ := h.ribbon j hj
  unfold sideInterpolant
  rw [gamma_ok S hd, M_bind_ok, hr, M_bind_ok, eval_base k1 k2, clamp_of_mem x0 x1]
  unfold Ribbon.baseEval
  rw [hx x x0 x1, M_bind_ok, max_eq_left (gam_nonneg S hd), hc]
  rfl

theorem corr_eq (h : Smooth ε S n c T T' w1 w2) {j : ℕ} (hj : j < n) {s1 s2 : ℝ} (a0 : 0 ≤ s1) (a1 : s1 ≤ 1) (b0 : 0 ≤ s2) (b1 : s2 ≤ 1)
    (hε : ε ≤ S.gam s1 + S.gam s2) (hp : 0 < S.gam s1 + S.gam s2) : S.cornerCorrection ε j s1 s2 = .ok (S.corrF n c w1 w2 j s1 s2) := by
  unfold cornerCorrection
  rw [gamma_ok S a0, M_bind_ok, gamma_ok S b0, M_bind_ok, h.corner j hj]
  rw [M_bind_ok, clamp_of_mem (gam_nonneg S a0) (gam_le_one S a0 a1), clamp_of_mem (gam_nonneg S b0) (gam_le_one S b0 b1)]
  unfold rationalTwist
  rw [abs_of_pos hp, if_neg (not_lt.mpr hε)]
  unfold Ribbon.vdiv
  rw [fdiv_of_ne hp.ne', M_bind_ok, M_bind_ok]
  unfold corrF
  congr 2
  rw [smul_smul, mul_one_div]

variable {x d e u τ : ℝ → ℝ} {x' d' e' u' τ' : ℝ}

/-- The derivative of a side interpolant. -/
theorem side_der (h : Smooth ε S n c T T' w1 w2) {j : ℕ} (hj : j < n) (hx : RightDer x x') (hd : RightDer d d') (hr : ∀ᶠ t in near0, 0 ≤ x t ∧ x t ≤ 1) (h0 : 0 ≤ d 0) :
    RightDer3 (fun t => S.sideF c T j (x t) (d t)) (x' • (c j).der (x 0) + ((S.gam' (d 0) * d') • T j (x 0) + S.gam (d 0) • x' • T' j (x 0))) := by
  obtain ⟨r0, r1⟩ := hr.self_of_nhdsWithin (by simp : (0 : ℝ) ∈ Ici 0)
  exact (RightDer3.unit (h.curveDer j hj _ r0 r1) hx hr).add (RightDer3.smul (S.gam_der hd h0) (RightDer3.unit (h.crossDer j hj _ r0 r1) hx hr))

/-- The derivative of the rational twist, when one of the parameters vanishes. -/
theorem frac_der {a b : ℝ → ℝ} {a' b' : ℝ} (ha : RightDer a a') (hb : RightDer b b') (h0 : b 0 = 0) (hp : 0 < a 0) : RightDer (fun t => a t * b t / (a t + b t)) b' := by
  refine ((ha.mul hb).div (ha.add hb) (by rw [h0]; linarith)).congr_der ?_
  rw [h0]
  field_simp
  ring

/-- The derivative of a corner correction along the side before the corner. -/
theorem corr_der_first (hu : RightDer u u') (hτ : RightDer τ τ') (hp : 0 < u 0) (h0 : τ 0 = 0) {j : ℕ} :
    RightDer3 (fun t => S.corrF n c w1 w2 j (u t) (τ t)) ((S.gam' (u 0) * u') • -(c j).der 1 + τ' • (c (nextIx n j)).der 0 + (S.gam (u 0) * τ') • w2 j) := by
  have g1 := S.gam_der hu hp.le
  have g2 := S.gam_der hτ h0.ge
  rw [h0, gam'_zero, one_mul] at g2
  have z2 : S.gam (τ 0) = 0 := by rw [h0, gam_zero]
  have k := frac_der g1 g2 z2 (S.gam_pos hp)
  refine ((((RightDer3.const ((c j).pt 1)).add (RightDer3.smul_const g1 (-(c j).der 1))).add (RightDer3.smul_const g2 ((c (nextIx n j)).der 0))).add
    (RightDer3.smul k ((RightDer3.smul_const g1 (w2 j)).add (RightDer3.smul_const g2 (w1 j))))).congr_der ?_
  rw [z2, mul_zero, zero_div, zero_smul, zero_smul, add_zero, add_zero, zero_add, smul_smul, mul_comm τ' (S.gam (u 0))]

/-- The derivative of a corner correction along the side after the corner. -/
theorem corr_der_second (hu : RightDer u u') (hτ : RightDer τ τ') (hp : 0 < u 0) (h0 : τ 0 = 0) {j : ℕ} :
    RightDer3 (fun t => S.corrF n c w1 w2 j (τ t) (u t)) (τ' • -(c j).der 1 + (S.gam' (u 0) * u') • (c (nextIx n j)).der 0 + (S.gam (u 0) * τ') • w1 j) := by
  have g1 := S.gam_der hu hp.le
  have g2 := S.gam_der hτ h0.ge
  rw [h0, gam'_zero, one_mul] at g2
  have z2 : S.gam (τ 0) = 0 := by rw [h0, gam_zero]
  have k := frac_der g1 g2 z2 (S.gam_pos hp)
  have k' : RightDer (fun t => S.gam (τ t) * S.gam (u t) / (S.gam (τ t) + S.gam (u t))) τ' :=
    k.congr (Eventually.of_forall fun t => by rw [mul_comm, add_comm])
  refine ((((RightDer3.const ((c j).pt 1)).add (RightDer3.smul_const g2 (-(c j).der 1))).add (RightDer3.smul_const g1 ((c (nextIx n j)).der 0))).add
    (RightDer3.smul k' ((RightDer3.smul_const g2 (w2 j)).add (RightDer3.smul_const g1 (w1 j))))).congr_der ?_
  rw [z2, zero_mul, zero_div, zero_smul, zero_smul, add_zero, zero_add, zero_add, smul_smul, mul_comm τ' (S.gam (u 0))]

/-- The part of the surfaces coming from the next side, near side `i`: nothing but the error of the twist, when the distance parameters agree. -/
theorem next_part (h : Smooth ε S n c T T' w1 w2) {i : ℕ} (hi : i < n) (hτ : RightDer τ τ') (hτ0 : τ 0 = 0) (hr : ∀ᶠ t in near0, 0 ≤ τ t ∧ τ t ≤ 1)
    (he : RightDer e e') (hu : RightDer u u') (hp : 0 < u 0) (heu : e 0 = u 0) :
    S.sideF c T (nextIx n i) (τ 0) (e 0) - S.corrF n c w1 w2 i (u 0) (τ 0) = 0 ∧
    RightDer3 (fun t => S.sideF c T (nextIx n i) (τ t) (e t) - S.corrF n c w1 w2 i (u t) (τ t))
      ((S.gam' (u 0) * (e' - u')) • -(c i).der 1 + (S.gam (u 0) * τ') • (T' (nextIx n i) 0 - w2 i)) := by
  have hn := h.hn
  have hx : nextIx n i < n := nextIx_lt (by omega)
  have t0 : T (nextIx n i) 0 = -(c i).der 1 := by rw [h.start _ hx, prevIx_nextIx hi]
  constructor
  · unfold sideF corrF
    rw [hτ0, heu, gam_zero, mul_zero, zero_div, zero_smul, zero_smul, add_zero, add_zero, h.closed i hi, t0, sub_self]
  · refine ((h.side_der hx hτ he hr (by rw [heu]; exact hp.le)).sub (corr_der_first hu hτ hp hτ0)).congr_der ?_
    rw [hτ0, heu, t0]
    module

/-- The part of the surfaces coming from the previous side, near side `i`. -/
theorem prev_part (h : Smooth ε S n c T T' w1 w2) {i : ℕ} (hi : i < n) (hx : RightDer x x') (hτ : RightDer τ τ') (hxτ : x' = -τ') (hx0 : x 0 = 1) (hτ0 : τ 0 = 0)
    (hr : ∀ᶠ t in near0, 0 ≤ x t ∧ x t ≤ 1) (he : RightDer e e') (hu : RightDer u u') (hp : 0 < u 0) (heu : e 0 = u 0) :
    S.sideF c T (prevIx n i) (x 0) (e 0) - S.corrF n c w1 w2 (prevIx n i) (τ 0) (u 0) = 0 ∧
    RightDer3 (fun t => S.sideF c T (prevIx n i) (x t) (e t) - S.corrF n c w1 w2 (prevIx n i) (τ t) (u t))
      ((S.gam' (u 0) * (e' - u')) • (c i).der 0 + (S.gam (u 0) * τ') • (-T' (prevIx n i) 1 - w1 (prevIx n i))) := by
  have hn := h.hn
  have hpi : prevIx n i < n := prevIx_lt (by omega)
  have hnx : nextIx n (prevIx n i) = i := nextIx_prevIx hi
  have t0 : T (prevIx n i) 1 = (c i).der 0 := by rw [h.fin _ hpi, hnx]
  constructor
  · unfold sideF corrF
    rw [hτ0, heu, hx0, gam_zero, zero_mul, zero_div, zero_smul, zero_smul, add_zero, add_zero, t0, hnx, sub_self]
  · refine ((h.side_der hpi hx he hr (by rw [heu]; exact hp.le)).sub (corr_der_second hu hτ hp hτ0)).congr_der ?_
    rw [hx0, heu, t0, hnx, hxτ]
    module

end Smooth

end Surf

end Transfinite
