import Verif.Lemmas.TangentComposite

/-! # Derivatives of the surfaces at a side -/

namespace Transfinite

namespace Surf

open Spec Set Filter Topology

section

variable {ε : ℝ} {S : Surf ℝ} {n i : ℕ} {c : ℕ → Curve ℝ} {T T' : ℕ → ℝ → P3 ℝ} {w1 w2 : ℕ → P3 ℝ} {s : ℝ} {f : ℝ → ℕ → P2 ℝ} {x' y' : ℕ → ℝ}

/-- The value of the deficient blends. -/
noncomputable def defF (p q : P2 ℝ) : ℝ := (q.y * hermite 0 (1 - p.x) * hermite 0 p.y + p.y * hermite 0 q.x * hermite 0 q.y) / (p.y + q.y)

theorem defF_eq (hε : 0 < ε) (hn : 3 ≤ n) (hi : i < n) {g : ℕ → P2 ℝ} (hr : ∀ j < n, (0 ≤ (g j).x ∧ (g j).x ≤ 1) ∧ 0 ≤ (g j).y) (hf : ∀ j < n, j ≠ i → ε ≤ (g j).y) :
    blendCornerDeficient ε n (tab n g) = .ok (tab n fun j => defF (g j) (g (nextIx n j))) := by
  unfold blendCornerDeficient
  refine forLoop_push n _ (fun j => defF (g j) (g (nextIx n j))) [] fun j l hj => ?_
  have hx : nextIx n j < n := nextIx_lt (by omega)
  have hne : nextIx n j ≠ j := Param.next_ne (by omega) hj
  have k : (ε ≤ (g j).y ∨ ε ≤ (g (nextIx n j)).y) := by
    by_cases e : j = i
    · exact Or.inr (hf _ hx (by rw [← e]; exact hne))
    · exact Or.inl (hf j hj e)
  have h1 := (hr j hj).2
  have h2 := (hr _ hx).2
  rw [vget_tab _ hj, M_bind_ok, vget_tab _ hx, M_bind_ok]
  unfold deficientBlend
  rw [if_neg (by rintro ⟨a, b⟩; rcases k with k | k <;> linarith), fdiv_of_ne (by rcases k with k | k <;> linarith), M_bind_ok]
  rfl

/-- The deficient corner blends near a side. -/
theorem deficient_path (hf : SidePath ε n i s f x' y') (hε : 0 < ε) (hn : 3 ≤ n) (hi : i < n) (s0 : 0 < s) (s1 : s < 1)
    (hy : ∀ᶠ t in near0, ∀ j < n, (f t j).y ≤ 1)
    (hfar : ∀ j < n, j ≠ i → j ≠ nextIx n i → j ≠ prevIx n i → Small fun t => hermite 0 (f t j).y) :
    BlendPath n i (fun t j => defF (f t j) (f t (nextIx n j))) (hermite 0 (1 - s)) (6 * s * (1 - s) * x' i) := by
  have hp : prevIx n i < n := prevIx_lt (by omega)
  have hx : nextIx n i < n := nextIx_lt (by omega)
  have dxi := hf.dx i (Or.inl rfl)
  have dxn := hf.dx _ (Or.inr (Or.inl rfl))
  have dxp := hf.dx _ (Or.inr (Or.inr rfl))
  have di := hf.dy i (Or.inl rfl)
  have dn := hf.dy _ (Or.inr (Or.inl rfl))
  have dp := hf.dy _ (Or.inr (Or.inr rfl))
  have u1 := (RightDer.const 1).sub dxi
  have u2 := (RightDer.const 1).sub dxp
  have hs1 : (0 : ℝ) < 1 - s := by linarith
  obtain ⟨H0, H1⟩ := hermite_ends (K := ℝ)
  refine ⟨?_, ?_, ?_, ?_, ?_⟩
  · have dN := ((dn.mul (u1.comp (herm_der _))).mul (di.comp (herm_der _))).add ((di.mul (dxn.comp (herm_der _))).mul (dn.comp (herm_der _)))
    refine (dN.div (di.add dn) (by rw [hf.selfY, hf.nextY]; linarith)).congr_der ?_
    rw [hf.selfX, hf.selfY, hf.nextX, hf.nextY, H0]
    field_simp
    ring
  · have dN := ((di.mul (u2.comp (herm_der _))).mul (dp.comp (herm_der _))).add ((dp.mul (dxi.comp (herm_der _))).mul (di.comp (herm_der _)))
    have k := dN.div (dp.add di) (by rw [hf.selfY, hf.prevY]; linarith)
    refine (k.congr (Eventually.of_forall fun t => ?_)).congr_der ?_
    · unfold defF
      rw [nextIx_prevIx hi]
    · rw [hf.selfX, hf.selfY, hf.prevX, hf.prevY, sub_self, H0]
      field_simp
      ring
  · unfold defF
    rw [hf.self, hf.next]
    dsimp only
    rw [H0]
    field_simp
    ring
  · unfold defF
    rw [nextIx_prevIx hi, hf.self, hf.prev]
    dsimp only
    rw [sub_self, H0]
    have := herm_sum s
    rw [show hermite 0 (1 - s) = 1 - hermite 0 s by linarith]
    field_simp
    ring
  · intro j hj ji jp
    have hjx : nextIx n j < n := nextIx_lt (by omega)
    have jxi : nextIx n j ≠ i := fun e => jp (by rw [← e, prevIx_nextIx hj])
    have jxx : nextIx n j ≠ nextIx n i := fun e => ji (by rw [← prevIx_nextIx hj, e, prevIx_nextIx hi])
    have ry : ∀ k < n, ∀ᶠ t in near0, 0 ≤ (f t k).y ∧ (f t k).y ≤ 1 := fun k hk => (hf.range.and hy).mono fun t q => ⟨(q.1 k hk).2, q.2 k hk⟩
    have A : Small fun t => hermite 0 (1 - (f t j).x) * hermite 0 (f t j).y := by
      by_cases e : j = nextIx n i
      · rw [e]
        refine (Small.herm ((RightDer.const 1).sub dxn) (by rw [hf.nextX, sub_zero]) ((hf.rangeX hx).mono fun t q => ⟨by linarith, by linarith⟩)).mul (C := 1) ?_
        exact (ry _ hx).mono fun t q => herm_abs q.1 q.2
      · refine ((hfar j hj ji e jp).mul (C := 1) (v := fun t => hermite 0 (1 - (f t j).x)) ?_).congr (Eventually.of_forall fun t => mul_comm _ _)
        exact (hf.rangeX hj).mono fun t q => herm_abs (by linarith) (by linarith)
    have B : Small fun t => hermite 0 (f t (nextIx n j)).x * hermite 0 (f t (nextIx n j)).y := by
      by_cases e : nextIx n j = prevIx n i
      · rw [e]
        refine (Small.herm dxp hf.prevX (hf.rangeX hp)).mul (C := 1) ?_
        exact (ry _ hp).mono fun t q => herm_abs q.1 q.2
      · refine ((hfar _ hjx jxi jxx e).mul (C := 1) (v := fun t => hermite 0 (f t (nextIx n j)).x) ?_).congr
          (Eventually.of_forall fun t => mul_comm _ _)
        exact (hf.rangeX hjx).mono fun t q => herm_abs q.1 q.2
    have rat : ∀ a b : ℝ, 0 ≤ a → 0 ≤ b → |a / (a + b)| ≤ 1 := by
      intro a b ha hb
      rw [abs_of_nonneg (by positivity)]
      exact div_le_one_of_le₀ (by linarith) (by linarith)
    refine ((A.mul (C := 1) (v := fun t => (f t (nextIx n j)).y / ((f t (nextIx n j)).y + (f t j).y)) ?_).add
      (B.mul (C := 1) (v := fun t => (f t j).y / ((f t j).y + (f t (nextIx n j)).y)) ?_)).congr (Eventually.of_forall fun t => ?_)
    · exact hf.range.mono fun t q => rat _ _ (q _ hjx).2 (q j hj).2
    · exact hf.range.mono fun t q => rat _ _ (q j hj).2 (q _ hjx).2
    · unfold defF
      rw [add_comm (f t (nextIx n j)).y (f t j).y]
      ring

/-! ### The surfaces -/

/-- Corner-based surfaces. -/
theorem cornerBased_der (h : Smooth ε S n c T T' w1 w2) (hε : 0 < ε) (hi : i < n) (s0 : 3 * ε < s) (s1 : s < 1 - 3 * ε) (hf : SidePath ε n i s f x' y') :
    ∃ X : ℝ → P3 ℝ, (∀ᶠ t in near0, S.cornerBased ε (tab n (f t)) = .ok (X t)) ∧ X 0 = (c i).pt s ∧
      RightDer3 X (x' i • (c i).der s + (endWeight s * x' (nextIx n i) - (1 - endWeight s) * x' (prevIx n i)) • T i s +
        twistError S n T' w1 w2 i s (endWeight s * x' (nextIx n i)) (-((1 - endWeight s) * x' (prevIx n i)))) := by
  have hn := h.hn
  obtain ⟨B, β, hB, hb⟩ := blend_path hf hε hn hi (by linarith) (by linarith)
  have q := cornerF_path h hε hi s0 s1 hf
  obtain ⟨v, d⟩ := hb.der hn hi q.self0 q.prev0 q.self q.prev q.bd
  refine ⟨_, ?_, v, d.congr_der ?_⟩
  · filter_upwards [hB, hf.range] with t hBt hr
    unfold cornerBased
    rw [h.len, hBt, M_bind_ok, forLoop_sum n _ (fun j => B t j • cornerF ε S n c T w1 w2 (f t) j), zero_add]
    intro j p hj
    rw [cornerF_eq h hε hr hj, M_bind_ok, vget_tab _ hj, M_bind_ok]
  · unfold twistError
    module

/-- Generalized Coons surfaces. -/
theorem generalizedCoons_der (h : Smooth ε S n c T T' w1 w2) (hε : 0 < ε) (hi : i < n) (s0 : 3 * ε < s) (s1 : s < 1 - 3 * ε) (hf : SidePath ε n i s f x' y')
    (hy : ∀ᶠ t in near0, ∀ j < n, (f t j).y ≤ 1) (hyn : y' (nextIx n i) = -x' i) (hyp : y' (prevIx n i) = x' i) :
    ∃ X : ℝ → P3 ℝ, (∀ᶠ t in near0, S.generalizedCoons ε (tab n (f t)) = .ok (X t)) ∧ X 0 = (c i).pt s ∧
      RightDer3 X (x' i • (c i).der s + y' i • T i s + twistError S n T' w1 w2 i s (endWeight s * x' (nextIx n i)) (-((1 - endWeight s) * x' (prevIx n i)))) := by
  have hn := h.hn
  obtain ⟨B, β, hB, hb⟩ := blend_path hf hε hn hi (by linarith) (by linarith)
  have q := coonsF_path h hε hi s0 s1 hf hy hyn hyp
  obtain ⟨v, d⟩ := hb.der hn hi q.self0 q.prev0 q.self q.prev q.bd
  refine ⟨_, ?_, v, d.congr_der ?_⟩
  · filter_upwards [hB, hf.range] with t hBt hr
    unfold generalizedCoons
    rw [h.len, hBt, M_bind_ok, coonsF_eq h hε hr]
  · unfold twistError
    module

/-- Composite ribbon surfaces. -/
theorem composite_der (h : Smooth ε S n c T T' w1 w2) (hε : 0 < ε) (hi : i < n) (s0 : 3 * ε < s) (s1 : s < 1 - 3 * ε) (hf : SidePath ε n i s f x' y')
    (hy : ∀ᶠ t in near0, ∀ j < n, (f t j).y ≤ 1) :
    ∃ X : ℝ → P3 ℝ, (∀ᶠ t in near0, S.composite ε (tab n (f t)) = .ok (X t)) ∧ X 0 = (c i).pt s ∧
      RightDer3 X (((x' i - endWeight s * y' (nextIx n i) + (1 - endWeight s) * y' (prevIx n i)) / 2) • (c i).der s +
        ((y' i + endWeight s * x' (nextIx n i) - (1 - endWeight s) * x' (prevIx n i)) / 2) • T i s +
        twistError S n T' w1 w2 i s (hermite 0 (1 - s) * (y' i + endWeight s * x' (nextIx n i)) / 2) (hermite 0 s * (y' i - (1 - endWeight s) * x' (prevIx n i)) / 2)) := by
  have hn := h.hn
  obtain ⟨B, β, hB, hb⟩ := blend_path hf hε hn hi (by linarith) (by linarith)
  have q := composite_path h hε hi s0 s1 hf hy
  obtain ⟨v, d⟩ := hb.der hn hi q.self0 q.prev0 q.self q.prev q.bd
  refine ⟨_, ?_, v, d.congr_der ?_⟩
  · filter_upwards [hB, hf.range, hy] with t hBt hr hyt
    unfold composite
    rw [h.len, hBt, M_bind_ok, forLoop_sum n _ (fun j => (B t j + B t (prevIx n j)) • compF ε S n c T w1 w2 j (f t j)), M_bind_ok, zero_add]
    · congr 1
      have sh := sum_shift (n := n) (by omega) (fun a j => B t a • compF ε S n c T w1 w2 j (f t j))
      simp only [add_smul, smul_add, Finset.sum_add_distrib, Finset.smul_sum] at sh ⊢
      rw [← Finset.smul_sum, ← Finset.smul_sum, sh, Finset.smul_sum, Finset.smul_sum]
      congr 1 <;> exact Finset.sum_congr rfl fun j _ => smul_comm _ _ _
    · intro j p hj
      obtain ⟨⟨a0, a1⟩, a2⟩ := hr j hj
      rw [vget_tab _ hj, M_bind_ok, compF_eq h hε hj a0 a1 a2 (hyt j hj), M_bind_ok, vget_tab _ hj, M_bind_ok, vget_tab _ (prevIx_lt (by omega)), M_bind_ok]
  · have e : hermite 0 (1 - s) = 1 - hermite 0 s := by linarith [herm_sum s]
    unfold twistError
    rw [e]
    module

/-- Midpoint surfaces. -/
theorem midpoint_der (h : Smooth ε S n c T T' w1 w2) (hε : 0 < ε) (hi : i < n) (s0 : 3 * ε < s) (s1 : s < 1 - 3 * ε) (hf : SidePath ε n i s f x' y')
    (hy : ∀ᶠ t in near0, ∀ j < n, (f t j).y ≤ 1)
    (hfar : ∀ j < n, j ≠ i → j ≠ nextIx n i → j ≠ prevIx n i → Small fun t => hermite 0 (f t j).y) (central : P3 ℝ) :
    ∃ X : ℝ → P3 ℝ, (∀ᶠ t in near0, S.midpoint ε central (tab n (f t)) = .ok (X t)) ∧ X 0 = (c i).pt s ∧
      RightDer3 X (x' i • (c i).der s + (hermite 0 (1 - s) * x' (nextIx n i) - hermite 0 s * x' (prevIx n i)) • T i s +
        twistError S n T' w1 w2 i s (hermite 0 (1 - s) * x' (nextIx n i)) (-(hermite 0 s * x' (prevIx n i)))) := by
  have hn := h.hn
  have hb := deficient_path hf hε hn hi (by linarith) (by linarith) hy hfar
  have q := cornerF_path h hε hi s0 s1 hf
  obtain ⟨v, d⟩ := hb.der hn hi q.self0 q.prev0 q.self q.prev q.bd
  obtain ⟨v1, d1⟩ := hb.total hn hi
  have dm := RightDer3.smul_const ((RightDer.const 1).sub d1) central
  refine ⟨_, ?_, ?_, (d.add dm).congr_der ?_⟩
  · filter_upwards [hf.far, hf.range] with t hft hr
    unfold midpoint
    rw [h.len, defF_eq hε hn hi hr hft, M_bind_ok, forLoop_sum n _ (fun j => defF (f t j) (f t (nextIx n j)) • cornerF ε S n c T w1 w2 (f t) j), zero_add, M_bind_ok, sum_tab]
    intro j p hj
    rw [cornerF_eq h hε hr hj, M_bind_ok, vget_tab _ hj, M_bind_ok]
  · rw [v, v1, sub_self, zero_smul, add_zero]
  · have e : hermite 0 (1 - s) = 1 - hermite 0 s := by linarith [herm_sum s]
    unfold twistError
    rw [e]
    module

/-- Midpoint Coons surfaces. -/
theorem midpointCoons_der (h : Smooth ε S n c T T' w1 w2) (hε : 0 < ε) (hi : i < n) (s0 : 3 * ε < s) (s1 : s < 1 - 3 * ε) (hf : SidePath ε n i s f x' y')
    (hy : ∀ᶠ t in near0, ∀ j < n, (f t j).y ≤ 1) (hyn : y' (nextIx n i) = -x' i) (hyp : y' (prevIx n i) = x' i)
    (hfar : ∀ j < n, j ≠ i → j ≠ nextIx n i → j ≠ prevIx n i → Small fun t => hermite 0 (f t j).y) (central : P3 ℝ) :
    ∃ X : ℝ → P3 ℝ, (∀ᶠ t in near0, S.midpointCoons ε central (tab n (f t)) = .ok (X t)) ∧ X 0 = (c i).pt s ∧
      RightDer3 X (x' i • (c i).der s + y' i • T i s + twistError S n T' w1 w2 i s (hermite 0 (1 - s) * x' (nextIx n i)) (-(hermite 0 s * x' (prevIx n i)))) := by
  have hn := h.hn
  have hb := deficient_path hf hε hn hi (by linarith) (by linarith) hy hfar
  have q := coonsF_path h hε hi s0 s1 hf hy hyn hyp
  obtain ⟨v, d⟩ := hb.der hn hi q.self0 q.prev0 q.self q.prev q.bd
  obtain ⟨v1, d1⟩ := hb.total hn hi
  have dm := RightDer3.smul_const ((RightDer.const 1).sub d1) central
  refine ⟨_, ?_, ?_, (d.add dm).congr_der ?_⟩
  · filter_upwards [hf.far, hf.range] with t hft hr
    unfold midpointCoons
    rw [h.len, defF_eq hε hn hi hr hft, M_bind_ok, coonsF_eq h hε hr, M_bind_ok, sum_tab]
  · rw [v, v1, sub_self, zero_smul, add_zero]
  · have e : hermite 0 (1 - s) = 1 - hermite 0 s := by linarith [herm_sum s]
    unfold twistError
    rw [e]
    module

end

end Surf

end Transfinite
