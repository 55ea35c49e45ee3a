import Verif.Lemmas.TangentBlend

/-! # Derivatives of the corner and composite interpolants at a side -/

namespace Transfinite

namespace Surf

open Spec Set Filter Topology

/-- The value of the corner corrections, with the tolerance. -/
noncomputable def corrG (ε : ℝ) (S : Surf ℝ) (n : ℕ) (c : ℕ → Curve ℝ) (w1 w2 : ℕ → P3 ℝ) (j : ℕ) (s1 s2 : ℝ) : P3 ℝ :=
  (c j).pt 1 + S.gam s1 • -(c j).der 1 + S.gam s2 • (c (nextIx n j)).der 0 +
    (if S.gam s1 + S.gam s2 < ε then 0 else S.gam s1 * S.gam s2 / (S.gam s1 + S.gam s2)) • (S.gam s1 • w2 j + S.gam s2 • w1 j)

section

variable {ε : ℝ} {S : Surf ℝ} {n i : ℕ} {c : ℕ → Curve ℝ} {T T' : ℕ → ℝ → P3 ℝ} {w1 w2 : ℕ → P3 ℝ} {s : ℝ} {f : ℝ → ℕ → P2 ℝ} {x' y' : ℕ → ℝ}

theorem corrG_eq {j : ℕ} {s1 s2 : ℝ} (h : ε ≤ S.gam s1 + S.gam s2) : corrG ε S n c w1 w2 j s1 s2 = S.corrF n c w1 w2 j s1 s2 := by
  unfold corrG corrF
  rw [if_neg (not_lt.mpr h)]

namespace Smooth

theorem corr_total (h : Smooth ε S n c T T' w1 w2) (hε : 0 < ε) {j : ℕ} (hj : j < n) {s1 s2 : ℝ} (a0 : 0 ≤ s1) (a1 : s1 ≤ 1) (b0 : 0 ≤ s2) (b1 : s2 ≤ 1) :
    S.cornerCorrection ε j s1 s2 = .ok (corrG ε S n c w1 w2 j s1 s2) := by
  by_cases hlt : S.gam s1 + S.gam s2 < ε
  · unfold cornerCorrection corrG
    rw [gamma_ok S a0, M_bind_ok, gamma_ok S b0, M_bind_ok, h.corner j hj, M_bind_ok, clamp_of_mem (gam_nonneg S a0) (gam_le_one S a0 a1),
      clamp_of_mem (gam_nonneg S b0) (gam_le_one S b0 b1)]
    unfold rationalTwist
    have := gam_nonneg S a0
    have := gam_nonneg S b0
    rw [abs_of_nonneg (by linarith), if_pos hlt, if_pos hlt, M_bind_ok, smul_zero, zero_smul]
  · push Not at hlt
    rw [h.corr_eq hj a0 a1 b0 b1 hlt (hε.trans_le hlt), corrG_eq hlt]

theorem side_bd (h : Smooth ε S n c T T' w1 w2) {j : ℕ} (hj : j < n) : ∃ C, ∀ x d : ℝ, 0 ≤ x → x ≤ 1 → 0 ≤ d → d ≤ 1 → Bd C (S.sideF c T j x d) := by
  obtain ⟨C, hC⟩ := unit_bd (h.curveDer j hj)
  obtain ⟨D, hD⟩ := unit_bd (h.crossDer j hj)
  refine ⟨C + D, fun x d x0 x1 d0 d1 => (hC x x0 x1).add ((hD x x0 x1).smul ?_)⟩
  rw [abs_of_nonneg (S.gam_nonneg d0)]
  exact S.gam_le_one d0 d1

theorem corr_bd (ε : ℝ) (S : Surf ℝ) (n : ℕ) (c : ℕ → Curve ℝ) (w1 w2 : ℕ → P3 ℝ) (j : ℕ) :
    ∃ C, ∀ a b : ℝ, 0 ≤ a → a ≤ 1 → 0 ≤ b → b ≤ 1 → Bd C (corrG ε S n c w1 w2 j a b) := by
  refine ⟨_, fun a b a0 a1 b0 b1 => (((Bd.self ((c j).pt 1)).add ((Bd.self (-(c j).der 1)).smul ?_)).add ((Bd.self ((c (nextIx n j)).der 0)).smul ?_)).add
    ((((Bd.self (w2 j)).smul ?_).add ((Bd.self (w1 j)).smul ?_)).smul ?_)⟩
  · rw [abs_of_nonneg (S.gam_nonneg a0)]; exact S.gam_le_one a0 a1
  · rw [abs_of_nonneg (S.gam_nonneg b0)]; exact S.gam_le_one b0 b1
  · rw [abs_of_nonneg (S.gam_nonneg a0)]; exact S.gam_le_one a0 a1
  · rw [abs_of_nonneg (S.gam_nonneg b0)]; exact S.gam_le_one b0 b1
  · have ga := S.gam_nonneg a0
    have gb := S.gam_nonneg b0
    have gb1 := S.gam_le_one b0 b1
    split_ifs with hlt
    · norm_num
    · rw [abs_of_nonneg (by positivity)]
      rcases eq_or_lt_of_le ga with e | p
      · rw [← e]; norm_num
      · rw [div_le_one (by linarith)]
        nlinarith

end Smooth

/-! ### Corner interpolants -/

/-- The value of the corner interpolants. -/
noncomputable def cornerF (ε : ℝ) (S : Surf ℝ) (n : ℕ) (c : ℕ → Curve ℝ) (T : ℕ → ℝ → P3 ℝ) (w1 w2 : ℕ → P3 ℝ) (g : ℕ → P2 ℝ) (j : ℕ) : P3 ℝ :=
  S.sideF c T j (g j).x (g (nextIx n j)).x + S.sideF c T (nextIx n j) (g (nextIx n j)).x (1 - (g j).x) - corrG ε S n c w1 w2 j (1 - (g j).x) (g (nextIx n j)).x

theorem cornerF_eq (h : Smooth ε S n c T T' w1 w2) (hε : 0 < ε) {g : ℕ → P2 ℝ} (hr : ∀ j < n, (0 ≤ (g j).x ∧ (g j).x ≤ 1) ∧ 0 ≤ (g j).y) {j : ℕ} (hj : j < n) :
    S.cornerInterpolant ε j (tab n g) = .ok (cornerF ε S n c T w1 w2 g j) := by
  have hn := h.hn
  have hx : nextIx n j < n := nextIx_lt (by omega)
  obtain ⟨⟨a0, a1⟩, _⟩ := hr j hj
  obtain ⟨⟨c0, c1⟩, _⟩ := hr _ hx
  unfold cornerInterpolant cornerF
  rw [h.len, vget_tab _ hj, M_bind_ok, vget_tab _ hx, M_bind_ok, h.side_eq hj a0 a1 c0, M_bind_ok, h.side_eq hx c0 c1 (by linarith), M_bind_ok,
    h.corr_total hε hj (by linarith) (by linarith) c0 c1, M_bind_ok]

/-- The data of the derivative of a blend: two curves from the same point, the rest is bounded. -/
structure CurvePath (n i : ℕ) (Q : ℝ → ℕ → P3 ℝ) (p q' r' : P3 ℝ) : Prop where
  self0 : Q 0 i = p
  prev0 : Q 0 (prevIx n i) = p
  self : RightDer3 (fun t => Q t i) q'
  prev : RightDer3 (fun t => Q t (prevIx n i)) r'
  bd : ∀ j < n, ∃ C, ∀ᶠ t in near0, Bd C (Q t j)

theorem side_start (hf : SidePath ε n i s f x' y') {d : ℝ} (hd : d = 0) : S.sideF c T i (f 0 i).x d = (c i).pt s := by
  unfold sideF
  rw [hd, hf.selfX, gam_zero, zero_smul, add_zero]

theorem cornerF_path (h : Smooth ε S n c T T' w1 w2) (hε : 0 < ε) (hi : i < n) (s0 : 3 * ε < s) (s1 : s < 1 - 3 * ε) (hf : SidePath ε n i s f x' y') :
    CurvePath n i (fun t => cornerF ε S n c T w1 w2 (f t)) ((c i).pt s)
      (x' i • (c i).der s + x' (nextIx n i) • T i s + (S.gam (1 - s) * x' (nextIx n i)) • (T' (nextIx n i) 0 - w2 i))
      (x' i • (c i).der s + -x' (prevIx n i) • T i s + (S.gam s * -x' (prevIx n i)) • (-T' (prevIx n i) 1 - w1 (prevIx n i))) := by
  have hn := h.hn
  have hp : prevIx n i < n := prevIx_lt (by omega)
  have hx : nextIx n i < n := nextIx_lt (by omega)
  have dxi := hf.dx i (Or.inl rfl)
  have dxn := hf.dx _ (Or.inr (Or.inl rfl))
  have dxp := hf.dx _ (Or.inr (Or.inr rfl))
  have b1 : ∀ᶠ t in near0, (f t i).x < 1 - 3 * ε := dxi.lt (by rw [hf.selfX]; exact s1)
  have b2 : ∀ᶠ t in near0, 3 * ε < (f t i).x := dxi.gt (by rw [hf.selfX]; exact s0)
  have e1 : ∀ᶠ t in near0, cornerF ε S n c T w1 w2 (f t) i = S.sideF c T i (f t i).x (f t (nextIx n i)).x +
      (S.sideF c T (nextIx n i) (f t (nextIx n i)).x (1 - (f t i).x) - S.corrF n c w1 w2 i (1 - (f t i).x) (f t (nextIx n i)).x) := by
    filter_upwards [hf.range, b1, b2] with t hr q1 q2
    obtain ⟨⟨c0, c1⟩, _⟩ := hr _ hx
    unfold cornerF
    rw [corrG_eq (gam_sum (S := S) hε (by linarith) (by linarith) c0), add_sub_assoc]
  have e2 : ∀ᶠ t in near0, cornerF ε S n c T w1 w2 (f t) (prevIx n i) = S.sideF c T i (f t i).x (1 - (f t (prevIx n i)).x) +
      (S.sideF c T (prevIx n i) (f t (prevIx n i)).x (f t i).x - S.corrF n c w1 w2 (prevIx n i) (1 - (f t (prevIx n i)).x) (f t i).x) := by
    filter_upwards [hf.range, b1, b2] with t hr q1 q2
    obtain ⟨⟨a0, a1⟩, _⟩ := hr i hi
    obtain ⟨⟨c0, c1⟩, _⟩ := hr _ hp
    have k := gam_sum (S := S) (a := (f t i).x) (b := 1 - (f t (prevIx n i)).x) hε (by linarith) (by linarith) (by linarith)
    unfold cornerF
    rw [nextIx_prevIx hi, corrG_eq (by linarith)]
    abel
  have u1 := (RightDer.const 1).sub dxi
  have u2 := (RightDer.const 1).sub dxp
  obtain ⟨z1, n1⟩ := h.next_part hi dxn hf.nextX (hf.rangeX hx) u1 u1 (by rw [hf.selfX]; linarith) rfl
  obtain ⟨z2, n2⟩ := h.prev_part hi dxp u2 (by ring) hf.prevX (by rw [hf.prevX]; ring) (hf.rangeX hp) dxi dxi (by rw [hf.selfX]; linarith) rfl
  have g1 := h.side_der hi dxi dxn (hf.rangeX hi) hf.nextX.ge
  have g2 := h.side_der hi dxi u2 (hf.rangeX hi) (by rw [hf.prevX]; norm_num)
  refine ⟨?_, ?_, ((g1.add n1).congr e1).congr_der ?_, ((g2.add n2).congr e2).congr_der ?_, ?_⟩
  · rw [e1.self_of_nhdsWithin (by simp), z1, add_zero]
    exact side_start hf hf.nextX
  · rw [e2.self_of_nhdsWithin (by simp), z2, add_zero]
    exact side_start hf (by rw [hf.prevX, sub_self])
  · rw [hf.selfX, hf.nextX, gam_zero, gam'_zero]
    module
  · rw [hf.selfX, hf.prevX, sub_self, gam_zero, gam'_zero]
    module
  · intro j hj
    have hjx : nextIx n j < n := nextIx_lt (by omega)
    obtain ⟨C1, h1⟩ := h.side_bd hj
    obtain ⟨C2, h2⟩ := h.side_bd hjx
    obtain ⟨C3, h3⟩ := Smooth.corr_bd ε S n c w1 w2 j
    refine ⟨C1 + C2 + C3, hf.range.mono fun t hr => ?_⟩
    obtain ⟨⟨a0, a1⟩, _⟩ := hr j hj
    obtain ⟨⟨c0, c1⟩, _⟩ := hr _ hjx
    exact ((h1 _ _ a0 a1 c0 c1).add (h2 _ _ c0 c1 (by linarith) (by linarith))).sub (h3 _ _ (by linarith) (by linarith) c0 c1)

/-! ### Coons terms -/

/-- The terms of the generalized Coons surfaces that belong to a corner. -/
noncomputable def coonsF (ε : ℝ) (S : Surf ℝ) (n : ℕ) (c : ℕ → Curve ℝ) (T : ℕ → ℝ → P3 ℝ) (w1 w2 : ℕ → P3 ℝ) (g : ℕ → P2 ℝ) (j : ℕ) : P3 ℝ :=
  S.sideF c T j (g j).x (g j).y + S.sideF c T (nextIx n j) (g (nextIx n j)).x (g (nextIx n j)).y - corrG ε S n c w1 w2 j (1 - (g j).x) (g (nextIx n j)).x

theorem coonsF_eq (h : Smooth ε S n c T T' w1 w2) (hε : 0 < ε) {g : ℕ → P2 ℝ} (hr : ∀ j < n, (0 ≤ (g j).x ∧ (g j).x ≤ 1) ∧ 0 ≤ (g j).y) (b : ℕ → ℝ) :
    S.coonsSum ε (tab n g) (tab n b) = .ok (∑ j ∈ Finset.range n, b j • coonsF ε S n c T w1 w2 g j) := by
  have hn := h.hn
  unfold coonsSum
  rw [h.len, forLoop_sum n _ (fun j => (b j + b (prevIx n j)) • S.sideF c T j (g j).x (g j).y - b j • corrG ε S n c w1 w2 j (1 - (g j).x) (g (nextIx n j)).x), zero_add]
  · have sh := sum_shift (n := n) (by omega) (fun a j => b a • S.sideF c T j (g j).x (g j).y)
    unfold coonsF
    simp only [add_smul, smul_add, smul_sub, Finset.sum_add_distrib, Finset.sum_sub_distrib]
    rw [sh]
  · intro j p hj
    have hx : nextIx n j < n := nextIx_lt (by omega)
    obtain ⟨⟨a0, a1⟩, a2⟩ := hr j hj
    obtain ⟨⟨c0, c1⟩, _⟩ := hr _ hx
    rw [vget_tab _ hj, M_bind_ok, vget_tab _ hx, M_bind_ok, vget_tab _ hj, M_bind_ok, vget_tab _ (prevIx_lt (by omega)), M_bind_ok, h.side_eq hj a0 a1 a2, M_bind_ok,
      h.corr_total hε hj (by linarith) (by linarith) c0 c1, M_bind_ok, add_sub_assoc]

theorem coonsF_path (h : Smooth ε S n c T T' w1 w2) (hε : 0 < ε) (hi : i < n) (s0 : 3 * ε < s) (s1 : s < 1 - 3 * ε) (hf : SidePath ε n i s f x' y')
    (hy : ∀ᶠ t in near0, ∀ j < n, (f t j).y ≤ 1) (hyn : y' (nextIx n i) = -x' i) (hyp : y' (prevIx n i) = x' i) :
    CurvePath n i (fun t => coonsF ε S n c T w1 w2 (f t)) ((c i).pt s)
      (x' i • (c i).der s + y' i • T i s + (S.gam (1 - s) * x' (nextIx n i)) • (T' (nextIx n i) 0 - w2 i))
      (x' i • (c i).der s + y' i • T i s + (S.gam s * -x' (prevIx n i)) • (-T' (prevIx n i) 1 - w1 (prevIx n i))) := by
  have hn := h.hn
  have hp : prevIx n i < n := prevIx_lt (by omega)
  have hx : nextIx n i < n := nextIx_lt (by omega)
  have dxi := hf.dx i (Or.inl rfl)
  have dxn := hf.dx _ (Or.inr (Or.inl rfl))
  have dxp := hf.dx _ (Or.inr (Or.inr rfl))
  have dyi := hf.dy i (Or.inl rfl)
  have dyn := hf.dy _ (Or.inr (Or.inl rfl))
  have dyp := hf.dy _ (Or.inr (Or.inr rfl))
  have b1 : ∀ᶠ t in near0, (f t i).x < 1 - 3 * ε := dxi.lt (by rw [hf.selfX]; exact s1)
  have b2 : ∀ᶠ t in near0, 3 * ε < (f t i).x := dxi.gt (by rw [hf.selfX]; exact s0)
  have e1 : ∀ᶠ t in near0, coonsF ε S n c T w1 w2 (f t) i = S.sideF c T i (f t i).x (f t i).y +
      (S.sideF c T (nextIx n i) (f t (nextIx n i)).x (f t (nextIx n i)).y - S.corrF n c w1 w2 i (1 - (f t i).x) (f t (nextIx n i)).x) := by
    filter_upwards [hf.range, b1, b2] with t hr q1 q2
    obtain ⟨⟨c0, c1⟩, _⟩ := hr _ hx
    unfold coonsF
    rw [corrG_eq (gam_sum (S := S) hε (by linarith) (by linarith) c0), add_sub_assoc]
  have e2 : ∀ᶠ t in near0, coonsF ε S n c T w1 w2 (f t) (prevIx n i) = S.sideF c T i (f t i).x (f t i).y +
      (S.sideF c T (prevIx n i) (f t (prevIx n i)).x (f t (prevIx n i)).y - S.corrF n c w1 w2 (prevIx n i) (1 - (f t (prevIx n i)).x) (f t i).x) := by
    filter_upwards [hf.range, b1, b2] with t hr q1 q2
    obtain ⟨⟨a0, a1⟩, _⟩ := hr i hi
    obtain ⟨⟨c0, c1⟩, _⟩ := hr _ hp
    have k := gam_sum (S := S) (a := (f t i).x) (b := 1 - (f t (prevIx n i)).x) hε (by linarith) (by linarith) (by linarith)
    unfold coonsF
    rw [nextIx_prevIx hi, corrG_eq (by linarith)]
    abel
  have u1 := (RightDer.const 1).sub dxi
  have u2 := (RightDer.const 1).sub dxp
  obtain ⟨z1, n1⟩ := h.next_part hi dxn hf.nextX (hf.rangeX hx) dyn u1 (by rw [hf.selfX]; linarith) (by rw [hf.nextY, hf.selfX])
  obtain ⟨z2, n2⟩ := h.prev_part hi dxp u2 (by ring) hf.prevX (by rw [hf.prevX]; ring) (hf.rangeX hp) dyp dxi (by rw [hf.selfX]; linarith) (by rw [hf.prevY, hf.selfX])
  have g1 := h.side_der hi dxi dyi (hf.rangeX hi) hf.selfY.ge
  refine ⟨?_, ?_, ((g1.add n1).congr e1).congr_der ?_, ((g1.add n2).congr e2).congr_der ?_, ?_⟩
  · rw [e1.self_of_nhdsWithin (by simp), z1, add_zero]
    exact side_start hf hf.selfY
  · rw [e2.self_of_nhdsWithin (by simp), z2, add_zero]
    exact side_start hf hf.selfY
  · rw [hf.selfX, hf.selfY, gam_zero, gam'_zero, hyn]
    module
  · rw [hf.selfX, hf.selfY, gam_zero, gam'_zero, hyp]
    module
  · intro j hj
    have hjx : nextIx n j < n := nextIx_lt (by omega)
    obtain ⟨C1, h1⟩ := h.side_bd hj
    obtain ⟨C2, h2⟩ := h.side_bd hjx
    obtain ⟨C3, h3⟩ := Smooth.corr_bd ε S n c w1 w2 j
    refine ⟨C1 + C2 + C3, (hf.range.and hy).mono fun t hr => ?_⟩
    obtain ⟨⟨a0, a1⟩, a2⟩ := hr.1 j hj
    obtain ⟨⟨c0, c1⟩, c2⟩ := hr.1 _ hjx
    exact ((h1 _ _ a0 a1 a2 (hr.2 j hj)).add (h2 _ _ c0 c1 c2 (hr.2 _ hjx))).sub (h3 _ _ (by linarith) (by linarith) c0 c1)

end

end Surf

end Transfinite
