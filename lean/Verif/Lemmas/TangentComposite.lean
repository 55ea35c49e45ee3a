import Verif.Lemmas.TangentCorner

/-! # Derivatives of the composite ribbons at a side -/

namespace Transfinite

namespace Surf

open Spec Set Filter Topology

theorem herm_der (x : ℝ) : HasDerivAt (fun x : ℝ => hermite 0 x) (-6 * x * (1 - x)) x := by
  have e : (fun x : ℝ => hermite 0 x) = fun x => 1 - x * x * (3 - 2 * x) := by
    funext x
    unfold hermite
    rw [if_pos rfl]
    ring
  rw [e]
  have h := hasDerivAt_id x
  refine ((h.mul h).mul ((h.const_mul 2).const_sub 3)).const_sub 1 |>.congr_deriv ?_
  simp only [id, Pi.mul_apply]
  ring

theorem herm_one_sub (x : ℝ) : 1 - hermite 0 x = x ^ 2 * (3 - 2 * x) := by
  unfold hermite
  rw [if_pos rfl]
  ring

theorem herm_flip (x : ℝ) : hermite 0 x = (1 - x) ^ 2 * (3 - 2 * (1 - x)) := by
  unfold hermite
  rw [if_pos rfl]
  ring

theorem herm_sum (x : ℝ) : hermite 0 x + hermite 0 (1 - x) = 1 := by
  unfold hermite
  rw [if_pos rfl, if_pos rfl]
  ring

theorem herm_range {x : ℝ} (h0 : 0 ≤ x) (h1 : x ≤ 1) : 0 ≤ hermite 0 x ∧ hermite 0 x ≤ 1 := by
  have := herm_one_sub x
  have := herm_flip x
  have k1 : 0 ≤ x ^ 2 * (3 - 2 * x) := mul_nonneg (sq_nonneg _) (by linarith)
  have k2 : 0 ≤ (1 - x) ^ 2 * (3 - 2 * (1 - x)) := mul_nonneg (sq_nonneg _) (by linarith)
  constructor <;> linarith

theorem herm_abs {x : ℝ} (h0 : 0 ≤ x) (h1 : x ≤ 1) : |hermite 0 x| ≤ 1 := abs_le.mpr ⟨by linarith [(herm_range h0 h1).1], (herm_range h0 h1).2⟩

/-- `1 - H(x)` is negligible where `x` vanishes. -/
theorem Small.one_sub_herm {x : ℝ → ℝ} {x' : ℝ} (h : RightDer x x') (h0 : x 0 = 0) (hr : ∀ᶠ t in near0, 0 ≤ x t ∧ x t ≤ 1) : Small fun t => 1 - hermite 0 (x t) :=
  ((Small.sq h h0).mul (v := fun t => 3 - 2 * x t) (C := 3) (hr.mono fun t q => abs_le.mpr ⟨by linarith, by linarith⟩)).congr
    (Eventually.of_forall fun t => herm_one_sub _)

/-- `H(x)` is negligible where `x` is 1. -/
theorem Small.herm {x : ℝ → ℝ} {x' : ℝ} (h : RightDer x x') (h0 : x 0 = 1) (hr : ∀ᶠ t in near0, 0 ≤ x t ∧ x t ≤ 1) : Small fun t => hermite 0 (x t) :=
  ((Small.sq ((RightDer.const 1).sub h) (by rw [h0, sub_self])).mul (v := fun t => 3 - 2 * (1 - x t)) (C := 3)
    (hr.mono fun t q => abs_le.mpr ⟨by linarith, by linarith⟩)).congr (Eventually.of_forall fun t => herm_flip _)

section

variable {ε : ℝ} {S : Surf ℝ} {n i : ℕ} {c : ℕ → Curve ℝ} {T T' : ℕ → ℝ → P3 ℝ} {w1 w2 : ℕ → P3 ℝ} {s : ℝ} {f : ℝ → ℕ → P2 ℝ} {x' y' : ℕ → ℝ}

/-- The value of the composite ribbons. -/
noncomputable def compF (ε : ℝ) (S : Surf ℝ) (n : ℕ) (c : ℕ → Curve ℝ) (T : ℕ → ℝ → P3 ℝ) (w1 w2 : ℕ → P3 ℝ) (j : ℕ) (sd : P2 ℝ) : P3 ℝ :=
  hermite 0 sd.y • S.sideF c T j sd.x sd.y + hermite 0 sd.x • S.sideF c T (prevIx n j) (1 - sd.y) sd.x +
    (1 - hermite 0 sd.x) • S.sideF c T (nextIx n j) sd.y (1 - sd.x) - (hermite 0 sd.x * hermite 0 sd.y) • corrG ε S n c w1 w2 (prevIx n j) sd.y sd.x -
    ((1 - hermite 0 sd.x) * hermite 0 sd.y) • corrG ε S n c w1 w2 j (1 - sd.x) sd.y

theorem compF_eq (h : Smooth ε S n c T T' w1 w2) (hε : 0 < ε) {j : ℕ} (hj : j < n) {sd : P2 ℝ} (x0 : 0 ≤ sd.x) (x1 : sd.x ≤ 1) (y0 : 0 ≤ sd.y) (y1 : sd.y ≤ 1) :
    S.compositeRibbon ε j sd = .ok (compF ε S n c T w1 w2 j sd) := by
  have hn := h.hn
  have hp : prevIx n j < n := prevIx_lt (by omega)
  have hx : nextIx n j < n := nextIx_lt (by omega)
  unfold compositeRibbon compF
  dsimp only
  rw [h.len, h.side_eq hj x0 x1 y0, M_bind_ok, h.side_eq hp (by linarith) (by linarith) x0, M_bind_ok, h.side_eq hx y0 y1 (by linarith), M_bind_ok,
    h.corr_total hε hp y0 y1 x0 x1, M_bind_ok, h.corr_total hε hj (by linarith) (by linarith) y0 y1, M_bind_ok]

/-- The composite ribbons are bounded. -/
theorem compF_bd (h : Smooth ε S n c T T' w1 w2) {j : ℕ} (hj : j < n) :
    ∃ C, ∀ sd : P2 ℝ, 0 ≤ sd.x → sd.x ≤ 1 → 0 ≤ sd.y → sd.y ≤ 1 → Bd C (compF ε S n c T w1 w2 j sd) := by
  have hn := h.hn
  obtain ⟨C1, h1⟩ := h.side_bd hj
  obtain ⟨C2, h2⟩ := h.side_bd (prevIx_lt (by omega) : prevIx n j < n)
  obtain ⟨C3, h3⟩ := h.side_bd (nextIx_lt (by omega) : nextIx n j < n)
  obtain ⟨C4, h4⟩ := Smooth.corr_bd ε S n c w1 w2 (prevIx n j)
  obtain ⟨C5, h5⟩ := Smooth.corr_bd ε S n c w1 w2 j
  refine ⟨C1 + C2 + C3 + C4 + C5, fun sd x0 x1 y0 y1 => ?_⟩
  obtain ⟨a0, a1⟩ := herm_range x0 x1
  obtain ⟨b0, b1⟩ := herm_range y0 y1
  have q1 := herm_abs x0 x1
  have q2 := herm_abs y0 y1
  have q3 : |1 - hermite 0 sd.x| ≤ 1 := abs_le.mpr ⟨by linarith, by linarith⟩
  have q4 : |hermite 0 sd.x * hermite 0 sd.y| ≤ 1 := by rw [abs_mul]; exact mul_le_one₀ q1 (abs_nonneg _) q2
  have q5 : |(1 - hermite 0 sd.x) * hermite 0 sd.y| ≤ 1 := by rw [abs_mul]; exact mul_le_one₀ q3 (abs_nonneg _) q2
  exact (((((h1 _ _ x0 x1 y0 y1).smul q2).add ((h2 _ _ (by linarith) (by linarith) x0 x1).smul q1)).add ((h3 _ _ y0 y1 (by linarith) (by linarith)).smul q3)).sub
    ((h4 _ _ y0 y1 x0 x1).smul q4)).sub ((h5 _ _ (by linarith) (by linarith) y0 y1).smul q5)

variable (h : Smooth ε S n c T T' w1 w2) (hε : 0 < ε) (hi : i < n) (s0 : 3 * ε < s) (s1 : s < 1 - 3 * ε) (hf : SidePath ε n i s f x' y')
  (hy : ∀ᶠ t in near0, ∀ j < n, (f t j).y ≤ 1)

include h hε hi s0 s1 hf hy

/-- The composite ribbon of the side. -/
theorem compF_self : compF ε S n c T w1 w2 i (f 0 i) = (c i).pt s ∧ RightDer3 (fun t => compF ε S n c T w1 w2 i (f t i))
    (x' i • (c i).der s + y' i • T i s + twistError S n T' w1 w2 i s ((1 - hermite 0 s) * y' i) (hermite 0 s * y' i)) := by
  have hn := h.hn
  have hp : prevIx n i < n := prevIx_lt (by omega)
  have hx : nextIx n i < n := nextIx_lt (by omega)
  have dxi := hf.dx i (Or.inl rfl)
  have dyi := hf.dy i (Or.inl rfl)
  have b1 : ∀ᶠ t in near0, (f t i).x < 1 - 3 * ε := dxi.lt (by rw [hf.selfX]; exact s1)
  have b2 : ∀ᶠ t in near0, 3 * ε < (f t i).x := dxi.gt (by rw [hf.selfX]; exact s0)
  have hry : ∀ᶠ t in near0, 0 ≤ (f t i).y ∧ (f t i).y ≤ 1 := (hf.range.and hy).mono fun t q => ⟨(q.1 i hi).2, q.2 i hi⟩
  have e1 : ∀ᶠ t in near0, compF ε S n c T w1 w2 i (f t i) = S.sideF c T i (f t i).x (f t i).y +
      hermite 0 (f t i).x • (S.sideF c T (prevIx n i) (1 - (f t i).y) (f t i).x - S.corrF n c w1 w2 (prevIx n i) (f t i).y (f t i).x) +
      (1 - hermite 0 (f t i).x) • (S.sideF c T (nextIx n i) (f t i).y (1 - (f t i).x) - S.corrF n c w1 w2 i (1 - (f t i).x) (f t i).y) +
      (1 - hermite 0 (f t i).y) • (hermite 0 (f t i).x • corrG ε S n c w1 w2 (prevIx n i) (f t i).y (f t i).x +
        (1 - hermite 0 (f t i).x) • corrG ε S n c w1 w2 i (1 - (f t i).x) (f t i).y - S.sideF c T i (f t i).x (f t i).y) := by
    filter_upwards [hf.range, b1, b2] with t hr q1 q2
    obtain ⟨⟨a0, a1⟩, a2⟩ := hr i hi
    have k1 := gam_sum (S := S) (a := (f t i).x) (b := (f t i).y) hε (by linarith) (by linarith) a2
    have k2 := gam_sum (S := S) (a := 1 - (f t i).x) (b := (f t i).y) hε (by linarith) (by linarith) a2
    unfold compF
    rw [corrG_eq (j := i) k2, corrG_eq (j := prevIx n i) (by linarith)]
    module
  have u1 := (RightDer.const 1).sub dxi
  have v1 := (RightDer.const 1).sub dyi
  have hy1 : ∀ᶠ t in near0, 0 ≤ 1 - (f t i).y ∧ 1 - (f t i).y ≤ 1 := hry.mono fun t q => ⟨by linarith, by linarith⟩
  obtain ⟨z1, n1⟩ := h.next_part hi dyi hf.selfY hry u1 u1 (by rw [hf.selfX]; linarith) rfl
  obtain ⟨z2, n2⟩ := h.prev_part hi v1 dyi (by ring) (by rw [hf.selfY]; ring) hf.selfY hy1 dxi dxi (by rw [hf.selfX]; linarith) rfl
  have g1 := h.side_der hi dxi dyi (hf.rangeX hi) hf.selfY.ge
  have hH := dxi.comp (herm_der _)
  have hH1 := (RightDer.const 1).sub hH
  have sm := Small.one_sub_herm dyi hf.selfY hry
  obtain ⟨C1, c1⟩ := h.side_bd hi
  obtain ⟨C4, c4⟩ := Smooth.corr_bd ε S n c w1 w2 (prevIx n i)
  obtain ⟨C5, c5⟩ := Smooth.corr_bd ε S n c w1 w2 i
  have g4 := sm.smul (C := C4 + C5 + C1) (F := fun t => hermite 0 (f t i).x • corrG ε S n c w1 w2 (prevIx n i) (f t i).y (f t i).x +
        (1 - hermite 0 (f t i).x) • corrG ε S n c w1 w2 i (1 - (f t i).x) (f t i).y - S.sideF c T i (f t i).x (f t i).y) (by
    filter_upwards [hf.range, hy] with t hr hyt
    obtain ⟨⟨a0, a1⟩, a2⟩ := hr i hi
    have a3 := hyt i hi
    obtain ⟨r0, r1⟩ := herm_range a0 a1
    exact (((c4 _ _ a2 a3 a0 a1).smul (herm_abs a0 a1)).add ((c5 _ _ (by linarith) (by linarith) a2 a3).smul (abs_le.mpr ⟨by linarith, by linarith⟩))).sub (c1 _ _ a0 a1 a2 a3))
  constructor
  · rw [e1.self_of_nhdsWithin (by simp), z1, z2, show 1 - hermite 0 (f 0 i).y = 0 from sm.1, smul_zero, smul_zero, zero_smul, add_zero, add_zero, add_zero]
    exact side_start hf hf.selfY
  · refine ((((g1.add (RightDer3.smul hH n2)).add (RightDer3.smul hH1 n1)).add g4).congr e1).congr_der ?_
    rw [z1, z2, hf.selfX, hf.selfY, gam_zero, gam'_zero]
    unfold twistError
    module

/-- The composite ribbon of the next side. -/
theorem compF_next : compF ε S n c T w1 w2 (nextIx n i) (f 0 (nextIx n i)) = (c i).pt s ∧ RightDer3 (fun t => compF ε S n c T w1 w2 (nextIx n i) (f t (nextIx n i)))
    (-y' (nextIx n i) • (c i).der s + x' (nextIx n i) • T i s + (hermite 0 (1 - s) * (S.gam (1 - s) * x' (nextIx n i))) • (T' (nextIx n i) 0 - w2 i)) := by
  have hn := h.hn
  have hx : nextIx n i < n := nextIx_lt (by omega)
  have hxx : nextIx n (nextIx n i) < n := nextIx_lt (by omega)
  have dx := hf.dx _ (Or.inr (Or.inl rfl))
  have dy := hf.dy _ (Or.inr (Or.inl rfl))
  have b1 : ∀ᶠ t in near0, 3 * ε < (f t (nextIx n i)).y := dy.gt (by rw [hf.nextY]; linarith)
  have hry : ∀ᶠ t in near0, 0 ≤ (f t (nextIx n i)).y ∧ (f t (nextIx n i)).y ≤ 1 := (hf.range.and hy).mono fun t q => ⟨(q.1 _ hx).2, q.2 _ hx⟩
  have hrx := hf.rangeX hx
  have e1 : ∀ᶠ t in near0, compF ε S n c T w1 w2 (nextIx n i) (f t (nextIx n i)) = S.sideF c T i (1 - (f t (nextIx n i)).y) (f t (nextIx n i)).x +
      hermite 0 (f t (nextIx n i)).y • (S.sideF c T (nextIx n i) (f t (nextIx n i)).x (f t (nextIx n i)).y - S.corrF n c w1 w2 i (f t (nextIx n i)).y (f t (nextIx n i)).x) +
      (1 - hermite 0 (f t (nextIx n i)).x) • (S.sideF c T (nextIx n (nextIx n i)) (f t (nextIx n i)).y (1 - (f t (nextIx n i)).x) -
        S.sideF c T i (1 - (f t (nextIx n i)).y) (f t (nextIx n i)).x + hermite 0 (f t (nextIx n i)).y • (corrG ε S n c w1 w2 i (f t (nextIx n i)).y (f t (nextIx n i)).x -
        corrG ε S n c w1 w2 (nextIx n i) (1 - (f t (nextIx n i)).x) (f t (nextIx n i)).y)) := by
    filter_upwards [hrx, hry, b1] with t q1 q2 q3
    have k := gam_sum (S := S) (a := (f t (nextIx n i)).y) (b := (f t (nextIx n i)).x) hε (by linarith) (by linarith) q1.1
    unfold compF
    rw [prevIx_nextIx hi, corrG_eq (j := i) k]
    module
  have v1 := (RightDer.const 1).sub dy
  have hy1 : ∀ᶠ t in near0, 0 ≤ 1 - (f t (nextIx n i)).y ∧ 1 - (f t (nextIx n i)).y ≤ 1 := hry.mono fun t q => ⟨by linarith, by linarith⟩
  obtain ⟨z1, n1⟩ := h.next_part hi dx hf.nextX hrx dy dy (by rw [hf.nextY]; linarith) rfl
  have g1 := h.side_der hi v1 dx hy1 hf.nextX.ge
  have hH := dy.comp (herm_der _)
  have sm := Small.one_sub_herm dx hf.nextX hrx
  obtain ⟨C1, c1⟩ := h.side_bd hi
  obtain ⟨C2, c2⟩ := h.side_bd hxx
  obtain ⟨C4, c4⟩ := Smooth.corr_bd ε S n c w1 w2 i
  obtain ⟨C5, c5⟩ := Smooth.corr_bd ε S n c w1 w2 (nextIx n i)
  have g4 := sm.smul (C := C2 + C1 + (C4 + C5)) (F := fun t => S.sideF c T (nextIx n (nextIx n i)) (f t (nextIx n i)).y (1 - (f t (nextIx n i)).x) -
        S.sideF c T i (1 - (f t (nextIx n i)).y) (f t (nextIx n i)).x + hermite 0 (f t (nextIx n i)).y • (corrG ε S n c w1 w2 i (f t (nextIx n i)).y (f t (nextIx n i)).x -
        corrG ε S n c w1 w2 (nextIx n i) (1 - (f t (nextIx n i)).x) (f t (nextIx n i)).y)) (by
    filter_upwards [hrx, hry] with t q1 q2
    exact ((c2 _ _ q2.1 q2.2 (by linarith) (by linarith)).sub (c1 _ _ (by linarith) (by linarith) q1.1 q1.2)).add
      (((c4 _ _ q2.1 q2.2 q1.1 q1.2).sub (c5 _ _ (by linarith) (by linarith) q2.1 q2.2)).smul (herm_abs q2.1 q2.2)))
  constructor
  · rw [e1.self_of_nhdsWithin (by simp), z1, show 1 - hermite 0 (f 0 (nextIx n i)).x = 0 from sm.1, smul_zero, zero_smul, add_zero, add_zero, hf.nextX, hf.nextY]
    unfold sideF
    rw [gam_zero, zero_smul, add_zero, sub_sub_cancel]
  · refine (((g1.add (RightDer3.smul hH n1)).add g4).congr e1).congr_der ?_
    rw [z1, hf.nextX, hf.nextY, gam_zero, gam'_zero, sub_sub_cancel]
    module

/-- The composite ribbon of the previous side. -/
theorem compF_prev : compF ε S n c T w1 w2 (prevIx n i) (f 0 (prevIx n i)) = (c i).pt s ∧ RightDer3 (fun t => compF ε S n c T w1 w2 (prevIx n i) (f t (prevIx n i)))
    (y' (prevIx n i) • (c i).der s + -x' (prevIx n i) • T i s + (hermite 0 s * (S.gam s * -x' (prevIx n i))) • (-T' (prevIx n i) 1 - w1 (prevIx n i))) := by
  have hn := h.hn
  have hx : prevIx n i < n := prevIx_lt (by omega)
  have hxx : prevIx n (prevIx n i) < n := prevIx_lt (by omega)
  have dx := hf.dx _ (Or.inr (Or.inr rfl))
  have dy := hf.dy _ (Or.inr (Or.inr rfl))
  have b1 : ∀ᶠ t in near0, 3 * ε < (f t (prevIx n i)).y := dy.gt (by rw [hf.prevY]; linarith)
  have hry : ∀ᶠ t in near0, 0 ≤ (f t (prevIx n i)).y ∧ (f t (prevIx n i)).y ≤ 1 := (hf.range.and hy).mono fun t q => ⟨(q.1 _ hx).2, q.2 _ hx⟩
  have hrx := hf.rangeX hx
  have e1 : ∀ᶠ t in near0, compF ε S n c T w1 w2 (prevIx n i) (f t (prevIx n i)) = S.sideF c T i (f t (prevIx n i)).y (1 - (f t (prevIx n i)).x) +
      hermite 0 (f t (prevIx n i)).y • (S.sideF c T (prevIx n i) (f t (prevIx n i)).x (f t (prevIx n i)).y -
        S.corrF n c w1 w2 (prevIx n i) (1 - (f t (prevIx n i)).x) (f t (prevIx n i)).y) +
      hermite 0 (f t (prevIx n i)).x • (S.sideF c T (prevIx n (prevIx n i)) (1 - (f t (prevIx n i)).y) (f t (prevIx n i)).x -
        S.sideF c T i (f t (prevIx n i)).y (1 - (f t (prevIx n i)).x) + hermite 0 (f t (prevIx n i)).y • (corrG ε S n c w1 w2 (prevIx n i) (1 - (f t (prevIx n i)).x) (f t (prevIx n i)).y -
        corrG ε S n c w1 w2 (prevIx n (prevIx n i)) (f t (prevIx n i)).y (f t (prevIx n i)).x)) := by
    filter_upwards [hrx, hry, b1] with t q1 q2 q3
    have k := gam_sum (S := S) (a := (f t (prevIx n i)).y) (b := 1 - (f t (prevIx n i)).x) hε (by linarith) (by linarith) (by linarith)
    unfold compF
    rw [nextIx_prevIx hi, corrG_eq (j := prevIx n i) (by linarith)]
    module
  have v1 := (RightDer.const 1).sub dx
  obtain ⟨z1, n1⟩ := h.prev_part hi dx v1 (by ring) hf.prevX (by rw [hf.prevX]; ring) hrx dy dy (by rw [hf.prevY]; linarith) rfl
  have g1 := h.side_der hi dy v1 hry (by rw [hf.prevX]; norm_num)
  have hH := dy.comp (herm_der _)
  have sm := Small.herm dx hf.prevX hrx
  obtain ⟨C1, c1⟩ := h.side_bd hi
  obtain ⟨C2, c2⟩ := h.side_bd hxx
  obtain ⟨C4, c4⟩ := Smooth.corr_bd ε S n c w1 w2 (prevIx n i)
  obtain ⟨C5, c5⟩ := Smooth.corr_bd ε S n c w1 w2 (prevIx n (prevIx n i))
  have g4 := sm.smul (C := C2 + C1 + (C4 + C5)) (F := fun t => S.sideF c T (prevIx n (prevIx n i)) (1 - (f t (prevIx n i)).y) (f t (prevIx n i)).x -
        S.sideF c T i (f t (prevIx n i)).y (1 - (f t (prevIx n i)).x) + hermite 0 (f t (prevIx n i)).y • (corrG ε S n c w1 w2 (prevIx n i) (1 - (f t (prevIx n i)).x) (f t (prevIx n i)).y -
        corrG ε S n c w1 w2 (prevIx n (prevIx n i)) (f t (prevIx n i)).y (f t (prevIx n i)).x)) (by
    filter_upwards [hrx, hry] with t q1 q2
    exact ((c2 _ _ (by linarith) (by linarith) q1.1 q1.2).sub (c1 _ _ q2.1 q2.2 (by linarith) (by linarith))).add
      (((c4 _ _ (by linarith) (by linarith) q2.1 q2.2).sub (c5 _ _ q2.1 q2.2 q1.1 q1.2)).smul (herm_abs q2.1 q2.2)))
  constructor
  · rw [e1.self_of_nhdsWithin (by simp), z1, show hermite 0 (f 0 (prevIx n i)).x = 0 from sm.1, smul_zero, zero_smul, add_zero, add_zero, hf.prevX, hf.prevY]
    unfold sideF
    rw [sub_self, gam_zero, zero_smul, add_zero]
  · refine (((g1.add (RightDer3.smul hH n1)).add g4).congr e1).congr_der ?_
    rw [z1, hf.prevX, hf.prevY, sub_self, gam_zero, gam'_zero]
    module

/-- The terms of the composite ribbon surfaces that belong to a corner. -/
theorem composite_path : CurvePath n i (fun t j => (1 / 2 : ℝ) • (compF ε S n c T w1 w2 j (f t j) + compF ε S n c T w1 w2 (nextIx n j) (f t (nextIx n j)))) ((c i).pt s)
    (((x' i - y' (nextIx n i)) / 2) • (c i).der s + ((y' i + x' (nextIx n i)) / 2) • T i s +
      twistError S n T' w1 w2 i s (((1 - hermite 0 s) * y' i + hermite 0 (1 - s) * x' (nextIx n i)) / 2) (hermite 0 s * y' i / 2))
    (((x' i + y' (prevIx n i)) / 2) • (c i).der s + ((y' i - x' (prevIx n i)) / 2) • T i s +
      twistError S n T' w1 w2 i s ((1 - hermite 0 s) * y' i / 2) ((hermite 0 s * y' i - hermite 0 s * x' (prevIx n i)) / 2)) := by
  have hn := h.hn
  obtain ⟨a0, a1⟩ := compF_self h hε hi s0 s1 hf hy
  obtain ⟨b0, b1⟩ := compF_next h hε hi s0 s1 hf hy
  obtain ⟨d0, d1⟩ := compF_prev h hε hi s0 s1 hf hy
  have half := RightDer.const (1 / 2)
  refine ⟨?_, ?_, (RightDer3.smul half (a1.add b1)).congr_der ?_, ((RightDer3.smul half (d1.add a1)).congr (Eventually.of_forall fun t => ?_)).congr_der ?_, ?_⟩
  · rw [a0, b0]
    module
  · rw [nextIx_prevIx hi, a0, d0]
    module
  · unfold twistError
    module
  · rw [nextIx_prevIx hi]
  · unfold twistError
    module
  · intro j hj
    have hjx : nextIx n j < n := nextIx_lt (by omega)
    obtain ⟨C1, h1⟩ := compF_bd (ε := ε) h hj
    obtain ⟨C2, h2⟩ := compF_bd (ε := ε) h hjx
    refine ⟨C1 + C2, (hf.range.and hy).mono fun t hr => Bd.smul (by rw [abs_of_pos] <;> norm_num) ?_⟩
    obtain ⟨⟨a0, a1⟩, a2⟩ := hr.1 j hj
    obtain ⟨⟨c0, c1⟩, c2⟩ := hr.1 _ hjx
    exact (h1 _ a0 a1 a2 (hr.2 j hj)).add (h2 _ c0 c1 c2 (hr.2 _ hjx))

end

end Surf

end Transfinite
