import Verif.Lemmas.TangentPatch
import Verif.Props.Ribbon

/-! # Cross derivatives of ribbons with differentiable normal fences -/

namespace Transfinite

open Spec Set Filter Topology Real

namespace Spec

section

variable {F G : ℝ → P3 ℝ} {F' G' : P3 ℝ} {s : ℝ}

theorem UnitDer.add (h : UnitDer F F' s) (k : UnitDer G G' s) : UnitDer (fun t => F t + G t) (F' + G') s :=
  ⟨h.1.add k.1, h.2.1.add k.2.1, h.2.2.add k.2.2⟩

theorem UnitDer.smul {q : ℝ → ℝ} {q' : ℝ} (h : HasDerivWithinAt q q' (Icc 0 1) s) (k : UnitDer F F' s) :
    UnitDer (fun t => q t • F t) (q' • F s + q s • F') s := ⟨h.mul k.1, h.mul k.2.1, h.mul k.2.2⟩

theorem UnitDer.const (v : P3 ℝ) : UnitDer (fun _ => v) 0 s := ⟨hasDerivWithinAt_const _ _ _, hasDerivWithinAt_const _ _ _, hasDerivWithinAt_const _ _ _⟩

theorem UnitDer.sub (h : UnitDer F F' s) (k : UnitDer G G' s) : UnitDer (fun t => F t - G t) (F' - G') s :=
  ⟨h.1.sub k.1, h.2.1.sub k.2.1, h.2.2.sub k.2.2⟩

theorem UnitDer.congr_der (h : UnitDer F F' s) (e : F' = G') : UnitDer F G' s := e ▸ h

theorem UnitDer.dot (v : P3 ℝ) (h : UnitDer F F' s) : HasDerivWithinAt (fun t => P3.dot v (F t)) (P3.dot v F') (Icc 0 1) s :=
  ((h.1.const_mul v.x).add (h.2.1.const_mul v.y)).add (h.2.2.const_mul v.z)

end

/-- Changes of products. -/
theorem mul_close {A a B b f f0 g g0 : ℝ} (h1 : |f| ≤ A) (h2 : |f - f0| ≤ a) (h3 : |g0| ≤ B) (h4 : |g - g0| ≤ b) : |f * g - f0 * g0| ≤ A * b + a * B := by
  have e : f * g - f0 * g0 = f * (g - g0) + (f - f0) * g0 := by ring
  rw [e]
  refine (abs_add_le _ _).trans ?_
  rw [abs_mul, abs_mul]
  exact add_le_add (mul_le_mul h1 h4 (abs_nonneg _) ((abs_nonneg _).trans h1)) (mul_le_mul h2 h3 (abs_nonneg _) ((abs_nonneg _).trans h2))

theorem smul_close {A a B b f f0 : ℝ} {G G0 : P3 ℝ} (h1 : |f| ≤ A) (h2 : |f - f0| ≤ a) (h3 : Close B G0 0) (h4 : Close b G G0) :
    Close (A * b + a * B) (f • G) (f0 • G0) := by
  have z : ∀ x : ℝ, |x - 0| ≤ B → |x| ≤ B := fun x h => by rwa [sub_zero] at h
  exact ⟨mul_close h1 h2 (z _ h3.1) h4.1, mul_close h1 h2 (z _ h3.2.1) h4.2.1, mul_close h1 h2 (z _ h3.2.2) h4.2.2⟩

theorem add_close {a b : ℝ} {F F0 G G0 : P3 ℝ} (h : Close a F F0) (k : Close b G G0) : Close (a + b) (F + G) (F0 + G0) := by
  have one : ∀ x x0 y y0 : ℝ, |x - x0| ≤ a → |y - y0| ≤ b → |x + y - (x0 + y0)| ≤ a + b := fun x x0 y y0 p q => by
    rw [show x + y - (x0 + y0) = (x - x0) + (y - y0) by ring]
    exact (abs_add_le _ _).trans (add_le_add p q)
  exact ⟨one _ _ _ _ h.1 k.1, one _ _ _ _ h.2.1 k.2.1, one _ _ _ _ h.2.2 k.2.2⟩

theorem neg_close {a : ℝ} {F F0 : P3 ℝ} (h : Close a F F0) : Close a (-F) (-F0) := by
  have one : ∀ x x0 : ℝ, |x - x0| ≤ a → |-x - -x0| ≤ a := fun x x0 p => by
    rw [show -x - -x0 = -(x - x0) by ring, abs_neg]; exact p
  exact ⟨one _ _ h.1, one _ _ h.2.1, one _ _ h.2.2⟩

theorem Close.mono {a b : ℝ} {F G : P3 ℝ} (h : Close a F G) (k : a ≤ b) : Close b F G := ⟨h.1.trans k, h.2.1.trans k, h.2.2.trans k⟩

theorem Close.refl (F : P3 ℝ) : Close 0 F F := ⟨by simp, by simp, by simp⟩

theorem dot_close {M b : ℝ} {V G G0 : P3 ℝ} (h : Close M V 0) (k : Close b G G0) : |P3.dot V G - P3.dot V G0| ≤ 3 * M * b := by
  have z : ∀ x y y0 : ℝ, |x - 0| ≤ M → |y - y0| ≤ b → |x * y - x * y0| ≤ M * b := fun x y y0 p q => by
    rw [sub_zero] at p
    rw [← mul_sub, abs_mul]
    exact mul_le_mul p q (abs_nonneg _) ((abs_nonneg _).trans p)
  have k1 := z _ _ _ h.1 k.1
  have k2 := z _ _ _ h.2.1 k.2.1
  have k3 := z _ _ _ h.2.2 k.2.2
  unfold P3.dot
  rw [show V.x * G.x + V.y * G.y + V.z * G.z - (V.x * G0.x + V.y * G0.y + V.z * G0.z) =
    (V.x * G.x - V.x * G0.x) + (V.y * G.y - V.y * G0.y) + (V.z * G.z - V.z * G0.z) by ring]
  have := abs_add_le ((V.x * G.x - V.x * G0.x) + (V.y * G.y - V.y * G0.y)) (V.z * G.z - V.z * G0.z)
  have := abs_add_le (V.x * G.x - V.x * G0.x) (V.y * G.y - V.y * G0.y)
  linarith

theorem dot_zero_bound {M b : ℝ} {V G : P3 ℝ} (h : Close M V 0) (k : Close b G 0) : |P3.dot V G| ≤ 3 * M * b := by
  have := dot_close h k
  simpa [P3.dot] using this

end Spec

namespace Ribbon

/-- The derivative of a projection to the plane perpendicular to a moving normal. -/
noncomputable def projDer (V N N' : P3 ℝ) : P3 ℝ := -(P3.dot V N' • N + P3.dot V N • N')

theorem project_der (V : P3 ℝ) {N N' : ℝ → P3 ℝ} {s : ℝ} (h : UnitDer N (N' s) s) : UnitDer (fun t => project (N t) V) (projDer V (N s) (N' s)) s := by
  unfold project projDer
  refine ((UnitDer.const V).sub (UnitDer.smul (h.dot V) h)).congr_der ?_
  rw [zero_sub]

/-- The cross derivative of a ribbon with the normal fence `N`. -/
noncomputable def fenceT (a m b : P3 ℝ) (N : ℝ → P3 ℝ) (s : ℝ) : P3 ℝ :=
  (2 * (s - 1) * (s - 1 / 2)) • project (N s) a + (-4 * s * (s - 1)) • project (N s) m + (2 * s * (s - 1 / 2)) • project (N s) b

/-- Its derivative. -/
noncomputable def fenceT' (a m b : P3 ℝ) (N N' : ℝ → P3 ℝ) (s : ℝ) : P3 ℝ :=
  ((4 * s - 3) • project (N s) a + (2 * (s - 1) * (s - 1 / 2)) • projDer a (N s) (N' s)) +
  ((4 - 8 * s) • project (N s) m + (-4 * s * (s - 1)) • projDer m (N s) (N' s)) +
  ((4 * s - 1) • project (N s) b + (2 * s * (s - 1 / 2)) • projDer b (N s) (N' s))

theorem quad_der (u v w s : ℝ) : HasDerivWithinAt (fun t => u * t ^ 2 + v * t + w) (2 * u * s + v) (Icc 0 1) s := by
  have h1 : HasDerivWithinAt (fun t : ℝ => t * t) (1 * s + s * 1) (Icc 0 1) s := (hasDerivWithinAt_id s (Icc 0 1)).mul (hasDerivWithinAt_id s (Icc 0 1))
  have h2 : HasDerivWithinAt (fun t : ℝ => u * (t * t) + v * t) (u * (1 * s + s * 1) + v * 1) (Icc 0 1) s :=
    (h1.const_mul u).add ((hasDerivWithinAt_id s (Icc 0 1)).const_mul v)
  have h3 := (h2.add_const w).congr_deriv (show _ = 2 * u * s + v by ring)
  exact h3.congr (fun t _ => by ring) (by ring)

theorem fenceT_der (a m b : P3 ℝ) {N N' : ℝ → P3 ℝ} {s : ℝ} (h : UnitDer N (N' s) s) : UnitDer (fenceT a m b N) (fenceT' a m b N N' s) s := by
  have q0 : HasDerivWithinAt (fun t : ℝ => 2 * (t - 1) * (t - 1 / 2)) (4 * s - 3) (Icc 0 1) s := by
    refine ((quad_der 2 (-3) 1 s).congr (fun t _ => by ring) (by ring)).congr_deriv ?_
    ring
  have q1 : HasDerivWithinAt (fun t : ℝ => -4 * t * (t - 1)) (4 - 8 * s) (Icc 0 1) s := by
    refine ((quad_der (-4) 4 0 s).congr (fun t _ => by ring) (by ring)).congr_deriv ?_
    ring
  have q2 : HasDerivWithinAt (fun t : ℝ => 2 * t * (t - 1 / 2)) (4 * s - 1) (Icc 0 1) s := by
    refine ((quad_der 2 (-1) 0 s).congr (fun t _ => by ring) (by ring)).congr_deriv ?_
    ring
  exact ((UnitDer.smul q0 (project_der a h)).add (UnitDer.smul q1 (project_der m h))).add (UnitDer.smul q2 (project_der b h))

section bounds

variable {M D L d : ℝ} {V N N0 N' N0' : P3 ℝ}

theorem projDer_bound (hV : Close M V 0) (hN : Close 1 N 0) (hN' : Close D N' 0) : Close (6 * M * D) (projDer V N N') 0 := by
  have M0 := hV.nonneg
  have D0 := hN'.nonneg
  unfold projDer
  have k1 := smul_close (A := 3 * M * D) (a := 3 * M * D) (f0 := 0) (dot_zero_bound hV hN') (by rw [sub_zero]; exact dot_zero_bound hV hN') (Close.mono (Close.refl 0) zero_le_one) hN
  have k2 := smul_close (A := 3 * M * 1) (a := 3 * M * 1) (f0 := 0) (dot_zero_bound hV hN) (by rw [sub_zero]; exact dot_zero_bound hV hN) (Close.refl 0) hN'
  have k3 := smul_close (A := 3 * M * D) (a := 3 * M * D) (f0 := 0) (dot_zero_bound hV hN') (by rw [sub_zero]; exact dot_zero_bound hV hN') (Close.refl 0) hN
  have k := neg_close (add_close k3 k2)
  simp only [smul_zero, add_zero, neg_zero] at k
  exact k.mono (by nlinarith)

theorem project_bound (hV : Close M V 0) (hN : Close 1 N 0) : Close (4 * M) (project N V) 0 := by
  have M0 := hV.nonneg
  unfold project
  have k3 := smul_close (A := 3 * M * 1) (a := 3 * M * 1) (f0 := 0) (dot_zero_bound hV hN) (by rw [sub_zero]; exact dot_zero_bound hV hN) (Close.refl 0) hN
  have k := add_close hV (neg_close k3)
  simp only [smul_zero, add_zero, neg_zero] at k
  rw [← sub_eq_add_neg] at k
  exact k.mono (by linarith)

theorem projDer_close (hV : Close M V 0) (hN : Close 1 N 0) (hN0 : Close 1 N0 0) (hN' : Close D N' 0) (hN0' : Close D N0' 0)
    (hd : Close (D * d) N N0) (hd' : Close (L * d) N' N0') : Close (6 * M * (D ^ 2 + L) * d) (projDer V N N') (projDer V N0 N0') := by
  unfold projDer
  have k1 := smul_close (dot_zero_bound hV hN') (dot_close hV hd') hN0 hd
  have k2 := smul_close (dot_zero_bound hV hN) (dot_close hV hd) hN0' hd'
  exact (neg_close (add_close k1 k2)).mono (by nlinarith)

theorem project_close (hV : Close M V 0) (hN : Close 1 N 0) (hN0 : Close 1 N0 0)
    (hd : Close (D * d) N N0) : Close (6 * M * D * d) (project N V) (project N0 V) := by
  unfold project
  have k1 := smul_close (dot_zero_bound hV hN) (dot_close hV hd) hN0 hd
  have k := add_close (Close.refl V) (neg_close k1)
  rw [← sub_eq_add_neg, ← sub_eq_add_neg] at k
  exact k.mono (by nlinarith)

theorem term_close {q q0 q' q0' a b : ℝ} (hV : Close M V 0) (hN : Close 1 N 0) (hN0 : Close 1 N0 0) (hN' : Close D N' 0) (hN0' : Close D N0' 0)
    (hd : Close (D * d) N N0) (hd' : Close (L * d) N' N0') (h1 : |q| ≤ 1) (h2 : |q'| ≤ a) (h3 : |q - q0| ≤ a * d) (h4 : |q' - q0'| ≤ b * d) :
    Close (M * d * (4 * b + 12 * a * D + 6 * (D ^ 2 + L))) (q' • project N V + q • projDer V N N') (q0' • project N0 V + q0 • projDer V N0 N0') := by
  have k1 := smul_close h2 h4 (project_bound hV hN0) (project_close hV hN hN0 hd)
  have k2 := smul_close h1 h3 (projDer_bound hV hN0 hN0') (projDer_close hV hN hN0 hN' hN0' hd hd')
  exact (add_close k1 k2).mono (by nlinarith)

end bounds

/-- Changes of the derivative of the cross derivative. -/
theorem fenceT'_close {M D L : ℝ} {a m b : P3 ℝ} {N N' : ℝ → P3 ℝ} (ha : Close M a 0) (hm : Close M m 0) (hb : Close M b 0)
    (hN : ∀ s, 0 ≤ s → s ≤ 1 → UnitDer N (N' s) s) (hu : ∀ s, 0 ≤ s → s ≤ 1 → P3.dot (N s) (N s) = 1)
    (hD : ∀ s, 0 ≤ s → s ≤ 1 → Close D (N' s) 0) (hL : ∀ s t, 0 ≤ s → s ≤ 1 → 0 ≤ t → t ≤ 1 → Close (L * |s - t|) (N' s) (N' t))
    {s t : ℝ} (s0 : 0 ≤ s) (s1 : s ≤ 1) (t0 : 0 ≤ t) (t1 : t ≤ 1) :
    Close (M * (64 + 120 * D + 18 * (D ^ 2 + L)) * |s - t|) (fenceT' a m b N N' s) (fenceT' a m b N N' t) := by
  have unit : ∀ s, 0 ≤ s → s ≤ 1 → Close 1 (N s) 0 := by
    intro s s0 s1
    have h := hu s s0 s1
    unfold P3.dot at h
    have one : ∀ x y z : ℝ, x * x + y * y + z * z = 1 → |x - 0| ≤ 1 := fun x y z e => by
      rw [sub_zero, abs_le]
      constructor <;> nlinarith [mul_self_nonneg y, mul_self_nonneg z]
    exact ⟨one _ _ _ h, one _ (N s).x (N s).z (by linarith), one _ (N s).x (N s).y (by linarith)⟩
  have lip : ∀ s t, 0 ≤ s → s ≤ 1 → 0 ≤ t → t ≤ 1 → Close (D * |s - t|) (N s) (N t) := by
    have key : ∀ s t, 0 ≤ t → t < s → s ≤ 1 → Close (D * |s - t|) (N s) (N t) := by
      intro s t t0 ts s1
      have q := quotient_close hN t0 ts s1 (V := 0) (δ := D) (fun x a b => hD x (by linarith) (by linarith))
      have pos : 0 < s - t := by linarith
      rw [abs_of_pos pos]
      have one : ∀ x y : ℝ, |(s - t)⁻¹ * (x - y) - 0| ≤ D → |x - y| ≤ D * (s - t) := fun x y h => by
        rw [sub_zero, abs_mul, abs_of_pos (inv_pos.mpr pos), inv_mul_le_iff₀ pos] at h
        linarith
      exact ⟨one _ _ q.1, one _ _ q.2.1, one _ _ q.2.2⟩
    intro s t s0 s1 t0 t1
    rcases lt_trichotomy t s with h | h | h
    · exact key s t t0 h s1
    · rw [h, sub_self, abs_zero, mul_zero]; exact Close.refl _
    · rw [abs_sub_comm]; exact (key t s s0 h t1).symm
  have n1 := unit s s0 s1
  have n2 := unit t t0 t1
  have d1 := hD s s0 s1
  have d2 := hD t t0 t1
  have l1 := lip s t s0 s1 t0 t1
  have l2 := hL s t s0 s1 t0 t1
  have hx : ∀ k r : ℝ, 0 ≤ r → |k| ≤ r → |k * (s - t)| ≤ r * |s - t| := fun k r _ h => by
    rw [abs_mul]; exact mul_le_mul_of_nonneg_right h (abs_nonneg _)
  have k0 := term_close (q := 2 * (s - 1) * (s - 1 / 2)) (q0 := 2 * (t - 1) * (t - 1 / 2)) (q' := 4 * s - 3) (q0' := 4 * t - 3) (a := 3) (b := 4)
    ha n1 n2 d1 d2 l1 l2 (by rw [abs_le]; constructor <;> nlinarith) (by rw [abs_le]; constructor <;> linarith)
    (by
      rw [show 2 * (s - 1) * (s - 1 / 2) - 2 * (t - 1) * (t - 1 / 2) = (2 * (s + t) - 3) * (s - t) by ring]
      exact hx _ _ (by norm_num) (by rw [abs_le]; constructor <;> linarith))
    (by
      rw [show 4 * s - 3 - (4 * t - 3) = 4 * (s - t) by ring]
      exact hx _ _ (by norm_num) (by norm_num))
  have k1 := term_close (q := -4 * s * (s - 1)) (q0 := -4 * t * (t - 1)) (q' := 4 - 8 * s) (q0' := 4 - 8 * t) (a := 4) (b := 8)
    hm n1 n2 d1 d2 l1 l2 (by rw [abs_le]; constructor <;> nlinarith [sq_nonneg (2 * s - 1)]) (by rw [abs_le]; constructor <;> linarith)
    (by
      rw [show -4 * s * (s - 1) - -4 * t * (t - 1) = (4 - 4 * (s + t)) * (s - t) by ring]
      exact hx _ _ (by norm_num) (by rw [abs_le]; constructor <;> linarith))
    (by
      rw [show 4 - 8 * s - (4 - 8 * t) = (-8) * (s - t) by ring]
      exact hx _ _ (by norm_num) (by norm_num))
  have k2 := term_close (q := 2 * s * (s - 1 / 2)) (q0 := 2 * t * (t - 1 / 2)) (q' := 4 * s - 1) (q0' := 4 * t - 1) (a := 3) (b := 4)
    hb n1 n2 d1 d2 l1 l2 (by rw [abs_le]; constructor <;> nlinarith) (by rw [abs_le]; constructor <;> linarith)
    (by
      rw [show 2 * s * (s - 1 / 2) - 2 * t * (t - 1 / 2) = (2 * (s + t) - 1) * (s - t) by ring]
      exact hx _ _ (by norm_num) (by rw [abs_le]; constructor <;> linarith))
    (by
      rw [show 4 * s - 1 - (4 * t - 1) = 4 * (s - t) by ring]
      exact hx _ _ (by norm_num) (by norm_num))
  unfold fenceT'
  exact (add_close (add_close k0 k1) k2).mono (le_of_eq (by ring))

/-- The values of the cross derivative. -/
theorem fence_cross {ε : ℝ} {nb : Neighbors ℝ} {c : Curve ℝ} {N : ℝ → P3 ℝ} {r : Ribbon ℝ} (h : RibbonFenced ε nb .handler c (some N) r) (s : ℝ) :
    r.crossDerivative ε s = .ok (fenceT (-nb.prev.der 1) r.central (nb.next.der 0) N s) := by
  have hb := h.basic
  obtain ⟨r0, r1, h1, h2, h3, h4, h5⟩ := h
  unfold Ribbon.update at h4
  rw [h1] at h4
  dsimp only at h4
  obtain ⟨_, e1, e2, _⟩ := handlerUpdate_parts h4
  have p1 : r.prevT = -nb.prev.der 1 := by rw [h5]; exact e1
  have p2 : r.nextT = nb.next.der 0 := by rw [h5]; exact e2
  unfold crossDerivative
  rw [hb.1]
  dsimp only
  unfold handlerCross normal
  rw [hb.2.2]
  dsimp only
  rw [M_bind_ok, p1, p2]
  rfl

end Ribbon

end Transfinite
