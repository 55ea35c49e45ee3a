import Verif.Lemmas.TangentParams
import Verif.Lemmas.PatchSide
import Mathlib.Analysis.SpecialFunctions.Sqrt

/-! # Parallel parameters along a path that starts on a side -/

namespace Transfinite

namespace Surf

open Spec Set Filter Topology Real Param

/-- The chosen root of the quadratic equation along a path. -/
theorem solve_path {ε s h1 h2 b' c' : ℝ} {b c : ℝ → ℝ} (hε : 0 < ε) (hb : RightDer b b') (hc : RightDer c c') (hb0 : b 0 = s * h2 - (s + 1) * h1) (hc0 : c 0 = s * h1)
    (s0 : 0 < s) (s1 : s < 1) (p1 : 0 < h1) (p2 : 0 < h2) (tol : (h1 = h2 ∧ ε < h1) ∨ (ε ≤ |h1 - h2| ∧ ε < (h1 * (1 - s) + h2 * s) ^ 2)) :
    ∃ (x : ℝ → ℝ) (x' : ℝ), RightDer x x' ∧ x 0 = s ∧ ∀ᶠ t in near0, bilinearSolve ε (h1 - h2) (b t) (c t) = .ok (x t) ∧ 0 ≤ x t ∧ x t ≤ 1 := by
  rcases tol with ⟨e, t1⟩ | ⟨ha, t1⟩
  · have b0 : b 0 = -h1 := by rw [hb0, ← e]; ring
    have dx := ((RightDer.const 0).sub hc).div hb (by rw [b0]; linarith)
    have x0 : (0 - c 0) / b 0 = s := by
      rw [b0, hc0]
      field_simp
      ring
    refine ⟨_, _, dx, x0, ?_⟩
    filter_upwards [dx.gt (by rw [x0]; exact s0), dx.lt (by rw [x0]; exact s1), hb.lt (c := -ε) (by rw [b0]; linarith)] with t q1 q2 q3
    refine ⟨?_, q1.le, q2.le⟩
    have hbn : b t ≠ 0 := by linarith
    have root : (h1 - h2) * ((0 - c t) / b t) ^ 2 + b t * ((0 - c t) / b t) + c t = 0 := by
      rw [e, sub_self, mul_div_cancel₀ _ hbn]
      ring
    refine bilinearSolve_unique hε q1.le q2.le root (fun r _ _ hr => ?_) (Or.inl ⟨by rw [e, sub_self], by rw [abs_of_neg (by linarith)]; linarith⟩)
    rw [e, sub_self] at hr
    rw [eq_div_iff hbn]
    linear_combination hr
  · have ha0 : h1 - h2 ≠ 0 := by
      intro q
      rw [q, abs_zero] at ha
      linarith
    obtain ⟨a, hA⟩ : ∃ a, a = h1 - h2 := ⟨_, rfl⟩
    rw [← hA] at ha ha0 ⊢
    have hpos : 0 < h1 * (1 - s) + h2 * s := by
      have : 0 < 1 - s := by linarith
      positivity
    have D0 : b 0 * b 0 - 4 * a * c 0 = (h1 * (1 - s) + h2 * s) ^ 2 := by rw [hb0, hc0, hA]; ring
    have dD := (hb.mul hb).sub ((RightDer.const (4 * a)).mul hc)
    have dS := dD.comp (u := Real.sqrt) (Real.hasDerivAt_sqrt (by rw [D0]; positivity))
    have S0 : Real.sqrt (b 0 * b 0 - 4 * a * c 0) = h1 * (1 - s) + h2 * s := by rw [D0]; exact Real.sqrt_sq hpos.le
    have dx := (((RightDer.const 0).sub hb).sub dS).div (RightDer.const (2 * a)) (mul_ne_zero two_ne_zero ha0)
    have dz := (((RightDer.const 0).sub hb).add dS).div (RightDer.const (2 * a)) (mul_ne_zero two_ne_zero ha0)
    have x0 : (0 - b 0 - Real.sqrt (b 0 * b 0 - 4 * a * c 0)) / (2 * a) = s := by
      rw [S0, hb0, hA]
      rw [hA] at ha0
      field_simp
      ring
    have z0 : (0 - b 0 + Real.sqrt (b 0 * b 0 - 4 * a * c 0)) / (2 * a) = h1 / a := by
      rw [S0, hb0, hA]
      rw [hA] at ha0
      field_simp
      ring
    have out : ∀ᶠ t in near0, (0 - b t + Real.sqrt (b t * b t - 4 * a * c t)) / (2 * a) < 0 ∨ 1 < (0 - b t + Real.sqrt (b t * b t - 4 * a * c t)) / (2 * a) := by
      rcases lt_or_gt_of_ne ha0 with q | q
      · refine (dz.lt (c := 0) ?_).mono fun t k => Or.inl k
        rw [z0]
        exact div_neg_of_pos_of_neg p1 q
      · refine (dz.gt (c := 1) ?_).mono fun t k => Or.inr k
        rw [z0, lt_div_iff₀ q]
        linarith
    refine ⟨_, _, dx, x0, ?_⟩
    filter_upwards [dx.gt (by rw [x0]; exact s0), dx.lt (by rw [x0]; exact s1), out, dD.gt (c := ε) (by rw [D0]; exact t1)] with t q1 q2 q3 q4
    refine ⟨?_, q1.le, q2.le⟩
    have sq : Real.sqrt (b t * b t - 4 * a * c t) ^ 2 = b t * b t - 4 * a * c t := Real.sq_sqrt (by linarith)
    generalize Real.sqrt (b t * b t - 4 * a * c t) = S at *
    have fac : ∀ r, a * r ^ 2 + b t * r + c t = a * (r - (0 - b t - S) / (2 * a)) * (r - (0 - b t + S) / (2 * a)) := by
      intro r
      field_simp
      linear_combination sq / 1
    refine bilinearSolve_unique hε q1.le q2.le (by rw [fac]; ring) (fun r r0 r1 hr => ?_) (Or.inr ⟨ha, Or.inr q4.le⟩)
    rw [fac, mul_eq_zero, mul_eq_zero] at hr
    rcases hr with (k | k) | k
    · exact absurd k ha0
    · linarith
    · rcases q3 with q | q <;> linarith

variable {n : ℕ} {v : ℕ → P2 ℝ} {ε : ℝ} {i : ℕ} {s : ℝ} {p : ℝ → P2 ℝ} {w : P2 ℝ} {d : Domain ℝ}

/-- The parallel parameterization. -/
theorem parallel_path (h : ConvexDomain d n v) (hε : 0 < ε) (hi : i < n) (s0 : 0 < s) (s1 : s < 1)
    (tol : let l2 := P2.dot (v i - v ((i + n - 1) % n)) (v i - v ((i + n - 1) % n))
      let h1 := leftOf n v i (v ((i + n - 2) % n)) / l2
      let h2 := leftOf n v i (v ((i + 1) % n)) / l2
      (h1 = h2 ∧ ε < h1) ∨ (ε ≤ |h1 - h2| ∧ ε < (h1 * (1 - s) + h2 * s) ^ 2))
    (away : ∀ j < n, j ≠ i → ∀ k < n, ε * leftOf n v j (v k) < leftOf n v j (sidePoint n v i s))
    (hp : DomainPath n v i s p w) {mult : List ℝ} (hm : parallelMultipliers d = .ok mult) :
    ∃ (f : ℝ → ℕ → P2 ℝ) (x y : ℝ → ℝ) (x' y' : ℝ), (∀ᶠ t in near0, ∀ j < n, parallelMap ε mult d j (p t) = .ok (f t j)) ∧
      RightDer x x' ∧ RightDer y y' ∧ x 0 = s ∧ y 0 = 0 ∧ (∀ᶠ t in near0, (0 ≤ x t ∧ x t ≤ 1) ∧ 0 ≤ y t) ∧
      (∀ᶠ t in near0, f t i = ⟨x t, y t⟩ ∧ ∀ j < n, j ≠ i → ε ≤ (f t j).y) ∧ 0 ≤ y' ∧ (0 < inward n v i w → 0 < y') := by
  have hn := h.hn
  obtain ⟨m', far, e1, g1, g2, g3, g4⟩ := C15_parallel h ε
  rw [hm] at e1
  cases e1
  have hex : ∀ t j, ∃ z, j < n → bilinearSide ε d j (p t) = .ok z := by
    intro t j
    by_cases hj : j < n
    · obtain ⟨z, hz⟩ := g4 hε j hj (p t)
      exact ⟨z, fun _ => hz⟩
    · exact ⟨0, fun q => absurd q hj⟩
  choose z hz using hex
  obtain ⟨p1, p2, k1, k2, k3, k4, k5, k6, _⟩ := bilinearMap_inverts h hε hi
  have hdu := h.du_pos hi
  dsimp only at tol
  rw [show v i - v ((i + n - 1) % n) = duOf n v i from rfl, k5, k6, mul_div_cancel_left₀ _ hdu.ne', mul_div_cancel_left₀ _ hdu.ne'] at tol
  -- local coordinates of the path
  have dX : RightDer (fun t => P2.dot (p t - v (prevIx n i)) (duOf n v i) / P2.dot (duOf n v i) (duOf n v i))
      ((w.x * (duOf n v i).x + w.y * (duOf n v i).y) / P2.dot (duOf n v i) (duOf n v i)) := by
    refine (((((hp.derX.sub (RightDer.const (v (prevIx n i)).x)).mul (RightDer.const (duOf n v i).x)).add
      ((hp.derY.sub (RightDer.const (v (prevIx n i)).y)).mul (RightDer.const (duOf n v i).y))).div (RightDer.const (P2.dot (duOf n v i) (duOf n v i))) hdu.ne').congr
      (Eventually.of_forall fun t => ?_)).congr_der ?_
    · unfold P2.dot
      rw [P2.sub_x, P2.sub_y]
    · field_simp
      ring
  have dY : RightDer (fun t => leftOf n v i (p t) / P2.dot (duOf n v i) (duOf n v i)) (inward n v i w / P2.dot (duOf n v i) (duOf n v i)) := by
    refine ((leftOf_path hp i).div (RightDer.const (P2.dot (duOf n v i) (duOf n v i))) hdu.ne').congr_der ?_
    field_simp
    ring
  have X0 : P2.dot (p 0 - v (prevIx n i)) (duOf n v i) / P2.dot (duOf n v i) (duOf n v i) = s := by
    rw [hp.start, div_eq_iff hdu.ne']
    unfold sidePoint P2.dot duOf
    change ((1 - s) • v (prevIx n i) + s • v i - v (prevIx n i)).x * (v i - v (prevIx n i)).x + ((1 - s) • v (prevIx n i) + s • v i - v (prevIx n i)).y * (v i - v (prevIx n i)).y =
      s * ((v i - v (prevIx n i)).x * (v i - v (prevIx n i)).x + (v i - v (prevIx n i)).y * (v i - v (prevIx n i)).y)
    simp only [P2.sub_x, P2.sub_y, P2.add_x, P2.add_y, P2.smul_x, P2.smul_y]
    ring
  have Y0 : leftOf n v i (p 0) / P2.dot (duOf n v i) (duOf n v i) = 0 := by
    rw [hp.start, show leftOf n v i (sidePoint n v i s) = 0 from leftOf_sidePoint n v i s, zero_div]
  have db := ((dX.mul (RightDer.const p2.y)).sub ((dX.add (RightDer.const 1)).mul (RightDer.const p1.y))).add ((RightDer.const (p1.x - p2.x)).mul dY)
  have dc := (dX.mul (RightDer.const p1.y)).sub (dY.mul (RightDer.const p1.x))
  obtain ⟨x, x', hx, hx0, hs⟩ := solve_path hε db dc (by rw [X0, Y0]; ring) (by rw [X0, Y0]; ring) s0 s1 k3 k4 tol
  obtain ⟨f0, _, _⟩ := g1 i hi
  refine ⟨fun t j => ⟨z t j, leftOf n v j (p t) / far j⟩, x, fun t => leftOf n v i (p t) / far i, x', inward n v i w / far i, ?_, hx, ?_, hx0, ?_, ?_, ?_, ?_, ?_⟩
  · exact Eventually.of_forall fun t j hj => g2 j hj (p t) _ (hz t j hj)
  · refine ((leftOf_path hp i).div (RightDer.const (far i)) f0.ne').congr_der ?_
    field_simp
    ring
  · dsimp only
    rw [hp.start, show leftOf n v i (sidePoint n v i s) = 0 from leftOf_sidePoint n v i s, zero_div]
  · filter_upwards [hs, hp.inside] with t q hin
    exact ⟨q.2, div_nonneg (hin i hi) f0.le⟩
  · have A : ∀ᶠ t in near0, ∀ j < n, j ≠ i → ε ≤ leftOf n v j (p t) / far j := by
      refine (Filter.eventually_all_finite (finite_lt_nat n)).mpr fun j hj => ?_
      by_cases a : j = i
      · exact Eventually.of_forall fun t q => absurd a q
      obtain ⟨fj, ⟨k, hk, ek⟩, _⟩ := g1 j hj
      refine ((leftOf_path hp j).gt (c := ε * far j) (by rw [hp.start, ek]; exact away j hj a k hk)).mono fun t q _ => ?_
      rw [le_div_iff₀ fj]
      exact q.le
    filter_upwards [hs, A] with t q q2
    refine ⟨?_, q2⟩
    congr 1
    have e := hz t i hi
    unfold bilinearSide at e
    have hp1 : prevIx n i < n := prevIx_lt (by omega)
    have hp2 : prevIx n i 2 < n := prevIx_lt (by omega)
    have hnx : nextIx n i < n := nextIx_lt (by omega)
    dsimp only at e
    rw [h.vertices_eq, length_tab, vget_tab _ hp2, M_bind_ok, vget_tab _ hp1, M_bind_ok, vget_tab _ hi, M_bind_ok, vget_tab _ hnx, M_bind_ok] at e
    change (d.toLocal i (v ((i + n - 2) % n) - v ((i + n - 1) % n)) >>= _) = _ at e
    rw [k1, M_bind_ok] at e
    change (d.toLocal i (v ((i + 1) % n) - v i) >>= _) = _ at e
    rw [k2, M_bind_ok, h.toLocal_prev hi, M_bind_ok] at e
    have e2 := e.symm.trans q.1
    exact Except.ok.inj e2
  · exact div_nonneg (inward_nonneg hp hi) f0.le
  · intro q
    exact div_pos q f0

end Surf

end Transfinite
