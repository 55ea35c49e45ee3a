import Verif.Props.Circular

/-! # C105: the curves of constant distance in the circular parameterization -/

namespace Transfinite

namespace Spec

/-- Half of the angle of the arc that belongs to distance `h` on the boundary of a disc with `n` sides: `π / n` for the side itself (`h = 0`), and `3π / n` together with
the two adjacent sides (`h = 1`). -/
noncomputable def arcAngle (n : ℕ) (h : ℝ) : ℝ := (2 * h + 1) * Real.pi / n

/-- The circle of centre `(o, 0)` and radius `R` passes through both ends of that arc, and there its angle to the boundary circle is `hπ`: the direction of
the boundary turned clockwise by this angle is perpendicular to the radius. -/
def CurveOf (n : ℕ) (h o R : ℝ) : Prop :=
  0 < R ∧ (∀ s : ℝ, s = 1 ∨ s = -1 → (Real.cos (arcAngle n h) - o) ^ 2 + (s * Real.sin (arcAngle n h)) ^ 2 = R ^ 2) ∧
    (Real.cos (arcAngle n h) - o) * (-Real.sin (arcAngle n h - h * Real.pi)) + Real.sin (arcAngle n h) * Real.cos (arcAngle n h - h * Real.pi) = 0

end Spec

open Spec

namespace Param

variable {ε : ℝ} {n : ℕ} {h : ℝ}

theorem arcAngle_range (hn : 4 ≤ n) (h0 : 0 ≤ h) (h1 : h ≤ 1) : 0 < arcAngle n h ∧ arcAngle n h < Real.pi := by
  have hn' : (4 : ℝ) ≤ n := by exact_mod_cast hn
  have hp := Real.pi_pos
  unfold arcAngle
  constructor
  · positivity
  · rw [div_lt_iff₀ (by linarith)]
    nlinarith

theorem hcircle_line (hn : 0 < n) (h : ℝ) (hl : |Real.sin (h * Real.pi - arcAngle n h)| < ε) :
    hcircle ε n h = .ok (⟨Real.cos (arcAngle n h), Real.sin (arcAngle n h)⟩, 0) := by
  unfold hcircle
  simp only [show (Libm.pi : ℝ) = Real.pi from rfl, show (Libm.cos : ℝ → ℝ) = Real.cos from rfl, show (Libm.sin : ℝ → ℝ) = Real.sin from rfl]
  rw [fdiv_of_ne (by positivity), M_bind_ok]
  exact if_pos hl

theorem hcircle_curve (hε : 0 < ε) (hn : 0 < n) (h : ℝ) (hl : ε ≤ |Real.sin (h * Real.pi - arcAngle n h)|) (hs : Real.sin (arcAngle n h) ≠ 0) :
    ∃ o R, hcircle ε n h = .ok (⟨o, 0⟩, R) ∧ CurveOf n h o R := by
  have ht : Real.sin (h * Real.pi - arcAngle n h) ≠ 0 := fun w => by rw [w, abs_zero] at hl; linarith
  set O : P2 ℝ := ⟨Real.cos (arcAngle n h) + Real.sin (arcAngle n h) * Real.cos (h * Real.pi - arcAngle n h) / Real.sin (h * Real.pi - arcAngle n h), 0⟩ with hO
  set P : P2 ℝ := ⟨Real.cos (arcAngle n h), Real.sin (arcAngle n h)⟩ with hP
  have dd : P2.dot (O - P) (O - P) = (P.x - O.x) ^ 2 + P.y ^ 2 := by
    change (O.x - P.x) * (O.x - P.x) + (O.y - P.y) * (O.y - P.y) = _
    rw [show O.y = 0 from rfl]
    ring
  have pos : 0 < (P.x - O.x) ^ 2 + P.y ^ 2 := by
    have : 0 < P.y ^ 2 := by change 0 < Real.sin (arcAngle n h) ^ 2; positivity
    positivity
  refine ⟨O.x, (O - P).norm, ?_, ?_, ?_, ?_⟩
  · unfold hcircle
    simp only [show (Libm.pi : ℝ) = Real.pi from rfl, show (Libm.cos : ℝ → ℝ) = Real.cos from rfl, show (Libm.sin : ℝ → ℝ) = Real.sin from rfl]
    rw [fdiv_of_ne (by positivity), M_bind_ok]
    change (if |Real.sin (h * Real.pi - arcAngle n h)| < ε then _ else _) = _
    rw [if_neg (not_lt.mpr hl)]
    change (do let q ← fdiv (Real.sin (arcAngle n h) * Real.cos (h * Real.pi - arcAngle n h)) (Real.sin (h * Real.pi - arcAngle n h)); _) = _
    rw [fdiv_of_ne ht, M_bind_ok]
    rfl
  · change 0 < √(P2.dot (O - P) (O - P))
    rw [dd]
    exact Real.sqrt_pos.mpr pos
  · intro s hs
    have : (s * Real.sin (arcAngle n h)) ^ 2 = P.y ^ 2 := by
      change _ = Real.sin (arcAngle n h) ^ 2
      rcases hs with rfl | rfl <;> ring
    rw [this]
    change _ = √(P2.dot (O - P) (O - P)) ^ 2
    rw [dd, Real.sq_sqrt pos.le]
  · rw [← Real.sin_neg, neg_sub, ← Real.cos_neg (arcAngle n h - h * Real.pi), neg_sub, hO]
    dsimp only
    have := div_mul_cancel₀ (Real.sin (arcAngle n h) * Real.cos (h * Real.pi - arcAngle n h)) ht
    linear_combination -this

/-- C105: at distance `h` the curve is the vertical line at the ends of the arc, if there its direction is nearly vertical, and otherwise the circle with a centre on
the axis of the side through the ends of the arc, with angle `hπ` to the boundary. -/
theorem C105_curve (hε : 0 < ε) (hn : 4 ≤ n) (h0 : 0 ≤ h) (h1 : h ≤ 1) : ∃ O R, hcircle ε n h = .ok (O, R) ∧
    (|Real.sin (arcAngle n h - h * Real.pi)| < ε → R = 0 ∧ O.x = Real.cos (arcAngle n h)) ∧ (ε ≤ |Real.sin (arcAngle n h - h * Real.pi)| → O.y = 0 ∧ CurveOf n h O.x R) := by
  obtain ⟨a0, a1⟩ := arcAngle_range hn h0 h1
  have e : |Real.sin (arcAngle n h - h * Real.pi)| = |Real.sin (h * Real.pi - arcAngle n h)| := by rw [← neg_sub, Real.sin_neg, abs_neg]
  rw [e]
  rcases lt_or_ge |Real.sin (h * Real.pi - arcAngle n h)| ε with q | q
  · exact ⟨_, _, hcircle_line (by omega) h q, fun _ => ⟨rfl, rfl⟩, fun w => absurd q (not_lt.mpr w)⟩
  · obtain ⟨o, R, e1, e2⟩ := hcircle_curve hε (by omega) h q (Real.sin_pos_of_pos_of_lt_pi a0 a1).ne'
    exact ⟨_, _, e1, fun w => absurd w (not_lt.mpr q), fun _ => ⟨rfl, e2⟩⟩

/-- The curve of a distance is unique. -/
theorem curveOf_unique {o o' R R' : ℝ} (hs : Real.sin (arcAngle n h - h * Real.pi) ≠ 0) (a : CurveOf n h o R) (b : CurveOf n h o' R') : o = o' ∧ R = R' := by
  have e : o = o' := by
    have := mul_left_cancel₀ hs (show Real.sin (arcAngle n h - h * Real.pi) * o = Real.sin (arcAngle n h - h * Real.pi) * o' by linear_combination a.2.2 - b.2.2)
    exact this
  subst e
  refine ⟨rfl, ?_⟩
  have := (a.2.1 1 (Or.inl rfl)).symm.trans (b.2.1 1 (Or.inl rfl))
  exact (pow_left_inj₀ a.1.le b.1.le (by norm_num)).mp this

/-- C105: at distance 0 and at distance 1 the curve is the boundary circle itself. -/
theorem C105_ends (hε : 0 < ε) (hn : 4 ≤ n) (h01 : h = 0 ∨ h = 1) (hs : ε ≤ Real.sin (arcAngle n h)) : hcircle ε n h = .ok (⟨0, 0⟩, 1) := by
  have r : 0 ≤ h ∧ h ≤ 1 := by rcases h01 with rfl | rfl <;> norm_num
  obtain ⟨a0, a1⟩ := arcAngle_range hn r.1 r.2
  have sp := Real.sin_pos_of_pos_of_lt_pi a0 a1
  have e : |Real.sin (h * Real.pi - arcAngle n h)| = Real.sin (arcAngle n h) := by
    rcases h01 with rfl | rfl
    · rw [zero_mul, zero_sub, Real.sin_neg, abs_neg, abs_of_pos sp]
    · rw [one_mul, Real.sin_pi_sub, abs_of_pos sp]
  have ne : Real.sin (arcAngle n h - h * Real.pi) ≠ 0 := by
    rw [← neg_sub, Real.sin_neg, neg_ne_zero, ← abs_pos, e]
    exact sp
  obtain ⟨o, R, e1, e2⟩ := hcircle_curve hε (by omega) h (by rw [e]; exact hs) sp.ne'
  have c : CurveOf n h 0 1 := by
    refine ⟨one_pos, fun s hs => ?_, ?_⟩
    · have := Real.cos_sq_add_sin_sq (arcAngle n h)
      rcases hs with rfl | rfl <;> linear_combination this
    · rcases h01 with rfl | rfl
      · simp only [zero_mul, sub_zero]; ring
      · rw [one_mul, Real.sin_sub_pi, Real.cos_sub_pi]; ring
  obtain ⟨rfl, rfl⟩ := curveOf_unique ne e2 c
  exact e1

/-- C105: the deviation of a point is the horizontal difference to the curve: moved by it the point is on the curve, in the rightmost one of its points at this
height that do not lie beyond 1 (if there is one). Above 0.8 it is the distance from the centre less the radius. -/
theorem C105_deviation (hε : 0 < ε) (hn : 4 ≤ n) (h0 : 0 ≤ h) (h1 : h ≤ 1) {p : P2 ℝ} {v : ℝ} (e : circleDeviation ε n p h = .ok (some v)) :
    (|Real.sin (arcAngle n h - h * Real.pi)| < ε → p.x + v = Real.cos (arcAngle n h)) ∧
    (ε ≤ |Real.sin (arcAngle n h - h * Real.pi)| → ∃ o R, CurveOf n h o R ∧
      (h ≤ 4 / 5 → (p.x + v - o) ^ 2 + p.y ^ 2 = R ^ 2 ∧ ∀ x ≤ 1, (x - o) ^ 2 + p.y ^ 2 = R ^ 2 → x ≤ p.x + v ∧ p.x + v ≤ 1) ∧
      (4 / 5 < h → v = √((p.x - o) ^ 2 + p.y ^ 2) - R)) := by
  obtain ⟨O, R, c, c1, c2⟩ := C105_curve hε hn h0 h1
  unfold circleDeviation at e
  rw [c, M_bind_ok] at e
  dsimp only at e
  refine ⟨fun q => ?_, fun q => ?_⟩
  · obtain ⟨rfl, d⟩ := c1 q
    rw [if_pos rfl] at e
    cases e
    rw [← d]
    ring
  · obtain ⟨y, k⟩ := c2 q
    obtain ⟨ox, oy⟩ := O
    dsimp only at y k
    subst y
    have hR := k.1
    rw [if_neg k.1.ne'] at e
    refine ⟨ox, R, k, fun w => ?_, fun w => ?_⟩
    · rw [if_neg (not_lt.mpr w)] at e
      dsimp only at e
      rcases lt_or_ge (R * R - (p.y - 0) * (p.y - 0)) 0 with q1 | q1
      · rw [if_pos q1] at e
        cases e
      rw [if_neg (not_lt.mpr q1)] at e
      have e := Option.some.inj (Except.ok.inj e)
      change (if ox + √(R * R - (p.y - 0) * (p.y - 0)) > 1 then ox - √(R * R - (p.y - 0) * (p.y - 0)) else ox + √(R * R - (p.y - 0) * (p.y - 0))) - p.x = v at e
      have sq : √(R * R - (p.y - 0) * (p.y - 0)) ^ 2 = R * R - p.y * p.y := by rw [Real.sq_sqrt q1]; ring
      have s0 := Real.sqrt_nonneg (R * R - (p.y - 0) * (p.y - 0))
      generalize √(R * R - (p.y - 0) * (p.y - 0)) = D at e sq s0
      have fac : ∀ x, (x - ox) ^ 2 + p.y ^ 2 = R ^ 2 → x = ox + D ∨ x = ox - D := by
        intro x hx
        have : (x - (ox + D)) * (x - (ox - D)) = 0 := by linear_combination hx - sq
        rcases mul_eq_zero.mp this with z | z
        · exact Or.inl (by linarith)
        · exact Or.inr (by linarith)
      split_ifs at e with q2
      · have pv : p.x + v = ox - D := by linarith
        rw [pv]
        refine ⟨by linear_combination sq, fun x hx hc => ?_⟩
        rcases fac x hc with z | z <;> exact ⟨by linarith, by linarith⟩
      · have pv : p.x + v = ox + D := by linarith
        rw [pv]
        refine ⟨by linear_combination sq, fun x hx hc => ?_⟩
        rcases fac x hc with z | z <;> exact ⟨by linarith, by linarith⟩
    · rw [if_pos w] at e
      have e := Option.some.inj (Except.ok.inj e)
      rw [← e]
      change √(P2.dot _ _) - R = _
      congr 2
      change (ox - p.x) * (ox - p.x) + (0 - p.y) * (0 - p.y) = _
      ring

/-- C105: a point of deviation 0 is on the curve. -/
theorem C105_root (hε : 0 < ε) (hn : 4 ≤ n) (h0 : 0 ≤ h) (h1 : h ≤ 1) {p : P2 ℝ} (e : circleDeviation ε n p h = .ok (some 0)) :
    (|Real.sin (arcAngle n h - h * Real.pi)| < ε → p.x = Real.cos (arcAngle n h)) ∧
    (ε ≤ |Real.sin (arcAngle n h - h * Real.pi)| → ∃ o R, CurveOf n h o R ∧ (p.x - o) ^ 2 + p.y ^ 2 = R ^ 2) := by
  obtain ⟨a, b⟩ := C105_deviation hε hn h0 h1 e
  refine ⟨fun q => by rw [← a q, add_zero], fun q => ?_⟩
  obtain ⟨o, R, c, c1, c2⟩ := b q
  refine ⟨o, R, c, ?_⟩
  rcases le_or_gt h (4 / 5) with w | w
  · have := (c1 w).1
    rwa [add_zero] at this
  · rw [← Real.sq_sqrt (show 0 ≤ (p.x - o) ^ 2 + p.y ^ 2 by positivity), show √((p.x - o) ^ 2 + p.y ^ 2) = R by have := c2 w; linarith]

/-- C105: the deviation is not a number exactly if the curve is a circle that does not reach the height of the point (and `h` is at most 0.8). -/
theorem C105_nan (hε : 0 < ε) (hn : 4 ≤ n) (h0 : 0 ≤ h) (h1 : h ≤ 1) (p : P2 ℝ) :
    circleDeviation ε n p h = .ok none ↔ h ≤ 4 / 5 ∧ ε ≤ |Real.sin (arcAngle n h - h * Real.pi)| ∧ ∃ o R, CurveOf n h o R ∧ R < |p.y| := by
  obtain ⟨O, R, c, c1, c2⟩ := C105_curve hε hn h0 h1
  unfold circleDeviation
  rw [c, M_bind_ok]
  dsimp only
  rcases lt_or_ge |Real.sin (arcAngle n h - h * Real.pi)| ε with q | q
  · obtain ⟨rfl, _⟩ := c1 q
    rw [if_pos rfl]
    exact ⟨fun w => (by cases w), fun w => absurd q (not_lt.mpr w.2.1)⟩
  · obtain ⟨y, k⟩ := c2 q
    rw [if_neg k.1.ne', y]
    have key : R * R - (p.y - 0) * (p.y - 0) < 0 ↔ R < |p.y| := by
      rw [sub_zero, sub_neg, ← abs_mul_abs_self p.y, ← mul_self_lt_mul_self_iff k.1.le (abs_nonneg _)]
    rcases lt_or_ge (4 / 5) h with w | w
    · rw [if_pos w]
      exact ⟨fun w => (by cases w), fun z => absurd w (not_lt.mpr z.1)⟩
    · rw [if_neg (not_lt.mpr w)]
      by_cases z : R * R - (p.y - 0) * (p.y - 0) < 0
      · rw [if_pos z]
        exact ⟨fun _ => ⟨w, q, O.x, R, k, key.mp z⟩, fun _ => rfl⟩
      · rw [if_neg z]
        refine ⟨fun w => (by cases w), fun ⟨_, _, o, R', k', hr⟩ => absurd (key.mpr ?_) z⟩
        rw [(curveOf_unique (fun w => by rw [w, abs_zero] at q; linarith) k k').2]
        exact hr

/-- With four sides: the circle of distance `2/5`. The hypotheses hold for it, as the crossing angle differs from a right angle there; at distance `1/2` the curve is a line. -/
example : (1 : ℝ) / 100 ≤ |Real.sin (arcAngle 4 (2 / 5) - 2 / 5 * Real.pi)| ∧ |Real.sin (arcAngle 4 (1 / 2) - 1 / 2 * Real.pi)| < 1 / 100 := by
  have e1 : arcAngle 4 (2 / 5) - 2 / 5 * Real.pi = Real.pi / 20 := by unfold arcAngle; push_cast; ring
  have e2 : arcAngle 4 (1 / 2) - 1 / 2 * Real.pi = 0 := by unfold arcAngle; push_cast; ring
  rw [e1, e2, Real.sin_zero, abs_zero]
  refine ⟨?_, by norm_num⟩
  have p3 := Real.pi_pos
  have : 2 / Real.pi * (Real.pi / 20) ≤ Real.sin (Real.pi / 20) := Real.mul_le_sin (by positivity) (by linarith)
  rw [abs_of_pos (Real.sin_pos_of_pos_of_lt_pi (by positivity) (by linarith))]
  refine le_trans ?_ this
  rw [show 2 / Real.pi * (Real.pi / 20) = 1 / 10 by field_simp; norm_num]
  norm_num

theorem sin_twentieth : 1 / 10 ≤ Real.sin (Real.pi / 20) ∧ Real.sin (Real.pi / 20) ≤ 1 / 5 := by
  have p3 := Real.pi_pos
  have p4 := Real.pi_le_four
  refine ⟨?_, (Real.sin_le (by positivity)).trans (by linarith)⟩
  have : 2 / Real.pi * (Real.pi / 20) ≤ Real.sin (Real.pi / 20) := Real.mul_le_sin (by positivity) (by linarith)
  rwa [show 2 / Real.pi * (Real.pi / 20) = 1 / 10 by field_simp; norm_num] at this

/-- C105: in the centre of a four-sided disc all parameters are exactly one half. -/
theorem C105_centre (hε : 0 < ε) (hε1 : ε ≤ 1 / 10) (fmod : ℝ → ℝ → ℝ) (i : ℕ) (θ : ℝ) : circularMap ε fmod 4 i ⟨0, θ⟩ = .ok ⟨1 / 2, 1 / 2⟩ := by
  obtain ⟨s1, s2⟩ := sin_twentieth
  have hpi := Real.pi_pos
  have sc := Real.cos_sq_add_sin_sq (Real.pi / 20)
  have c0 : 0 < Real.cos (Real.pi / 20) := Real.cos_pos_of_mem_Ioo ⟨by linarith, by linarith⟩
  have ang : ∀ h : ℝ, arcAngle 4 h = (2 * h + 1) * Real.pi / 4 := fun h => by unfold arcAngle; push_cast; ring
  set s := Real.sin (Real.pi / 20)
  set c := Real.cos (Real.pi / 20)
  have c1 : c < 1 := by nlinarith
  have f0 : circleDeviation ε 4 ⟨0, 0⟩ 0 = .ok (some 1) := by
    unfold circleDeviation
    rw [C105_ends hε (by norm_num) (Or.inl rfl) ?_, M_bind_ok]
    · have e : (Libm.sqrt (1 * 1 - (0 - 0) * (0 - 0)) : ℝ) = 1 := by
        change √_ = _
        norm_num
      simp only [e]
      norm_num
    · rw [ang, show (2 * 0 + 1) * Real.pi / 4 = Real.pi / 4 by ring, Real.sin_pi_div_four]
      have : (1 : ℝ) ≤ √2 := Real.one_le_sqrt.mpr (by norm_num)
      linarith
  have fhalf : circleDeviation ε 4 ⟨0, 0⟩ (1 / 2) = .ok (some 0) := by
    unfold circleDeviation
    rw [hcircle_line (by norm_num) _ (by rw [ang, show 1 / 2 * Real.pi - (2 * (1 / 2) + 1) * Real.pi / 4 = 0 by ring, Real.sin_zero, abs_zero]; exact hε), M_bind_ok]
    dsimp only
    rw [if_pos rfl, ang, show (2 * (1 / 2) + 1) * Real.pi / 4 = Real.pi / 2 by ring, Real.cos_pi_div_two, sub_zero]
  have some_of : ∀ h : ℝ, 0 ≤ h → h ≤ 1 → ∃ v, circleDeviation ε 4 ⟨0, 0⟩ h = .ok (some v) := by
    intro h h0 h1
    obtain ⟨r, e⟩ := circleDeviation_total hε (by norm_num : 0 < 4) ⟨0, 0⟩ h
    cases r with
    | some v => exact ⟨v, e⟩
    | none =>
      obtain ⟨_, _, o, R, k, hr⟩ := (C105_nan hε (le_refl 4) h0 h1 ⟨0, 0⟩).mp e
      have := k.1
      rw [abs_zero] at hr
      linarith
  obtain ⟨v, ev⟩ := some_of (2 / 5) (by norm_num) (by norm_num)
  obtain ⟨w, ew⟩ := some_of (3 / 5) (by norm_num) (by norm_num)
  have vpos : 0 < v := by
    have a1 : arcAngle 4 (2 / 5) = Real.pi / 2 - Real.pi / 20 := by rw [ang]; ring
    have a2 : arcAngle 4 (2 / 5) - 2 / 5 * Real.pi = Real.pi / 20 := by rw [ang]; ring
    obtain ⟨o, R, k, k1, _⟩ := (C105_deviation hε (le_refl 4) (by norm_num) (by norm_num) ev).2 (by rw [a2, abs_of_pos (by linarith)]; linarith)
    obtain ⟨_, k1⟩ := k1 (by norm_num)
    obtain ⟨r0, k2, k3⟩ := k
    have k2 := k2 1 (Or.inl rfl)
    rw [a2, a1, Real.cos_pi_div_two_sub, Real.sin_pi_div_two_sub] at k3
    rw [a1, Real.cos_pi_div_two_sub, Real.sin_pi_div_two_sub] at k2
    change (s - o) * -s + c * c = 0 at k3
    change (s - o) ^ 2 + (1 * c) ^ 2 = R ^ 2 at k2
    have hR : s * R = c := by
      have : (s * R) ^ 2 = c ^ 2 := by linear_combination -s ^ 2 * k2 + (s * (s - o) + c * c) * (-k3) + c ^ 2 * sc
      exact (pow_left_inj₀ (by positivity) c0.le (by norm_num)).mp this
    have e : s * (o + R) = (1 - c) * (1 + 2 * c) := by linear_combination hR + k3 + sc
    have p1 : 0 < o + R := by
      have : 0 < s * (o + R) := by rw [e]; nlinarith
      exact (pos_iff_pos_of_mul_pos this).mp (by linarith)
    have p2 : o + R ≤ 1 := by
      have : s * (o + R) ≤ s * 1 := by rw [e]; nlinarith
      exact le_of_mul_le_mul_left this (by linarith)
    have := (k1 (o + R) p2 (by ring)).1
    dsimp only at this
    linarith
  have wneg : w < 0 := by
    have a1 : arcAngle 4 (3 / 5) = Real.pi / 20 + Real.pi / 2 := by rw [ang]; ring
    have a2 : arcAngle 4 (3 / 5) - 3 / 5 * Real.pi = -(Real.pi / 20) := by rw [ang]; ring
    obtain ⟨o, R, k, k1, _⟩ := (C105_deviation hε (le_refl 4) (by norm_num) (by norm_num) ew).2 (by rw [a2, Real.sin_neg, abs_neg, abs_of_pos (by linarith)]; linarith)
    obtain ⟨k0, k1⟩ := k1 (by norm_num)
    obtain ⟨r0, k2, k3⟩ := k
    have k2 := k2 1 (Or.inl rfl)
    rw [a2, a1, Real.cos_add_pi_div_two, Real.sin_add_pi_div_two, Real.sin_neg, Real.cos_neg] at k3
    rw [a1, Real.cos_add_pi_div_two, Real.sin_add_pi_div_two] at k2
    change (-s - o) * - -s + c * c = 0 at k3
    change (-s - o) ^ 2 + (1 * c) ^ 2 = R ^ 2 at k2
    dsimp only at k0 k1
    have hR : s * R = c := by
      have : (s * R) ^ 2 = c ^ 2 := by linear_combination -s ^ 2 * k2 + (s * (-s - o) - c * c) * k3 + c ^ 2 * sc
      exact (pow_left_inj₀ (by positivity) c0.le (by norm_num)).mp this
    have e : s * (o - R) = -((1 - c) * (1 + 2 * c)) := by linear_combination -hR - k3 - sc
    have p1 : o - R < 0 := by
      have : s * (o - R) < s * 0 := by rw [e]; nlinarith
      exact lt_of_mul_lt_mul_left this (by linarith)
    have le1 := (k1 (o - R) (by linarith) (by ring)).2
    have big : 1 < o + R := by
      have : s * 1 < s * (o + R) := by
        have : s * (o + R) = (2 * c - 1) * (c + 1) := by linear_combination hR - k3 - sc
        rw [this]
        nlinarith
      exact lt_of_mul_lt_mul_left this (by linarith)
    have fac : (0 + w - (o + R)) * (0 + w - (o - R)) = 0 := by linear_combination k0
    rcases mul_eq_zero.mp fac with z | z
    · linarith
    · linarith
  unfold circularMap
  dsimp only
  rw [fdiv_of_ne (by norm_num), M_bind_ok, fdiv_of_ne (by norm_num), M_bind_ok, if_neg (by linarith)]
  simp only [zero_mul]
  rw [if_neg (lt_irrefl _)]
  unfold bisect
  rw [show ((0 : ℝ) + 4 / 5) / 2 = 2 / 5 by norm_num]
  rw [if_neg (by rintro ⟨_, w⟩; norm_num at w; linarith), f0, M_bind_ok, ev, M_bind_ok]
  dsimp only
  rw [if_neg (by linarith), if_pos (by linarith)]
  unfold bisect
  rw [show ((2 / 5 : ℝ) + 4 / 5) / 2 = 3 / 5 by norm_num]
  rw [if_neg (by rintro ⟨_, w⟩; norm_num at w; linarith), ev, M_bind_ok, ew, M_bind_ok]
  dsimp only
  rw [if_pos (mul_neg_of_pos_of_neg vpos wneg)]
  unfold bisect
  rw [show ((2 / 5 : ℝ) + 3 / 5) / 2 = 1 / 2 by norm_num]
  rw [if_neg (by rintro ⟨_, w⟩; norm_num at w; linarith), ev, M_bind_ok, fhalf, M_bind_ok]
  dsimp only
  rw [mul_zero, if_neg (lt_irrefl _), if_neg (lt_irrefl _)]
  rfl

/-- C105: the curves of the two neighbors of a side through a point of this side touch each other. In the frame of the side, where the previous one is turned by `-2π/n` and the
next one by `2π/n`, the curve of distance `h` from the previous side and the one of distance `1 - h` from the next side both pass through the point of the boundary at the
angle `(2h - 1)π/n`, and they have a common tangent there. -/
theorem C105_touch (hn : 0 < n) {o R o' R' : ℝ} (c : CurveOf n h o R) (c' : CurveOf n (1 - h) o' R') :
    let δ := 2 * Real.pi / n
    let p : P2 ℝ := ⟨Real.cos ((2 * h - 1) * Real.pi / n), Real.sin ((2 * h - 1) * Real.pi / n)⟩
    let O : P2 ℝ := ⟨o * Real.cos (-δ), o * Real.sin (-δ)⟩
    let O' : P2 ℝ := ⟨o' * Real.cos δ, o' * Real.sin δ⟩
    (p.x - O.x) ^ 2 + (p.y - O.y) ^ 2 = R ^ 2 ∧ (p.x - O'.x) ^ 2 + (p.y - O'.y) ^ 2 = R' ^ 2 ∧
      ∃ t : P2 ℝ, t.x ^ 2 + t.y ^ 2 = 1 ∧ P2.dot (p - O) t = 0 ∧ P2.dot (p - O') t = 0 := by
  intro δ p O O'
  have hn' : (n : ℝ) ≠ 0 := by positivity
  set θ := (2 * h - 1) * Real.pi / n with hθ
  have eA : arcAngle n h = θ + δ := by rw [hθ]; simp only [δ]; unfold arcAngle; field_simp; ring
  have eA' : arcAngle n (1 - h) = δ - θ := by rw [hθ]; simp only [δ]; unfold arcAngle; field_simp; ring
  obtain ⟨_, c1, c2⟩ := c
  obtain ⟨_, d1, d2⟩ := c'
  have c1 := c1 1 (Or.inl rfl)
  have d1 := d1 1 (Or.inl rfl)
  rw [eA] at c1 c2
  rw [eA'] at d1 d2
  have tr := Real.cos_sq_add_sin_sq θ
  have dr := Real.cos_sq_add_sin_sq δ
  have hr := Real.cos_sq_add_sin_sq (h * Real.pi)
  rw [Real.cos_add, Real.sin_add] at c1
  rw [Real.cos_sub, Real.sin_sub] at d1
  refine ⟨?_, ?_, ⟨-Real.sin (θ - h * Real.pi), Real.cos (θ - h * Real.pi)⟩, ?_, ?_, ?_⟩
  · change (Real.cos θ - o * Real.cos (-δ)) ^ 2 + (Real.sin θ - o * Real.sin (-δ)) ^ 2 = R ^ 2
    rw [Real.cos_neg, Real.sin_neg, ← c1]
    linear_combination (1 - (Real.cos δ ^ 2 + Real.sin δ ^ 2)) * tr + (o ^ 2) * dr - dr
  · change (Real.cos θ - o' * Real.cos δ) ^ 2 + (Real.sin θ - o' * Real.sin δ) ^ 2 = R' ^ 2
    rw [← d1]
    linear_combination (1 - (Real.cos δ ^ 2 + Real.sin δ ^ 2)) * tr + (o' ^ 2) * dr - dr
  · have := Real.cos_sq_add_sin_sq (θ - h * Real.pi)
    linear_combination this
  · change (Real.cos θ - o * Real.cos (-δ)) * -Real.sin (θ - h * Real.pi) + (Real.sin θ - o * Real.sin (-δ)) * Real.cos (θ - h * Real.pi) = 0
    have k1 : Real.sin (h * Real.pi) + o * Real.sin (θ + δ - h * Real.pi) = 0 := by
      have : Real.sin (h * Real.pi) = Real.sin (θ + δ - (θ + δ - h * Real.pi)) := by congr 1; ring
      rw [this, Real.sin_sub]
      linear_combination c2
    have k2 : Real.sin (h * Real.pi) = Real.sin (θ - (θ - h * Real.pi)) := by congr 1; ring
    rw [k2, Real.sin_sub, show θ + δ - h * Real.pi = (θ - h * Real.pi) + δ by ring, Real.sin_add] at k1
    rw [Real.cos_neg, Real.sin_neg]
    linear_combination k1
  · change (Real.cos θ - o' * Real.cos δ) * -Real.sin (θ - h * Real.pi) + (Real.sin θ - o' * Real.sin δ) * Real.cos (θ - h * Real.pi) = 0
    have k1 : Real.sin (h * Real.pi) - o' * Real.sin (δ - (θ - h * Real.pi)) = 0 := by
      have e1 : Real.sin (δ - θ - (1 - h) * Real.pi) = -Real.sin (δ - (θ - h * Real.pi)) := by
        rw [show δ - θ - (1 - h) * Real.pi = (δ - (θ - h * Real.pi)) - Real.pi by ring, Real.sin_sub_pi]
      have e2 : Real.sin (h * Real.pi) = Real.sin (δ - θ - (δ - θ - (1 - h) * Real.pi)) := by
        rw [show δ - θ - (δ - θ - (1 - h) * Real.pi) = Real.pi - h * Real.pi by ring, Real.sin_pi_sub]
      rw [e2, Real.sin_sub (δ - θ), ← neg_neg (Real.sin (δ - (θ - h * Real.pi))), ← e1]
      linear_combination d2
    have k2 : Real.sin (h * Real.pi) = Real.sin (θ - (θ - h * Real.pi)) := by congr 1; ring
    rw [k2, Real.sin_sub θ, Real.sin_sub δ] at k1
    linear_combination k1

/-- With five sides, in the middle of a side: there are such circles. -/
example : ∃ o R, CurveOf 5 (1 / 2) o R ∧ CurveOf 5 (1 - 1 / 2) o R := by
  have e : 1 / 2 * Real.pi - arcAngle 5 (1 / 2) = Real.pi / 10 := by unfold arcAngle; push_cast; ring
  have hp := Real.pi_pos
  have sp : 0 < Real.sin (Real.pi / 10) := Real.sin_pos_of_pos_of_lt_pi (by positivity) (by linarith)
  obtain ⟨a0, a1⟩ := arcAngle_range (n := 5) (h := 1 / 2) (by norm_num) (by norm_num) (by norm_num)
  obtain ⟨o, R, _, c⟩ := hcircle_curve (ε := Real.sin (Real.pi / 10)) sp (by norm_num : 0 < 5) (1 / 2) (by rw [e, abs_of_pos sp]) (Real.sin_pos_of_pos_of_lt_pi a0 a1).ne'
  exact ⟨o, R, c, by rw [show (1 : ℝ) - 1 / 2 = 1 / 2 by norm_num]; exact c⟩

end Param

end Transfinite
