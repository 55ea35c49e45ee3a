import Verif.Lemmas.ClassA
import Verif.Spec.Curve

/-! # C58, C67: fitting of Class A Bézier curves -/

namespace Transfinite.BCurve

open Spec RMF

variable {opt : ℕ → ℝ × ℝ} {degree : ℕ} {pa va pb vb : P3 ℝ}

/-- A successful call, opened up: the final degree, the directions, the matrix and its error. -/
theorem fit_spec {fuel : ℕ} (hd : 1 ≤ degree) {c : BCurve ℝ} (h : fitClassA opt fuel degree pa va pb vb = .ok c) :
    ∃ N k v0 v1 A e, N = degree * 2 ^ k ∧ (k = 0 ∨ N < 100) ∧ va.normalize = .ok v0 ∧ vb.normalize = .ok v1 ∧ setupMatrix v0 v1 N (opt N).1 (opt N).2 = .ok A ∧
      vertex A pa v0 N ≠ pa ∧ pb ≠ pa ∧ (|e| ≤ 1 / 1000 ∨ 50 ≤ N) ∧
      e * ((vertex A pa v0 N - pa).norm * (pb - pa).norm) = P3.dot (vertex A pa v0 N - pa) (pb - pa) - (vertex A pa v0 N - pa).norm * (pb - pa).norm ∧
      c = ⟨N, tab (N + 1) (Function.update (vertex A pa (((pb - pa).norm / (vertex A pa v0 N - pa).norm) • v0)) N pb)⟩ := by
  induction fuel generalizing degree with
  | zero => simp [fitClassA] at h
  | succ fuel ih =>
    unfold fitClassA at h
    obtain ⟨v0, h0, h⟩ := bind_ok h
    obtain ⟨v1, h1, h⟩ := bind_ok h
    obtain ⟨A, hA, h⟩ := bind_ok h
    obtain ⟨r, hr, h⟩ := bind_ok h
    rw [replicate_eq_tab] at hr
    obtain ⟨hr2, ne1, ne2, hr1⟩ := eval_ok hd hr
    by_cases hc : |r.1| > 1 / 1000 ∧ degree < 50
    · rw [if_pos hc] at h
      obtain ⟨N, k, w0, w1, B, e, hN, hk, rest⟩ := ih (by omega) h
      refine ⟨N, k + 1, w0, w1, B, e, by rw [hN, pow_succ]; ring, Or.inr ?_, rest⟩
      rcases hk with rfl | hk
      · rw [hN]; omega
      · exact hk
    · rw [if_neg hc, hr2, finish_eq hd _ _ _ _ ne1] at h
      refine ⟨degree, 0, v0, v1, A, r.1, by simp, Or.inl rfl, h0, h1, hA, ne1, ne2, ?_, hr1, (Except.ok.inj h).symm⟩
      by_contra hcon
      push Not at hcon
      exact hc hcon

theorem normalize_dir {v w : P3 ℝ} (h : v.normalize = .ok w) : 0 < v.norm⁻¹ ∧ w = v.norm⁻¹ • v := by
  obtain ⟨n, e, _⟩ := P3.normalize_unit h
  exact ⟨inv_pos.mpr (P3.norm_pos n), e⟩

/-- C58: the fitted curve starts in `pa` and ends in `pb`; unless its degree is 1, its derivative in `pa` is a positive multiple of `va`. The degree is the given one times a power of 2, and below 100 if it was
raised. All this holds for all results `opt` of the optimization. -/
theorem C58_fit {fuel : ℕ} (hd : 1 ≤ degree) {c : BCurve ℝ} (h : fitClassA opt fuel degree pa va pb vb = .ok c) :
    c.cp.length = c.n + 1 ∧ (∃ k, c.n = degree * 2 ^ k ∧ (k = 0 ∨ c.n < 100)) ∧ c.eval 0 = .ok pa ∧ c.eval 1 = .ok pb ∧
      (2 ≤ c.n → ∃ (l : ℝ) (d : P3 ℝ), 0 < l ∧ d = l • va ∧ c.evalDer 0 1 = .ok (pa, [pa, d])) := by
  obtain ⟨N, k, v0, v1, A, e, hN, hk, h0, h1, hA, ne1, ne2, _, _, rfl⟩ := fit_spec hd h
  have hN1 : 1 ≤ N := by rw [hN]; exact Nat.mul_pos hd (by positivity)
  set q := (pb - pa).norm / (vertex A pa v0 N - pa).norm with hq
  set P := Function.update (vertex A pa (q • v0)) N pb with hP
  have hP0 : P 0 = pa := by rw [hP, Function.update_of_ne (by omega)]; rfl
  have hPN : P N = pb := Function.update_self _ _ _
  change (mk' N P).cp.length = N + 1 ∧ (∃ k, N = degree * 2 ^ k ∧ (k = 0 ∨ N < 100)) ∧ (mk' N P).eval 0 = _ ∧ (mk' N P).eval 1 = _ ∧ (2 ≤ N → ∃ (l : ℝ) (d : P3 ℝ), 0 < l ∧ d = l • va ∧ (mk' N P).evalDer 0 1 = _)
  refine ⟨length_tab _ _, ⟨k, hN, hk⟩, ?_, ?_, fun h2 => ?_⟩
  · rw [eval_eq, Ribbon.bezier_zero, hP0]
  · rw [eval_eq, Ribbon.bezier_one, hPN]
  · obtain ⟨hp, hv⟩ := normalize_dir h0
    have hqp : 0 < q := div_pos (P3.norm_pos (sub_ne_zero.mpr ne2)) (P3.norm_pos (sub_ne_zero.mpr ne1))
    refine ⟨N * (q * va.norm⁻¹), _, by positivity, rfl, ?_⟩
    rw [evalDer_eq]
    congr 2
    · rw [Ribbon.bezier_zero, hP0]
    · have e0 : dcurve N P 0 0 = pa := by
        unfold dcurve; rw [if_pos (Nat.zero_le _), Ribbon.bezier_zero]; exact hP0
      have e1 : dcurve N P 0 1 = (N * (q * va.norm⁻¹)) • va := by
        unfold dcurve
        rw [if_pos hN1, Ribbon.bezier_zero, diff_sub, hP0]
        have : P 1 = pa + q • v0 := by
          rw [hP, Function.update_of_ne (by omega)]; rfl
        rw [zero_add, this, add_sub_cancel_left, hv, smul_smul, smul_smul, mul_assoc]
      simp [tab, List.range_succ, e0, e1]

/-- C58: the call terminates for all degrees from 1 (at most 7 nested calls), and the only thing that can go wrong is a division by zero when vectors of length 0 are normalized. -/
theorem C58_terminates {fuel : ℕ} (hd : 1 ≤ degree) (hf : 7 ≤ fuel) : (∃ c, fitClassA opt fuel degree pa va pb vb = .ok c) ∨ fitClassA opt fuel degree pa va pb vb = .error .divZero := by
  have key : ∀ fuel degree, 1 ≤ degree → 50 ≤ degree * 2 ^ fuel → OkOrDiv (fitClassA opt (fuel + 1) degree pa va pb vb) := by
    intro fuel
    induction fuel with
    | zero =>
      intro degree hd h
      unfold fitClassA
      refine (OkOrDiv.normalize _).bind fun v0 h0 => (OkOrDiv.normalize _).bind fun v1 h1 => (setup_total _ _ _ _ _).bind fun A hA => ?_
      rw [replicate_eq_tab]
      refine (eval_total hd _ _ _ _ _).bind fun r hr => ?_
      obtain ⟨hr2, ne1, ne2, hr1⟩ := eval_ok hd hr
      rw [if_neg (fun q => by omega), hr2, finish_eq hd _ _ _ _ ne1]
      exact OkOrDiv.ok _
    | succ fuel ih =>
      intro degree hd h
      unfold fitClassA
      refine (OkOrDiv.normalize _).bind fun v0 h0 => (OkOrDiv.normalize _).bind fun v1 h1 => (setup_total _ _ _ _ _).bind fun A hA => ?_
      rw [replicate_eq_tab]
      refine (eval_total hd _ _ _ _ _).bind fun r hr => ?_
      obtain ⟨hr2, ne1, ne2, hr1⟩ := eval_ok hd hr
      by_cases hc : |r.1| > 1 / 1000 ∧ degree < 50
      · rw [if_pos hc]
        exact ih _ (by omega) (by rw [pow_succ] at h; linarith)
      · rw [if_neg hc, hr2, finish_eq hd _ _ _ _ ne1]
        exact OkOrDiv.ok _
  obtain ⟨f, rfl⟩ : ∃ f, fuel = f + 1 := ⟨fuel - 1, by omega⟩
  refine key f degree hd ?_
  have : 2 ^ 6 ≤ 2 ^ f := Nat.pow_le_pow_right (by norm_num) (by omega)
  nlinarith

/-- C58: with degree 0 an element outside of the vector of control points is written. -/
theorem C58_degree_zero {fuel : ℕ} {v0 v1 : P3 ℝ} {A : ClassA ℝ} (h0 : va.normalize = .ok v0) (h1 : vb.normalize = .ok v1)
    (hA : setupMatrix v0 v1 0 (opt 0).1 (opt 0).2 = .ok A) : fitClassA opt (fuel + 1) 0 pa va pb vb = .error .oob := by
  unfold fitClassA
  rw [h0, M_bind_ok, h1, M_bind_ok, hA, M_bind_ok]
  unfold evalMatrix
  rw [generate_zero _ (by simp)]
  rfl

/-- C58: a result of degree 1 is the line from `pa` to `pb`, so its tangent is `pb - pa`, not `va`. -/
theorem C58_degree_one {fuel : ℕ} (hd : 1 ≤ degree) {c : BCurve ℝ} (h : fitClassA opt fuel degree pa va pb vb = .ok c) (h1 : c.n = 1) :
    c.cp = [pa, pb] ∧ c.evalDer 0 1 = .ok (pa, [pa, pb - pa]) := by
  obtain ⟨N, k, v0, v1, A, e, hN, hk, h0, _, hA, ne1, ne2, _, _, rfl⟩ := fit_spec hd h
  have hN1 : N = 1 := h1
  subst hN1
  set P := Function.update (vertex A pa (((pb - pa).norm / (vertex A pa v0 1 - pa).norm) • v0)) 1 pb with hP
  have hP0 : P 0 = pa := by rw [hP, Function.update_of_ne (by omega)]; rfl
  have hP1 : P 1 = pb := Function.update_self _ _ _
  change tab 2 P = _ ∧ (mk' 1 P).evalDer 0 1 = _
  constructor
  · simp [tab, List.range_succ, hP0, hP1]
  · rw [evalDer_eq, Ribbon.bezier_zero, hP0]
    have e0 : dcurve 1 P 0 0 = pa := by
      unfold dcurve; rw [if_pos (Nat.zero_le _), Ribbon.bezier_zero]; exact hP0
    have e1 : dcurve 1 P 0 1 = pb - pa := by
      unfold dcurve
      rw [if_pos le_rfl, Ribbon.bezier_zero, diff_sub, hP0, hP1]
      simp
    simp [tab, List.range_succ, e0, e1]

theorem rotate_dot2 {d : P3 ℝ} (hd : P3.dot d d = 1) (θ : ℝ) (a b : P3 ℝ) : P3.dot (rotate d θ a) (rotate d θ b) = P3.dot a b := by
  have h := rotate_dot hd θ (a + b)
  rw [rotate_add_vec] at h
  simp only [P3.dot_add_left, P3.dot_add_right] at h
  rw [rotate_dot hd, rotate_dot hd, P3.dot_comm (rotate d θ b), P3.dot_comm b a] at h
  linarith

theorem vertex_leg (A : ClassA ℝ) (p v : P3 ℝ) (i : ℕ) : vertex A p v (i + 2) - vertex A p v (i + 1) = A.apply (vertex A p v (i + 1) - vertex A p v i) := by
  simp only [vertex]
  rw [add_sub_cancel_left, add_sub_cancel_left, Function.iterate_succ_apply']

/-- C67: all but the last leg of the control polygon are generated by one linear map: an isometry `R` times the number `s` found by the optimization. If the last control point had not been replaced
by `pb`, it would be `E`, which is as far from `pa` as `pb`; its distance from `pb` is at most 4.5% of this (its square is at most 2/1000 of the square of `|pb - pa|`), except when the degree reached 50. -/
theorem C67_polygon {fuel : ℕ} (hd : 1 ≤ degree) {c : BCurve ℝ} (h : fitClassA opt fuel degree pa va pb vb = .ok c) (h2 : 2 ≤ c.n) :
    ∃ (P : ℕ → P3 ℝ) (R : P3 ℝ → P3 ℝ) (E : P3 ℝ), c.cp = tab (c.n + 1) P ∧ (∀ a b, R (a + b) = R a + R b) ∧ (∀ a b, P3.dot (R a) (R b) = P3.dot a b) ∧
      (∀ i, i + 2 < c.n → P (i + 2) - P (i + 1) = (opt c.n).2 • R (P (i + 1) - P i)) ∧ E - P (c.n - 1) = (opt c.n).2 • R (P (c.n - 1) - P (c.n - 2)) ∧
      P3.dot (E - pa) (E - pa) = P3.dot (pb - pa) (pb - pa) ∧ (c.n < 50 → P3.dot (E - pb) (E - pb) ≤ 2 / 1000 * P3.dot (pb - pa) (pb - pa)) ∧
      (0 ≤ Real.cos (opt c.n).1 → ∃ l : ℝ, 0 < l ∧ E - P (c.n - 1) = (l * (opt c.n).2 ^ (c.n - 1)) • vb) := by
  obtain ⟨N, k, v0, v1, A, e, hN, hk, h0, h1, hA, ne1, ne2, herr, he, rfl⟩ := fit_spec hd h
  change 2 ≤ N at h2
  dsimp only
  obtain ⟨ua, hs, _, hdir⟩ := setup_spec hA
  have n1 := P3.norm_pos (sub_ne_zero.mpr ne1)
  have n2 := P3.norm_pos (sub_ne_zero.mpr ne2)
  have hqp := div_pos n2 n1
  set q := (pb - pa).norm / (vertex A pa v0 N - pa).norm with hq
  have happ : ∀ v, A.apply v = (opt N).2 • rotate A.axis A.theta v := fun v => by unfold ClassA.apply; rw [hs]
  have hE : vertex A pa (q • v0) N - pa = q • (vertex A pa v0 N - pa) := by rw [vertex_smul, add_sub_cancel_left]
  have hEE : P3.dot (vertex A pa (q • v0) N - pa) (vertex A pa (q • v0) N - pa) = P3.dot (pb - pa) (pb - pa) := by
    rw [hE, P3.dot_smul_left, P3.dot_smul_right, ← P3.norm_mul_self, ← P3.norm_mul_self, hq]
    field_simp
  obtain ⟨m, rfl⟩ : ∃ m, N = m + 2 := ⟨N - 2, by omega⟩
  refine ⟨_, rotate A.axis A.theta, vertex A pa (q • v0) (m + 2), rfl, fun a b => rotate_add_vec _ _ _ _, fun a b => rotate_dot2 ua _ _ _, fun i hi => ?_, ?_, hEE, fun h50 => ?_, fun hc => ?_⟩
  · rw [Function.update_of_ne (by omega), Function.update_of_ne (by omega), Function.update_of_ne (by omega), vertex_leg, happ]
  · rw [Function.update_of_ne (by omega), Function.update_of_ne (by omega), show m + 2 - 1 = m + 1 by omega, show m + 2 - 2 = m by omega, vertex_leg, happ]
  · have herr : |e| ≤ 1 / 1000 := by
      rcases herr with h | h
      · exact h
      · omega
    have hx : vertex A pa (q • v0) (m + 2) - pb = (vertex A pa (q • v0) (m + 2) - pa) - (pb - pa) := by abel
    rw [hx]
    have hmix : P3.dot (vertex A pa (q • v0) (m + 2) - pa) (pb - pa) = (1 + e) * P3.dot (pb - pa) (pb - pa) := by
      rw [hE, P3.dot_smul_left, ← P3.norm_mul_self]
      have : P3.dot (vertex A pa v0 (m + 2) - pa) (pb - pa) = (1 + e) * ((vertex A pa v0 (m + 2) - pa).norm * (pb - pa).norm) := by linarith
      rw [this, hq]
      field_simp
    have hdd := P3.dot_self_nonneg (pb - pa)
    rw [P3.dot_sub_left, P3.dot_sub_right _ (vertex A pa (q • v0) (m + 2) - pa), P3.dot_sub_right (pb - pa), P3.dot_comm (pb - pa) (vertex A pa (q • v0) (m + 2) - pa), hmix, hEE]
    have := (abs_le.mp herr).1
    nlinarith
  · obtain ⟨hp1, hv1⟩ := normalize_dir h1
    obtain ⟨_, _, k0⟩ := P3.normalize_unit h0
    obtain ⟨_, _, k1⟩ := P3.normalize_unit h1
    refine ⟨q * vb.norm⁻¹, by positivity, ?_⟩
    rw [Function.update_of_ne (by omega), show m + 2 - 1 = m + 1 by omega]
    simp only [vertex]
    rw [add_sub_cancel_left]
    have := hdir h2 k0 k1 hc
    rw [show m + 2 - 1 = m + 1 by omega] at this
    rw [apply_iterate_smul, this, hv1, smul_smul, smul_smul]
    congr 1
    ring

/-- C67: the matrix for unit vectors in different, not opposite directions: the rotation axis has the same angle with both of them, and `degree - 1` applications of the matrix take the first one to a multiple of the second one, if `cos phi` is
not negative. -/
theorem C67_matrix {v0 v1 : P3 ℝ} {degree : ℕ} {phi s : ℝ} (k0 : P3.dot v0 v0 = 1) (k1 : P3.dot v1 v1 = 1) (hc : P3.cross v0 v1 ≠ 0) (hd : 2 ≤ degree) :
    ∃ A, setupMatrix v0 v1 degree phi s = .ok A ∧ P3.dot A.axis A.axis = 1 ∧ P3.dot A.axis v0 = P3.dot A.axis v1 ∧
      (0 ≤ Real.cos phi → A.apply^[degree - 1] v0 = s ^ (degree - 1) • v1) := by
  have hne : v1 - v0 ≠ 0 := by
    intro h
    have : v1 = v0 := sub_eq_zero.mp h
    apply hc
    rw [this]
    ext <;> simp [P3.cross] <;> ring
  have key : ∃ A, setupMatrix v0 v1 degree phi s = .ok A := by
    unfold setupMatrix
    obtain ⟨e, he⟩ : ∃ e, (v1 - v0).normalize = .ok e := ⟨_, P3.normalize_ok hne⟩
    obtain ⟨_, ee, ue⟩ := P3.normalize_unit he
    rw [he, M_bind_ok]
    have hrn : rotate e phi (P3.cross v0 v1) ≠ 0 := by
      intro h
      have := rotate_dot ue phi (P3.cross v0 v1)
      rw [h, P3.dot_zero_left] at this
      exact hc (P3.eq_zero_of_dot_self this.symm)
    obtain ⟨a, ha⟩ : ∃ a, (rotate e phi (P3.cross v0 v1)).normalize = .ok a := ⟨_, P3.normalize_ok hrn⟩
    obtain ⟨_, ea, ua⟩ := P3.normalize_unit ha
    rw [ha, M_bind_ok]
    have hec : P3.dot e (P3.cross v0 v1) = 0 := by
      rw [ee, P3.dot_smul_left, P3.dot_sub_left, P3.dot_cross_self_left, P3.dot_cross_self_right]; simp
    have hae : P3.dot a e = 0 := by
      rw [ea, rotate_eq, hec, mul_zero, zero_smul, add_zero, P3.dot_smul_left, P3.dot_add_left, P3.dot_smul_left, P3.dot_smul_left, P3.dot_comm _ e, hec, P3.dot_comm _ e, P3.dot_cross_self_left]
      simp
    have had : P3.dot a (v1 - v0) = 0 := by
      have hv : v1 - v0 = (v1 - v0).norm • e := by
        rw [ee, smul_smul, mul_inv_cancel₀ (P3.norm_pos hne).ne', one_smul]
      rw [hv, P3.dot_smul_right, hae, mul_zero]
    -- neither vector is on the axis
    have hh : P3.dot v1 a = P3.dot v0 a := by
      rw [P3.dot_sub_right, P3.dot_comm a v1, P3.dot_comm a v0] at had; linarith
    have off : ∀ v w : P3 ℝ, P3.dot v v = 1 → P3.dot w w = 1 → P3.dot v a = P3.dot w a → v ≠ w → v - P3.dot v a • a ≠ 0 := by
      intro v w hv hw hvw hne h
      have e1 : v = P3.dot v a • a := sub_eq_zero.mp h
      have e2 : P3.dot v a ^ 2 = 1 := by
        have : P3.dot v v = P3.dot v a ^ 2 := by
          conv_lhs => rw [e1, P3.dot_smul_left, P3.dot_smul_right, ua]
          ring
        linarith
      apply hne
      have : P3.dot (v - w) (v - w) = 0 := by
        rw [P3.dot_sub_left, P3.dot_sub_right, P3.dot_sub_right, hv, hw, P3.dot_comm w v]
        have : P3.dot v w = 1 := by
          rw [e1, P3.dot_smul_left, P3.dot_comm a w, ← hvw, ← e2]; ring
        rw [this]; ring
      exact sub_eq_zero.mp (P3.eq_zero_of_dot_self this)
    have d0 := off v0 v1 k0 k1 hh.symm (fun h => hne (by rw [h]; exact sub_self _))
    have d1 := off v1 v0 k1 k0 hh (fun h => hne (by rw [h]; exact sub_self _))
    rw [P3.normalize_ok d0, M_bind_ok, P3.normalize_ok d1, M_bind_ok]
    exact ⟨_, rfl⟩
  obtain ⟨A, hA⟩ := key
  obtain ⟨h1, _, h3, h4⟩ := setup_spec hA
  refine ⟨A, hA, h1, ?_, fun hcos => h4 hd k0 k1 hcos⟩
  rw [P3.dot_sub_right] at h3
  linarith

section examples

theorem normalize_self {v : P3 ℝ} (h : P3.dot v v = 1) : v.normalize = .ok v := by
  have hn : v.norm = 1 := by unfold P3.norm; rw [h]; exact Real.sqrt_one
  unfold P3.normalize
  rw [hn, if_neg one_ne_zero, inv_one, one_smul]

/-- A successful call for every pair of perpendicular unit vectors. -/
theorem fit_right_angle {v0 v1 : P3 ℝ} (h0 : P3.dot v0 v0 = 1) (h1 : P3.dot v1 v1 = 1) (hc : P3.cross v0 v1 ≠ 0) (hs : P3.dot (v0 + v1) (v0 + v1) ≠ 0) :
    fitClassA (fun _ => (0, 1)) 7 2 0 v0 (v0 + v1) v1 = .ok ⟨2, [0, v0, v0 + v1]⟩ := by
  obtain ⟨A, hA, _, _, h4⟩ := C67_matrix (degree := 2) (phi := 0) (s := 1) h0 h1 hc le_rfl
  have h4 := h4 (by simp)
  simp only [Nat.add_one_sub_one, Function.iterate_one, one_pow, one_smul] at h4
  have hv : ∀ q : ℝ, vertex A 0 (q • v0) 2 = q • (v0 + v1) := by
    intro q
    rw [vertex_smul]
    simp [vertex, h4]
  have hv1 : vertex A 0 v0 2 = v0 + v1 := by simpa using hv 1
  have hne : v0 + v1 ≠ 0 := by
    intro h; rw [h] at hs; simp at hs
  unfold fitClassA
  rw [normalize_self h0, M_bind_ok, normalize_self h1, M_bind_ok, hA, M_bind_ok, replicate_eq_tab]
  have he : evalMatrix 2 (tab (2 + 1) fun _ => (0 : P3 ℝ)) 0 (v0 + v1) v0 A = .ok (0, tab (2 + 1) (vertex A 0 v0)) := by
    unfold evalMatrix
    rw [generate_eq (by norm_num), M_bind_ok, vget_tab _ (by omega), M_bind_ok, vget_tab _ (by omega), M_bind_ok, hv1]
    have : vertex A 0 v0 0 = 0 := rfl
    rw [this, P3.normalize_ok (by rw [sub_zero]; exact hne), M_bind_ok, M_bind_ok]
    have hu := (P3.normalize_unit (P3.normalize_ok (a := v0 + v1 - 0) (by rw [sub_zero]; exact hne))).2.2
    rw [hu, sub_self]
  rw [he, M_bind_ok, if_neg (by simp), finish_eq (by norm_num) _ _ _ _ (by rw [hv1]; exact hne), hv1, sub_zero, div_self (P3.norm_pos hne).ne', one_smul]
  congr 2
  have u0 : vertex A 0 v0 0 = 0 := rfl
  have u1 : vertex A 0 v0 1 = v0 := by simp [vertex]
  simp [tab, List.range_succ, Function.update, u0, u1]

/-- The hypotheses of `C58_fit` and `C67_polygon` are met. -/
example : fitClassA (fun _ => (0, 1)) 7 2 ⟨0, 0, 0⟩ ⟨1, 0, 0⟩ ⟨1, 1, 0⟩ ⟨0, 1, 0⟩ = (.ok ⟨2, [⟨0, 0, 0⟩, ⟨1, 0, 0⟩, ⟨1, 1, 0⟩]⟩ : M (BCurve ℝ)) := by
  have e : (⟨1, 0, 0⟩ + ⟨0, 1, 0⟩ : P3 ℝ) = ⟨1, 1, 0⟩ := by ext <;> simp
  have h := fit_right_angle (v0 := ⟨1, 0, 0⟩) (v1 := ⟨0, 1, 0⟩) (by simp [P3.dot]) (by simp [P3.dot]) (fun h => by simpa [P3.cross] using congrArg P3.z h) (by rw [e]; simp [P3.dot])
  rw [e] at h
  exact h

/-- The case of degree 1: the tangent of the result is `(9999, 200, 0)`, which is not parallel to `va`. -/
example : ∃ c, fitClassA (fun _ => (0, 1)) 7 1 ⟨0, 0, 0⟩ ⟨1, 0, 0⟩ ⟨9999, 200, 0⟩ ⟨0, 1, 0⟩ = (.ok c : M (BCurve ℝ)) ∧ c.n = 1 ∧
    c.evalDer 0 1 = .ok (⟨0, 0, 0⟩, [⟨0, 0, 0⟩, ⟨9999, 200, 0⟩]) := by
  obtain ⟨A, hA⟩ : ∃ A, setupMatrix (⟨1, 0, 0⟩ : P3 ℝ) ⟨0, 1, 0⟩ 1 0 1 = .ok A := by
    obtain ⟨A, hA, _⟩ := C67_matrix (v0 := ⟨1, 0, 0⟩) (v1 := ⟨0, 1, 0⟩) (degree := 2) (phi := 0) (s := 1) (by simp [P3.dot]) (by simp [P3.dot])
      (fun h => by simpa [P3.cross] using congrArg P3.z h) le_rfl
    unfold setupMatrix at hA
    obtain ⟨e, he, h⟩ := bind_ok hA
    obtain ⟨a, ha, h⟩ := bind_ok h
    obtain ⟨w0, hw0, h⟩ := bind_ok h
    obtain ⟨w1, hw1, h⟩ := bind_ok h
    unfold setupMatrix
    rw [he, M_bind_ok, ha, M_bind_ok, hw0, M_bind_ok, hw1, M_bind_ok]
    exact ⟨_, rfl⟩
  have hv1 : vertex A (⟨0, 0, 0⟩ : P3 ℝ) ⟨1, 0, 0⟩ 1 = ⟨1, 0, 0⟩ := by ext <;> simp [vertex]
  have hnb : (⟨9999, 200, 0⟩ : P3 ℝ).norm = 10001 := by
    have : P3.dot (⟨9999, 200, 0⟩ : P3 ℝ) ⟨9999, 200, 0⟩ = 10001 ^ 2 := by simp [P3.dot]; norm_num
    unfold P3.norm
    rw [this]
    exact Real.sqrt_sq (by norm_num)
  have s1 : (⟨1, 0, 0⟩ - ⟨0, 0, 0⟩ : P3 ℝ) = ⟨1, 0, 0⟩ := by ext <;> simp
  have s2 : (⟨9999, 200, 0⟩ - ⟨0, 0, 0⟩ : P3 ℝ) = ⟨9999, 200, 0⟩ := by ext <;> simp
  have key : ∃ c, fitClassA (fun _ => (0, 1)) 7 1 ⟨0, 0, 0⟩ ⟨1, 0, 0⟩ ⟨9999, 200, 0⟩ ⟨0, 1, 0⟩ = (.ok c : M (BCurve ℝ)) ∧ c.n = 1 := by
    unfold fitClassA
    rw [normalize_self (by simp [P3.dot]), M_bind_ok, normalize_self (by simp [P3.dot]), M_bind_ok]
    dsimp only
    rw [hA, M_bind_ok, replicate_eq_tab]
    have he : evalMatrix 1 (tab (1 + 1) fun _ => (0 : P3 ℝ)) ⟨0, 0, 0⟩ ⟨9999, 200, 0⟩ ⟨1, 0, 0⟩ A = .ok (-(2 / 10001), tab (1 + 1) (vertex A ⟨0, 0, 0⟩ ⟨1, 0, 0⟩)) := by
      unfold evalMatrix
      have h0 : vertex A (⟨0, 0, 0⟩ : P3 ℝ) ⟨1, 0, 0⟩ 0 = ⟨0, 0, 0⟩ := rfl
      rw [generate_eq le_rfl, M_bind_ok, vget_tab _ (by omega), M_bind_ok, vget_tab _ (by omega), M_bind_ok, hv1, h0, s1, s2, normalize_self (by simp [P3.dot]), M_bind_ok,
        P3.normalize_ok (fun h => by simpa using congrArg P3.x h), M_bind_ok, hnb]
      simp [P3.dot]
      norm_num
    rw [he, M_bind_ok, if_neg (by dsimp only; rw [abs_neg, abs_of_pos (by norm_num)]; norm_num), finish_eq le_rfl _ _ _ _ (by rw [hv1]; intro h; simpa using congrArg P3.x h)]
    exact ⟨_, rfl, rfl⟩
  obtain ⟨c, hc, hn⟩ := key
  refine ⟨c, hc, hn, ?_⟩
  rw [(C58_degree_one le_rfl hc hn).2, s2]

end examples

end Transfinite.BCurve
