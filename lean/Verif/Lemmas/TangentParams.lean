import Verif.Lemmas.TangentSurfaces
import Verif.Lemmas.SideParams

/-! # Local parameters along a path that starts on a side -/

namespace Transfinite

namespace Surf

open Spec Set Filter Topology Real Param

/-- Signs of the derivatives of the local parameters: the path moves away from side `i`; strictly, if `l` is positive. -/
structure Leaves (n i : ℕ) (x' y' : ℕ → ℝ) (l : ℝ) : Prop where
  next : 0 ≤ x' (nextIx n i)
  prev : x' (prevIx n i) ≤ 0
  self : 0 ≤ y' i
  strict : 0 < l → 0 < x' (nextIx n i) ∧ x' (prevIx n i) < 0 ∧ 0 < y' i

theorem RightDer.nonneg {f : ℝ → ℝ} {f' : ℝ} (h : RightDer f f') (h0 : f 0 = 0) (hp : ∀ᶠ t in near0, 0 ≤ f t) : 0 ≤ f' := by
  by_contra hc
  push Not at hc
  have h' : HasDerivWithinAt f f' (Ici 0) 0 := h
  rw [← hasDerivWithinAt_Ioi_iff_Ici, hasDerivWithinAt_iff_tendsto_slope' (by simp)] at h'
  have k := h'.eventually (eventually_lt_nhds hc)
  have q : ∀ᶠ t in 𝓝[>] (0 : ℝ), 0 ≤ f t := hp.filter_mono (nhdsWithin_mono _ Ioi_subset_Ici_self)
  have q2 : ∀ᶠ t in 𝓝[>] (0 : ℝ), 0 < t := eventually_mem_nhdsWithin
  obtain ⟨t, ⟨a, b⟩, c⟩ := ((k.and q).and q2).exists
  unfold slope at a
  rw [h0, vsub_eq_sub, sub_zero, sub_zero, smul_eq_mul] at a
  have : 0 ≤ t⁻¹ * f t := by positivity
  linarith

theorem RightDer.unique {f : ℝ → ℝ} {a b : ℝ} (h : RightDer f a) (k : RightDer f b) : a = b := (uniqueDiffWithinAt_Ici (0 : ℝ)).eq_deriv _ h k

/-- The derivative of the (doubled) distance from a side. -/
theorem leftOf_path {n : ℕ} {v : ℕ → P2 ℝ} {i : ℕ} {s : ℝ} {p : ℝ → P2 ℝ} {w : P2 ℝ} (hp : DomainPath n v i s p w) (j : ℕ) :
    RightDer (fun t => leftOf n v j (p t)) (inward n v j w) := by
  refine ((((RightDer.const ((v j).x - (v ((j + n - 1) % n)).x)).mul (hp.derY.sub (RightDer.const (v ((j + n - 1) % n)).y))).sub
    ((RightDer.const ((v j).y - (v ((j + n - 1) % n)).y)).mul (hp.derX.sub (RightDer.const (v ((j + n - 1) % n)).x))))).congr_der ?_
  unfold inward
  rw [P2.sub_x, P2.sub_y]
  ring

theorem inward_nonneg {n : ℕ} {v : ℕ → P2 ℝ} {i : ℕ} {s : ℝ} {p : ℝ → P2 ℝ} {w : P2 ℝ} (hp : DomainPath n v i s p w) (hi : i < n) : 0 ≤ inward n v i w :=
  RightDer.nonneg (leftOf_path hp i) (by rw [hp.start]; exact leftOf_sidePoint n v i s) (hp.inside.mono fun t q => q i hi)

/-- `a / (a + b)` where `a` vanishes. -/
theorem ratio_first {a b : ℝ → ℝ} {a' b' : ℝ} (ha : RightDer a a') (hb : RightDer b b') (h0 : a 0 = 0) (h1 : 0 < b 0) :
    RightDer (fun t => a t / (a t + b t)) (a' / b 0) := by
  refine (ha.div (ha.add hb) (by rw [h0]; linarith)).congr_der ?_
  rw [h0]
  field_simp
  ring

/-- `b / (b + a)` where `a` vanishes. -/
theorem ratio_second {a b : ℝ → ℝ} {a' b' : ℝ} (ha : RightDer a a') (hb : RightDer b b') (h0 : a 0 = 0) (h1 : 0 < b 0) :
    RightDer (fun t => b t / (b t + a t)) (-(a' / b 0)) := by
  refine (hb.div (hb.add ha) (by rw [h0]; linarith)).congr_der ?_
  rw [h0]
  field_simp
  ring

section regular

variable {n : ℕ} {r φ : ℝ} {ε : ℝ} {i : ℕ} {s : ℝ} {p : ℝ → P2 ℝ} {w : P2 ℝ}

/-- The bilinear local parameters in a regular domain. -/
noncomputable def bilF (n : ℕ) (v : ℕ → P2 ℝ) (H : ℝ) (uv : P2 ℝ) (j : ℕ) : P2 ℝ :=
  ⟨leftOf n v (prevIx n j) uv / (leftOf n v (prevIx n j) uv + leftOf n v (nextIx n j) uv), leftOf n v j uv / H⟩

/-- The distances from the sides at the start of the path. -/
theorem side_left (hr : 0 < r) {d : Domain ℝ} (h : ConvexDomain d n (regularVertex n r φ)) (hi : i < n) (s0 : 0 < s) (s1 : s < 1) :
    let v := regularVertex n r φ
    let q := sidePoint n v i s
    let H := r ^ 2 * (4 * sin (π / n) ^ 2) * sin (2 * π / n)
    0 < H ∧ leftOf n v i q = 0 ∧ leftOf n v (nextIx n i) q = (1 - s) * H ∧ leftOf n v (prevIx n i) q = s * H ∧
      (∀ j < n, j ≠ i → j ≠ nextIx n i → j ≠ prevIx n i → H ≤ leftOf n v j q) ∧ (∀ j < n, j ≠ i → 0 < leftOf n v j q) ∧
      (∀ j < n, leftOf n v j q ≤ r ^ 2 * (4 * sin (π / n))) ∧
      ∀ j < n, (min s (1 - s)) * H ≤ leftOf n v (prevIx n j) q + leftOf n v (nextIx n j) q := by
  intro v q H
  have hn := h.hn
  obtain ⟨l0, l1, l2, l3⟩ := regular_side hn (r := r) (φ := φ) hi s0.le s1.le
  obtain ⟨sp1, sp2⟩ := sin_pi_div_pos hn
  have su1 := sin_le_one (π / n)
  have su2 := sin_le_one (2 * π / n)
  have hH : 0 < H := by positivity
  have hpos : ∀ j < n, j ≠ i → 0 < leftOf n v j q := by
    intro j hj a
    by_cases b : j = nextIx n i
    · rw [b]; exact l1.symm ▸ mul_pos (by linarith) hH
    · by_cases c : j = prevIx n i
      · rw [c]; exact l2.symm ▸ mul_pos (by linarith) hH
      · exact hH.trans_le (l3 j hj a b c).1
  have hHM : H ≤ r ^ 2 * (4 * sin (π / n)) := by
    have : sin (π / n) * sin (2 * π / n) ≤ 1 := by nlinarith
    have := mul_le_mul_of_nonneg_left this (show 0 ≤ r ^ 2 * (4 * sin (π / n)) by positivity)
    change r ^ 2 * (4 * sin (π / n) ^ 2) * sin (2 * π / n) ≤ _
    linarith
  refine ⟨hH, l0, l1, l2, fun j hj a b c => (l3 j hj a b c).1, hpos, ?_, ?_⟩
  · intro j hj
    by_cases a : j = i
    · rw [a]; exact l0.symm ▸ (by positivity)
    · by_cases b : j = nextIx n i
      · rw [b]
        refine le_trans (le_of_eq l1) ?_
        nlinarith
      · by_cases c : j = prevIx n i
        · rw [c]
          refine le_trans (le_of_eq l2) ?_
          nlinarith
        · exact (l3 j hj a b c).2
  · intro j hj
    have m1 : min s (1 - s) * H ≤ s * H := mul_le_mul_of_nonneg_right (min_le_left _ _) hH.le
    have m2 : min s (1 - s) * H ≤ (1 - s) * H := mul_le_mul_of_nonneg_right (min_le_right _ _) hH.le
    have one : ∀ k < n, k ≠ i → min s (1 - s) * H ≤ leftOf n v k q := by
      intro k hk a
      by_cases b : k = nextIx n i
      · rw [b]; exact m2.trans (le_of_eq l1.symm)
      · by_cases c : k = prevIx n i
        · rw [c]; exact m1.trans (le_of_eq l2.symm)
        · have := (l3 k hk a b c).1
          refine le_trans ?_ this
          exact m1.trans (mul_le_of_le_one_left hH.le s1.le)
    have hpj : prevIx n j < n := prevIx_lt (by omega)
    have hnj : nextIx n j < n := nextIx_lt (by omega)
    have z : ∀ k < n, 0 ≤ leftOf n v k q := fun k hk => by
      by_cases a : k = i
      · rw [a]; exact le_of_eq l0.symm
      · exact (hpos k hk a).le
    by_cases a : prevIx n j = i
    · have := one _ hnj (fun e => Param.next_ne_prev hn hj (e.trans a.symm))
      linarith [z _ hpj]
    · have := one _ hpj a
      linarith [z _ hnj]

/-- The bilinear parameters along the path. -/
theorem bilinear_values (hr : 0 < r) {d : Domain ℝ} (h : ConvexDomain d n (regularVertex n r φ)) (hε : 0 < ε) (hi : i < n)
    (s0 : ε < s * sin (2 * π / n)) (s1 : ε < (1 - s) * sin (2 * π / n)) (hp : DomainPath n (regularVertex n r φ) i s p w) :
    ∀ᶠ t in near0, ∀ j < n, bilinearMap ε d j (p t) = .ok (bilF n (regularVertex n r φ) (r ^ 2 * (4 * sin (π / n) ^ 2) * sin (2 * π / n)) (p t) j) := by
  have hn := h.hn
  obtain ⟨sp1, sp2⟩ := sin_pi_div_pos hn
  have t0 : 0 < s := by by_contra q; push Not at q; nlinarith
  have t1 : s < 1 := by by_contra q; push Not at q; nlinarith
  obtain ⟨hH, l0, l1, l2, l3, l4, l5, l6⟩ := side_left hr h hi t0 t1
  have hD : 0 < r ^ 2 * (4 * sin (π / n) ^ 2) := by positivity
  have big : ∀ᶠ t in near0, ∀ j < n, ε * (r ^ 2 * (4 * sin (π / n) ^ 2)) <
      leftOf n (regularVertex n r φ) (prevIx n j) (p t) + leftOf n (regularVertex n r φ) (nextIx n j) (p t) := by
    refine (Filter.eventually_all_finite (finite_lt_nat n)).mpr fun j hj => ?_
    refine ((leftOf_path hp _).add (leftOf_path hp _)).gt ?_
    rw [hp.start]
    refine lt_of_lt_of_le ?_ (l6 j hj)
    rcases min_cases s (1 - s) with ⟨e, _⟩ | ⟨e, _⟩ <;> rw [e] <;> nlinarith
  filter_upwards [big, hp.inside] with t hb hin j hj
  have := bilinearMap_ratio h hε hj (by rw [regular_leftOf_prev hn hj, regular_leftOf_next hn hj])
    (hin _ (prevIx_lt (i := j) (j := 1) (by omega))) (hin _ (nextIx_lt (i := j) (j := 1) (by omega)))
  rw [this, regular_du hn, regular_leftOf_next hn hj, if_neg]
  · rfl
  · rw [not_lt, le_div_iff₀ hD]
    exact (hb j hj).le

/-- Derivatives of the bilinear parameters. -/
theorem bilinear_ders (hr : 0 < r) {d : Domain ℝ} (h : ConvexDomain d n (regularVertex n r φ)) (hi : i < n)
    (t0 : 0 < s) (t1 : s < 1) (hp : DomainPath n (regularVertex n r φ) i s p w) :
    let f := fun t => bilF n (regularVertex n r φ) (r ^ 2 * (4 * sin (π / n) ^ 2) * sin (2 * π / n)) (p t)
    f 0 i = ⟨s, 0⟩ ∧ f 0 (nextIx n i) = ⟨0, 1 - s⟩ ∧ f 0 (prevIx n i) = ⟨1, s⟩ ∧
    ∃ x' y' : ℕ → ℝ, (∀ j < n, RightDer (fun t => (f t j).x) (x' j)) ∧ (∀ j, RightDer (fun t => (f t j).y) (y' j)) ∧
      Leaves n i x' y' (inward n (regularVertex n r φ) i w) := by
  intro f
  have hn := h.hn
  have hpi : prevIx n i < n := prevIx_lt (by omega)
  have hxi : nextIx n i < n := nextIx_lt (by omega)
  obtain ⟨hH, l0, l1, l2, l3, l4, l5, l6⟩ := side_left hr h hi t0 t1
  set v := regularVertex n r φ with hv
  set H := r ^ 2 * (4 * sin (π / n) ^ 2) * sin (2 * π / n) with hHd
  have nn : nextIx n (nextIx n i) < n := nextIx_lt (by omega)
  have pp : prevIx n (prevIx n i) < n := prevIx_lt (by omega)
  have nni : nextIx n (nextIx n i) ≠ i := fun e => Param.next_ne_prev hn hxi (by rw [e, prevIx_nextIx hi])
  have ppi : prevIx n (prevIx n i) ≠ i := fun e => Param.next_ne_prev hn hpi (by rw [e, nextIx_prevIx hi])
  have k0 : 0 < leftOf n v (nextIx n (nextIx n i)) (sidePoint n v i s) := l4 _ nn nni
  have k1 : 0 < leftOf n v (prevIx n (prevIx n i)) (sidePoint n v i s) := l4 _ pp ppi
  have D := leftOf_path hp
  have Dx : ∀ j < n, ∃ x', RightDer (fun t => (f t j).x) x' := fun j hj => by
    refine ⟨_, (D _).div ((D _).add (D _)) ?_⟩
    rw [hp.start]
    have : 0 < min s (1 - s) * H := mul_pos (lt_min t0 (by linarith)) hH
    exact (this.trans_le (l6 j hj)).ne'
  choose! x' hx' using Dx
  have dn : RightDer (fun t => (f t (nextIx n i)).x) (inward n v i w / leftOf n v (nextIx n (nextIx n i)) (sidePoint n v i s)) := by
    have q := ratio_first (D i) (D (nextIx n (nextIx n i))) (by rw [hp.start]; exact l0) (by rw [hp.start]; exact k0)
    rw [hp.start] at q
    refine q.congr (Eventually.of_forall fun t => ?_)
    change _ / _ = _
    rw [prevIx_nextIx hi]
  have dp : RightDer (fun t => (f t (prevIx n i)).x) (-(inward n v i w / leftOf n v (prevIx n (prevIx n i)) (sidePoint n v i s))) := by
    have q := ratio_second (D i) (D (prevIx n (prevIx n i))) (by rw [hp.start]; exact l0) (by rw [hp.start]; exact k1)
    rw [hp.start] at q
    refine q.congr (Eventually.of_forall fun t => ?_)
    change _ / _ = _
    rw [nextIx_prevIx hi]
  have w0 := inward_nonneg hp hi
  have e1 : x' (nextIx n i) = _ := RightDer.unique (hx' _ hxi) dn
  have e2 : x' (prevIx n i) = _ := RightDer.unique (hx' _ hpi) dp
  refine ⟨?_, ?_, ?_, x', fun j => inward n v j w / H, hx', ?_, ?_⟩
  · change (⟨_ / _, _ / _⟩ : P2 ℝ) = _
    rw [hp.start, l0, l1, l2]
    congr 1
    · field_simp
      ring
    · rw [zero_div]
  · change (⟨_ / _, _ / _⟩ : P2 ℝ) = _
    rw [hp.start, prevIx_nextIx hi, l0, l1, zero_div]
    congr 1
    exact mul_div_cancel_right₀ _ hH.ne'
  · change (⟨_ / _, _ / _⟩ : P2 ℝ) = _
    rw [hp.start, nextIx_prevIx hi, l0, l2, add_zero, div_self k1.ne']
    congr 1
    exact mul_div_cancel_right₀ _ hH.ne'
  · intro j
    refine ((D j).div (RightDer.const H) hH.ne').congr_der ?_
    field_simp
    ring
  · refine ⟨?_, ?_, by positivity, fun hl => ⟨?_, ?_, by positivity⟩⟩
    · rw [e1]; positivity
    · rw [e2]; have : 0 ≤ inward n v i w / leftOf n v (prevIx n (prevIx n i)) (sidePoint n v i s) := by positivity
      linarith
    · rw [e1]; positivity
    · rw [e2]; have : 0 < inward n v i w / leftOf n v (prevIx n (prevIx n i)) (sidePoint n v i s) := by positivity
      linarith

theorem Leaves.strict' {n i : ℕ} {x' y' z' : ℕ → ℝ} {l : ℝ} (h : Leaves n i x' y' l) {y : ℝ} (h0 : 0 ≤ y) (h1 : 0 < l → 0 < y) (e : z' i = y) : Leaves n i x' z' l :=
  ⟨h.next, h.prev, by rw [e]; exact h0, fun hl => ⟨(h.strict hl).1, (h.strict hl).2.1, by rw [e]; exact h1 hl⟩⟩

theorem ratio_range {a b : ℝ} (ha : 0 ≤ a) (hb : 0 ≤ b) : 0 ≤ a / (a + b) ∧ a / (a + b) ≤ 1 :=
  ⟨by positivity, div_le_one_of_le₀ (by linarith) (by linarith)⟩

theorem bilF_range (hr : 0 < r) (hn : 3 ≤ n) {uv : P2 ℝ} (hin : InsideClosed n (regularVertex n r φ) uv) {j : ℕ} (hj : j < n) :
    (0 ≤ (bilF n (regularVertex n r φ) (r ^ 2 * (4 * sin (π / n) ^ 2) * sin (2 * π / n)) uv j).x ∧
      (bilF n (regularVertex n r φ) (r ^ 2 * (4 * sin (π / n) ^ 2) * sin (2 * π / n)) uv j).x ≤ 1) ∧
      0 ≤ (bilF n (regularVertex n r φ) (r ^ 2 * (4 * sin (π / n) ^ 2) * sin (2 * π / n)) uv j).y := by
  obtain ⟨sp1, sp2⟩ := sin_pi_div_pos hn
  refine ⟨ratio_range (hin _ (prevIx_lt (i := j) (j := 1) (by omega))) (hin _ (nextIx_lt (i := j) (j := 1) (by omega))), ?_⟩
  exact div_nonneg (hin j hj) (by positivity)

/-- The bilinear parameterization of a regular domain. -/
theorem bilinear_path (hr : 0 < r) {d : Domain ℝ} (h : ConvexDomain d n (regularVertex n r φ)) (hε : 0 < ε) (hi : i < n)
    (s0 : ε < s * sin (2 * π / n)) (s1 : ε < (1 - s) * sin (2 * π / n)) (hp : DomainPath n (regularVertex n r φ) i s p w) :
    ∃ (f : ℝ → ℕ → P2 ℝ) (x' y' : ℕ → ℝ), (∀ᶠ t in near0, ∀ j < n, bilinearMap ε d j (p t) = .ok (f t j)) ∧ SidePath ε n i s f x' y' ∧
      Leaves n i x' y' (inward n (regularVertex n r φ) i w) := by
  have hn := h.hn
  have hpi : prevIx n i < n := prevIx_lt (by omega)
  have hxi : nextIx n i < n := nextIx_lt (by omega)
  obtain ⟨sp1, sp2⟩ := sin_pi_div_pos hn
  have su2 := sin_le_one (2 * π / n)
  have t0 : 0 < s := by by_contra q; push Not at q; nlinarith
  have t1 : s < 1 := by by_contra q; push Not at q; nlinarith
  have t2 : ε < s := by nlinarith
  have t3 : ε < 1 - s := by nlinarith
  obtain ⟨b1, b2, b3, x', y', dx, dy, hl⟩ := bilinear_ders hr h hi t0 t1 hp
  obtain ⟨hH, l0, l1, l2, l3, l4, l5, l6⟩ := side_left hr h hi t0 t1
  refine ⟨_, x', y', bilinear_values hr h hε hi s0 s1 hp, ⟨b1, b2, b3, ?_, fun j _ => dy j, ?_, ?_⟩, hl⟩
  · rintro j (rfl | rfl | rfl)
    · exact dx _ hi
    · exact dx _ hxi
    · exact dx _ hpi
  · filter_upwards [hp.inside] with t hin j hj
    exact bilF_range hr hn hin hj
  · refine (Filter.eventually_all_finite (finite_lt_nat n)).mpr fun j hj => ?_
    by_cases a : j = i
    · exact Eventually.of_forall fun t q => absurd a q
    refine ((dy j).gt (c := ε) ?_).mono fun t q _ => q.le
    by_cases b : j = nextIx n i
    · rw [b]; exact t3.trans_le (le_of_eq (congrArg P2.y b2).symm)
    by_cases c : j = prevIx n i
    · rw [c]; exact t2.trans_le (le_of_eq (congrArg P2.y b3).symm)
    change ε < _ / _
    rw [hp.start, lt_div_iff₀ hH]
    have := l3 j hj a b c
    nlinarith

/-- The local parameters of the interconnected parameterization. -/
noncomputable def interF (n : ℕ) (g : ℕ → P2 ℝ) (j : ℕ) : P2 ℝ :=
  ⟨(g j).x, (1 - (g (prevIx n j)).x) * hermite 0 (g j).x + (g (nextIx n j)).x * (1 - hermite 0 (g j).x)⟩

theorem mix_gt {ε H a b : ℝ} (h0 : 0 ≤ H) (h1 : H ≤ 1) (ha : ε < a) (hb : ε < b) : ε < a * H + b * (1 - H) := by
  rcases eq_or_lt_of_le h0 with e | e
  · rw [← e]; linarith
  · nlinarith [mul_pos (sub_pos.mpr ha) e, mul_nonneg (sub_pos.mpr hb).le (sub_nonneg.mpr h1)]

theorem gap {ε A B M τ : ℝ} (hM : 0 < M) (ht : 0 < τ) (ht1 : τ ≤ 1) (hε : ε < τ / 2) (A0 : 0 ≤ A) (AM : A ≤ M) (hB : M * τ ≤ B) : ε < B / (B + A) ∧ A / (A + B) < 1 - ε := by
  have B0 : 0 < B := (mul_pos hM ht).trans_le hB
  have k : ε * (A + B) < B := by
    have k1 : τ / 2 * A ≤ τ / 2 * M := mul_le_mul_of_nonneg_left AM (by linarith)
    have k2 : τ / 2 * B ≤ 1 / 2 * B := mul_le_mul_of_nonneg_right (by linarith) B0.le
    have k3 : ε * (A + B) < τ / 2 * (A + B) := mul_lt_mul_of_pos_right hε (by linarith)
    nlinarith
  refine ⟨by rw [lt_div_iff₀ (by linarith)]; linarith, by rw [div_lt_iff₀ (by linarith)]; linarith⟩

/-- The interconnected parameterization of a regular domain. -/
theorem interconnected_path (hr : 0 < r) {d : Domain ℝ} (h : ConvexDomain d n (regularVertex n r φ)) (hε : 0 < ε)
    (hle : ε < sin (2 * π / n) * sin (π / n) / 2) (hi : i < n)
    (s0 : ε < s * sin (2 * π / n)) (s1 : ε < (1 - s) * sin (2 * π / n)) (hp : DomainPath n (regularVertex n r φ) i s p w) :
    ∃ (f : ℝ → ℕ → P2 ℝ) (x' y' : ℕ → ℝ), (∀ᶠ t in near0, ∀ j < n, interconnectedMap ε d j (p t) = .ok (f t j)) ∧ SidePath ε n i s f x' y' ∧
      Leaves n i x' y' (inward n (regularVertex n r φ) i w) ∧ (∀ᶠ t in near0, ∀ j < n, (f t j).y ≤ 1) ∧
      y' (nextIx n i) = -x' i ∧ y' (prevIx n i) = x' i ∧
      y' i = (1 - hermite 0 s) * x' (nextIx n i) - hermite 0 s * x' (prevIx n i) := by
  have hn := h.hn
  have hpi : prevIx n i < n := prevIx_lt (by omega)
  have hxi : nextIx n i < n := nextIx_lt (by omega)
  have nei := Param.next_ne (n := n) (by omega) hi
  have pei := Param.prev_ne (n := n) (by omega) hi
  have nep := Param.next_ne_prev hn hi
  obtain ⟨sp1, sp2⟩ := sin_pi_div_pos hn
  have su1 := sin_le_one (π / n)
  have su2 := sin_le_one (2 * π / n)
  have t0 : 0 < s := by by_contra q; push Not at q; nlinarith
  have t1 : s < 1 := by by_contra q; push Not at q; nlinarith
  have t2 : ε < s := by nlinarith
  have t3 : ε < 1 - s := by nlinarith
  obtain ⟨b1, b2, b3, x', z', dx, dy, hl⟩ := bilinear_ders hr h hi t0 t1 hp
  obtain ⟨hH, l0, l1, l2, l3, l4, l5, l6⟩ := side_left hr h hi t0 t1
  have hv := bilinear_values hr h hε hi s0 s1 hp
  have rng : ∀ᶠ t in near0, ∀ j < n, 0 ≤ (bilF n (regularVertex n r φ) (r ^ 2 * (4 * sin (π / n) ^ 2) * sin (2 * π / n)) (p t) j).x ∧
      (bilF n (regularVertex n r φ) (r ^ 2 * (4 * sin (π / n) ^ 2) * sin (2 * π / n)) (p t) j).x ≤ 1 := by
    filter_upwards [hp.inside] with t hin j hj
    exact (bilF_range hr hn hin hj).1
  have geq : ∀ t j, (bilF n (regularVertex n r φ) (r ^ 2 * (4 * sin (π / n) ^ 2) * sin (2 * π / n)) (p t) j).x =
      leftOf n (regularVertex n r φ) (prevIx n j) (p t) / (leftOf n (regularVertex n r φ) (prevIx n j) (p t) + leftOf n (regularVertex n r φ) (nextIx n j) (p t)) := fun _ _ => rfl
  generalize bilF n (regularVertex n r φ) (r ^ 2 * (4 * sin (π / n) ^ 2) * sin (2 * π / n)) = G at *
  dsimp only at b1 b2 b3 dx dy
  have rj : ∀ j < n, ∀ᶠ t in near0, 0 ≤ (G (p t) j).x ∧ (G (p t) j).x ≤ 1 := fun j hj => rng.mono fun t q => q j hj
  have dall : ∀ j < n, ∃ y1, RightDer (fun t => (interF n (G (p t)) j).y) y1 := fun j hj => by
    have hpj : prevIx n j < n := prevIx_lt (by omega)
    have hnj : nextIx n j < n := nextIx_lt (by omega)
    have dh := (dx j hj).comp (herm_der _)
    exact ⟨_, (((RightDer.const 1).sub (dx _ hpj)).mul dh).add ((dx _ hnj).mul ((RightDer.const 1).sub dh))⟩
  choose! y' hy' using dall
  have yrange : ∀ᶠ t in near0, ∀ j < n, 0 ≤ (interF n (G (p t)) j).y ∧ (interF n (G (p t)) j).y ≤ 1 := by
    filter_upwards [rng] with t q j hj
    have hpj : prevIx n j < n := prevIx_lt (by omega)
    have hnj : nextIx n j < n := nextIx_lt (by omega)
    obtain ⟨a0, a1⟩ := herm_range (q j hj).1 (q j hj).2
    obtain ⟨p0, p1⟩ := q _ hpj
    obtain ⟨n0, n1⟩ := q _ hnj
    unfold interF
    dsimp only
    exact ⟨by linarith only [mul_nonneg (sub_nonneg.mpr p1) a0, mul_nonneg n0 (sub_nonneg.mpr a1)],
      by linarith only [mul_nonneg p0 a0, mul_nonneg (sub_nonneg.mpr n1) (sub_nonneg.mpr a1)]⟩
  obtain ⟨H0, H1⟩ := hermite_ends (K := ℝ)
  have yn : y' (nextIx n i) = -x' i := by
    have hnn : nextIx n (nextIx n i) < n := nextIx_lt (by omega)
    have dh := (dx _ hxi).comp (herm_der _)
    refine RightDer.unique (hy' _ hxi) ?_
    refine ((((RightDer.const 1).sub (dx _ hi)).mul dh).add ((dx _ hnn).mul ((RightDer.const 1).sub dh))).congr
      (Eventually.of_forall fun t => ?_) |>.congr_der ?_
    · unfold interF
      rw [prevIx_nextIx hi]
    · rw [b2, b1, H0]
      ring
  have yp : y' (prevIx n i) = x' i := by
    have hpp : prevIx n (prevIx n i) < n := prevIx_lt (by omega)
    have dh := (dx _ hpi).comp (herm_der _)
    refine RightDer.unique (hy' _ hpi) ?_
    refine ((((RightDer.const 1).sub (dx _ hpp)).mul dh).add ((dx _ hi).mul ((RightDer.const 1).sub dh))).congr
      (Eventually.of_forall fun t => ?_) |>.congr_der ?_
    · unfold interF
      rw [nextIx_prevIx hi]
    · rw [b3, b1, H1]
      ring
  have yi : y' i = (1 - hermite 0 s) * x' (nextIx n i) - hermite 0 s * x' (prevIx n i) := by
    have dh := (dx _ hi).comp (herm_der _)
    refine RightDer.unique (hy' _ hi) ?_
    refine ((((RightDer.const 1).sub (dx _ hpi)).mul dh).add ((dx _ hxi).mul ((RightDer.const 1).sub dh))).congr_der ?_
    rw [b2, b3, b1]
    ring
  have hs : 0 < hermite 0 s ∧ 0 < 1 - hermite 0 s := by
    rw [herm_one_sub, herm_flip]
    exact ⟨mul_pos (by have : 0 < 1 - s := by linarith
                       positivity) (by linarith), mul_pos (by positivity) (by linarith)⟩
  obtain ⟨hs0, hs1⟩ := hs
  have f0i : interF n (G (p 0)) i = ⟨s, 0⟩ := by
    unfold interF
    rw [b1, b2, b3]
    dsimp only
    congr 1
    ring
  have f0n : interF n (G (p 0)) (nextIx n i) = ⟨0, 1 - s⟩ := by
    unfold interF
    rw [prevIx_nextIx hi, b1, b2]
    dsimp only
    rw [H0]
    congr 1
    ring
  have f0p : interF n (G (p 0)) (prevIx n i) = ⟨1, s⟩ := by
    unfold interF
    rw [nextIx_prevIx hi, b1, b3]
    dsimp only
    rw [H1]
    congr 1
    ring
  refine ⟨fun t => interF n (G (p t)), x', y', ?_, ⟨f0i, f0n, f0p, ?_, ?_, ?_, ?_⟩, ?_, ?_, yn, yp, yi⟩
  · filter_upwards [hv] with t q j hj
    unfold interconnectedMap
    dsimp only
    rw [h.length_eq, q _ (prevIx_lt (by omega)), M_bind_ok, q _ (nextIx_lt (by omega)), M_bind_ok, q _ hj, M_bind_ok]
    rfl
  · rintro j (rfl | rfl | rfl)
    · exact dx _ hi
    · exact dx _ hxi
    · exact dx _ hpi
  · rintro j (rfl | rfl | rfl)
    · exact hy' _ hi
    · exact hy' _ hxi
    · exact hy' _ hpi
  · filter_upwards [rng, yrange] with t q1 q2 j hj
    exact ⟨q1 j hj, (q2 j hj).1⟩
  · refine (Filter.eventually_all_finite (finite_lt_nat n)).mpr fun j hj => ?_
    by_cases a : j = i
    · exact Eventually.of_forall fun t q => absurd a q
    refine ((hy' j hj).gt (c := ε) ?_).mono fun t q _ => q.le
    by_cases b : j = nextIx n i
    · rw [b]; rw [f0n]; exact t3
    by_cases c : j = prevIx n i
    · rw [c]; rw [f0p]; exact t2
    have hpj : prevIx n j < n := prevIx_lt (by omega)
    have hnj : nextIx n j < n := nextIx_lt (by omega)
    have hppj : prevIx n (prevIx n j) < n := prevIx_lt (by omega)
    have hnnj : nextIx n (nextIx n j) < n := nextIx_lt (by omega)
    have Lj := l3 j hj a b c
    have M1 := l5 _ hppj
    have M2 := l5 _ hnnj
    have Mj := l5 _ hj
    have z : ∀ k < n, 0 ≤ leftOf n (regularVertex n r φ) k (sidePoint n (regularVertex n r φ) i s) := fun k hk => by
      by_cases a : k = i
      · rw [a]; exact le_of_eq l0.symm
      · exact (l4 k hk a).le
    have z1 := z _ hppj
    have z2 := z _ hnnj
    have hMD : (r ^ 2 * (4 * sin (π / n) ^ 2) * sin (2 * π / n)) = r ^ 2 * (4 * sin (π / n)) * (sin (2 * π / n) * sin (π / n)) := by ring
    rw [hMD] at Lj
    have hM : 0 < r ^ 2 * (4 * sin (π / n)) := by positivity
    have ht : 0 < sin (2 * π / n) * sin (π / n) := by positivity
    have ht1 : sin (2 * π / n) * sin (π / n) ≤ 1 := by nlinarith
    have g1 : ε < 1 - (G (p 0) (prevIx n j)).x := by
      have := (gap hM ht ht1 hle z1 M1 Lj).2
      rw [geq, hp.start, nextIx_prevIx hj]
      linarith
    have g2 : ε < (G (p 0) (nextIx n j)).x := by
      rw [geq, hp.start, prevIx_nextIx hj]
      exact (gap hM ht ht1 hle z2 M2 Lj).1
    obtain ⟨c0, c1⟩ := (rng.self_of_nhdsWithin (by simp)) j hj
    obtain ⟨a0, a1⟩ := herm_range c0 c1
    exact mix_gt a0 a1 g1 g2
  · refine hl.strict' (y := y' i) ?_ ?_ rfl
    · rw [yi]
      linarith only [mul_nonneg hs1.le hl.next, mul_nonpos_of_nonneg_of_nonpos hs0.le hl.prev]
    · intro q
      obtain ⟨q1, q2, _⟩ := hl.strict q
      rw [yi]
      linarith only [mul_pos hs1 q1, mul_neg_of_pos_of_neg hs0 q2]
  · exact yrange.mono fun t q j hj => (q j hj).2

end regular

end Surf

end Transfinite
