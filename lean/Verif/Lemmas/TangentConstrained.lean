import Verif.Lemmas.TangentBary

/-! # Constrained barycentric parameters along a path that starts on a side -/

namespace Transfinite

namespace Surf

open Spec Set Filter Topology Real Param

variable {n : ℕ} {ε r φ : ℝ} {i : ℕ} {s : ℝ} {p : ℝ → P2 ℝ} {w : P2 ℝ} {d : Domain ℝ}

theorem constrained_self {ε a b : ℝ} {q : P2 ℝ} (h0 : q.y < ε) (h1 : ¬ 1 - q.x < ε) (h2 : ¬ 1 - q.y < ε) (h3 : ¬ q.x < ε) :
    constrainedBlend ε q a b = .ok q := by
  unfold constrainedBlend singularBlend
  simp [List.countP_cons, h0, h1, h2, h3, vget, fdiv]

theorem constrained_low {ε a b : ℝ} {q : P2 ℝ} (h0 : ¬ q.y < ε) (h1 : ¬ 1 - q.x < ε) (h2 : ¬ 1 - q.y < ε) (h3 : q.x < ε) :
    constrainedBlend ε q a b = .ok ⟨q.x, 1 - a⟩ := by
  unfold constrainedBlend singularBlend
  simp [List.countP_cons, h0, h1, h2, h3, vget, fdiv]

theorem constrained_high {ε a b : ℝ} {q : P2 ℝ} (h0 : ¬ q.y < ε) (h1 : 1 - q.x < ε) (h2 : ¬ 1 - q.y < ε) (h3 : ¬ q.x < ε) :
    constrainedBlend ε q a b = .ok ⟨q.x, b⟩ := by
  unfold constrainedBlend singularBlend
  simp [List.countP_cons, h0, h1, h2, h3, vget, fdiv]

theorem constrained_far {ε a b g : ℝ} {q : P2 ℝ} (hε1 : ε < 1 / 2) (h0 : ¬ q.y < ε) (h2 : 1 - q.y < ε) (y1 : q.y ≤ 1)
    (ha : q.x < ε → 0 ≤ a ∧ a ≤ g) (hb : 1 - q.x < ε → 0 ≤ 1 - b ∧ 1 - b ≤ g) (hg : 0 ≤ g) :
    ∃ z, constrainedBlend ε q a b = .ok ⟨q.x, z⟩ ∧ z ≤ 1 ∧ 1 - z ≤ 1 - q.y + g := by
  by_cases c : q.x < ε
  · have c' : ¬ (1 - q.x < ε) := by linarith
    obtain ⟨a0, a1⟩ := ha c
    refine ⟨q.y * 2⁻¹ + (1 - a) * 2⁻¹, ?_, by linarith, by linarith⟩
    unfold constrainedBlend singularBlend
    simp [List.countP_cons, h0, c, c', h2, vget, fdiv]
  · by_cases c' : 1 - q.x < ε
    · obtain ⟨a0, a1⟩ := hb c'
      refine ⟨q.y * 2⁻¹ + b * 2⁻¹, ?_, by linarith, by linarith⟩
      unfold constrainedBlend singularBlend
      simp [List.countP_cons, h0, c, c', h2, vget, fdiv]
    · refine ⟨q.y, ?_, y1, by linarith⟩
      unfold constrainedBlend singularBlend
      simp [List.countP_cons, h0, c, c', h2, vget, fdiv]

/-- Side parameters of the sides that are not neighbours of side `i`, near side `i`. -/
theorem far_ratio (hr : 1 ≤ r) (h : ConvexDomain d n (regularVertex n r φ)) (hε : 0 < ε) (hle : ε < sin (2 * π / n) ^ 2 * sin (π / n) / 2)
    (hi : i < n) (s0 : ε < s) (s1 : ε < 1 - s) (hp : DomainPath n (regularVertex n r φ) i s p w) {j : ℕ} (hj : j < n) (a : j ≠ i) (b : j ≠ nextIx n i) (c : j ≠ prevIx n i) :
    ∀ᶠ t in near0, ((baryF ε d (p t) j).x < ε → prevIx n j = nextIx n i) ∧ (1 - (baryF ε d (p t) j).x < ε → nextIx n j = prevIx n i) := by
  have hn := h.hn
  have hr0 : 0 < r := by linarith
  have hpj : prevIx n j < n := prevIx_lt (by omega)
  have hnj : nextIx n j < n := nextIx_lt (by omega)
  have t0 : 0 < s := by linarith
  have t1 : s < 1 := by linarith
  have hε1 : ε ≤ 1 := by linarith
  obtain ⟨sp1, sp2⟩ := sin_pi_div_pos hn
  have su1 := sin_le_one (π / n)
  have su2 := sin_le_one (2 * π / n)
  obtain ⟨hH, l0, l1, l2, l3, l4, l5, l6⟩ := side_left hr0 h hi t0 t1
  have b1 : prevIx n j ≠ i := by intro q; apply b; rw [← q, nextIx_prevIx hj]
  have b2 : prevIx n j ≠ prevIx n i := by intro q; apply a; rw [← nextIx_prevIx hj, q, nextIx_prevIx hi]
  have b3 : nextIx n j ≠ i := by intro q; apply c; rw [← q, prevIx_nextIx hj]
  have b4 : nextIx n j ≠ nextIx n i := by intro q; apply a; rw [← prevIx_nextIx hj, q, prevIx_nextIx hi]
  obtain ⟨l', hl, _, _⟩ := lam_path h hi t0 t1 hp
  have vo : ∀ k < n, k ≠ i → k ≠ prevIx n i → lam n (regularVertex n r φ) (p 0) k = 0 := fun k hk x y => by
    rw [hp.start, lam_side h hi t0.le t1.le hk, if_neg x, if_neg y]
  have small := ((hl _ hpj).add (hl j hj)).lt (c := ε) (by rw [vo _ hpj b1 b2, vo j hj a c, add_zero]; exact hε)
  have hA : prevIx n j ≠ nextIx n i → r ^ 2 * (4 * sin (π / n) ^ 2) * sin (2 * π / n) ≤
      leftOf n (regularVertex n r φ) (prevIx n j) (sidePoint n (regularVertex n r φ) i s) := fun q => l3 _ hpj b1 q b2
  have hB : nextIx n j ≠ prevIx n i → r ^ 2 * (4 * sin (π / n) ^ 2) * sin (2 * π / n) ≤
      leftOf n (regularVertex n r φ) (nextIx n j) (sidePoint n (regularVertex n r φ) i s) := fun q => l3 _ hnj b3 b4 q
  have A0 := l4 _ hpj b1
  have B0 := l4 _ hnj b3
  have hsum : r ^ 2 * (4 * sin (π / n) ^ 2) * sin (2 * π / n) ≤
      leftOf n (regularVertex n r φ) (prevIx n j) (sidePoint n (regularVertex n r φ) i s) +
      leftOf n (regularVertex n r φ) (nextIx n j) (sidePoint n (regularVertex n r φ) i s) := by
    by_cases q1 : prevIx n j = nextIx n i
    · by_cases q2 : nextIx n j = prevIx n i
      · rw [q1, q2, l1, l2]; apply le_of_eq; ring
      · linarith only [hB q2, A0]
    · linarith only [hA q1, B0]
  have dA := leftOf_path hp (prevIx n j)
  have dB := leftOf_path hp (nextIx n j)
  have hd := (((RightDer.const (sin (2 * π / n) / 2)).mul (dA.add dB)).div (RightDer.const r) hr0.ne').gt (c := ε * sin (π / n)) (by
    rw [lt_div_iff₀ hr0, hp.start]
    have q1 := mul_le_mul_of_nonneg_left hsum (show 0 ≤ sin (2 * π / n) / 2 by positivity)
    refine lt_of_lt_of_le ?_ q1
    have q2 : ε * (sin (π / n) * r) < sin (2 * π / n) ^ 2 * sin (π / n) / 2 * (sin (π / n) * r) :=
      mul_lt_mul_of_pos_right hle (by positivity)
    have q3 : 0 ≤ sin (2 * π / n) ^ 2 * sin (π / n) ^ 2 * r := by positivity
    have q4 : sin (2 * π / n) ^ 2 * sin (π / n) ^ 2 * r ≤ sin (2 * π / n) ^ 2 * sin (π / n) ^ 2 * r * r := le_mul_of_one_le_right q3 hr
    nlinarith only [q2, q3, q4])
  have val : ∀ᶠ t in near0, (baryF ε d (p t) j).x = leftOf n (regularVertex n r φ) (prevIx n j) (p t) /
      (leftOf n (regularVertex n r φ) (prevIx n j) (p t) + leftOf n (regularVertex n r φ) (nextIx n j) (p t)) := by
    filter_upwards [small, hd, hp.inside] with t q1 q2 hin
    have e := regular_baryMapWith hr h hε hj q1 q2.le
    have k := (baryF_spec h hε hε1 hin hj).1
    unfold baryMap at k
    rw [lam_eq h hε1 hin, M_bind_ok, e] at k
    exact congrArg P2.x (Except.ok.inj k).symm
  have dq := dA.div (dA.add dB) (by rw [hp.start]; exact (add_pos A0 B0).ne')
  have hM : 0 < r ^ 2 * (4 * sin (π / n)) := by positivity
  have ht : 0 < sin (2 * π / n) * sin (π / n) := by positivity
  have ht1 : sin (2 * π / n) * sin (π / n) ≤ 1 := by nlinarith only [su1, su2, sp1, sp2]
  have hε2 : ε < sin (2 * π / n) * sin (π / n) / 2 := by
    have : sin (2 * π / n) ^ 2 ≤ sin (2 * π / n) := by nlinarith only [su2, sp2]
    have := mul_le_mul_of_nonneg_right this sp1.le
    linarith only [this, hle]
  have hMD : (r ^ 2 * (4 * sin (π / n) ^ 2) * sin (2 * π / n)) = r ^ 2 * (4 * sin (π / n)) * (sin (2 * π / n) * sin (π / n)) := by ring
  have c1 : ∀ᶠ t in near0, ((baryF ε d (p t) j).x < ε → prevIx n j = nextIx n i) := by
    by_cases q : prevIx n j = nextIx n i
    · exact Eventually.of_forall fun _ _ => q
    · have k := (gap hM ht ht1 hε2 B0.le (l5 _ hnj) (hMD ▸ hA q)).1
      rw [← hp.start] at k
      filter_upwards [val, dq.gt k] with t e1 e2 e3
      rw [e1] at e3
      exact absurd e3 (not_lt.mpr e2.le)
  have c2 : ∀ᶠ t in near0, (1 - (baryF ε d (p t) j).x < ε → nextIx n j = prevIx n i) := by
    by_cases q : nextIx n j = prevIx n i
    · exact Eventually.of_forall fun _ _ => q
    · have k := (gap hM ht ht1 hε2 A0.le (l5 _ hpj) (hMD ▸ hB q)).2
      rw [← hp.start] at k
      filter_upwards [val, dq.lt k] with t e1 e2 e3
      rw [e1] at e3
      exact absurd e3 (by linarith only [e2])
  exact c1.and c2

/-- The local parameters of the constrained barycentric parameterization. -/
noncomputable def consF (ε : ℝ) (d : Domain ℝ) (uv : P2 ℝ) (j : ℕ) : P2 ℝ := orZero (constrainedMap ε d j uv)

theorem consF_of {uv q : P2 ℝ} {j : ℕ} (h : constrainedMap ε d j uv = .ok q) : consF ε d uv j = q := by
  unfold consF
  rw [h]
  rfl

/-- The constrained barycentric parameterization of a regular domain. -/
theorem constrained_path (hr : 1 ≤ r) (h : ConvexDomain d n (regularVertex n r φ)) (hε : 0 < ε) (hle : ε < sin (2 * π / n) ^ 2 * sin (π / n) / 2)
    (hi : i < n) (s0 : ε < s) (s1 : ε < 1 - s) (hp : DomainPath n (regularVertex n r φ) i s p w) :
    (∀ᶠ t in near0, ∀ j < n, constrainedMap ε d j (p t) = .ok (consF ε d (p t) j)) ∧
      ∃ x' y' : ℕ → ℝ, SidePath ε n i s (fun t => consF ε d (p t)) x' y' ∧ Leaves n i x' y' (inward n (regularVertex n r φ) i w) ∧
      (∀ᶠ t in near0, ∀ j < n, (consF ε d (p t) j).y ≤ 1) ∧ y' (nextIx n i) = -x' i ∧ y' (prevIx n i) = x' i ∧
      (∀ j < n, j ≠ i → j ≠ nextIx n i → j ≠ prevIx n i → Small fun t => hermite 0 (consF ε d (p t) j).y) ∧
      s * x' (nextIx n i) ≤ y' i ∧ -((1 - s) * x' (prevIx n i)) ≤ y' i := by
  have hn := h.hn
  obtain ⟨sp1, sp2⟩ := sin_pi_div_pos hn
  have hε2 : ε < 1 / 2 := by
    have su1 := sin_le_one (π / n)
    have su2 := sin_le_one (2 * π / n)
    have k1 : sin (2 * π / n) ^ 2 ≤ 1 := by nlinarith only [su2, sp2]
    have k2 : sin (2 * π / n) ^ 2 * sin (π / n) ≤ 1 * 1 := mul_le_mul k1 su1 sp1.le zero_le_one
    linarith only [k2, hle]
  have hpi : prevIx n i < n := prevIx_lt (by omega)
  have hxi : nextIx n i < n := nextIx_lt (by omega)
  have nei := Param.next_ne (n := n) (by omega) hi
  have pei := Param.prev_ne (n := n) (by omega) hi
  have nep := Param.next_ne_prev hn hi
  obtain ⟨hv, x', y', hb⟩ := bary_path h hε hi s0 s1 hp
  have dxi := hb.path.dx i (Or.inl rfl)
  have dxn := hb.path.dx _ (Or.inr (Or.inl rfl))
  have dxp := hb.path.dx _ (Or.inr (Or.inr rfl))
  have s00 := hb.path.self
  have n00 := hb.path.next
  have p00 := hb.path.prev
  have farR : ∀ᶠ t in near0, ∀ j < n, j ≠ i → j ≠ nextIx n i → j ≠ prevIx n i →
      ((baryF ε d (p t) j).x < ε → prevIx n j = nextIx n i) ∧ (1 - (baryF ε d (p t) j).x < ε → nextIx n j = prevIx n i) := by
    refine (Filter.eventually_all_finite (finite_lt_nat n)).mpr fun j hj => ?_
    by_cases a : j = i
    · exact Eventually.of_forall fun t q => absurd a q
    by_cases b : j = nextIx n i
    · exact Eventually.of_forall fun t _ q => absurd b q
    by_cases c : j = prevIx n i
    · exact Eventually.of_forall fun t _ _ q => absurd c q
    exact (far_ratio hr h hε hle hi s0 s1 hp hj a b c).mono fun t q _ _ _ => q
  have farY : ∀ᶠ t in near0, ∀ j < n, j ≠ i → j ≠ nextIx n i → j ≠ prevIx n i → 1 - ε < (baryF ε d (p t) j).y := by
    refine (Filter.eventually_all_finite (finite_lt_nat n)).mpr fun j hj => ?_
    by_cases a : j = i
    · exact Eventually.of_forall fun t q => absurd a q
    by_cases b : j = nextIx n i
    · exact Eventually.of_forall fun t _ q => absurd b q
    by_cases c : j = prevIx n i
    · exact Eventually.of_forall fun t _ _ q => absurd c q
    exact ((hb.dy j hj).gt (c := 1 - ε) (by rw [hb.farY j hj a b c]; linarith)).mono fun t q _ _ _ => q
  -- the values along the path
  have key : ∀ᶠ t in near0, constrainedMap ε d i (p t) = .ok (baryF ε d (p t) i) ∧
      constrainedMap ε d (nextIx n i) (p t) = .ok ⟨(baryF ε d (p t) (nextIx n i)).x, 1 - (baryF ε d (p t) i).x⟩ ∧
      constrainedMap ε d (prevIx n i) (p t) = .ok ⟨(baryF ε d (p t) (prevIx n i)).x, (baryF ε d (p t) i).x⟩ ∧
      ∀ j < n, j ≠ i → j ≠ nextIx n i → j ≠ prevIx n i → ∃ z, constrainedMap ε d j (p t) = .ok ⟨(baryF ε d (p t) j).x, z⟩ ∧ z ≤ 1 ∧
        1 - z ≤ 1 - (baryF ε d (p t) j).y + ((baryF ε d (p t) (nextIx n i)).x + (1 - (baryF ε d (p t) (prevIx n i)).x)) := by
    have yi := hb.path.dy i (Or.inl rfl)
    have yn := hb.path.dy _ (Or.inr (Or.inl rfl))
    have yp := hb.path.dy _ (Or.inr (Or.inr rfl))
    filter_upwards [hv, hb.path.range, hb.le_one, farR, farY, yi.lt (c := ε) (by rw [s00]; exact hε), dxi.gt (c := ε) (by rw [s00]; exact s0),
      dxi.lt (c := 1 - ε) (by rw [s00]; change s < 1 - ε; linarith only [s1]),
      yn.gt (c := ε) (by rw [n00]; exact s1), yn.lt (c := 1 - ε) (by rw [n00]; change 1 - s < 1 - ε; linarith only [s0]), dxn.lt (c := ε) (by rw [n00]; exact hε),
      yp.gt (c := ε) (by rw [p00]; exact s0), yp.lt (c := 1 - ε) (by rw [p00]; change s < 1 - ε; linarith only [s1]), dxp.gt (c := 1 - ε) (by rw [p00]; change 1 - ε < 1; linarith only [hε])]
      with t v1 rg l1 fr fy yi1 xi1 xi2 yn1 yn2 xn1 yp1 yp2 xp1
    have cm : ∀ j < n, constrainedMap ε d j (p t) = constrainedBlend ε (baryF ε d (p t) j) (baryF ε d (p t) (prevIx n j)).x (baryF ε d (p t) (nextIx n j)).x := by
      intro j hj
      unfold constrainedMap constrainedMapWith
      dsimp only
      rw [h.length_eq, v1 j hj, M_bind_ok, v1 _ (prevIx_lt (by omega)), M_bind_ok, v1 _ (nextIx_lt (by omega)), M_bind_ok]
    refine ⟨?_, ?_, ?_, ?_⟩
    · rw [cm i hi]
      exact constrained_self yi1 (by linarith only [xi2]) (by linarith only [yi1, hε2]) (by linarith only [xi1])
    · rw [cm _ hxi, prevIx_nextIx hi]
      exact constrained_low (by linarith only [yn1]) (by linarith only [xn1, hε2]) (by linarith only [yn2]) xn1
    · rw [cm _ hpi, nextIx_prevIx hi]
      exact constrained_high (by linarith only [yp1]) (by linarith only [xp1]) (by linarith only [yp2]) (by linarith only [xp1, hε2])
    · intro j hj a b c
      rw [cm j hj]
      have hn0 := (rg _ hxi).1.1
      have hp1 := (rg _ hpi).1.2
      have y1 := fy j hj a b c
      refine constrained_far hε2 (by linarith only [y1, hε2]) (by linarith only [y1]) (l1 j hj) (fun q => ?_) (fun q => ?_) (by linarith only [hn0, hp1])
      · rw [(fr j hj a b c).1 q]
        exact ⟨hn0, by linarith only [hn0, hp1]⟩
      · rw [(fr j hj a b c).2 q]
        exact ⟨by linarith only [hp1], by linarith only [hn0, hp1]⟩
  have all : ∀ᶠ t in near0, ∀ j < n, constrainedMap ε d j (p t) = .ok (consF ε d (p t) j) := by
    filter_upwards [key] with t ⟨k1, k2, k3, k4⟩ j hj
    by_cases a : j = i
    · rw [a, k1, consF_of k1]
    by_cases b : j = nextIx n i
    · rw [b, k2, consF_of k2]
    by_cases c : j = prevIx n i
    · rw [c, k3, consF_of k3]
    obtain ⟨z, e, _⟩ := k4 j hj a b c
    rw [e, consF_of e]
  have hx : ∀ᶠ t in near0, ∀ j < n, (consF ε d (p t) j).x = (baryF ε d (p t) j).x := by
    filter_upwards [key] with t ⟨k1, k2, k3, k4⟩ j hj
    by_cases a : j = i
    · rw [a, consF_of k1]
    by_cases b : j = nextIx n i
    · rw [b, consF_of k2]
    by_cases c : j = prevIx n i
    · rw [c, consF_of k3]
    obtain ⟨z, e, _⟩ := k4 j hj a b c
    rw [consF_of e]
  have hy1 : ∀ᶠ t in near0, ∀ j < n, (consF ε d (p t) j).y ≤ 1 := by
    filter_upwards [key, hb.path.range, hb.le_one] with t ⟨k1, k2, k3, k4⟩ rg l1 j hj
    by_cases a : j = i
    · rw [a, consF_of k1]; exact l1 i hi
    by_cases b : j = nextIx n i
    · rw [b, consF_of k2]
      have := (rg i hi).1.1
      change 1 - _ ≤ _
      linarith only [this]
    by_cases c : j = prevIx n i
    · rw [c, consF_of k3]; exact (rg i hi).1.2
    obtain ⟨z, e, z1, _⟩ := k4 j hj a b c
    rw [consF_of e]; exact z1
  have far1 : ∀ j < n, j ≠ i → j ≠ nextIx n i → j ≠ prevIx n i → ∀ᶠ t in near0, 1 - (consF ε d (p t) j).y ≤
      1 - (baryF ε d (p t) j).y + ((baryF ε d (p t) (nextIx n i)).x + (1 - (baryF ε d (p t) (prevIx n i)).x)) := by
    intro j hj a b c
    filter_upwards [key] with t ⟨k1, k2, k3, k4⟩
    obtain ⟨z, e, z1, z2⟩ := k4 j hj a b c
    rw [consF_of e]; exact z2
  have farD : ∀ j < n, RightDer (fun t => 1 - (baryF ε d (p t) j).y + ((baryF ε d (p t) (nextIx n i)).x + (1 - (baryF ε d (p t) (prevIx n i)).x)))
      (0 - y' j + (x' (nextIx n i) + (0 - x' (prevIx n i)))) := fun j hj => ((RightDer.const 1).sub (hb.dy j hj)).add (dxn.add ((RightDer.const 1).sub dxp))
  have far0 : ∀ j < n, j ≠ i → j ≠ nextIx n i → j ≠ prevIx n i →
      1 - (baryF ε d (p 0) j).y + ((baryF ε d (p 0) (nextIx n i)).x + (1 - (baryF ε d (p 0) (prevIx n i)).x)) = 0 := by
    intro j hj a b c
    have e := hb.farY j hj a b c
    rw [e, n00, p00]
    change (1 : ℝ) - 1 + (0 + (1 - 1)) = 0
    ring
  have z0 : (0 : ℝ) ∈ Ici 0 := by simp
  have lowY : ∀ᶠ t in near0, ∀ j < n, j ≠ i → ε ≤ (consF ε d (p t) j).y := by
    refine (Filter.eventually_all_finite (finite_lt_nat n)).mpr fun j hj => ?_
    by_cases a : j = i
    · exact Eventually.of_forall fun t q => absurd a q
    by_cases b : j = nextIx n i
    · filter_upwards [key, dxi.lt (c := 1 - ε) (by rw [s00]; change s < 1 - ε; linarith only [s1])] with t ⟨_, k2, _, _⟩ q _
      rw [b, consF_of k2]
      change ε ≤ 1 - _
      linarith only [q]
    by_cases c : j = prevIx n i
    · filter_upwards [key, dxi.gt (c := ε) (by rw [s00]; exact s0)] with t ⟨_, _, k3, _⟩ q _
      rw [c, consF_of k3]
      exact q.le
    filter_upwards [far1 j hj a b c, (farD j hj).lt (c := 1 - ε) (by rw [far0 j hj a b c]; linarith only [hε2])] with t q1 q2 _
    linarith only [q1, q2]
  obtain ⟨k1, k2, k3, _⟩ := key.self_of_nhdsWithin z0
  refine ⟨all, x', fun j => if j = i then y' i else if j = nextIx n i then -x' i else x' i, ⟨?_, ?_, ?_, ?_, ?_, ?_, ?_⟩, ?_, hy1, ?_, ?_, ?_, ?_, ?_⟩
  · rw [consF_of k1]; exact s00
  · rw [consF_of k2, s00, n00]
  · rw [consF_of k3, s00, p00]
  · rintro j (rfl | rfl | rfl)
    · exact dxi.congr (hx.mono fun t q => q _ hi)
    · exact dxn.congr (hx.mono fun t q => q _ hxi)
    · exact dxp.congr (hx.mono fun t q => q _ hpi)
  · rintro j (rfl | rfl | rfl)
    · rw [if_pos rfl]
      refine (hb.dy _ hi).congr (key.mono fun t q => ?_)
      rw [consF_of q.1]
    · rw [if_neg nei, if_pos rfl]
      refine (((RightDer.const 1).sub dxi).congr (key.mono fun t q => ?_)).congr_der (zero_sub _)
      rw [consF_of q.2.1]
    · rw [if_neg pei, if_neg nep.symm]
      refine dxi.congr (key.mono fun t q => ?_)
      rw [consF_of q.2.2.1]
  · filter_upwards [hx, key, hb.path.range, lowY] with t hxt ⟨k1, k2, k3, k4⟩ rg low j hj
    refine ⟨by rw [hxt j hj]; exact (rg j hj).1, ?_⟩
    by_cases a : j = i
    · rw [a, consF_of k1]; exact (rg i hi).2
    by_cases b : j = nextIx n i
    · rw [b, consF_of k2]
      have := (rg i hi).1.2
      change 0 ≤ 1 - _
      linarith only [this]
    by_cases c : j = prevIx n i
    · rw [c, consF_of k3]; exact (rg i hi).1.1
    exact hε.le.trans (low j hj a)
  · exact lowY
  · exact hb.leaves.strict' hb.leaves.self (fun q => (hb.leaves.strict q).2.2) (if_pos rfl)
  · dsimp only; rw [if_neg nei, if_pos rfl]
  · dsimp only; rw [if_neg pei, if_neg nep.symm]
  · intro j hj a b c
    have e0 : (consF ε d (p 0) j).y = 1 := by
      have q1 := (far1 j hj a b c).self_of_nhdsWithin z0
      have q2 := hy1.self_of_nhdsWithin z0 j hj
      rw [far0 j hj a b c] at q1
      linarith only [q1, q2]
    refine Small.mono ((Small.sq (farD j hj) (far0 j hj a b c)).mul (v := fun _ => 3) (C := 3) (Eventually.of_forall fun _ => by norm_num)) ?_ (by rw [e0]; simp [hermite])
    filter_upwards [far1 j hj a b c, hy1, lowY] with t q1 q2 q3
    have h1 := q2 j hj
    have h0 := hε.le.trans (q3 j hj a)
    rw [abs_of_nonneg (herm_range h0 h1).1, abs_of_nonneg (by positivity), herm_flip]
    generalize 1 - (baryF ε d (p t) j).y + ((baryF ε d (p t) (nextIx n i)).x + (1 - (baryF ε d (p t) (prevIx n i)).x)) = g at *
    generalize (consF ε d (p t) j).y = y at *
    have k1 : (1 - y) ^ 2 ≤ g ^ 2 := pow_le_pow_left₀ (by linarith only [h1]) q1 2
    have k2 : (1 - y) ^ 2 * (3 - 2 * (1 - y)) ≤ (1 - y) ^ 2 * 3 := mul_le_mul_of_nonneg_left (by linarith only [h1]) (sq_nonneg _)
    linarith only [k1, k2]
  · dsimp only; rw [if_pos rfl]; exact hb.nextLe
  · dsimp only; rw [if_pos rfl]; exact hb.prevLe

end Surf

end Transfinite
