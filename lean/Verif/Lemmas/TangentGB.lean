import Verif.Lemmas.GenBezierEval
import Verif.Lemmas.TangentBary
import Verif.Lemmas.BCurve
import Verif.Spec.GBTangent

/-! # Derivatives of the weights of Generalized Bézier patches along a path that starts at a side -/

namespace Transfinite

open Spec Set Filter Topology

namespace GB

/-- The derivative of a Bernstein polynomial of degree `m + 1`. -/
noncomputable def bernDer (m j : ℕ) (u : ℝ) : ℝ := ((m + 1 : ℕ) : ℝ) * ((if j = 0 then 0 else bern m (j - 1) u) - bern m j u)

theorem bernDer_sum (m : ℕ) (p : ℕ → P3 ℝ) (u : ℝ) :
    ∑ j ∈ Finset.range (m + 2), bernDer m j u • p j = bezier m (fun i => ((m + 1 : ℕ) : ℝ) • (p (i + 1) - p i)) u := by
  unfold bezier bernDer
  have e1 : ∑ j ∈ Finset.range (m + 2), (if j = 0 then 0 else bern m (j - 1) u) • p j = ∑ j ∈ Finset.range (m + 1), bern m j u • p (j + 1) := by
    rw [Finset.sum_range_succ']
    simp
  have e2 : ∑ j ∈ Finset.range (m + 2), bern m j u • p j = ∑ j ∈ Finset.range (m + 1), bern m j u • p j := by
    rw [Finset.sum_range_succ, bern_of_lt (Nat.lt_succ_self m)]
    simp
  have e3 : ∑ j ∈ Finset.range (m + 2), (((m + 1 : ℕ) : ℝ) * ((if j = 0 then 0 else bern m (j - 1) u) - bern m j u)) • p j =
      ((m + 1 : ℕ) : ℝ) • (∑ j ∈ Finset.range (m + 2), (if j = 0 then 0 else bern m (j - 1) u) • p j - ∑ j ∈ Finset.range (m + 2), bern m j u • p j) := by
    rw [← Finset.sum_sub_distrib, Finset.smul_sum]
    exact Finset.sum_congr rfl fun j _ => by rw [mul_smul, sub_smul]
  rw [e3, e1, e2, ← Finset.sum_sub_distrib, Finset.smul_sum]
  refine Finset.sum_congr rfl fun j _ => ?_
  rw [← smul_sub, smul_comm]

theorem bernDer_zero_zero (m : ℕ) : bernDer m 0 0 = -((m + 1 : ℕ) : ℝ) := by
  unfold bernDer
  rw [if_pos rfl, bern_at_zero, if_pos rfl]
  ring

theorem bernDer_one_zero (m : ℕ) : bernDer m 1 0 = ((m + 1 : ℕ) : ℝ) := by
  unfold bernDer
  rw [if_neg one_ne_zero, bern_at_zero, bern_at_zero, if_pos rfl, if_neg one_ne_zero]
  ring

theorem bern_le_one (d j : ℕ) {u : ℝ} (h0 : 0 ≤ u) (h1 : u ≤ 1) : bern d j u ≤ 1 := by
  rcases Nat.lt_or_ge d j with h | h
  · rw [bern_of_lt h]; exact zero_le_one
  · rw [← bern_sum d u]
    exact Finset.single_le_sum (f := fun j => bern d j u) (fun k _ => bern_nonneg d k h0 h1) (Finset.mem_range.mpr (by omega))

theorem bern_le_sq {d j : ℕ} (hj : 2 ≤ j) {u : ℝ} (h0 : 0 ≤ u) (h1 : u ≤ 1) : bern d j u ≤ (d.choose j : ℝ) * u ^ 2 := by
  unfold bern
  have a : u ^ j ≤ u ^ 2 := pow_le_pow_of_le_one h0 h1 hj
  have b : (1 - u) ^ (d - j) ≤ 1 := pow_le_one₀ (by linarith) (by linarith)
  have c : 0 ≤ (1 - u) ^ (d - j) := pow_nonneg (by linarith) _
  have e : (0 : ℝ) ≤ (d.choose j : ℝ) := Nat.cast_nonneg _
  have f : (0 : ℝ) ≤ (d.choose j : ℝ) * u ^ j := mul_nonneg e (pow_nonneg h0 _)
  calc (d.choose j : ℝ) * u ^ j * (1 - u) ^ (d - j) ≤ (d.choose j : ℝ) * u ^ j := mul_le_of_le_one_right f b
    _ ≤ _ := mul_le_mul_of_nonneg_left a e

theorem bern_le_sq' {d j : ℕ} (hj : j + 2 ≤ d) {u : ℝ} (h0 : 0 ≤ u) (h1 : u ≤ 1) : bern d j u ≤ (d.choose j : ℝ) * (1 - u) ^ 2 := by
  have h := bern_le_sq (d := d) (j := d - j) (by omega) (u := 1 - u) (by linarith) (by linarith)
  rwa [bern_symm (by omega), show d - (d - j) = j by omega, Nat.choose_symm (by omega)] at h

/-! ### The rational weights -/

variable {sq : Bool}

theorem ratVal_range {x y : ℝ} (hx : 0 ≤ x) (hy : 0 ≤ y) : 0 ≤ ratVal sq x y ∧ ratVal sq x y ≤ 1 := by
  unfold ratVal
  cases sq
  · exact ⟨div_nonneg hx (by linarith), div_le_one_of_le₀ (by linarith) (by linarith)⟩
  · exact ⟨div_nonneg (mul_nonneg hx hx) (by positivity), div_le_one_of_le₀ (by nlinarith [mul_self_nonneg y]) (by positivity)⟩

/-- Weights that are 1 on the side. -/
theorem ratVal_der_one {a b : ℝ → ℝ} {a' b' : ℝ} (ha : RightDer a a') (hb : RightDer b b') (b0 : b 0 = 0) (a0 : a 0 ≠ 0) :
    RightDer (fun t => ratVal sq (a t) (b t)) (if sq then 0 else -(b' / a 0)) := by
  unfold ratVal
  cases sq
  · simp only [Bool.false_eq_true, if_false]
    refine (ha.div (ha.add hb) (by rw [b0, add_zero]; exact a0)).congr_der ?_
    rw [b0, add_zero]
    field_simp
    ring
  · simp only [if_true]
    refine ((ha.mul ha).div ((ha.mul ha).add (hb.mul hb)) (by rw [b0]; simpa using a0)).congr_der ?_
    rw [b0]
    field_simp
    ring

/-- Weights that are 0 on the side. -/
theorem ratVal_der_zero {a b : ℝ → ℝ} {a' b' : ℝ} (ha : RightDer a a') (hb : RightDer b b') (a0 : a 0 = 0) (b0 : b 0 ≠ 0) :
    RightDer (fun t => ratVal sq (a t) (b t)) (if sq then 0 else a' / b 0) := by
  unfold ratVal
  cases sq
  · simp only [Bool.false_eq_true, if_false]
    refine (ha.div (ha.add hb) (by rw [a0, zero_add]; exact b0)).congr_der ?_
    rw [a0, zero_add]
    field_simp
    ring
  · simp only [if_true]
    refine ((ha.mul ha).div ((ha.mul ha).add (hb.mul hb)) (by rw [a0]; simpa using b0)).congr_der ?_
    rw [a0]
    field_simp
    ring

theorem factor_bound (d j k : ℕ) {a b x : ℝ} (ha : 0 ≤ a ∧ a ≤ 1) (hb : 0 ≤ b ∧ b ≤ 1) (hx : 0 ≤ x) : |factor d j k a b x| ≤ x := by
  unfold factor
  split_ifs
  · rw [abs_of_nonneg (mul_nonneg hx ha.1)]; exact mul_le_of_le_one_right hx ha.2
  · rw [abs_of_nonneg (mul_nonneg hx hb.1)]; exact mul_le_of_le_one_right hx hb.2
  · rw [abs_of_nonneg (by linarith)]; linarith
  · rw [abs_zero]; exact hx
  · rw [abs_of_nonneg hx]

/-- The first two rows. -/
theorem factor_low {d j k : ℕ} (hd : 3 ≤ d) (hj : j ≤ d) (hk : k < 2) (a b x : ℝ) :
    factor d j k a b x = x * (if j < 2 then a else if d < j + 2 then b else 1) := by
  unfold factor
  rw [usub_of_le (show 2 ≤ d by omega), usub_of_le (show k ≤ d by omega)]
  split_ifs <;> first | rfl | omega | simp

/-- The further rows, next to the sides. -/
theorem factor_high {d j k : ℕ} (hk : 2 ≤ k) (hkd : k < (d + 1) / 2) (hj : j < 2 ∨ d < j + 2) (a b x : ℝ) : factor d j k a b x = 0 := by
  unfold factor
  rw [usub_of_le (show 2 ≤ d by omega), usub_of_le (show k ≤ d by omega)]
  split_ifs <;> first | rfl | omega

/-! ### The weights -/

variable {ε s l : ℝ} {n d i : ℕ} {f : ℝ → ℕ → P2 ℝ} {x' y' : ℕ → ℝ}

theorem wt_bound {g : ℕ → P2 ℝ} (hr : ∀ j < n, ((0 ≤ (g j).x ∧ (g j).x ≤ 1) ∧ 0 ≤ (g j).y) ∧ (g j).y ≤ 1) {j : ℕ} (hj : j < n) (c k : ℕ) :
    |wt sq n d g j c k| ≤ bern d c (g j).x * bern d k (g j).y := by
  obtain ⟨⟨⟨x0, x1⟩, y0⟩, y1⟩ := hr j hj
  refine factor_bound _ _ _ (ratVal_range (hr _ (prevIx_lt (by omega))).1.2 y0) (ratVal_range (hr _ (nextIx_lt (by omega))).1.2 y0) ?_
  exact mul_nonneg (bern_nonneg _ _ x0 x1) (bern_nonneg _ _ y0 y1)

/-- The derivatives of the weights. -/
noncomputable def wtDer (sq : Bool) (n m i : ℕ) (s : ℝ) (x' y' : ℕ → ℝ) (j c k : ℕ) : ℝ :=
  let ρ0 : ℝ := if sq then 0 else -(y' i / s)
  let ρ1 : ℝ := if sq then 0 else -(y' i / (1 - s))
  if j = i then
    (if k = 0 then bernDer m c s * x' i - ((m + 1 : ℕ) : ℝ) * y' i * bern (m + 1) c s + bern (m + 1) c s * (if c < 2 then ρ0 else if m < c + 1 then ρ1 else 0)
      else if k = 1 then ((m + 1 : ℕ) : ℝ) * y' i * bern (m + 1) c s else 0)
  else if j = prevIx n i then (if c = m + 1 ∧ k < 2 then -(ρ0 * bern (m + 1) k s) else 0)
  else if j = nextIx n i then (if c = 0 ∧ k < 2 then -(ρ1 * bern (m + 1) k (1 - s)) else 0)
  else 0

variable {m : ℕ}

theorem wt_der (hn : 3 ≤ n) (hm : 2 ≤ m) (hi : i < n) (s0 : 0 < s) (s1 : s < 1) (hb : Surf.BaryPath ε n i s f x' y' l) {j c k : ℕ} (hj : j < n) (hc : c ≤ m + 1)
    (hk : k < (m + 1 + 1) / 2) : RightDer (fun t => wt sq n (m + 1) (f t) j c k) (wtDer sq n m i s x' y' j c k) := by
  have nei := Param.next_ne (n := n) (by omega) hi
  have pei := Param.prev_ne (n := n) (by omega) hi
  have nep := Param.next_ne_prev hn hi
  have hP := hb.path
  have hr : ∀ᶠ t in near0, ∀ j < n, ((0 ≤ (f t j).x ∧ (f t j).x ≤ 1) ∧ 0 ≤ (f t j).y) ∧ (f t j).y ≤ 1 := by
    filter_upwards [hP.range, hb.le_one] with t h1 h2 j hj
    exact ⟨h1 j hj, h2 j hj⟩
  have dyi := hP.dy i (Or.inl rfl)
  have dyn := hP.dy _ (Or.inr (Or.inl rfl))
  have dyp := hP.dy _ (Or.inr (Or.inr rfl))
  have dxi := hP.dx i (Or.inl rfl)
  have dxn := hP.dx _ (Or.inr (Or.inl rfl))
  have dxp := hP.dx _ (Or.inr (Or.inr rfl))
  have yi0 : (f 0 i).y = 0 := by rw [hP.self]
  have yn0 : (f 0 (nextIx n i)).y = 1 - s := by rw [hP.next]
  have yp0 : (f 0 (prevIx n i)).y = s := by rw [hP.prev]
  have xi0 : (f 0 i).x = s := by rw [hP.self]
  have xn0 : (f 0 (nextIx n i)).x = 0 := by rw [hP.next]
  have xp0 : (f 0 (prevIx n i)).x = 1 := by rw [hP.prev]
  have berd : ∀ {q : ℝ → ℝ} {q' : ℝ} (c : ℕ), RightDer q q' → RightDer (fun t => bern (m + 1) c (q t)) (bernDer m c (q 0) * q') :=
    fun c hq => hq.comp (BCurve.bern_deriv m c _)
  unfold wtDer
  dsimp only
  by_cases a : j = i
  · subst a
    rw [if_pos rfl]
    by_cases k2 : 2 ≤ k
    · rw [if_neg (by omega), if_neg (by omega)]
      refine RightDer.of_sq (C := ((m + 1).choose k : ℝ)) dyi yi0 ?_
      filter_upwards [hr] with t ht
      obtain ⟨⟨⟨x0, x1⟩, y0⟩, y1⟩ := ht j hj
      refine (wt_bound ht hj c k).trans ?_
      refine (mul_le_of_le_one_left (bern_nonneg _ _ y0 y1) (bern_le_one _ _ x0 x1)).trans (bern_le_sq k2 y0 y1)
    · have e : ∀ t, wt sq n (m + 1) (f t) j c k = bern (m + 1) c (f t j).x * bern (m + 1) k (f t j).y *
          (if c < 2 then ratVal sq (f t (prevIx n j)).y (f t j).y else if m + 1 < c + 2 then ratVal sq (f t (nextIx n j)).y (f t j).y else 1) := by
        intro t
        unfold wt
        rw [factor_low (by omega) hc (by omega)]
      have hg : RightDer (fun t => if c < 2 then ratVal sq (f t (prevIx n j)).y (f t j).y else if m + 1 < c + 2 then ratVal sq (f t (nextIx n j)).y (f t j).y else 1)
          (if c < 2 then (if sq then 0 else -(y' j / s)) else if m < c + 1 then (if sq then 0 else -(y' j / (1 - s))) else 0) := by
        by_cases c2 : c < 2
        · simp only [if_pos c2]
          have := ratVal_der_one (sq := sq) dyp dyi yi0 (by rw [yp0]; exact s0.ne')
          rwa [yp0] at this
        · simp only [if_neg c2]
          by_cases c3 : m < c + 1
          · simp only [if_pos c3, if_pos (show m + 1 < c + 2 by omega)]
            have := ratVal_der_one (sq := sq) dyn dyi yi0 (by rw [yn0]; linarith)
            rwa [yn0] at this
          · simp only [if_neg c3, if_neg (show ¬m + 1 < c + 2 by omega)]
            exact RightDer.const 1
      have hg0 : (if c < 2 then ratVal sq (f 0 (prevIx n j)).y (f 0 j).y else if m + 1 < c + 2 then ratVal sq (f 0 (nextIx n j)).y (f 0 j).y else 1) = 1 := by
        rw [yi0, yn0, yp0, ratVal_one s0.ne', ratVal_one (by linarith)]
        simp
      refine ((((berd c dxi).mul (berd k dyi)).mul hg).congr (Eventually.of_forall e)).congr_der ?_
      rw [hg0, xi0, yi0]
      have k01 : k = 0 ∨ k = 1 := by omega
      rcases k01 with rfl | rfl
      · rw [if_pos rfl, bern_at_zero, if_pos rfl, bernDer_zero_zero]
        ring
      · rw [if_neg one_ne_zero, if_pos rfl, bern_at_zero, if_neg one_ne_zero, bernDer_one_zero]
        ring
  · rw [if_neg a]
    by_cases b : j = prevIx n i
    · subst b
      rw [if_pos rfl]
      by_cases cs : c + 2 ≤ m + 1
      · rw [if_neg (by omega)]
        refine RightDer.of_sq (C := ((m + 1).choose c : ℝ)) (g := fun t => 1 - (f t (prevIx n i)).x) (((RightDer.const 1).sub dxp)) (by rw [xp0, sub_self]) ?_
        filter_upwards [hr] with t ht
        obtain ⟨⟨⟨x0, x1⟩, y0⟩, y1⟩ := ht _ hj
        refine (wt_bound ht hj c k).trans ?_
        exact (mul_le_of_le_one_right (bern_nonneg _ _ x0 x1) (bern_le_one _ _ y0 y1)).trans (bern_le_sq' cs x0 x1)
      · by_cases k2 : 2 ≤ k
        · rw [if_neg (by omega)]
          refine (RightDer.const 0).congr (Eventually.of_forall fun t => ?_)
          unfold wt
          exact factor_high k2 hk (by omega) _ _ _
        · have e : ∀ t, wt sq n (m + 1) (f t) (prevIx n i) c k = bern (m + 1) c (f t (prevIx n i)).x * bern (m + 1) k (f t (prevIx n i)).y *
              ratVal sq (f t i).y (f t (prevIx n i)).y := by
            intro t
            unfold wt
            rw [factor_low (by omega) hc (by omega), if_neg (by omega), if_pos (by omega), nextIx_prevIx hi]
          have hg := ratVal_der_zero (sq := sq) dyi dyp yi0 (by rw [yp0]; exact s0.ne')
          refine ((((berd c dxp).mul (berd k dyp)).mul hg).congr (Eventually.of_forall e)).congr_der ?_
          rw [yi0, yp0, xp0, ratVal_zero, bern_at_one hc]
          by_cases cd : c = m + 1
          · rw [if_pos cd, if_pos (show _ ∧ k < 2 from ⟨cd, by omega⟩)]
            cases sq <;> simp <;> ring
          · rw [if_neg cd, if_neg (fun q : _ ∧ k < 2 => cd q.1)]
            ring
    · rw [if_neg b]
      by_cases e0 : j = nextIx n i
      · subst e0
        rw [if_pos rfl]
        by_cases cs : 2 ≤ c
        · rw [if_neg (by omega)]
          refine RightDer.of_sq (C := ((m + 1).choose c : ℝ)) dxn xn0 ?_
          filter_upwards [hr] with t ht
          obtain ⟨⟨⟨x0, x1⟩, y0⟩, y1⟩ := ht _ hj
          refine (wt_bound ht hj c k).trans ?_
          exact (mul_le_of_le_one_right (bern_nonneg _ _ x0 x1) (bern_le_one _ _ y0 y1)).trans (bern_le_sq cs x0 x1)
        · by_cases k2 : 2 ≤ k
          · rw [if_neg (by omega)]
            refine (RightDer.const 0).congr (Eventually.of_forall fun t => ?_)
            unfold wt
            exact factor_high k2 hk (by omega) _ _ _
          · have e : ∀ t, wt sq n (m + 1) (f t) (nextIx n i) c k = bern (m + 1) c (f t (nextIx n i)).x * bern (m + 1) k (f t (nextIx n i)).y *
                ratVal sq (f t i).y (f t (nextIx n i)).y := by
              intro t
              unfold wt
              rw [factor_low (by omega) hc (by omega), if_pos (by omega), prevIx_nextIx hi]
            have hg := ratVal_der_zero (sq := sq) dyi dyn yi0 (by rw [yn0]; linarith)
            refine ((((berd c dxn).mul (berd k dyn)).mul hg).congr (Eventually.of_forall e)).congr_der ?_
            rw [yi0, yn0, xn0, ratVal_zero, bern_at_zero]
            by_cases cd : c = 0
            · rw [if_pos cd, if_pos (show _ ∧ k < 2 from ⟨cd, by omega⟩)]
              cases sq <;> simp <;> ring
            · rw [if_neg cd, if_neg (fun q : _ ∧ k < 2 => cd q.1)]
              ring
      · rw [if_neg e0]
        have far := hb.farY j hj a e0 b
        refine RightDer.of_sq (C := ((m + 1).choose k : ℝ)) (g := fun t => 1 - (f t j).y) (((RightDer.const 1).sub (hb.dy j hj))) (by rw [far, sub_self]) ?_
        filter_upwards [hr] with t ht
        obtain ⟨⟨⟨x0, x1⟩, y0⟩, y1⟩ := ht _ hj
        refine (wt_bound ht hj c k).trans ?_
        exact (mul_le_of_le_one_left (bern_nonneg _ _ y0 y1) (bern_le_one _ _ x0 x1)).trans (bern_le_sq' (by omega) y0 y1)

/-! ### The patch -/

private theorem sum_low {L : ℕ} (hL : 2 ≤ L) (g : ℕ → P3 ℝ) (h : ∀ k, 2 ≤ k → g k = 0) : ∑ k ∈ Finset.range L, g k = g 0 + g 1 := by
  obtain ⟨r, rfl⟩ := Nat.exists_eq_add_of_le hL
  rw [Finset.sum_range_add, Finset.sum_eq_zero (s := Finset.range r) (fun x _ => h _ (by omega)), add_zero, Finset.sum_range_succ, Finset.sum_range_one]

theorem wtDer_sum (hn : 3 ≤ n) (hm : 2 ≤ m) (hi : i < n) (s0 : 0 < s) (s1 : s < 1) (V : ℕ → ℕ → ℕ → P3 ℝ) :
    ∑ j ∈ Finset.range n, ∑ k ∈ Finset.range ((m + 1 + 1) / 2), ∑ c ∈ Finset.range (m + 1 + 1), wtDer sq n m i s x' y' j c k • V j c k =
      x' i • bezier m (fun c => ((m + 1 : ℕ) : ℝ) • (V i (c + 1) 0 - V i c 0)) s +
        y' i • (((m + 1 : ℕ) : ℝ) • (bezier (m + 1) (fun c => V i c 1) s - bezier (m + 1) (fun c => V i c 0) s) -
          if sq then 0 else copyError (m + 1) s (fun k => V i k 0) (fun k => V (prevIx n i) (m + 1) k) +
            copyError (m + 1) (1 - s) (fun k => V i (m + 1 - k) 0) (fun k => V (nextIx n i) 0 k)) := by
  have nei := Param.next_ne (n := n) (by omega) hi
  have pei := Param.prev_ne (n := n) (by omega) hi
  have nep := Param.next_ne_prev hn hi
  have hp : prevIx n i < n := prevIx_lt (by omega)
  have hx : nextIx n i < n := nextIx_lt (by omega)
  set ρ0 : ℝ := if sq then 0 else -(y' i / s) with hρ0
  set ρ1 : ℝ := if sq then 0 else -(y' i / (1 - s)) with hρ1
  set T : ℕ → P3 ℝ := fun j => ∑ k ∈ Finset.range ((m + 1 + 1) / 2), ∑ c ∈ Finset.range (m + 1 + 1), wtDer sq n m i s x' y' j c k • V j c k with hT
  have hz : ∀ j, j ≠ i → j ≠ prevIx n i → j ≠ nextIx n i → T j = 0 := by
    intro j a b c
    refine Finset.sum_eq_zero fun k _ => Finset.sum_eq_zero fun c' _ => ?_
    unfold wtDer
    dsimp only
    rw [if_neg a, if_neg b, if_neg c, zero_smul]
  have h3 : ∑ j ∈ Finset.range n, T j = T i + (T (prevIx n i) + T (nextIx n i)) := by
    have hsub : ({i, prevIx n i, nextIx n i} : Finset ℕ) ⊆ Finset.range n := by
      intro j hj
      simp only [Finset.mem_insert, Finset.mem_singleton] at hj
      rcases hj with rfl | rfl | rfl <;> simpa
    rw [← Finset.sum_subset hsub (fun j _ hj => by
      simp only [Finset.mem_insert, Finset.mem_singleton, not_or] at hj
      exact hz j hj.1 hj.2.1 hj.2.2)]
    rw [Finset.sum_insert (by simp [pei.symm, nei.symm]), Finset.sum_insert (by simpa using nep.symm), Finset.sum_singleton]
  have hprev : T (prevIx n i) = -(ρ0 • ∑ k ∈ Finset.range 2, bern (m + 1) k s • V (prevIx n i) (m + 1) k) := by
    have e : ∀ k, ∑ c ∈ Finset.range (m + 1 + 1), wtDer sq n m i s x' y' (prevIx n i) c k • V (prevIx n i) c k =
        if k < 2 then -(ρ0 * bern (m + 1) k s) • V (prevIx n i) (m + 1) k else 0 := by
      intro k
      rw [Finset.sum_range_succ, Finset.sum_eq_zero (fun c hc => ?_), zero_add]
      · unfold wtDer
        dsimp only
        rw [if_neg pei, if_pos rfl]
        by_cases k2 : k < 2
        · rw [if_pos ⟨rfl, k2⟩, if_pos k2]
        · rw [if_neg (by tauto), if_neg k2, zero_smul]
      · have := Finset.mem_range.mp hc
        unfold wtDer
        dsimp only
        rw [if_neg pei, if_pos rfl, if_neg (by omega), zero_smul]
    rw [hT]
    dsimp only
    rw [Finset.sum_congr rfl fun k _ => e k, sum_low (by omega) _ (fun k hk => if_neg (by omega)), if_pos (by norm_num), if_pos (by norm_num),
      Finset.sum_range_succ, Finset.sum_range_one, smul_add, smul_smul, smul_smul, neg_add, neg_smul, neg_smul]
  have hnext : T (nextIx n i) = -(ρ1 • ∑ k ∈ Finset.range 2, bern (m + 1) k (1 - s) • V (nextIx n i) 0 k) := by
    have e : ∀ k, ∑ c ∈ Finset.range (m + 1 + 1), wtDer sq n m i s x' y' (nextIx n i) c k • V (nextIx n i) c k =
        if k < 2 then -(ρ1 * bern (m + 1) k (1 - s)) • V (nextIx n i) 0 k else 0 := by
      intro k
      rw [Finset.sum_range_succ', Finset.sum_eq_zero (fun c hc => ?_), zero_add]
      · unfold wtDer
        dsimp only
        rw [if_neg nei, if_neg nep, if_pos rfl]
        by_cases k2 : k < 2
        · rw [if_pos ⟨rfl, k2⟩, if_pos k2]
        · rw [if_neg (by tauto), if_neg k2, zero_smul]
      · unfold wtDer
        dsimp only
        rw [if_neg nei, if_neg nep, if_pos rfl, if_neg (by omega), zero_smul]
    rw [hT]
    dsimp only
    rw [Finset.sum_congr rfl fun k _ => e k, sum_low (by omega) _ (fun k hk => if_neg (by omega)), if_pos (by norm_num), if_pos (by norm_num),
      Finset.sum_range_succ, Finset.sum_range_one, smul_add, smul_smul, smul_smul, neg_add, neg_smul, neg_smul]
  have hmid : ∑ c ∈ Finset.range (m + 1 + 1), (bern (m + 1) c s * (if c < 2 then ρ0 else if m < c + 1 then ρ1 else 0)) • V i c 0 =
      ρ0 • ∑ k ∈ Finset.range 2, bern (m + 1) k s • V i k 0 + ρ1 • ∑ k ∈ Finset.range 2, bern (m + 1) k (1 - s) • V i (m + 1 - k) 0 := by
    obtain ⟨r, rfl⟩ := Nat.exists_eq_add_of_le hm
    have e1 : 2 + r + 1 + 1 = 2 + (r + 2) := by omega
    rw [e1, Finset.sum_range_add]
    congr 1
    · rw [Finset.smul_sum]
      refine Finset.sum_congr rfl fun c hc => ?_
      rw [if_pos (Finset.mem_range.mp hc), smul_smul, mul_comm]
    · rw [Finset.sum_range_add, Finset.sum_eq_zero (fun c hc => ?_), zero_add]
      · rw [Finset.sum_range_succ, Finset.sum_range_one, Finset.sum_range_succ, Finset.sum_range_one]
        rw [if_neg (by omega), if_pos (by omega), if_neg (by omega), if_pos (by omega), bern_symm (by omega), bern_symm (by omega),
          show 2 + r + 1 - 0 = 2 + (r + 1) by omega, show 2 + r + 1 - 1 = 2 + (r + 0) by omega, smul_add, smul_smul, smul_smul, mul_comm ρ1, mul_comm ρ1]
        exact add_comm _ _
      · have := Finset.mem_range.mp hc
        rw [if_neg (by omega), if_neg (by omega), mul_zero, zero_smul]
  have hself : T i = x' i • bezier m (fun c => ((m + 1 : ℕ) : ℝ) • (V i (c + 1) 0 - V i c 0)) s +
      y' i • (((m + 1 : ℕ) : ℝ) • (bezier (m + 1) (fun c => V i c 1) s - bezier (m + 1) (fun c => V i c 0) s)) +
        (ρ0 • ∑ k ∈ Finset.range 2, bern (m + 1) k s • V i k 0 + ρ1 • ∑ k ∈ Finset.range 2, bern (m + 1) k (1 - s) • V i (m + 1 - k) 0) := by
    rw [← hmid, ← bernDer_sum m (fun c => V i c 0)]
    unfold bezier
    rw [hT]
    dsimp only
    rw [sum_low (by omega)]
    · rw [← Finset.sum_sub_distrib, Finset.smul_sum, Finset.smul_sum, Finset.smul_sum, ← Finset.sum_add_distrib, ← Finset.sum_add_distrib,
        ← Finset.sum_add_distrib]
      refine Finset.sum_congr rfl fun c _ => ?_
      unfold wtDer
      dsimp only
      rw [if_pos rfl, if_pos rfl, if_pos rfl, if_neg one_ne_zero, if_pos rfl]
      simp only [add_smul, sub_smul, smul_sub, smul_smul, mul_comm, mul_left_comm, mul_assoc]
      abel
    · intro k hk
      refine Finset.sum_eq_zero fun c _ => ?_
      unfold wtDer
      dsimp only
      rw [if_pos rfl, if_neg (by omega), if_neg (by omega), zero_smul]
  change ∑ j ∈ Finset.range n, T j = _
  rw [h3, hself, hprev, hnext]
  cases sq
  · simp only [Bool.false_eq_true, if_false] at hρ0 hρ1 ⊢
    have c0 : y' i • copyError (m + 1) s (fun k => V i k 0) (fun k => V (prevIx n i) (m + 1) k) =
        -(ρ0 • ∑ k ∈ Finset.range 2, bern (m + 1) k s • V i k 0) + ρ0 • ∑ k ∈ Finset.range 2, bern (m + 1) k s • V (prevIx n i) (m + 1) k := by
      unfold copyError
      rw [hρ0, ← sub_eq_neg_add, ← smul_sub, ← Finset.sum_sub_distrib, Finset.smul_sum, Finset.smul_sum]
      refine Finset.sum_congr rfl fun k _ => ?_
      rw [← smul_sub, smul_smul, smul_smul, ← neg_sub (V i k 0), smul_neg, neg_mul, neg_smul, neg_neg]
      congr 1
      ring
    have c1 : y' i • copyError (m + 1) (1 - s) (fun k => V i (m + 1 - k) 0) (fun k => V (nextIx n i) 0 k) =
        -(ρ1 • ∑ k ∈ Finset.range 2, bern (m + 1) k (1 - s) • V i (m + 1 - k) 0) + ρ1 • ∑ k ∈ Finset.range 2, bern (m + 1) k (1 - s) • V (nextIx n i) 0 k := by
      unfold copyError
      rw [hρ1, ← sub_eq_neg_add, ← smul_sub, ← Finset.sum_sub_distrib, Finset.smul_sum, Finset.smul_sum]
      refine Finset.sum_congr rfl fun k _ => ?_
      rw [← smul_sub, smul_smul, smul_smul, ← neg_sub (V i (m + 1 - k) 0), smul_neg, neg_mul, neg_smul, neg_neg]
      congr 1
      ring
    rw [smul_sub (y' i), smul_add (y' i), c0, c1]
    abel
  · simp only [if_true] at hρ0 hρ1 ⊢
    rw [hρ0, hρ1]
    simp only [zero_smul, neg_zero, add_zero, sub_zero]

private theorem bezier_sub {d : ℕ} (p : ℕ → P3 ℝ) (q : P3 ℝ) (u : ℝ) : bezier d (fun c => p c - q) u = bezier d p u - q := by
  unfold bezier
  simp only [smul_sub, Finset.sum_sub_distrib]
  rw [← Finset.sum_smul, bern_sum, one_smul]

/-- The derivative of a patch along a path that starts at side `i`. -/
theorem patch_der (hn : 3 ≤ n) (hm : 2 ≤ m) (hi : i < n) (s0 : 0 < s) (s1 : s < 1) (hb : Surf.BaryPath ε n i s f x' y' l) (F : ℕ → ℕ → ℕ → P3 ℝ) (q : P3 ℝ) :
    RightDer3 (fun t => (∑ j ∈ Finset.range n, ∑ k ∈ Finset.range ((m + 1 + 1) / 2), ∑ c ∈ Finset.range (m + 1 + 1), wt sq n (m + 1) (f t) j c k • F j c k) +
      (1 - ∑ j ∈ Finset.range n, ∑ k ∈ Finset.range ((m + 1 + 1) / 2), ∑ c ∈ Finset.range (m + 1 + 1), wt sq n (m + 1) (f t) j c k) • q)
      (x' i • bezier m (fun c => ((m + 1 : ℕ) : ℝ) • (F i (c + 1) 0 - F i c 0)) s +
        y' i • (((m + 1 : ℕ) : ℝ) • (bezier (m + 1) (fun c => F i c 1) s - bezier (m + 1) (fun c => F i c 0) s) -
          if sq then 0 else copyError (m + 1) s (fun k => F i k 0) (fun k => F (prevIx n i) (m + 1) k) +
            copyError (m + 1) (1 - s) (fun k => F i (m + 1 - k) 0) (fun k => F (nextIx n i) 0 k))) := by
  have hder : RightDer3 (fun t => q + ∑ j ∈ Finset.range n, ∑ k ∈ Finset.range ((m + 1 + 1) / 2), ∑ c ∈ Finset.range (m + 1 + 1), wt sq n (m + 1) (f t) j c k • (F j c k - q))
      (0 + ∑ j ∈ Finset.range n, ∑ k ∈ Finset.range ((m + 1 + 1) / 2), ∑ c ∈ Finset.range (m + 1 + 1), wtDer sq n m i s x' y' j c k • (F j c k - q)) := by
    refine (RightDer3.const q).add (RightDer3.sum fun j hj => RightDer3.sum fun k hk => RightDer3.sum fun c hc => ?_)
    exact RightDer3.smul_const (wt_der hn hm hi s0 s1 hb hj (by omega) hk) _
  refine (hder.congr (Eventually.of_forall fun t => ?_)).congr_der ?_
  · simp only [smul_sub, Finset.sum_sub_distrib, sub_smul, one_smul, Finset.sum_smul]
    abel
  · rw [zero_add, wtDer_sum hn hm hi s0 s1 (fun j c k => F j c k - q), bezier_sub, bezier_sub]
    unfold copyError
    simp only [sub_sub_sub_cancel_right]

end GB

end Transfinite
