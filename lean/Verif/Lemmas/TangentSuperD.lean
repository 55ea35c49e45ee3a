import Verif.Lemmas.TangentGB
import Verif.Lemmas.TangentParams
import Verif.Props.SuperD
import Verif.Spec.SuperDTangent

/-! # Derivatives of SuperD patches along a path that starts at a side -/

namespace Transfinite

open Spec Set Filter Topology Real

namespace SuperD

variable {n : ℕ} {ε : ℝ} {arc : List (P3 ℝ) → ℝ → ℝ → ℝ} {S : SuperD ℝ} {calls : List (Call ℝ)} {F E : ℕ → P3 ℝ}

/-- The derivative of a biquartic surface along a path in its domain that starts on the side `y = 0`. -/
theorem biquartic_der (g : ℕ → ℕ → P3 ℝ) {x y : ℝ → ℝ} {x' y' : ℝ} (hx : RightDer x x') (hy : RightDer y y') (y0 : y 0 = 0) :
    RightDer3 (fun t => bezier 4 (fun k => bezier 4 (g k) (y t)) (x t)) (x' • bezierDer 4 (fun j => g j 0) (x 0) + y' • rowDer 4 (fun j => g j 0) (fun j => g j 1) (x 0)) := by
  have berd : ∀ {q : ℝ → ℝ} {q' : ℝ} (c : ℕ), RightDer q q' → RightDer (fun t => bern 4 c (q t)) (GB.bernDer 3 c (q 0) * q') :=
    fun c hq => hq.comp (BCurve.bern_deriv 3 c _)
  have inner : ∀ j, RightDer3 (fun t => bezier 4 (g j) (y t)) (y' • (4 : ℝ) • (g j 1 - g j 0)) := by
    intro j
    refine (RightDer3.sum (n := 5) fun k _ => RightDer3.smul_const (berd k hy) (g j k)).congr_der ?_
    rw [y0]
    have := GB.bernDer_sum 3 (g j) 0
    rw [Ribbon.bezier_zero] at this
    norm_num at this
    rw [← this, Finset.smul_sum]
    exact Finset.sum_congr rfl fun k _ => by rw [mul_comm, mul_smul]
  refine (RightDer3.sum (n := 5) fun j _ => RightDer3.smul (berd j hx) (inner j)).congr_der ?_
  have h0 : ∀ j, bezier 4 (g j) (y 0) = g j 0 := fun j => by rw [y0, Ribbon.bezier_zero]
  rw [Finset.sum_add_distrib]
  congr 1
  · have := GB.bernDer_sum 3 (fun j => g j 0) (x 0)
    unfold bezierDer
    norm_num at this ⊢
    rw [← this, Finset.smul_sum]
    exact Finset.sum_congr rfl fun k _ => by rw [h0, mul_comm, mul_smul]
  · unfold rowDer bezier
    rw [← Finset.sum_sub_distrib, Finset.smul_sum, Finset.smul_sum]
    refine Finset.sum_congr rfl fun k _ => ?_
    push_cast
    module

theorem bezier_linear (a c : P3 ℝ) (s : ℝ) : bezier 4 (fun j => ((4 - j : ℕ) / 4 : ℝ) • a + (j / 4 : ℝ) • c) s = (1 - s) • a + s • c := by
  unfold bezier bern
  simp only [Finset.sum_range_succ, Finset.sum_range_zero]
  norm_num [Nat.choose]
  module

/-- The cross derivative of the ribbon is that of the specification. -/
theorem row_cross (hF : S.cpF = tab n F) (hE : S.cpE = tab n E) (hn : S.n = n) (hn3 : 3 ≤ n) {i : ℕ} (hi : i < n) {g : ℕ → ℕ → P3 ℝ}
    (hg : S.generateRibbon i = .ok (tab 5 fun j => tab 5 (g j))) (s : ℝ) :
    bezierDer 4 (fun j => g j 0) s = bezierDer 4 (quarticPoint S.fullness (F ((i + n - 1) % n)) (E i) (F i)) s ∧
    rowDer 4 (fun j => g j 0) (fun j => g j 1) s = superDCross n S.fullness S.cpV F E i s := by
  obtain ⟨k, e, k0, _, _, k1⟩ := generateRibbon_eq hF hE hn hn3 hi
  have same : ∀ j ≤ 4, ∀ l ≤ 4, g j l = k j l := by
    intro j hj l hl
    have := tab_inj (Except.ok.inj (hg.symm.trans e)) (show j < 5 by omega)
    exact tab_inj this (show l < 5 by omega)
  have a0 : ∀ j ≤ 4, g j 0 = quarticPoint S.fullness (F ((i + n - 1) % n)) (E i) (F i) j := fun j hj => (same j hj 0 (by omega)).trans (k0 j hj)
  constructor
  · unfold bezierDer
    refine bezier_congr (fun j hj => ?_) s
    beta_reduce
    rw [a0 j (by omega), a0 (j + 1) (by omega)]
  · unfold rowDer superDCross
    rw [bezier_congr (fun j hj => (same j hj 1 (by omega)).trans (k1 j)), bezier_congr a0]
    have split : ∀ (p q : ℕ → P3 ℝ) (x : ℝ), bezier 4 (fun j => p j + x • q j) s = bezier 4 p s + x • bezier 4 q s := by
      intro p q x
      unfold bezier
      rw [Finset.smul_sum, ← Finset.sum_add_distrib]
      exact Finset.sum_congr rfl fun j _ => by module
    rw [split]
    have e : bezier 4 (rowStep S.fullness n S.cpV F E i) s = if n ≤ 4 then
        bezier 4 (quarticPoint S.fullness (E ((i + n - 1) % n)) S.cpV (E ((i + 1) % n))) s - bezier 4 (quarticPoint S.fullness (F ((i + n - 1) % n)) (E i) (F i)) s
        else (1 - s) • (E ((i + n - 1) % n) - F ((i + n - 1) % n)) + s • (E ((i + 1) % n) - F i) := by
      split_ifs with h4
      · unfold bezier
        rw [← Finset.sum_sub_distrib]
        refine Finset.sum_congr rfl fun j _ => ?_
        unfold rowStep
        rw [if_pos h4, smul_sub]
        rfl
      · rw [← bezier_linear]
        refine bezier_congr (fun j _ => ?_) s
        unfold rowStep
        rw [if_neg h4]
        rfl
    rw [e]
    change _ • (bezier 4 (quarticPoint S.fullness (F ((i + n - 1) % n)) (E i) (F i)) s + _ - _) = _
    rw [add_sub_cancel_left, smul_smul]
    congr 1

/-- The patch along a path that starts on side `i`. -/
theorem side_der (hε : 0 < ε) (hn : 3 ≤ n) {r φ : ℝ} (hr : 0 < r) (hd : ConvexDomain S.dom.dom n (regularVertex n r φ)) (hs : Shape n S) (hiv : Inv ε S) (hc : Current S)
    (hF : S.cpF = tab n F) (hE : S.cpE = tab n E) {i : ℕ} (hi : i < n) {s : ℝ} (s0 : ε < superDScale n * s) (s1 : ε < superDScale n * (1 - s))
    (t0 : ε < s * sin (2 * π / n)) (t1 : ε < (1 - s) * sin (2 * π / n)) {p : ℝ → P2 ℝ} {w : P2 ℝ} (hp : DomainPath n (regularVertex n r φ) i s p w) :
    ∃ (X : ℝ → P3 ℝ) (α β : ℝ), (∀ᶠ t in near0, ∃ S', S.eval ε (p t) = .ok (X t, S')) ∧ X 0 = sideCurve n S.fullness F E i s ∧
      RightDer3 X (α • bezierDer 4 (quarticPoint S.fullness (F ((i + n - 1) % n)) (E i) (F i)) s + β • superDCross n S.fullness S.cpV F E i s) ∧
      0 ≤ β ∧ (0 < inward n (regularVertex n r φ) i w → 0 < β) := by
  obtain ⟨G, g0, g1, g2⟩ := eval_eq hε hn hr hd hs hiv hc hF hE
  obtain ⟨f, x', y', h1, h2, _⟩ := Surf.bilinear_path hr hd hε hi t0 t1 hp
  obtain ⟨sp1, sp2⟩ := sin_pi_div_pos hn
  have u0 : 0 < s := by by_contra q; push Not at q; nlinarith
  have u1 : s < 1 := by by_contra q; push Not at q; nlinarith
  obtain ⟨hH, l0, l1, l2, l3, _⟩ := Surf.side_left hr hd hi u0 u1
  obtain ⟨_, _, _, _, hρ, _, _⟩ := superD_height hn (φ := φ) hr
  set v := regularVertex n r φ with hv
  set H := r ^ 2 * (4 * sin (π / n) ^ 2) * sin (2 * π / n) with hHd
  set ρ := superDScale n with hρd
  have dy : ∀ j, RightDer (fun t => ρ * (leftOf n v j (p t) / H)) (ρ * (inward n v j w / H)) := fun j =>
    ((RightDer.const ρ).mul ((Surf.leftOf_path hp j).div (RightDer.const H) hH.ne')).congr_der (by field_simp; ring)
  have y0 : ρ * (leftOf n v i (p 0) / H) = 0 := by rw [hp.start, l0]; simp
  have near : ∀ᶠ t in near0, ρ * (leftOf n v i (p t) / H) < ε := (dy i).lt (by rw [y0]; exact hε)
  have far : ∀ᶠ t in near0, ∀ j < n, j ≠ i → ε ≤ ρ * (leftOf n v j (p t) / H) := by
    refine (Filter.eventually_all_finite (finite_lt_nat n)).mpr fun j hj => ?_
    by_cases a : j = i
    · exact Eventually.of_forall fun t q => absurd a q
    refine ((dy j).gt (c := ε) ?_).mono fun t q _ => q.le
    rw [hp.start]
    by_cases b : j = nextIx n i
    · rw [b]
      refine s1.trans_le (le_of_eq ?_)
      exact (show _ = ρ * (_ * H / H) by rw [mul_div_assoc, div_self hH.ne', mul_one]).trans (congrArg (fun z => ρ * (z / H)) l1.symm)
    by_cases c : j = prevIx n i
    · rw [c]
      refine s0.trans_le (le_of_eq ?_)
      exact (show _ = ρ * (_ * H / H) by rw [mul_div_assoc, div_self hH.ne', mul_one]).trans (congrArg (fun z => ρ * (z / H)) l2.symm)
    have q := l3 j hj a b c
    have q1 : 1 ≤ leftOf n v j (sidePoint n v i s) / H := by rwa [le_div_iff₀ hH, one_mul]
    have := mul_le_mul_of_nonneg_left q1 hρ.le
    nlinarith
  obtain ⟨c1, c2⟩ := row_cross hF hE hs.n_eq hn hi (g0 i hi) s
  have dx := h2.dx i (Or.inl rfl)
  have der := biquartic_der (G i) dx (dy i) y0
  rw [h2.selfX, c1, c2] at der
  refine ⟨_, _, _, ?_, ?_, der, ?_, fun q => by positivity⟩
  · filter_upwards [h1, near, far] with t e1 e2 e3
    obtain ⟨b, S', e, b0, b1, b2, b3⟩ := g2 (p t) (fun j => (f t j).x) fun j hj => Param.bilinearSide_of_map (e1 j hj)
    refine ⟨S', e.trans ?_⟩
    have hz : ∀ j < n, j ≠ i → b j = 0 := fun j hj q => b3 i hi j hj e2 (e3 j hj q)
    have hbi : b i = 1 := by
      rw [← b1]
      exact (Finset.sum_eq_single i (fun j hj q => hz j (Finset.mem_range.mp hj) q) (fun q => absurd (Finset.mem_range.mpr hi) q)).symm
    rw [Finset.sum_eq_single i (fun j hj q => by rw [hz j (Finset.mem_range.mp hj) q, zero_smul]) (fun q => absurd (Finset.mem_range.mpr hi) q), hbi, one_smul]
  · rw [y0, (g1 i hi).1, h2.selfX]
  · have := Surf.inward_nonneg hp hi
    positivity

end SuperD

end Transfinite
