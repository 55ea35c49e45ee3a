import Verif.Lemmas.TensorElevate

/-! # C103: degree elevation of four-sided Generalized Bézier patches -/

namespace Transfinite

open Spec

namespace GB

variable {ε : ℝ} {arc : List (P3 ℝ) → ℝ → ℝ → ℝ} {d : ℕ} {calls : List (Call ℝ)} {S : GB ℝ}

/-! ### Helper lemmas -/

/-- Degree elevation does not change a tensor product surface. -/
theorem tensor_elev (hd : 1 ≤ d) (P : ℕ → ℕ → P3 ℝ) (u w : ℝ) : tensor (d + 1) (elevGrid d P) u w = tensor d P u w := by
  rw [← SuperD.tensor_bezier, ← SuperD.tensor_bezier]
  have hc : ((d + 1 : ℕ) : ℝ) = (d : ℝ) + 1 := by push_cast; ring
  have hd0 : (d : ℝ) + 1 ≠ 0 := by positivity
  have inner : ∀ j : ℕ, bezier (d + 1) (elevGrid d P j) w = ((j : ℝ) / (d + 1)) • bezier d (P (j - 1)) w + (1 - (j : ℝ) / (d + 1)) • bezier d (P j) w := by
    intro j
    rw [bezier_elevated (p := fun k => ((j : ℝ) / (d + 1)) • P (j - 1) k + (1 - (j : ℝ) / (d + 1)) • P j k) hd]
    · unfold bezier
      rw [Finset.smul_sum, Finset.smul_sum, ← Finset.sum_add_distrib]
      refine Finset.sum_congr rfl fun k _ => ?_
      rw [smul_add, smul_smul, smul_smul, smul_smul, smul_smul, mul_comm (bern d k w), mul_comm (bern d k w)]
    · simp [elevGrid]
    · unfold elevGrid
      rw [hc, div_self hd0]
      simp
    · intro k _ _
      unfold elevGrid
      rw [hc]
      simp only [smul_add, smul_smul]
      rw [mul_comm ((k : ℝ) / (d + 1)) ((j : ℝ) / (d + 1)), mul_comm ((k : ℝ) / (d + 1)) (1 - (j : ℝ) / (d + 1)), mul_comm (1 - (k : ℝ) / (d + 1)) ((j : ℝ) / (d + 1)), mul_comm (1 - (k : ℝ) / (d + 1)) (1 - (j : ℝ) / (d + 1))]
      abel
  rw [show (fun j => bezier (d + 1) (elevGrid d P j) w) = fun j : ℕ => ((j : ℝ) / (d + 1)) • bezier d (P (j - 1)) w + (1 - (j : ℝ) / (d + 1)) • bezier d (P j) w from funext inner]
  refine bezier_elevated (p := fun j => bezier d (P j) w) hd ?_ ?_ ?_ u
  · simp
  · rw [hc, div_self hd0]
    simp
  · intro j _ _
    rw [hc]

/-- The elevated points in the order of any side. -/
theorem elevGrid_place (P : ℕ → ℕ → P3 ℝ) {i j k : ℕ} (hi : i < 4) (hj : j ≤ d) (hk : k ≤ d) :
    elevGrid d P (gridPlace (d + 1) i j k).1 (gridPlace (d + 1) i j k).2 =
      ((j : ℝ) / (d + 1) * (k / (d + 1))) • P (gridPlace d i (j - 1) (k - 1)).1 (gridPlace d i (j - 1) (k - 1)).2 + ((1 - (j : ℝ) / (d + 1)) * (k / (d + 1))) • P (gridPlace d i j (k - 1)).1 (gridPlace d i j (k - 1)).2 +
        ((j : ℝ) / (d + 1) * (1 - k / (d + 1))) • P (gridPlace d i (j - 1) k).1 (gridPlace d i (j - 1) k).2 + ((1 - (j : ℝ) / (d + 1)) * (1 - k / (d + 1))) • P (gridPlace d i j k).1 (gridPlace d i j k).2 := by
  have hd0 : (d : ℝ) + 1 ≠ 0 := by positivity
  have hsub : ∀ x ≤ d, (((d + 1 - x : ℕ) : ℝ)) / (d + 1) = 1 - (x : ℝ) / (d + 1) := by
    intro x hx
    rw [Nat.cast_sub (by omega), sub_div]
    push_cast
    rw [div_self hd0]
  have hs1 : ∀ x ≤ d, d + 1 - x - 1 = d - x := fun x hx => by omega
  have hs2 : ∀ x : ℕ, x + 1 ≤ d → d + 1 - (x + 1) = d - x := fun x hx => by omega
  rcases j with _ | j <;> rcases k with _ | k <;> interval_cases i <;> simp only [gridPlace, elevGrid, if_true, if_false, one_ne_zero, OfNat.ofNat_ne_zero, OfNat.ofNat_ne_one, Nat.add_sub_cancel, hsub _ hj, hsub _ hk, hs1 _ hj, hs1 _ hk] <;>
    ext <;> simp [div_self hd0] <;> ring_nf
  all_goals
    rw [show d - j - 1 = d - (1 + j) by omega, Nat.cast_sub (show j ≤ d by omega)]
    field_simp
    ring

/-- The control points of the elevated patch. -/
theorem elevate_grid (hd : 1 ≤ d) (hS : Usable ε arc .side 4 d calls S) {P : ℕ → ℕ → P3 ℝ} (hP : IsGrid d S P) (g0 l0 : ℕ) :
    ∃ R, S.elevateDegree arc g0 l0 = .ok R ∧ (∀ i < 4, ∀ j ≤ d + 1, ∀ k < (d + 1 + 1) / 2, R.controlPoint i j k = .ok (elevGrid d P (gridPlace (d + 1) i j k).1 (gridPlace (d + 1) i j k).2)) ∧
      R.central = (1 / 4 : ℝ) • ∑ i ∈ Finset.range 4, elevGrid d P (gridPlace (d + 1) i ((d + 1 + 1) / 2) ((d + 1 + 1) / 2 - 1)).1 (gridPlace (d + 1) i ((d + 1 + 1) / 2) ((d + 1 + 1) / 2 - 1)).2 := by
  obtain ⟨_, _, _, ⟨s, hs⟩, _⟩ := hS.state (by omega)
  have val : ∀ i < 4, ∀ j ≤ d, ∀ k < (d + 1) / 2, s i j k = P (gridPlace d i j k).1 (gridPlace d i j k).2 := fun i hi j hj k hk =>
    Except.ok.inj ((hs.cpt hi hj hk).symm.trans (hP.1 i hi j hj k hk))
  obtain ⟨R, W, e, hr, hv, hc, hm⟩ := elevate_net (by omega) hd hS hs g0 l0
  have hcast : ((d + 1 : ℕ) : ℝ) = (d : ℝ) + 1 := by push_cast; ring
  have hW : ∀ x ∈ W, x.2 = elevGrid d P (gridPlace (d + 1) x.1.side x.1.col x.1.row).1 (gridPlace (d + 1) x.1.side x.1.col x.1.row).2 := by
    rintro ⟨⟨i, j, k⟩, v⟩ hx
    obtain ⟨hi, hj, hk⟩ := hr _ hx
    dsimp only at hi hj hk ⊢
    rcases hv _ hx with ⟨h1, h2, h3⟩ | ⟨h1, h2, h3, h4, p, h5, h6⟩
    · dsimp only at h1 h2 h3
      subst h1
      rw [h3, elevGrid_place P hi h2 (by omega), val i hi _ (by omega) 0 (by omega), val i hi _ (by omega) 0 (by omega), hcast]
      simp
    · dsimp only at h1 h2 h3 h4 h5 h6
      have hp : p = (P (gridPlace d i (j - 1) k).1 (gridPlace d i (j - 1) k).2, P (gridPlace d i j k).1 (gridPlace d i j k).2) := by
        unfold elevateUpper at h5
        by_cases c : (d + 1) % 2 = 0 ∨ k < (d + 1) / 2
        · rw [if_pos c, show S.controlPoint i (j - 1) k = _ from hs.cpt hi (by omega) (by omega), M_bind_ok, show S.controlPoint i j k = _ from hs.cpt hi (by omega) (by omega), M_bind_ok] at h5
          rw [← Except.ok.inj h5, val i hi _ (by omega) k (by omega), val i hi _ (by omega) k (by omega)]
        · have hpv : (i + 4 - 1) % 4 < 4 := Nat.mod_lt _ (by omega)
          rw [if_neg c, usub_of_le (show k ≤ d + 1 by omega), usub_of_le (show 1 ≤ d + 1 - k by omega)] at h5
          rw [show S.controlPoint ((i + 4 - 1) % 4) (d + 1 - k - 1) (j - 1) = _ from hs.cpt hpv (by omega) (by omega), M_bind_ok, val _ hpv _ (by omega) _ (by omega),
            show (i + 4 - 1) % 4 = prevIx 4 i from rfl, show d + 1 - k - 1 = d - k by omega, gridPlace_prev hi (by omega) (by omega)] at h5
          unfold elevateLast at h5
          by_cases cj : j = (d + 1) / 2
          · rw [if_pos cj, M_bind_ok, ← hP.2 (by omega)] at h5
            rw [← Except.ok.inj h5]
            have : gridPlace d i j k = (d / 2, d / 2) := by
              unfold gridPlace
              split_ifs <;> simp only [Prod.mk.injEq] <;> omega
            rw [this]
          · rw [if_neg cj, usub_of_le (show k ≤ d + 1 by omega), usub_of_le (show 1 ≤ d + 1 - k by omega),
              show S.controlPoint ((i + 4 - 1) % 4) (d + 1 - k - 1) j = _ from hs.cpt hpv (by omega) (by omega), M_bind_ok, val _ hpv _ (by omega) _ (by omega),
              show (i + 4 - 1) % 4 = prevIx 4 i from rfl, show d + 1 - k - 1 = d - k by omega, gridPlace_prev hi (by omega) (by omega)] at h5
            exact (Except.ok.inj h5).symm
      rw [h6, hp, elevGrid_place P hi (by omega) (by omega), val i hi _ (by omega) _ (by omega), val i hi _ (by omega) _ (by omega), hcast]
  have hall : ∀ i < 4, ∀ j ≤ d + 1, ∀ k < (d + 1 + 1) / 2, R.controlPoint i j k = .ok (elevGrid d P (gridPlace (d + 1) i j k).1 (gridPlace (d + 1) i j k).2) := by
    intro i hi j hj k hk
    refine hc ⟨i, j, k⟩ ⟨hi, hj, hk⟩ _ fun x hx hsame => ?_
    rw [hW x hx, ← gridPlace_same ⟨hi, hj, hk⟩ (hr x hx) hsame]
  refine ⟨R, e, hall, ?_⟩
  have := hm _ fun i hi => hall i hi _ (by omega) _ (by omega)
  rw [this]
  norm_num

/-- One control point of a tensor product surface. -/
theorem tensor_change {D m : ℕ} (hm : m ≤ D) (E : ℕ → ℕ → P3 ℝ) (q : P3 ℝ) (u w : ℝ) :
    tensor D (fun j k => if j = m ∧ k = m then q else E j k) u w = tensor D E u w + (bern D m u * bern D m w) • (q - E m m) := by
  have h : ∀ j k : ℕ, (bern D j u * bern D k w) • (if j = m ∧ k = m then q else E j k) = (bern D j u * bern D k w) • E j k + if j = m then (if k = m then (bern D m u * bern D m w) • (q - E m m) else 0) else 0 := by
    intro j k
    by_cases hj : j = m
    · by_cases hk : k = m
      · subst hj; subst hk
        rw [if_pos ⟨rfl, rfl⟩, if_pos rfl, if_pos rfl, smul_sub, add_sub_cancel]
      · rw [if_neg (fun h => hk h.2), if_pos hj, if_neg hk, add_zero]
    · rw [if_neg (fun h => hj h.1), if_neg hj, add_zero]
  unfold tensor
  simp only [h, Finset.sum_add_distrib]
  congr 1
  rw [Finset.sum_eq_single m, Finset.sum_eq_single m]
  · simp
  · intro k _ hk; simp [hk]
  · intro hk; exact absurd (Finset.mem_range.mpr (by omega)) hk
  · intro j _ hj; simp [hj]
  · intro hj; exact absurd (Finset.mem_range.mpr (by omega)) hj

/-- The central control point of the elevated patch, for odd degrees. -/
theorem elev_centre {m : ℕ} (hm : 2 ≤ m) (hdm : d + 1 = 2 * m) (P : ℕ → ℕ → P3 ℝ) :
    (1 / 4 : ℝ) • ∑ i ∈ Finset.range 4, elevGrid d P (gridPlace (d + 1) i m (m - 1)).1 (gridPlace (d + 1) i m (m - 1)).2 - elevGrid d P m m =
      ((d - 1 : ℝ) / (2 * (d + 1))) • (ringMean m P - middleMean m P) := by
  obtain ⟨m, rfl⟩ : ∃ x, m = x + 2 := ⟨m - 2, by omega⟩
  have hd : d = 2 * m + 3 := by omega
  subst hd
  rw [Finset.sum_congr rfl fun i hi => elevGrid_place P (Finset.mem_range.mp hi) (show m + 2 ≤ 2 * m + 3 by omega) (show m + 2 - 1 ≤ 2 * m + 3 by omega)]
  have a1 : m + 2 - 1 = m + 1 := by omega
  have a2 : m + 1 - 1 = m := by omega
  simp only [Finset.sum_range_succ, Finset.sum_range_zero, gridPlace, if_true, if_false, one_ne_zero, OfNat.ofNat_ne_zero, OfNat.ofNat_ne_one, a1, a2,
    show 2 * m + 3 - m = m + 3 by omega, show 2 * m + 3 - (m + 1) = m + 2 by omega, show 2 * m + 3 - (m + 2) = m + 1 by omega, elevGrid, ringMean, middleMean, show m + 2 - 2 = m by omega, show m + 2 + 1 = m + 3 by omega]
  have h0 : (2 * (m : ℝ) + 3 + 1) ≠ 0 := by positivity
  ext <;> simp <;> field_simp <;> ring

/-! ### Theorems -/

/-- Points of the elevated patch. -/
theorem elevate_values (hε : 0 < ε) (hε1 : ε ≤ 1 / 2) (hd : 3 ≤ d) (hS : Usable ε arc .side 4 d calls S) (hreg : ∀ c ∈ calls, c.regular = true) {P : ℕ → ℕ → P3 ℝ} (hP : IsGrid d S P) (g0 l0 : ℕ) :
    ∃ R, S.elevateDegree arc g0 l0 = .ok R ∧ ∀ u w : ℝ, 0 ≤ u → u ≤ 1 → 0 ≤ w → w ≤ 1 →
      ((∀ a b : ℝ, (a = 0 ∨ a = 1) → (b = 0 ∨ b = 1) → ε ≤ |u - a| + |w - b|) → ∃ p S' R', S.eval ε ⟨1 - 2 * w, 2 * u - 1⟩ = .ok (p, S') ∧
        R.eval ε ⟨1 - 2 * w, 2 * u - 1⟩ = .ok (p + if d % 2 = 0 then 0 else (bern (d + 1) ((d + 1) / 2) u * bern (d + 1) ((d + 1) / 2) w * ((d - 1 : ℝ) / (2 * (d + 1)))) • (ringMean ((d + 1) / 2) P - middleMean ((d + 1) / 2) P), R')) ∧
      ((∃ a b : ℝ, (a = 0 ∨ a = 1) ∧ (b = 0 ∨ b = 1) ∧ |u - a| + |w - b| < ε) → ∃ p S' R', S.eval ε ⟨1 - 2 * w, 2 * u - 1⟩ = .ok (p, S') ∧ R.eval ε ⟨1 - 2 * w, 2 * u - 1⟩ = .ok (p, R')) := by
  obtain ⟨R, e, hc, hcen⟩ := elevate_grid (by omega) hS hP g0 l0
  obtain ⟨R2, calls', e2, hR, -⟩ := C48_elevate (by omega) (by omega) hS hreg g0 l0
  rw [e] at e2
  cases e2
  set m := (d + 1) / 2 with hm
  set Q : ℕ → ℕ → P3 ℝ := if d % 2 = 0 then elevGrid d P else fun j k => if j = m ∧ k = m then R.central else elevGrid d P j k with hQ
  have hG : IsGrid (d + 1) R Q := by
    by_cases ev : d % 2 = 0
    · rw [hQ, if_pos ev]
      exact ⟨hc, fun h => by omega⟩
    · rw [hQ, if_neg ev]
      refine ⟨fun i hi j hj k hk => ?_, fun _ => if_pos ⟨rfl, rfl⟩⟩
      rw [hc i hi j hj k hk]
      congr 1
      beta_reduce
      rw [if_neg]
      rintro ⟨h1, h2⟩
      unfold gridPlace at h1 h2
      split_ifs at h1 h2 <;> dsimp only at h1 h2 <;> omega
  have hval : ∀ u w : ℝ, tensor (d + 1) Q u w = tensor d P u w + if d % 2 = 0 then 0 else (bern (d + 1) m u * bern (d + 1) m w * ((d - 1 : ℝ) / (2 * (d + 1)))) • (ringMean m P - middleMean m P) := by
    intro u w
    by_cases ev : d % 2 = 0
    · rw [hQ, if_pos ev, if_pos ev, tensor_elev (by omega), add_zero]
    · rw [hQ, if_neg ev, if_neg ev, tensor_change (by omega), tensor_elev (by omega), hcen, show (d + 1 + 1) / 2 = m by omega, elev_centre (by omega) (by omega), smul_smul]
  refine ⟨R, e, fun u w u0 u1 w0 w1 => ⟨fun h => ?_, ?_⟩⟩
  · obtain ⟨S', s1⟩ := C101_gb hε (by linarith) hd hS hP u0 u1 w0 w1 h
    obtain ⟨R', r1⟩ := C101_gb hε (by linarith) (by omega) hR hG u0 u1 w0 w1 h
    exact ⟨_, S', R', s1, by rw [r1, hval]⟩
  · rintro ⟨a, b, ha, hb, h⟩
    obtain ⟨S', s1⟩ := C101_gb_corner hε hε1 (by omega) hS hP u0 u1 w0 w1 ha hb h
    obtain ⟨R', r1⟩ := C101_gb_corner hε hε1 (by omega) hR hG u0 u1 w0 w1 ha hb h
    refine ⟨_, S', R', s1, ?_⟩
    rw [r1, hval]
    have : bern (d + 1) m a = 0 := by
      rcases ha with rfl | rfl
      · rw [bern_at_zero, if_neg (by omega)]
      · rw [bern_at_one (by omega), if_neg (by omega)]
    rw [this]
    simp

/-- C103: elevation of four-sided patches of even degree (at least 4) does not change the surface. -/
theorem C103_even (hε : 0 < ε) (hε1 : ε ≤ 1 / 2) (hd : 4 ≤ d) (ev : d % 2 = 0) (hS : Usable ε arc .side 4 d calls S) (hreg : ∀ c ∈ calls, c.regular = true) (g0 l0 : ℕ) :
    ∃ R, S.elevateDegree arc g0 l0 = .ok R ∧ ∀ u w : ℝ, 0 ≤ u → u ≤ 1 → 0 ≤ w → w ≤ 1 → ∃ p S' R', S.eval ε ⟨1 - 2 * w, 2 * u - 1⟩ = .ok (p, S') ∧ R.eval ε ⟨1 - 2 * w, 2 * u - 1⟩ = .ok (p, R') := by
  obtain ⟨P, hP, -⟩ := C101_grid hS hreg
  obtain ⟨R, e, h⟩ := elevate_values hε hε1 (by omega) hS hreg hP g0 l0
  refine ⟨R, e, fun u w u0 u1 w0 w1 => ?_⟩
  obtain ⟨h1, h2⟩ := h u w u0 u1 w0 w1
  by_cases c : ∃ a b : ℝ, (a = 0 ∨ a = 1) ∧ (b = 0 ∨ b = 1) ∧ |u - a| + |w - b| < ε
  · exact h2 c
  · obtain ⟨p, S', R', s1, r1⟩ := h1 fun a b ha hb => by
      by_contra q
      exact c ⟨a, b, ha, hb, not_le.mp q⟩
    rw [if_pos ev, add_zero] at r1
    exact ⟨p, S', R', s1, r1⟩

/-- C103: elevation of four-sided patches of odd degree (at least 3) changes the surface: the central control point is not the mean of the middle control points of the original, but it is pulled
towards the next ones. -/
theorem C103_odd (hε : 0 < ε) (hε1 : ε ≤ 1 / 2) (hd : 3 ≤ d) (odd : d % 2 = 1) (hS : Usable ε arc .side 4 d calls S) (hreg : ∀ c ∈ calls, c.regular = true) {P : ℕ → ℕ → P3 ℝ} (hP : IsGrid d S P) (g0 l0 : ℕ) :
    ∃ R, S.elevateDegree arc g0 l0 = .ok R ∧ ∀ u w : ℝ, 0 ≤ u → u ≤ 1 → 0 ≤ w → w ≤ 1 → (∀ a b : ℝ, (a = 0 ∨ a = 1) → (b = 0 ∨ b = 1) → ε ≤ |u - a| + |w - b|) →
      ∃ p S' R', S.eval ε ⟨1 - 2 * w, 2 * u - 1⟩ = .ok (p, S') ∧ R.eval ε ⟨1 - 2 * w, 2 * u - 1⟩ =
        .ok (p + (bern (d + 1) ((d + 1) / 2) u * bern (d + 1) ((d + 1) / 2) w * ((d - 1 : ℝ) / (2 * (d + 1)))) • (ringMean ((d + 1) / 2) P - middleMean ((d + 1) / 2) P), R') := by
  obtain ⟨R, e, h⟩ := elevate_values hε hε1 (by omega) hS hreg hP g0 l0
  refine ⟨R, e, fun u w u0 u1 w0 w1 hc => ?_⟩
  obtain ⟨p, S', R', s1, r1⟩ := (h u w u0 u1 w0 w1).1 hc
  rw [if_neg (by omega)] at r1
  exact ⟨p, S', R', s1, r1⟩

/-- C103: an elevated patch of even degree is the same surface as the original when its central control point is set to the mean of the four middle control points of the original. -/
theorem C103_centre (hε : 0 < ε) (hε1 : ε ≤ 1 / 2) (hd : 3 ≤ d) (odd : d % 2 = 1) (hS : Usable ε arc .side 4 d calls S) (hreg : ∀ c ∈ calls, c.regular = true) {P : ℕ → ℕ → P3 ℝ} (hP : IsGrid d S P) (g0 l0 : ℕ) :
    ∃ R, S.elevateDegree arc g0 l0 = .ok R ∧ ∀ u w : ℝ, 0 ≤ u → u ≤ 1 → 0 ≤ w → w ≤ 1 →
      ∃ p S' R', S.eval ε ⟨1 - 2 * w, 2 * u - 1⟩ = .ok (p, S') ∧ (R.setCentral (middleMean ((d + 1) / 2) P)).eval ε ⟨1 - 2 * w, 2 * u - 1⟩ = .ok (p, R') := by
  obtain ⟨R, e, hc, hcen⟩ := elevate_grid (by omega) hS hP g0 l0
  obtain ⟨R2, calls', e2, hR, -⟩ := C48_elevate (by omega) (by omega) hS hreg g0 l0
  rw [e] at e2
  cases e2
  obtain ⟨g, l, before, later, rfl, e3, h1, h2, h3, h4⟩ := hR
  have hR' : Usable ε arc .side 4 (d + 1) ((before ++ .loop :: later) ++ [.central (middleMean ((d + 1) / 2) P)]) (R.setCentral (middleMean ((d + 1) / 2) P)) :=
    ⟨g, l, before, later ++ [.central (middleMean ((d + 1) / 2) P)], by simp, run_join e3 rfl, h1, fun c hc => by
      rcases List.mem_append.mp hc with hc | hc
      · exact h2 c hc
      · rw [List.mem_singleton.mp hc]; rfl, h3, h4⟩
  have hG : IsGrid (d + 1) (R.setCentral (middleMean ((d + 1) / 2) P)) (elevGrid d P) := by
    refine ⟨hc, fun _ => ?_⟩
    obtain ⟨m, hm⟩ : ∃ m, d + 1 = 2 * m := ⟨(d + 1) / 2, by omega⟩
    change _ = middleMean ((d + 1) / 2) P
    rw [show (d + 1) / 2 = m by omega]
    have hx : (m : ℝ) / (d + 1) = 1 / 2 := by
      rw [show (d : ℝ) + 1 = 2 * m by exact_mod_cast hm]
      have : (m : ℝ) ≠ 0 := by
        have : m ≠ 0 := by omega
        exact_mod_cast this
      field_simp
    unfold elevGrid middleMean
    rw [hx]
    ext <;> simp <;> ring
  refine ⟨R, e, fun u w u0 u1 w0 w1 => ?_⟩
  by_cases c : ∃ a b : ℝ, (a = 0 ∨ a = 1) ∧ (b = 0 ∨ b = 1) ∧ |u - a| + |w - b| < ε
  · obtain ⟨a, b, ha, hb, h⟩ := c
    obtain ⟨S', s1⟩ := C101_gb_corner hε hε1 (by omega) hS hP u0 u1 w0 w1 ha hb h
    obtain ⟨R', r1⟩ := C101_gb_corner hε hε1 (by omega) hR' hG u0 u1 w0 w1 ha hb h
    exact ⟨_, S', R', s1, by rw [r1, tensor_elev (by omega)]⟩
  · have h : ∀ a b : ℝ, (a = 0 ∨ a = 1) → (b = 0 ∨ b = 1) → ε ≤ |u - a| + |w - b| := fun a b ha hb => by
      by_contra q
      exact c ⟨a, b, ha, hb, not_le.mp q⟩
    obtain ⟨S', s1⟩ := C101_gb hε (by linarith) hd hS hP u0 u1 w0 w1 h
    obtain ⟨R', r1⟩ := C101_gb hε (by linarith) (by omega) hR' hG u0 u1 w0 w1 h
    exact ⟨_, S', R', s1, by rw [r1, tensor_elev (by omega)]⟩

/-- A cubic patch with a single nonzero control point. -/
theorem cubic_peak : ∃ (calls : List (Call ℝ)) (S : GB ℝ), Usable ε arc .side 4 3 calls S ∧ (∀ c ∈ calls, c.regular = true) ∧ IsGrid 3 S fun j k => if j = 1 ∧ k = 1 then ⟨0, 0, 256⟩ else 0 := by
  obtain ⟨S, hS, hreg, -, -, hp⟩ := built (ε := ε) (arc := arc) .side (n := 4) (d := 3) (by omega) (by omega) (Or.inl rfl)
    (w := [(⟨0, 1, 1⟩, ⟨0, 0, 256⟩)]) (by intro x hx; simp only [List.mem_singleton] at hx; subst hx; exact ⟨by decide, by decide, by decide⟩) 0 false
  refine ⟨_, S, hS, hreg, fun i hi j hj k hk => ?_, fun h => by omega⟩
  rw [hp ⟨i, j, k⟩ ⟨hi, hj, hk⟩]
  congr 1
  interval_cases i <;> interval_cases j <;> interval_cases k <;> rfl

/-- C103: there is a cubic four-sided patch whose elevation is another surface: the centre is lower. -/
theorem C103_changes (hε : 0 < ε) (hε1 : ε ≤ 1 / 2) (g0 l0 : ℕ) : ∃ (calls : List (Call ℝ)) (S R S' R' : GB ℝ), Usable ε arc .side 4 3 calls S ∧ (∀ c ∈ calls, c.regular = true) ∧ S.elevateDegree arc g0 l0 = .ok R ∧
    S.eval ε 0 = .ok (⟨0, 0, 36⟩, S') ∧ R.eval ε 0 = .ok (⟨0, 0, 36 - 9 / 4⟩, R') := by
  obtain ⟨calls, S, hS, hreg, hP⟩ := cubic_peak (ε := ε) (arc := arc)
  obtain ⟨R, e, h⟩ := C103_odd hε hε1 le_rfl rfl hS hreg hP g0 l0
  have hc : ∀ a b : ℝ, (a = 0 ∨ a = 1) → (b = 0 ∨ b = 1) → ε ≤ |(1 / 2 : ℝ) - a| + |(1 / 2 : ℝ) - b| := by
    rintro a b (rfl | rfl) (rfl | rfl) <;> norm_num [abs_of_pos, abs_of_neg] <;> linarith
  obtain ⟨p, S', R', s1, r1⟩ := h (1 / 2) (1 / 2) (by norm_num) (by norm_num) (by norm_num) (by norm_num) hc
  obtain ⟨S'', s2⟩ := C101_gb hε (by linarith) le_rfl hS hP (u := 1 / 2) (w := 1 / 2) (by norm_num) (by norm_num) (by norm_num) (by norm_num) hc
  rw [s1] at s2
  have hz : (⟨1 - 2 * (1 / 2), 2 * (1 / 2) - 1⟩ : P2 ℝ) = 0 := by ext <;> norm_num
  have hp : p = ⟨0, 0, 36⟩ := by
    rw [(Prod.mk.inj (Except.ok.inj s2)).1]
    unfold tensor bern
    simp only [Finset.sum_range_succ, Finset.sum_range_zero]
    ext <;> norm_num [Nat.choose]
  rw [hz, hp] at s1
  rw [hz, hp] at r1
  refine ⟨calls, S, R, S', R', hS, hreg, e, s1, r1.trans ?_⟩
  congr 2
  unfold ringMean middleMean bern
  ext <;> norm_num [Nat.choose]

/-! ### Examples -/

/-- The hypotheses of C103_even hold for a quartic patch. -/
example : ∃ (calls : List (Call ℝ)) (G : GB ℝ), Usable (1 / 10000) (fun _ _ _ => 0) .side 4 4 calls G ∧ (∀ c ∈ calls, c.regular = true) ∧
    G.controlPoint 1 2 0 = .ok ⟨1, 2, 3⟩ := by
  obtain ⟨G, hG, hr, _, _, hp⟩ := built (ε := 1 / 10000) (arc := fun _ _ _ => 0) .side (n := 4) (d := 4) (by omega) (by omega) (Or.inl rfl)
    (w := [(⟨1, 2, 0⟩, ⟨1, 2, 3⟩)]) (by intro x hx; simp only [List.mem_singleton] at hx; subst hx; exact ⟨by decide, by decide, by decide⟩) 0 false
  refine ⟨_, G, hG, hr, ?_⟩
  rw [hp ⟨1, 2, 0⟩ ⟨by decide, by decide, by decide⟩]
  rfl

end GB

end Transfinite
