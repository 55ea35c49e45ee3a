import Verif.Spec.Tensor
import Verif.Lemmas.SideParams
import Verif.Lemmas.RegularBilinear
import Verif.Lemmas.GenBezierEval
import Verif.Lemmas.Bernstein

/-! Local parameters in the domain of four-sided patches. -/

namespace Transfinite

open Spec Real

/-- The distance parameter of the square, in the point with side parameter `u` and distance parameter `w` of side 0. -/
def sqDist (u w : ℝ) (i : ℕ) : ℝ := if i = 0 then w else if i = 1 then 1 - u else if i = 2 then 1 - w else u

/-- The local parameters of the square. -/
def sqPar (u w : ℝ) (i : ℕ) : P2 ℝ := ⟨sqDist u w (prevIx 4 i), sqDist u w i⟩

/-- The domain of a four-sided patch is the square with the corners (±1, ±1). -/
theorem square_domain {D : Domain ℝ} {vs : List (P2 ℝ)} (h1 : Domain.regularVertices 4 = .ok vs) (h2 : Domain.updateFrom vs 0 = .ok D) :
    ∃ r φ, 1 ≤ r ∧ r ^ 2 = 2 ∧ ConvexDomain D 4 (regularVertex 4 r φ) ∧ ∀ u w, ∀ i < 4, leftOf 4 (regularVertex 4 r φ) i ⟨1 - 2 * w, 2 * u - 1⟩ = 4 * sqDist u w i := by
  obtain ⟨r, φ, hr, hd, _⟩ := regular_convex (by omega) h1 h2
  unfold Domain.regularVertices at h1
  rw [if_pos rfl] at h1
  cases h1
  have hv : D.vertices = [⟨1, 1⟩, ⟨-1, 1⟩, ⟨-1, -1⟩, ⟨1, -1⟩] := by
    unfold Domain.updateFrom at h2
    obtain ⟨_, _, h2⟩ := bind_ok h2
    cases h2
    rfl
  have e : tab 4 (regularVertex 4 r φ) = [⟨1, 1⟩, ⟨-1, 1⟩, ⟨-1, -1⟩, ⟨1, -1⟩] := hd.vertices_eq.symm.trans hv
  have e0 : [regularVertex 4 r φ 0, regularVertex 4 r φ 1, regularVertex 4 r φ 2, regularVertex 4 r φ 3] = [⟨1, 1⟩, ⟨-1, 1⟩, ⟨-1, -1⟩, ⟨1, -1⟩] := e
  simp only [List.cons.injEq, and_true] at e0
  obtain ⟨v0, v1, v2, v3⟩ := e0
  refine ⟨r, φ, hr, ?_, hd, fun u w i hi => ?_⟩
  · have a : P2.dot (regularVertex 4 r φ 0) (regularVertex 4 r φ 0) = 2 := by rw [v0]; norm_num [P2.dot]
    have b : P2.dot (regularVertex 4 r φ 0) (regularVertex 4 r φ 0) = r ^ 2 := by
      unfold regularVertex circ P2.dot
      simp only [P2.smul_x, P2.smul_y]
      linear_combination r ^ 2 * sin_sq_add_cos_sq (φ + 2 * π / (4 : ℕ) * (0 : ℕ))
    rw [← b, a]
  · unfold leftOf area2 sqDist
    interval_cases i <;> norm_num <;> simp only [v0, v1, v2, v3] <;> ring

theorem sq_sin : sin (π / (4 : ℕ)) ^ 2 = 1 / 2 ∧ sin (2 * π / (4 : ℕ)) = 1 := by
  constructor
  · push_cast
    rw [sin_pi_div_four, div_pow, Real.sq_sqrt (by norm_num)]; norm_num
  · rw [show 2 * π / (4 : ℕ) = π / 2 by push_cast; ring, sin_pi_div_two]

theorem sqDist_opp (u w : ℝ) {i : ℕ} (hi : i < 4) : sqDist u w (prevIx 4 i) + sqDist u w (nextIx 4 i) = 1 := by
  unfold sqDist
  interval_cases i <;> norm_num [prevIx, nextIx]

theorem sqDist_mem {u w : ℝ} (u0 : 0 ≤ u) (u1 : u ≤ 1) (w0 : 0 ≤ w) (w1 : w ≤ 1) (i : ℕ) : 0 ≤ sqDist u w i ∧ sqDist u w i ≤ 1 := by
  unfold sqDist
  split_ifs <;> constructor <;> linarith

section

variable {D : Domain ℝ} {r φ u w ε : ℝ} (hr : 1 ≤ r) (hr2 : r ^ 2 = 2) (hd : ConvexDomain D 4 (regularVertex 4 r φ))
  (hl : ∀ u w, ∀ i < 4, leftOf 4 (regularVertex 4 r φ) i ⟨1 - 2 * w, 2 * u - 1⟩ = 4 * sqDist u w i)
  (u0 : 0 ≤ u) (u1 : u ≤ 1) (w0 : 0 ≤ w) (w1 : w ≤ 1)

include hr hr2 hd hl u0 u1 w0 w1

/-- The bilinear parameterization of the square. -/
theorem sq_bilinear (hε : 0 < ε) (hε1 : ε ≤ 1) {j : ℕ} (hj : j < 4) : Param.bilinearSide ε D j ⟨1 - 2 * w, 2 * u - 1⟩ = .ok (sqDist u w (prevIx 4 j)) := by
  have hp : prevIx 4 j < 4 := prevIx_lt (by omega)
  have hx : nextIx 4 j < 4 := nextIx_lt (by omega)
  have k : ∀ i < 4, 0 ≤ leftOf 4 (regularVertex 4 r φ) i ⟨1 - 2 * w, 2 * u - 1⟩ := fun i hi => by
    rw [hl _ _ i hi]
    linarith [(sqDist_mem u0 u1 w0 w1 i).1]
  have := bilinearMap_ratio hd hε hj (by rw [regular_leftOf_prev (by omega) hj, regular_leftOf_next (by omega) hj]) (k _ hp) (k _ hx)
  obtain ⟨s1, s2⟩ := sq_sin
  rw [hl _ _ _ hp, hl _ _ _ hx, regular_du (by omega), ← mul_add, sqDist_opp u w hj, hr2, s1, if_neg (by norm_num; linarith)] at this
  rw [Param.bilinearSide_of_map this]
  congr 1
  ring

open Param in
/-- The Wachspress coordinates in the square. -/
theorem sq_barycentric (hε1 : ε ≤ 1) : Param.barycentric ε .wachspress D ⟨1 - 2 * w, 2 * u - 1⟩ = .ok (tab 4 fun i => sqDist u w ((i + 2) % 4) * sqDist u w ((i + 3) % 4)) := by
  obtain ⟨s1, s2⟩ := sq_sin
  have hw : ∀ i < 4, weightOf (fun _ => (1 : ℝ)) 4 (regularVertex 4 r φ) ⟨1 - 2 * w, 2 * u - 1⟩ i = 8 * (sqDist u w ((i + 2) % 4) * sqDist u w ((i + 3) % 4)) := by
    intro i hi
    have hA : ∀ j < 4, areaOf 4 (regularVertex 4 r φ) ⟨1 - 2 * w, 2 * u - 1⟩ j = 2 * sqDist u w ((j + 1) % 4) := fun j hj => by
      rw [areaOf_eq_leftOf _ _ _ hj, hl _ _ _ (nextIx_lt (by omega))]
      unfold nextIx
      ring
    rw [weightOf_wachspress (by omega) _ _ hi]
    unfold cornerArea
    rw [regular_leftOf_next (by omega) hi, hr2, s1, s2]
    unfold prodBut
    simp only [Finset.prod_range_succ, Finset.prod_range_zero]
    rw [hA 0 (by omega), hA 1 (by omega), hA 2 (by omega), hA 3 (by omega)]
    interval_cases i <;> norm_num [prevIx] <;> ring
  have hs : ∑ i ∈ Finset.range 4, weightOf (fun _ => (1 : ℝ)) 4 (regularVertex 4 r φ) ⟨1 - 2 * w, 2 * u - 1⟩ i = 8 := by
    rw [Finset.sum_congr rfl fun i hi => hw i (Finset.mem_range.mp hi)]
    simp only [Finset.sum_range_succ, Finset.sum_range_zero]
    norm_num [sqDist]
    ring
  unfold Param.barycentric
  rw [hd.vertices_eq, length_tab]
  have := baryWith_eq (ε := ε) (r := fun _ => (1 : ℝ)) (n := 4) (by omega) (regularVertex 4 r φ) ⟨1 - 2 * w, 2 * u - 1⟩ (fun _ _ => hε1) (by rw [hs]; norm_num)
  refine this.trans ?_
  congr 1
  apply tab_congr
  intro i hi
  rw [hs, hw i hi]
  ring

/-- The barycentric parameterization of the square. -/
theorem sq_baryMap (hε : 0 < ε) (hε1 : ε ≤ 1) {j : ℕ} (hj : j < 4) : Param.baryMap ε .wachspress D j ⟨1 - 2 * w, 2 * u - 1⟩ = .ok (sqPar u w j) := by
  have hp : prevIx 4 j < 4 := prevIx_lt (by omega)
  have hx : nextIx 4 j < 4 := nextIx_lt (by omega)
  obtain ⟨s1, s2⟩ := sq_sin
  obtain ⟨sp, _⟩ := sin_pi_div_pos (n := 4) (by omega)
  unfold Param.baryMap
  rw [sq_barycentric hr hr2 hd hl u0 u1 w0 w1 hε1, M_bind_ok]
  set c : ℕ → ℝ := fun i => sqDist u w ((i + 2) % 4) * sqDist u w ((i + 3) % 4) with hc
  have hden : c (prevIx 4 j) + c j = 1 - sqDist u w j := by
    rw [hc]
    interval_cases j <;> norm_num [prevIx, sqDist] <;> ring
  have hcj : c j = (1 - sqDist u w j) * sqDist u w (prevIx 4 j) := by
    rw [hc]
    interval_cases j <;> norm_num [prevIx, sqDist]
  by_cases q : c (prevIx 4 j) + c j < ε
  · have hs1 : sin (π / (4 : ℕ)) ≤ 1 := sin_le_one _
    have hr2' : r ≤ 2 := by nlinarith
    refine (Transfinite.regular_baryMapWith hr hd hε hj q ?_).trans ?_
    · rw [hl _ _ _ hp, hl _ _ _ hx, ← mul_add, sqDist_opp u w hj, s2, le_div_iff₀ (by linarith)]
      have : ε * sin (π / (4 : ℕ)) * r ≤ 1 * 1 * 2 := by gcongr
      linarith
    · rw [hl _ _ _ hp, hl _ _ _ hx, ← mul_add, sqDist_opp u w hj]
      unfold sqPar
      congr 2
      · ring
      · linarith
  · unfold Param.baryMapWith
    dsimp only
    rw [hd.length_eq, vget_tab _ hp, M_bind_ok, vget_tab _ hj, M_bind_ok, if_neg q, hden, hcj]
    have h1 : 1 - sqDist u w j ≠ 0 := by rw [← hden]; linarith
    rw [fdiv_of_ne h1, M_bind_ok]
    unfold sqPar
    congr 2
    · field_simp
    · rw [← hcj]; linarith

end

/-! ### The sum over the names of a four-sided network -/

theorem sum_halves {V : Type} [AddCommMonoid V] (d : ℕ) (g : ℕ → V) :
    ∑ j ∈ Finset.range (d + 1), g j = ∑ j ∈ Finset.range ((d + 1) / 2), g j + ∑ j ∈ Finset.range ((d + 1) / 2), g (d - j) + if d % 2 = 0 then g (d / 2) else 0 := by
  obtain ⟨m, rfl | rfl⟩ : ∃ m, d = 2 * m ∨ d = 2 * m + 1 := ⟨d / 2, by omega⟩
  · rw [show (2 * m + 1) / 2 = m by omega, if_pos (by omega), show 2 * m / 2 = m by omega, show 2 * m + 1 = m + 1 + m by omega, Finset.sum_range_add, Finset.sum_range_succ, ← Finset.sum_range_reflect (fun x => g (m + 1 + x)),
      add_assoc, add_assoc, add_comm (g m)]
    congr 2
    refine Finset.sum_congr rfl fun j hj => ?_
    rw [Finset.mem_range] at hj
    congr 1
    omega
  · rw [show (2 * m + 1 + 1) / 2 = m + 1 by omega, if_neg (by omega), show 2 * m + 1 + 1 = m + 1 + (m + 1) by omega, Finset.sum_range_add, ← Finset.sum_range_reflect (fun x => g (m + 1 + x)), add_zero]
    congr 1
    refine Finset.sum_congr rfl fun j hj => ?_
    rw [Finset.mem_range] at hj
    congr 1
    omega

namespace GB

/-- The part of a weight that depends on the place in the network. -/
theorem factor_mul (d j k : ℕ) (a b x : ℝ) : factor d j k a b x = factor d j k a b 1 * x := by
  unfold factor
  split_ifs <;> ring

/-- The two names of a point near a corner share its weight. -/
theorem factor_pair {d j k : ℕ} (hd : 3 ≤ d) (hj : j < (d + 1) / 2) (hk : k < (d + 1) / 2) {a b a' b' : ℝ} (h : a + b' = 1) : factor d j k a b 1 + factor d (d - k) j a' b' 1 = 1 := by
  unfold factor
  rw [usub_of_le (show 2 ≤ d by omega), usub_of_le (show k ≤ d by omega), usub_of_le (show j ≤ d by omega)]
  split_ifs <;> first | (exfalso; omega) | linarith

/-- The points in the middle column have only one name. -/
theorem factor_middle {d k : ℕ} (hd : 3 ≤ d) (he : d % 2 = 0) (hk : k < (d + 1) / 2) (a b : ℝ) : factor d (d / 2) k a b 1 = 1 := by
  unfold factor
  rw [usub_of_le (show 2 ≤ d by omega), usub_of_le (show k ≤ d by omega), if_neg (by omega), if_neg (by omega), if_neg (by omega)]

theorem ratVal_add {sq : Bool} {ε x y : ℝ} (hε : 0 < ε) (h : ε ≤ x + y) : ratVal sq x y + ratVal sq y x = 1 := by
  obtain ⟨h1, h2⟩ := rat_den hε h
  unfold ratVal
  cases sq
  · simp only [Bool.false_eq_true, if_false]
    rw [add_comm y x, ← add_div, div_self h1]
  · simp only [if_true]
    rw [add_comm (y * y), ← add_div, div_self h2]

/-- The blended sum of the four sides is the tensor product surface. -/
theorem sum_square {V : Type} [AddCommGroup V] [Module ℝ V] {d : ℕ} (hd : 3 ≤ d) (sq : Bool) {ε u w : ℝ} (hε : 0 < ε) (hc : ∀ i < 4, ε ≤ sqDist u w i + sqDist u w (nextIx 4 i)) {F : ℕ → ℕ → ℕ → V} {P : ℕ → ℕ → V}
    (hF : ∀ i < 4, ∀ j ≤ d, ∀ k < (d + 1) / 2, F i j k = P (gridPlace d i j k).1 (gridPlace d i j k).2) :
    (∑ i ∈ Finset.range 4, ∑ k ∈ Finset.range ((d + 1) / 2), ∑ j ∈ Finset.range (d + 1), wt sq 4 d (sqPar u w) i j k • F i j k) +
      (if d % 2 = 0 then (bern d (d / 2) u * bern d (d / 2) w) • P (d / 2) (d / 2) else 0) = tensor d P u w := by
  set l := (d + 1) / 2 with hl
  set R : ℕ → ℕ → V := fun a b => (bern d a u * bern d b w) • P a b with hR
  -- the weighted points in the grid
  have hQ : ∀ i < 4, ∀ j ≤ d, ∀ k < l, (bern d j (sqPar u w i).x * bern d k (sqPar u w i).y) • F i j k = R (gridPlace d i j k).1 (gridPlace d i j k).2 := by
    intro i hi j hj k hk
    rw [hF i hi j hj k hk, hR]
    dsimp only
    congr 1
    unfold sqPar gridPlace sqDist
    have hk' : k ≤ d := by omega
    interval_cases i <;> norm_num [prevIx]
    · rw [bern_symm hk', mul_comm]
    · rw [bern_symm hk', bern_symm hj]
    · rw [bern_symm hj, mul_comm]
  set φ : ℕ → ℕ → ℕ → ℝ := fun i j k => factor d j k (ratVal sq (sqPar u w (prevIx 4 i)).y (sqPar u w i).y) (ratVal sq (sqPar u w (nextIx 4 i)).y (sqPar u w i).y) 1 with hφ
  have hw : ∀ i ∈ Finset.range 4, ∀ k ∈ Finset.range l, ∀ j ∈ Finset.range (d + 1), wt sq 4 d (sqPar u w) i j k • F i j k = φ i j k • R (gridPlace d i j k).1 (gridPlace d i j k).2 := by
    intro i hi k hk j hj
    rw [Finset.mem_range] at hi hj hk
    rw [← hQ i hi j (by omega) k hk]
    unfold wt
    rw [factor_mul, mul_smul]
  -- the two names of a point near a corner
  have hpair : ∀ i < 4, ∀ j < l, ∀ k < l, φ i j k + φ (prevIx 4 i) (d - k) j = 1 := by
    intro i hi j hj k hk
    rw [hφ]
    dsimp only
    refine factor_pair hd hj hk ?_
    rw [nextIx_prevIx hi]
    refine ratVal_add hε ?_
    have := hc (prevIx 4 i) (prevIx_lt (by omega))
    rwa [nextIx_prevIx hi] at this
  have hside : ∀ i < 4, ∑ k ∈ Finset.range l, ∑ j ∈ Finset.range (d + 1), wt sq 4 d (sqPar u w) i j k • F i j k =
      ∑ k ∈ Finset.range l, ∑ j ∈ Finset.range l, φ i j k • R (gridPlace d i j k).1 (gridPlace d i j k).2 +
      ∑ k ∈ Finset.range l, ∑ j ∈ Finset.range l, φ i (d - j) k • R (gridPlace d i (d - j) k).1 (gridPlace d i (d - j) k).2 +
      if d % 2 = 0 then ∑ k ∈ Finset.range l, R (gridPlace d i (d / 2) k).1 (gridPlace d i (d / 2) k).2 else 0 := by
    intro i hi
    rw [Finset.sum_congr rfl fun k hk => Finset.sum_congr rfl fun j hj => hw i (Finset.mem_range.mpr hi) k hk j hj]
    simp only [sum_halves d, ← hl]
    rw [Finset.sum_add_distrib, Finset.sum_add_distrib]
    congr 1
    split_ifs with e
    · refine Finset.sum_congr rfl fun k hk => ?_
      rw [hφ]
      dsimp only
      rw [factor_middle hd e (Finset.mem_range.mp hk), one_smul]
    · simp
  -- the corner blocks
  have hblock : ∀ i < 4, (∑ k ∈ Finset.range l, ∑ j ∈ Finset.range l, φ i j k • R (gridPlace d i j k).1 (gridPlace d i j k).2) +
      (∑ k ∈ Finset.range l, ∑ j ∈ Finset.range l, φ (prevIx 4 i) (d - j) k • R (gridPlace d (prevIx 4 i) (d - j) k).1 (gridPlace d (prevIx 4 i) (d - j) k).2) =
      ∑ k ∈ Finset.range l, ∑ j ∈ Finset.range l, R (gridPlace d i j k).1 (gridPlace d i j k).2 := by
    intro i hi
    rw [Finset.sum_comm (f := fun k j => φ (prevIx 4 i) (d - j) k • R (gridPlace d (prevIx 4 i) (d - j) k).1 (gridPlace d (prevIx 4 i) (d - j) k).2), ← Finset.sum_add_distrib]
    refine Finset.sum_congr rfl fun k hk => ?_
    rw [← Finset.sum_add_distrib]
    refine Finset.sum_congr rfl fun j hj => ?_
    rw [Finset.mem_range] at hk hj
    have : gridPlace d (prevIx 4 i) (d - k) j = gridPlace d i j k := by
      unfold gridPlace
      interval_cases i <;> norm_num [prevIx] <;> omega
    rw [this, ← add_smul, hpair i hi j hj k hk, one_smul]
  have b0 := hblock 0 (by omega)
  have b1 := hblock 1 (by omega)
  have b2 := hblock 2 (by omega)
  have b3 := hblock 3 (by omega)
  rw [show prevIx 4 0 = 3 from rfl] at b0
  rw [show prevIx 4 1 = 0 from rfl] at b1
  rw [show prevIx 4 2 = 1 from rfl] at b2
  rw [show prevIx 4 3 = 2 from rfl] at b3
  rw [Finset.sum_congr rfl fun i hi => hside i (Finset.mem_range.mp hi)]
  simp only [Finset.sum_range_succ (n := 3), Finset.sum_range_succ (n := 2), Finset.sum_range_succ (n := 1), Finset.sum_range_succ (n := 0), Finset.sum_range_zero, zero_add]
  have ht : tensor d P u w = ∑ a ∈ Finset.range (d + 1), ∑ b ∈ Finset.range (d + 1), R a b := rfl
  rw [ht]
  simp only [sum_halves d, ← hl, Finset.sum_add_distrib]
  have g0 : ∀ j k, gridPlace d 0 j k = (j, k) := fun _ _ => rfl
  have g1 : ∀ j k, gridPlace d 1 j k = (d - k, j) := fun _ _ => rfl
  have g2 : ∀ j k, gridPlace d 2 j k = (d - j, d - k) := fun _ _ => rfl
  have g3 : ∀ j k, gridPlace d 3 j k = (k, d - j) := fun _ _ => rfl
  simp only [g0, g1, g2, g3] at b0 b1 b2 b3 ⊢
  rw [Finset.sum_comm (s := Finset.range l) (t := Finset.range l) (f := fun k j => R j k)] at b0
  rw [Finset.sum_comm (s := Finset.range l) (t := Finset.range l) (f := fun k j => R (d - j) (d - k))] at b2
  by_cases e : d % 2 = 0
  · simp only [if_pos e]
    rw [show d - d / 2 = d / 2 by omega]
    rw [← b0, ← b1, ← b2, ← b3]
    abel
  · simp only [if_neg e, Finset.sum_const_zero]
    rw [← b0, ← b1, ← b2, ← b3]
    abel

end GB

end Transfinite
