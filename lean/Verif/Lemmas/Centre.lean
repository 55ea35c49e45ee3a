import Verif.Lemmas.SideParams
import Verif.Model.Surface

/-! Local parameters and blends at the centre of a regular domain. -/

namespace Transfinite

open Spec Real Param

variable {n : ℕ} {r φ ε : ℝ}

theorem regular_centre_left (hn : 3 ≤ n) {j : ℕ} : leftOf n (regularVertex n r φ) j 0 = r ^ 2 * sin (2 * π / n) := by
  have hn0 : (0 : ℝ) < n := by positivity
  have e1 : regularVertex n r φ ((j + n - 1) % n) = r • circ (φ + 2 * π / n * j - 2 * π / n) := by
    rw [regularVertex_mod (by omega), Nat.cast_sub (by omega)]
    push_cast
    rw [← circ_add_two_pi (φ + 2 * π / n * j - 2 * π / n)]
    congr 2
    field_simp
    ring
  unfold leftOf
  rw [e1]
  have e2 : regularVertex n r φ j = r • circ (φ + 2 * π / n * j) := rfl
  rw [e2]
  set a := φ + 2 * π / n * j
  set b := 2 * π / n
  have : sin b = sin a * cos (a - b) - cos a * sin (a - b) := by rw [← sin_sub]; congr 1; ring
  rw [this]
  simp only [area2, circ, P2.smul_x, P2.smul_y, P2.zero_x, P2.zero_y]
  ring

theorem centre_weights (hn : 3 ≤ n) (hr : 0 < r) : ∃ w : ℝ, 0 < w ∧ ∀ i < n, weightOf (fun _ => 1) n (regularVertex n r φ) 0 i = w := by
  obtain ⟨s1, s2⟩ := sin_pi_div_pos hn
  set a : ℝ := r ^ 2 * sin (2 * π / n) / 2 with ha
  have hpos : 0 < a := by positivity
  have hA : ∀ j < n, areaOf n (regularVertex n r φ) 0 j = a := by
    intro j hj
    rw [areaOf_eq_leftOf _ _ _ hj, regular_centre_left hn]
  refine ⟨r ^ 2 * (4 * sin (π / n) ^ 2) * sin (2 * π / n) / 2 * (a ^ n / (a * a)), by positivity, ?_⟩
  intro i hi
  have hp : prevIx n i < n := prevIx_lt (by omega)
  rw [weightOf_wachspress hn _ _ hi]
  unfold cornerArea
  rw [regular_leftOf_next hn hi]
  congr 1
  set A := areaOf n (regularVertex n r φ) 0 with hAdef
  have k1 : prodBut n A (· = i) = A (prevIx n i) * prodBut n A (fun j => j = i ∨ j = prevIx n i) :=
    prodBut_split A hp (prev_ne (by omega) hi)
  have k2 : ∏ j ∈ Finset.range n, A j = A i * prodBut n A (· = i) := by
    unfold prodBut
    rw [← Finset.mul_prod_erase _ _ (Finset.mem_range.mpr hi), ← Finset.mul_prod_erase _ _ (Finset.mem_range.mpr hi), if_pos rfl, one_mul]
    congr 1
    apply Finset.prod_congr rfl
    intro j hj
    rw [if_neg (Finset.ne_of_mem_erase hj)]
  have k3 : ∏ j ∈ Finset.range n, A j = a ^ n := by
    rw [Finset.prod_congr rfl (fun j hj => hA j (Finset.mem_range.mp hj))]
    simp
  rw [k3, k1, hA _ hi, hA _ hp] at k2
  rw [k2]
  field_simp

/-- The barycentric coordinates of the centre. -/
theorem bary_centre {d : Domain ℝ} (hr : 0 < r) (h : ConvexDomain d n (regularVertex n r φ)) (hε1 : ε ≤ 1) :
    barycentric ε .wachspress d 0 = .ok (tab n fun _ => (1 : ℝ) / n) := by
  have hn := h.hn
  obtain ⟨w, hw, e⟩ := centre_weights (φ := φ) hn hr
  have hn0 : (0 : ℝ) < n := by positivity
  have hs : ∑ i ∈ Finset.range n, weightOf (fun _ => (1 : ℝ)) n (regularVertex n r φ) 0 i = n * w := by
    rw [Finset.sum_congr rfl (fun i hi => e i (Finset.mem_range.mp hi))]
    simp
  unfold barycentric
  rw [h.vertices_eq, length_tab]
  have := baryWith_eq (ε := ε) (r := fun _ => (1 : ℝ)) (n := n) (by omega) (regularVertex n r φ) 0 (fun _ _ => hε1) (by rw [hs]; positivity)
  change baryWith ε (fun _ => (1 : ℝ)) n _ 0 = _
  rw [this]
  congr 1
  apply tab_congr
  intro i hi
  rw [hs, e i hi]
  field_simp

/-- The local parameters of the centre. -/
theorem baryMap_centre {d : Domain ℝ} (hr : 0 < r) (h : ConvexDomain d n (regularVertex n r φ)) (hε1 : ε ≤ 1) (hε2 : ε ≤ 2 / n) {j : ℕ} (hj : j < n) :
    baryMap ε .wachspress d j 0 = .ok ⟨1 / 2, 1 - 2 / n⟩ := by
  have hn := h.hn
  have hn0 : (0 : ℝ) < n := by positivity
  unfold baryMap
  rw [bary_centre hr h hε1, M_bind_ok]
  unfold baryMapWith
  dsimp only
  rw [h.length_eq, vget_tab _ (prevIx_lt (by omega)), M_bind_ok, vget_tab _ hj, M_bind_ok]
  have e : (1 : ℝ) / n + 1 / n = 2 / n := by ring
  rw [e, if_neg (by linarith), fdiv_of_ne (by positivity), M_bind_ok]
  congr 2
  · field_simp
  · ring

/-- Distance parameter of the constrained barycentric parameterization at the centre. -/
noncomputable def centreDist (n : ℕ) : ℝ :=
  let d : ℝ := 1 - 2 / n
  let a : ℝ := 1 / d ^ 2 + 1 / (1 - d) ^ 2
  (d * a + 4) / (a + 8)

theorem constrained_centre {d : Domain ℝ} (hr : 0 < r) (h : ConvexDomain d n (regularVertex n r φ)) (hε1 : ε ≤ 1 / 3) (hε2 : ε ≤ 2 / n) {j : ℕ}
    (hj : j < n) : constrainedMap ε d j 0 = .ok ⟨1 / 2, centreDist n⟩ := by
  have hn := h.hn
  have hn0 : (0 : ℝ) < n := by positivity
  have hn3 : (3 : ℝ) ≤ n := by exact_mod_cast hn
  unfold constrainedMap constrainedMapWith
  beta_reduce
  rw [h.length_eq, baryMap_centre hr h (by linarith) hε2 hj, M_bind_ok, baryMap_centre hr h (by linarith) hε2 (prevIx_lt (by omega)), M_bind_ok,
    baryMap_centre hr h (by linarith) hε2 (nextIx_lt (by omega)), M_bind_ok]
  have t1 : (2 : ℝ) / n ≤ 2 / 3 := by
    rw [div_le_div_iff₀ hn0 (by norm_num)]; linarith
  have t0 : (0 : ℝ) < 2 / n := by positivity
  unfold centreDist
  set t : ℝ := 2 / n
  have hb : singularBlend ε [1 - t, 1 - 1 / 2, 1 - (1 - t), 1 / 2] = .ok
      [1 / (1 - t) ^ 2 / (1 / (1 - t) ^ 2 + 1 / (1 - (1 - t)) ^ 2 + 8), 4 / (1 / (1 - t) ^ 2 + 1 / (1 - (1 - t)) ^ 2 + 8),
        1 / (1 - (1 - t)) ^ 2 / (1 / (1 - t) ^ 2 + 1 / (1 - (1 - t)) ^ 2 + 8), 4 / (1 / (1 - t) ^ 2 + 1 / (1 - (1 - t)) ^ 2 + 8)] := by
    unfold singularBlend
    have c : List.countP (fun w => decide (w < ε)) [1 - t, 1 - 1 / 2, 1 - (1 - t), 1 / 2] = 0 := by
      rw [List.countP_eq_zero]
      intro x hx
      simp only [List.mem_cons, List.not_mem_nil, or_false] at hx
      simp only [decide_eq_true_eq, not_lt]
      rcases hx with rfl | rfl | rfl | rfl <;> linarith
    dsimp only
    rw [c, if_neg (by norm_num)]
    have p1 : (0 : ℝ) < (1 - t) ^ 2 := by have : 0 < 1 - t := by linarith
                                          positivity
    have p2 : (0 : ℝ) < (1 - (1 - t)) ^ 2 := by have : 0 < 1 - (1 - t) := by linarith
                                                positivity
    have q1 : (0 : ℝ) < 1 / (1 - t) ^ 2 := by positivity
    have q2 : (0 : ℝ) < 1 / (1 - (1 - t)) ^ 2 := by positivity
    simp only [List.mapM_cons, List.mapM_nil, fdiv_of_ne p1.ne', fdiv_of_ne p2.ne', fdiv_of_ne (show ((1 : ℝ) - 1 / 2) ^ 2 ≠ 0 by norm_num),
      fdiv_of_ne (show ((1 : ℝ) / 2) ^ 2 ≠ 0 by norm_num), M_bind_ok]
    change (do
      let b ← (pure [1 / (1 - t) ^ 2, 1 / (1 - 1 / 2) ^ 2, 1 / (1 - (1 - t)) ^ 2, 1 / (1 / 2) ^ 2] : M (List ℝ))
      b.mapM fun x => fdiv x b.sum) = _
    change List.mapM _ _ = _
    have es : [1 / (1 - t) ^ 2, 1 / (1 - 1 / 2) ^ 2, 1 / (1 - (1 - t)) ^ 2, 1 / (1 / 2) ^ 2].sum = 1 / (1 - t) ^ 2 + 1 / (1 - (1 - t)) ^ 2 + 8 := by
      simp only [List.sum_cons, List.sum_nil]; ring
    rw [es]
    have hne : 1 / (1 - t) ^ 2 + 1 / (1 - (1 - t)) ^ 2 + 8 ≠ 0 := by positivity
    simp only [List.mapM_cons, List.mapM_nil, fdiv_of_ne hne, M_bind_ok]
    norm_num
  unfold constrainedBlend
  dsimp only
  rw [hb]
  simp only [M_bind_ok, vget, List.getElem?_cons_zero, List.getElem?_cons_succ]
  congr 2
  ring

/-- The sum of the deficient blends for constant local parameters. -/
theorem deficient_const (hn : 0 < n) {d : ℝ} (hd : ε ≤ d) (hd0 : 0 < d) :
    Surf.blendCornerDeficient ε n (tab n fun _ => (⟨1 / 2, d⟩ : P2 ℝ)) = .ok (tab n fun _ => (1 - d) ^ 2 * (1 + 2 * d) / 2) := by
  unfold Surf.blendCornerDeficient
  rw [forLoop_push n _ (fun _ => (1 - d) ^ 2 * (1 + 2 * d) / 2)]
  · simp [tab]
  · intro k l hk
    rw [vget_tab _ hk, M_bind_ok, vget_tab _ (nextIx_lt (by omega)), M_bind_ok]
    unfold Surf.deficientBlend
    dsimp only
    rw [if_neg (by intro q; linarith [q.1]), fdiv_of_ne (by positivity), M_bind_ok]
    congr 3
    unfold hermite
    simp only [if_true]
    field_simp
    ring

theorem centreDist_ge (hn : 3 ≤ n) : 1 / 3 ≤ centreDist n ∧ centreDist n < 1 := by
  have hn0 : (0 : ℝ) < n := by positivity
  have hn3 : (3 : ℝ) ≤ n := by exact_mod_cast hn
  have t1 : (2 : ℝ) / n ≤ 2 / 3 := by
    rw [div_le_div_iff₀ hn0 (by norm_num)]; linarith
  have t0 : (0 : ℝ) < 2 / n := by positivity
  unfold centreDist
  dsimp only
  set t : ℝ := 2 / n
  have p1 : (0 : ℝ) < 1 - t := by linarith
  have p2 : (0 : ℝ) < 1 - (1 - t) := by linarith
  set a := 1 / (1 - t) ^ 2 + 1 / (1 - (1 - t)) ^ 2
  have ha : 0 < a := by positivity
  constructor
  · rw [div_le_div_iff₀ (by norm_num) (by linarith)]; nlinarith
  · rw [div_lt_one (by linarith)]; nlinarith

/-- One minus the sum of the blends at the centre. -/
noncomputable def coonsDeficiency (n : ℕ) : ℝ := 1 - n * ((1 - centreDist n) ^ 2 * (1 + 2 * centreDist n) / 2)

theorem coonsDeficiency_four : coonsDeficiency 4 = 0 := by
  norm_num [coonsDeficiency, centreDist]

theorem coonsDeficiency_ge (hn : 3 ≤ n) (h4 : n ≠ 4) : 1 / 200 ≤ |coonsDeficiency n| := by
  by_cases hb : n < 16
  · interval_cases n <;> first | exact absurd rfl h4 | norm_num [coonsDeficiency, centreDist, abs_of_pos, abs_of_neg]
  · have hn0 : (0 : ℝ) < n := by positivity
    have hn16 : (16 : ℝ) ≤ n := by exact_mod_cast (not_lt.mp hb)
    obtain ⟨-, hlt⟩ := centreDist_ge hn
    have t1 : (2 : ℝ) / n ≤ 1 / 8 := by
      rw [div_le_div_iff₀ hn0 (by norm_num)]; linarith
    have t0 : (0 : ℝ) < 2 / n := by positivity
    have key : 1 - centreDist n ≤ 2 / n + 4 * (2 / n) ^ 2 := by
      unfold centreDist
      dsimp only
      set t : ℝ := 2 / n
      have p1 : (0 : ℝ) < 1 - t := by linarith
      rw [show 1 - (1 - t) = t by ring]
      set a := 1 / (1 - t) ^ 2 + 1 / t ^ 2 with ha
      have ha0 : 1 / t ^ 2 ≤ a := by
        have : 0 < 1 / (1 - t) ^ 2 := by positivity
        linarith
      have hat : 1 ≤ a * t ^ 2 := by
        have := mul_le_mul_of_nonneg_right ha0 (sq_nonneg t)
        rwa [div_mul_cancel₀ _ (by positivity)] at this
      have hapos : 0 < a := lt_of_lt_of_le (by positivity) ha0
      have : 1 - ((1 - t) * a + 4) / (a + 8) = (t * a + 4) / (a + 8) := by
        field_simp
        ring
      rw [this, div_le_iff₀ (by linarith)]
      nlinarith
    have hx : 0 ≤ 1 - centreDist n := by linarith
    set x := 1 - centreDist n
    have e : coonsDeficiency n = 1 - n * (x ^ 2 * (3 - 2 * x) / 2) := by unfold coonsDeficiency; simp only [x]; ring
    rw [e]
    set t : ℝ := 2 / n with ht
    have hnt : (n : ℝ) = 2 / t := by rw [ht]; field_simp
    have hx2 : x ^ 2 ≤ (t + 4 * t ^ 2) ^ 2 := by gcongr
    have h1 : (n : ℝ) * (x ^ 2 * (3 - 2 * x) / 2) ≤ 7 / 8 := by
      have a1 : x ^ 2 * (3 - 2 * x) / 2 ≤ x ^ 2 * 3 / 2 := by nlinarith [mul_nonneg (sq_nonneg x) hx]
      have a2 : x ^ 2 * 3 / 2 ≤ (t + 4 * t ^ 2) ^ 2 * 3 / 2 := by linarith
      have a3 : (n : ℝ) * (x ^ 2 * (3 - 2 * x) / 2) ≤ n * ((t + 4 * t ^ 2) ^ 2 * 3 / 2) := by
        apply mul_le_mul_of_nonneg_left _ hn0.le; linarith
      have a4 : (n : ℝ) * ((t + 4 * t ^ 2) ^ 2 * 3 / 2) = 3 * t * (1 + 4 * t) ^ 2 := by rw [hnt]; field_simp
      have a5 : 3 * t * (1 + 4 * t) ^ 2 ≤ 3 * (1 / 8) * (1 + 4 * (1 / 8)) ^ 2 := by gcongr
      norm_num at a5
      linarith
    have := le_abs_self (1 - n * (x ^ 2 * (3 - 2 * x) / 2))
    linarith

end Transfinite
