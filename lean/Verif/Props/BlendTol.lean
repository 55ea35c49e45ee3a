import Verif.Spec.ExactBlend
import Verif.Props.Blend

/-! # C110: the effect of the tolerance on the singular blends -/

namespace Transfinite.Surf

open Spec

variable {n : ℕ} {f : ℕ → P2 ℝ} {ε m : ℝ}

private theorem num_eq {h : ℕ → ℝ} {k : ℕ} (hk : k < n) (h0 : h k ≠ 0) : sideNum n h k = (∏ j ∈ Finset.range n, h j ^ 2) * (1 / h k ^ 2) := by
  unfold sideNum
  rw [← Finset.mul_prod_erase _ _ (Finset.mem_range.mpr hk)]
  field_simp

private theorem cnum_eq (hn : 3 ≤ n) {h : ℕ → ℝ} {k : ℕ} (hk : k < n) (h0 : h (nextIx n k) ≠ 0) : cornerNum n h k = sideNum n h k * (1 / h (nextIx n k) ^ 2) := by
  have hx : nextIx n k < n := nextIx_lt (by omega)
  have hne : nextIx n k ≠ k := Param.next_ne (by omega) hk
  unfold cornerNum sideNum
  change ∏ j ∈ ((Finset.range n).erase k).erase (nextIx n k), h j ^ 2 = _
  rw [← Finset.mul_prod_erase ((Finset.range n).erase k) _ (Finset.mem_erase.mpr ⟨hne, Finset.mem_range.mpr hx⟩)]
  field_simp

/-- Numerators relative to that of side `i`. -/
private theorem num_rel {h : ℕ → ℝ} {i k : ℕ} (hi : i < n) (hk : k < n) (hki : k ≠ i) (h0 : h k ≠ 0) : sideNum n h k = sideNum n h i * (h i ^ 2 / h k ^ 2) := by
  unfold sideNum
  rw [← Finset.mul_prod_erase ((Finset.range n).erase k) _ (Finset.mem_erase.mpr ⟨hki.symm, Finset.mem_range.mpr hi⟩),
    ← Finset.mul_prod_erase ((Finset.range n).erase i) _ (Finset.mem_erase.mpr ⟨hki, Finset.mem_range.mpr hk⟩), Finset.erase_right_comm]
  field_simp

/-- C110: away from all sides the side blends are exact. -/
theorem C110_side_exact (hε : 0 < ε) (hn : 0 < n) (h : ∀ j < n, ε ≤ (f j).y) :
    blendSideSingular ε (tab n f) = .ok (tab n (exactSide n fun j => (f j).y)) := by
  rw [blendSide_none hε hn h]
  congr 1
  refine tab_congr fun k hk => ?_
  have hpos : ∀ j < n, (f j).y ≠ 0 := fun j hj => (lt_of_lt_of_le hε (h j hj)).ne'
  have hP : ∏ j ∈ Finset.range n, (f j).y ^ 2 ≠ 0 := Finset.prod_ne_zero_iff.mpr fun j hj => pow_ne_zero 2 (hpos j (Finset.mem_range.mp hj))
  unfold exactSide
  rw [Finset.sum_congr rfl fun l hl => num_eq (h := fun j => (f j).y) (Finset.mem_range.mp hl) (hpos l (Finset.mem_range.mp hl)), num_eq (h := fun j => (f j).y) hk (hpos k hk),
    ← Finset.mul_sum, mul_div_mul_left _ _ hP]

/-- C110: within the tolerance of one side (and not of others), the side blends differ from the exact ones by at most `(n - 1) (ε / m)²`, where `m` bounds the distances from the other sides. -/
theorem C110_side_near (hε : 0 < ε) (hm : ε ≤ m) {i : ℕ} (hi : i < n) (h0 : 0 ≤ (f i).y) (h1 : (f i).y < ε) (h2 : ∀ j < n, j ≠ i → m ≤ (f j).y) :
    ∃ b : ℕ → ℝ, blendSideSingular ε (tab n f) = .ok (tab n b) ∧ ∀ k < n, |b k - exactSide n (fun j => (f j).y) k| ≤ (n - 1) * (ε / m) ^ 2 := by
  have hm0 : 0 < m := by linarith
  have hpos : ∀ j < n, j ≠ i → 0 < (f j).y := fun j hj hji => lt_of_lt_of_le hm0 (h2 j hj hji)
  have hF : (Finset.range n).filter (fun j => (f j).y < ε) = {i} := by
    ext j
    simp only [Finset.mem_filter, Finset.mem_range, Finset.mem_singleton]
    constructor
    · rintro ⟨hj, q⟩
      by_contra c
      have := h2 j hj c
      linarith
    · rintro rfl; exact ⟨hi, h1⟩
  refine ⟨_, blendSide_close hi h1, fun k hk => ?_⟩
  rw [hF, Finset.card_singleton]
  set h : ℕ → ℝ := fun j => (f j).y with hh
  have hP : 0 < sideNum n h i := Finset.prod_pos fun j hj => by
    obtain ⟨a, b⟩ := Finset.mem_erase.mp hj
    exact pow_pos (hpos j (Finset.mem_range.mp b) a) 2
  have hr : ∀ j < n, j ≠ i → 0 ≤ h i ^ 2 / h j ^ 2 ∧ h i ^ 2 / h j ^ 2 ≤ (ε / m) ^ 2 := by
    intro j hj hji
    refine ⟨by positivity, ?_⟩
    rw [div_pow]
    have a : h i ^ 2 ≤ ε ^ 2 := pow_le_pow_left₀ h0 h1.le 2
    have b : m ^ 2 ≤ h j ^ 2 := pow_le_pow_left₀ hm0.le (h2 j hj hji) 2
    exact div_le_div₀ (by positivity) a (by positivity) b
  set R := ∑ j ∈ (Finset.range n).erase i, h i ^ 2 / h j ^ 2 with hR
  have R0 : 0 ≤ R := Finset.sum_nonneg fun j hj => (hr j (Finset.mem_range.mp (Finset.mem_erase.mp hj).2) (Finset.mem_erase.mp hj).1).1
  have R1 : R ≤ (n - 1) * (ε / m) ^ 2 := by
    have := Finset.sum_le_card_nsmul ((Finset.range n).erase i) (fun j => h i ^ 2 / h j ^ 2) ((ε / m) ^ 2)
      fun j hj => (hr j (Finset.mem_range.mp (Finset.mem_erase.mp hj).2) (Finset.mem_erase.mp hj).1).2
    rw [Finset.card_erase_of_mem (Finset.mem_range.mpr hi), Finset.card_range, nsmul_eq_mul, Nat.cast_sub (by omega), Nat.cast_one] at this
    exact this
  have hS : ∑ l ∈ Finset.range n, sideNum n h l = sideNum n h i * (1 + R) := by
    rw [← Finset.add_sum_erase _ _ (Finset.mem_range.mpr hi), hR, mul_add, mul_one, Finset.mul_sum]
    congr 1
    refine Finset.sum_congr rfl fun j hj => ?_
    obtain ⟨a, b⟩ := Finset.mem_erase.mp hj
    exact num_rel hi (Finset.mem_range.mp b) a (hpos j (Finset.mem_range.mp b) a).ne'
  unfold exactSide
  rw [hS]
  by_cases q : k = i
  · rw [q, if_pos h1]
    have e : 1 / ((1 : ℕ) : ℝ) - sideNum n h i / (sideNum n h i * (1 + R)) = R / (1 + R) := by
      push_cast
      field_simp
      ring
    rw [e, abs_of_nonneg (by positivity)]
    exact (div_le_self R0 (by linarith)).trans R1
  · rw [if_neg (by have := h2 k hk q; linarith), num_rel hi hk q (hpos k hk q).ne', mul_div_mul_left _ _ hP.ne', zero_sub, abs_neg]
    have a := (hr k hk q).1
    rw [abs_of_nonneg (by positivity)]
    have b : h i ^ 2 / h k ^ 2 ≤ R := Finset.single_le_sum (f := fun j => h i ^ 2 / h j ^ 2)
      (fun j hj => (hr j (Finset.mem_range.mp (Finset.mem_erase.mp hj).2) (Finset.mem_erase.mp hj).1).1) (Finset.mem_erase.mpr ⟨q, Finset.mem_range.mpr hk⟩)
    exact (div_le_self a (by linarith)).trans (b.trans R1)

/-- C110: away from all sides the corner blends are exact. -/
theorem C110_corner_exact (hε : 0 < ε) (hn : 3 ≤ n) (h : ∀ j < n, ε ≤ (f j).y) :
    blendCorner ε n (tab n f) = .ok (tab n (exactCorner n fun j => (f j).y)) := by
  rw [blendCorner_none hε (by omega) h]
  congr 1
  refine tab_congr fun k hk => ?_
  have hpos : ∀ j < n, (f j).y ≠ 0 := fun j hj => (lt_of_lt_of_le hε (h j hj)).ne'
  have hP : ∏ j ∈ Finset.range n, (f j).y ^ 2 ≠ 0 := Finset.prod_ne_zero_iff.mpr fun j hj => pow_ne_zero 2 (hpos j (Finset.mem_range.mp hj))
  have e : ∀ l < n, cornerNum n (fun j => (f j).y) l = (∏ j ∈ Finset.range n, (f j).y ^ 2) * (1 / ((f l).y * (f (nextIx n l)).y) ^ 2) := by
    intro l hl
    rw [cnum_eq hn hl (hpos _ (nextIx_lt (by omega))), num_eq hl (hpos l hl), mul_assoc]
    congr 1
    rw [mul_pow, one_div_mul_one_div]
  unfold exactCorner
  rw [Finset.sum_congr rfl fun l hl => e l (Finset.mem_range.mp hl), e k hk, ← Finset.mul_sum, mul_div_mul_left _ _ hP]

/-- C110: within the tolerance of one side (and not of others), the corner blends differ from the exact ones by at most `(n - 2) ε² / (2 m⁴)`, where `m` bounds the distances from the other sides from below, and 1 from above. -/
theorem C110_corner_near (hε : 0 < ε) (hm : ε ≤ m) (hn : 3 ≤ n) {i : ℕ} (hi : i < n) (h0 : 0 ≤ (f i).y) (h1 : (f i).y < ε) (h2 : ∀ j < n, j ≠ i → m ≤ (f j).y)
    (h3 : ∀ j < n, (f j).y ≤ 1) :
    ∃ b : ℕ → ℝ, blendCorner ε n (tab n f) = .ok (tab n b) ∧ ∀ k < n, |b k - exactCorner n (fun j => (f j).y) k| ≤ (n - 2) * ε ^ 2 / (2 * m ^ 4) := by
  have hm0 : 0 < m := by linarith
  have hpos : ∀ j < n, j ≠ i → 0 < (f j).y := fun j hj hji => lt_of_lt_of_le hm0 (h2 j hj hji)
  have hx : nextIx n i < n := nextIx_lt (by omega)
  have hp : prevIx n i < n := prevIx_lt (by omega)
  have hxi : nextIx n i ≠ i := Param.next_ne (by omega) hi
  have hpi : prevIx n i ≠ i := Param.prev_ne (by omega) hi
  refine ⟨_, blendCorner_one hε hn hi h1 (fun j hj q => hm.trans (h2 j hj q)), fun k hk => ?_⟩
  set h : ℕ → ℝ := fun j => (f j).y with hh
  have px : 0 < h (nextIx n i) := hpos _ hx hxi
  have pp : 0 < h (prevIx n i) := hpos _ hp hpi
  have hP : 0 < sideNum n h i := Finset.prod_pos fun j hj => by
    obtain ⟨a, b⟩ := Finset.mem_erase.mp hj
    exact pow_pos (hpos j (Finset.mem_range.mp b) a) 2
  have ci : cornerNum n h i = sideNum n h i * (1 / h (nextIx n i) ^ 2) := cnum_eq hn hi px.ne'
  -- the previous corner
  have cp : cornerNum n h (prevIx n i) = sideNum n h i * (1 / h (prevIx n i) ^ 2) := by
    unfold cornerNum sideNum
    change ∏ j ∈ ((Finset.range n).erase (prevIx n i)).erase (nextIx n (prevIx n i)), h j ^ 2 = _
    rw [nextIx_prevIx hi, Finset.erase_right_comm, ← Finset.mul_prod_erase ((Finset.range n).erase i) _ (Finset.mem_erase.mpr ⟨hpi, Finset.mem_range.mpr hp⟩)]
    field_simp
  have hnx : ∀ k < n, k ≠ prevIx n i → nextIx n k ≠ i := by
    intro k hk q w
    apply q
    rw [← w, prevIx_nextIx hk]
  have ck : ∀ k < n, k ≠ i → k ≠ prevIx n i → cornerNum n h k = sideNum n h i * (h i ^ 2 / (h k * h (nextIx n k)) ^ 2) := by
    intro k hk q1 q2
    rw [cnum_eq hn hk (hpos _ (nextIx_lt (by omega)) (hnx k hk q2)).ne', num_rel hi hk q1 (hpos k hk q1).ne', mul_assoc]
    congr 1
    rw [mul_pow, div_mul_div_comm, mul_one]
  have hr : ∀ j < n, j ≠ i → j ≠ prevIx n i → 0 ≤ h i ^ 2 / (h j * h (nextIx n j)) ^ 2 ∧ h i ^ 2 / (h j * h (nextIx n j)) ^ 2 ≤ ε ^ 2 / m ^ 4 := by
    intro j hj q1 q2
    refine ⟨by positivity, ?_⟩
    have a : h i ^ 2 ≤ ε ^ 2 := pow_le_pow_left₀ h0 h1.le 2
    have b : m ^ 4 ≤ (h j * h (nextIx n j)) ^ 2 := by
      rw [show m ^ 4 = (m * m) ^ 2 by ring]
      exact pow_le_pow_left₀ (by positivity) (mul_le_mul (h2 j hj q1) (h2 _ (nextIx_lt (by omega)) (hnx j hj q2)) hm0.le (hpos j hj q1).le) 2
    exact div_le_div₀ (by positivity) a (by positivity) b
  set s := ((Finset.range n).erase i).erase (prevIx n i) with hs
  have ms : ∀ j ∈ s, j < n ∧ j ≠ i ∧ j ≠ prevIx n i := fun j hj => by
    obtain ⟨a, b⟩ := Finset.mem_erase.mp hj
    obtain ⟨c, d⟩ := Finset.mem_erase.mp b
    exact ⟨Finset.mem_range.mp d, c, a⟩
  set R := ∑ j ∈ s, h i ^ 2 / (h j * h (nextIx n j)) ^ 2 with hR
  have R0 : 0 ≤ R := Finset.sum_nonneg fun j hj => (hr j (ms j hj).1 (ms j hj).2.1 (ms j hj).2.2).1
  have R1 : R ≤ (n - 2) * (ε ^ 2 / m ^ 4) := by
    have := Finset.sum_le_card_nsmul s (fun j => h i ^ 2 / (h j * h (nextIx n j)) ^ 2) (ε ^ 2 / m ^ 4)
      fun j hj => (hr j (ms j hj).1 (ms j hj).2.1 (ms j hj).2.2).2
    rw [hs, Finset.card_erase_of_mem (Finset.mem_erase.mpr ⟨hpi, Finset.mem_range.mpr hp⟩), Finset.card_erase_of_mem (Finset.mem_range.mpr hi), Finset.card_range, nsmul_eq_mul,
      show n - 1 - 1 = n - 2 by omega, Nat.cast_sub (by omega)] at this
    exact_mod_cast this
  set A := 1 / h (nextIx n i) ^ 2 with hA
  set B := 1 / h (prevIx n i) ^ 2 with hB
  have A1 : 1 ≤ A := by
    rw [hA, le_div_iff₀ (by positivity), one_mul]
    exact pow_le_one₀ px.le (h3 _ hx)
  have B1 : 1 ≤ B := by
    rw [hB, le_div_iff₀ (by positivity), one_mul]
    exact pow_le_one₀ pp.le (h3 _ hp)
  have hS : ∑ l ∈ Finset.range n, cornerNum n h l = sideNum n h i * (A + B + R) := by
    rw [← Finset.add_sum_erase _ _ (Finset.mem_range.mpr hi), ← Finset.add_sum_erase _ _ (Finset.mem_erase.mpr ⟨hpi, Finset.mem_range.mpr hp⟩), ci, cp, hR, mul_add, mul_add, Finset.mul_sum,
      add_assoc]
    congr 2
    exact Finset.sum_congr rfl fun j hj => ck j (ms j hj).1 (ms j hj).2.1 (ms j hj).2.2
  have T : R / (A + B + R) ≤ (n - 2) * ε ^ 2 / (2 * m ^ 4) := by
    have e : (n - 2) * ε ^ 2 / (2 * m ^ 4) = (n - 2) * (ε ^ 2 / m ^ 4) / 2 := by field_simp
    rw [e]
    exact div_le_div₀ (R0.trans R1) R1 two_pos (by linarith)
  have b1 : h (prevIx n i) ^ 2 / (h (prevIx n i) ^ 2 + h (nextIx n i) ^ 2) = A / (A + B) := by
    rw [hA, hB]; field_simp
  have b2 : h (nextIx n i) ^ 2 / (h (prevIx n i) ^ 2 + h (nextIx n i) ^ 2) = B / (A + B) := by
    rw [hA, hB]; field_simp
  have dif : ∀ X, 0 ≤ X → X ≤ A + B → |X / (A + B) - X / (A + B + R)| ≤ R / (A + B + R) := by
    intro X x0 x1
    have e : X / (A + B) - X / (A + B + R) = X / (A + B) * (R / (A + B + R)) := by
      field_simp; ring
    rw [e, abs_of_nonneg (by positivity)]
    exact mul_le_of_le_one_left (by positivity) (div_le_one_of_le₀ x1 (by linarith))
  unfold exactCorner
  rw [hS]
  by_cases q1 : k = i
  · rw [q1, if_pos rfl, ci, mul_div_mul_left _ _ hP.ne']
    refine le_trans (le_of_eq ?_) ((dif A (by linarith) (by linarith)).trans T)
    exact congrArg (fun z => |z - A / (A + B + R)|) b1
  · rw [if_neg q1]
    by_cases q2 : k = prevIx n i
    · rw [if_pos q2, q2, cp, mul_div_mul_left _ _ hP.ne']
      refine le_trans (le_of_eq ?_) ((dif B (by linarith) (by linarith)).trans T)
      exact congrArg (fun z => |z - B / (A + B + R)|) b2
    · rw [if_neg q2, ck k hk q1 q2, mul_div_mul_left _ _ hP.ne', zero_sub, abs_neg]
      have a := (hr k hk q1 q2).1
      rw [abs_of_nonneg (by positivity)]
      have b : h i ^ 2 / (h k * h (nextIx n k)) ^ 2 ≤ R := Finset.single_le_sum (f := fun j => h i ^ 2 / (h j * h (nextIx n j)) ^ 2)
        (fun j hj => (hr j (ms j hj).1 (ms j hj).2.1 (ms j hj).2.2).1) (Finset.mem_erase.mpr ⟨q2, Finset.mem_erase.mpr ⟨q1, Finset.mem_range.mpr hk⟩⟩)
      exact (div_le_div_of_nonneg_right b (by linarith)).trans T

/-- C110 cannot be extended to the corners: within the tolerance of two sides the side blends are the same, although the exact ones may be 1 and 0. -/
theorem C110_side_corner (hε : 0 < ε) (hn : 3 ≤ n) : ∃ f : ℕ → P2 ℝ, (∀ j < n, 0 ≤ (f j).y ∧ (f j).y ≤ max 1 ε) ∧
    (∃ b : ℕ → ℝ, blendSideSingular ε (tab n f) = .ok (tab n b) ∧ b 0 = 1 / 2) ∧ exactSide n (fun j => (f j).y) 0 = 1 := by
  have hM : ε ≤ max 1 ε := le_max_right _ _
  refine ⟨fun j => ⟨0, if j = 0 then 0 else if j = 1 then ε / 2 else max 1 ε⟩, fun j _ => ?_, ?_, ?_⟩
  · dsimp only
    split_ifs
    · exact ⟨le_rfl, by linarith⟩
    · exact ⟨by linarith, by linarith⟩
    · exact ⟨by linarith, le_rfl⟩
  · refine ⟨_, blendSide_close (i := 0) (by omega) (by simpa using hε), ?_⟩
    have hF : (Finset.range n).filter (fun j => (if j = 0 then (0 : ℝ) else if j = 1 then ε / 2 else max 1 ε) < ε) = {0, 1} := by
      ext j
      simp only [Finset.mem_filter, Finset.mem_range, Finset.mem_insert, Finset.mem_singleton]
      constructor
      · rintro ⟨_, q⟩
        by_contra c
        push Not at c
        rw [if_neg c.1, if_neg c.2] at q
        linarith
      · rintro (rfl | rfl)
        · exact ⟨by omega, by simpa using hε⟩
        · exact ⟨by omega, by norm_num; linarith⟩
    dsimp only
    rw [hF]
    norm_num [hε]
  · unfold exactSide
    have e : ∀ l ∈ (Finset.range n).erase 0, sideNum n (fun j => if j = 0 then (0 : ℝ) else if j = 1 then ε / 2 else max 1 ε) l = 0 := by
      intro l hl
      obtain ⟨a, b⟩ := Finset.mem_erase.mp hl
      refine Finset.prod_eq_zero (i := 0) (Finset.mem_erase.mpr ⟨a.symm, Finset.mem_range.mpr (by omega)⟩) (by simp)
    rw [← Finset.add_sum_erase _ _ (Finset.mem_range.mpr (show 0 < n by omega)), Finset.sum_eq_zero e, add_zero]
    refine div_self (Finset.prod_ne_zero_iff.mpr fun j hj => ?_)
    obtain ⟨a, _⟩ := Finset.mem_erase.mp hj
    dsimp only
    rw [if_neg a]
    split_ifs
    · exact pow_ne_zero 2 (by linarith)
    · exact pow_ne_zero 2 (by linarith)

/-- The hypotheses can be met: a point of a five-sided domain near side 2, with tolerance 1e-8 and the other sides at least 1/10 away. -/
example : ∃ b : ℕ → ℝ, blendSideSingular (1 / 10 ^ 8) (tab 5 fun j => (⟨0, if j = 2 then 1 / 10 ^ 9 else 1 / 10⟩ : P2 ℝ)) = .ok (tab 5 b) ∧
    ∀ k < 5, |b k - exactSide 5 (fun j => if j = 2 then 1 / 10 ^ 9 else 1 / 10) k| ≤ 4 / 10 ^ 14 := by
  obtain ⟨b, e, h⟩ := C110_side_near (n := 5) (f := fun j => (⟨0, if j = 2 then 1 / 10 ^ 9 else 1 / 10⟩ : P2 ℝ)) (ε := 1 / 10 ^ 8) (m := 1 / 10) (i := 2) (by norm_num) (by norm_num) (by norm_num)
    (by norm_num) (by norm_num) (fun j _ q => by simp [q])
  exact ⟨b, e, fun k hk => (h k hk).trans (by norm_num)⟩

example : ∃ b : ℕ → ℝ, blendCorner (1 / 10 ^ 8) 5 (tab 5 fun j => (⟨0, if j = 2 then 1 / 10 ^ 9 else 1 / 10⟩ : P2 ℝ)) = .ok (tab 5 b) ∧
    ∀ k < 5, |b k - exactCorner 5 (fun j => if j = 2 then 1 / 10 ^ 9 else 1 / 10) k| ≤ 15 / 10 ^ 13 := by
  obtain ⟨b, e, h⟩ := C110_corner_near (n := 5) (f := fun j => (⟨0, if j = 2 then 1 / 10 ^ 9 else 1 / 10⟩ : P2 ℝ)) (ε := 1 / 10 ^ 8) (m := 1 / 10) (i := 2) (by norm_num) (by norm_num) (by norm_num) (by norm_num)
    (by norm_num) (by norm_num) (fun j _ q => by simp [q]) (fun j _ => by dsimp only; split_ifs <;> norm_num)
  exact ⟨b, e, fun k hk => (h k hk).trans (by norm_num)⟩

end Transfinite.Surf
