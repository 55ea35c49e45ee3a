import Verif.Lemmas.Statistics
import Verif.Lemmas.Ribbon
import Verif.Lemmas.Blend

/-! # C91: the statistics of the deviations -/

namespace Transfinite

open Spec Statistics

namespace Statistics

theorem Ranking.unique {data s s' : List ℝ} (h : Ranking data s) (h' : Ranking data s') : s = s' :=
  List.Perm.eq_of_pairwise (fun _ _ _ _ => le_antisymm) h.sorted h'.sorted (h.perm.trans h'.perm.symm)

/-- The result of `printStatistics` for at least four values. -/
theorem print_eq {data s : List ℝ} (hn : 4 ≤ data.length) (hs : Ranking data s) : ∃ (S : Statistics ℝ) (q1 q2 q3 : ℝ) (h0 : 0 < s.length), print data = .ok S ∧
    S.mean = data.sum / data.length ∧ S.stddev = Real.sqrt ((data.map fun x => (x - S.mean) ^ 2).sum / (data.length - 1 : ℕ)) ∧
    S.quartiles = [s[0], q1, q2, q3, s[s.length - 1]'(by omega)] ∧ quartile s 1 = .ok q1 ∧ quartile s 2 = .ok q2 ∧ quartile s 3 = .ok q3 ∧
    fillBins 25 ((q3 - q1) / 25) s 0 q1 (q1 + (q3 - q1) / 25) (List.replicate 25 0) = .ok S.counts ∧ S.counts.length = 25 ∧
    ∃ m, 0 < m ∧ m ∈ S.counts ∧ (∀ k ∈ S.counts, k ≤ m) ∧ S.bars = S.counts.map fun k => k * 15 / m := by
  have hl : s.length = data.length := hs.perm.length_eq
  have hn' : 4 ≤ s.length := by omega
  have h0 : 0 < s.length := by omega
  obtain ⟨q1, i1, e1, c1⟩ := quartile_eq hn' (i := 1) (by norm_num)
  obtain ⟨q2, i2, e2, c2⟩ := quartile_eq hn' (i := 2) (by norm_num)
  obtain ⟨q3, i3, e3, c3⟩ := quartile_eq hn' (i := 3) (by norm_num)
  obtain ⟨h', ef, lf, -⟩ := fillBins_ok 25 ((q3 - q1) / 25) s 0 q1 (q1 + (q3 - q1) / 25) (List.replicate 25 0) (List.length_replicate)
  have hlast : q1 ≤ s[s.length - 1] := by
    rcases c1 with ⟨-, rfl⟩ | ⟨i1', rfl⟩
    · exact sorted_le hs.sorted (by omega) (by omega)
    · have g1 := sorted_le hs.sorted (i := s.length * 1 / 4) (j := s.length - 1) (by omega) (by omega)
      have g2 := sorted_le hs.sorted (i := s.length * 1 / 4 + 1) (j := s.length - 1) (by omega) (by omega)
      have hf : ((s.length % 4 : ℕ) : ℝ) / 4 ≤ 1 := by
        rw [div_le_one (by norm_num)]
        exact_mod_cast (Nat.mod_lt s.length (show 0 < 4 by norm_num)).le
      have hf0 : 0 ≤ ((s.length % 4 : ℕ) : ℝ) / 4 := by positivity
      nlinarith
  obtain ⟨j, k, hjk⟩ := fillBins_pos s List.length_replicate (by norm_num) ⟨_, List.getElem_mem (by omega), hlast⟩ ef
  have hmem := List.mem_of_getElem? hjk
  obtain ⟨m1, m2, m3⟩ := foldl_max h' 0
  have hm : h'.foldl Nat.max 0 ∈ h' := by
    rcases m3 with m3 | m3
    · have := m1 _ hmem
      omega
    · exact m3
  have hpos : 0 < h'.foldl Nat.max 0 := by
    have := m1 _ hmem
    omega
  refine ⟨⟨data.sum / data.length, Real.sqrt ((data.map fun x => (x - data.sum / data.length) ^ 2).sum / (data.length - 1 : ℕ)), [s[0], q1, q2, q3, s[s.length - 1]],
    h', h'.map fun k => k * 15 / h'.foldl Nat.max 0⟩, q1, q2, q3, h0, ?_, rfl, rfl, rfl, e1, e2, e3, ef, lf, _, hpos, hm, m1, rfl⟩
  unfold print
  dsimp only
  rw [fdiv_of_ne (by exact_mod_cast (show data.length ≠ 0 by omega)), M_bind_ok, fdiv_of_ne (by exact_mod_cast (show data.length - 1 ≠ 0 by omega)), M_bind_ok,
    Ranking.unique (ranking_mergeSort data) hs, vget_of_lt h0, M_bind_ok, ← hl, vget_of_lt (by omega), M_bind_ok, e1, M_bind_ok, e2, M_bind_ok, e3, M_bind_ok]
  rw [Nat.cast_ofNat, ef, M_bind_ok, scale_eq hpos hm m1, M_bind_ok]
  rfl

/-- The values of the quartiles. -/
theorem quartile_bounds {s : List ℝ} (hs : s.Pairwise (· ≤ ·)) (hn : 4 ≤ s.length) {i : ℕ} (hi : i ≤ 3) {q : ℝ} (e : quartile s i = .ok q) :
    ∃ (h1 : s.length * i / 4 < s.length), s[s.length * i / 4] ≤ q ∧ ((s.length % 4 = 0 ∧ q = s[s.length * i / 4]) ∨ ∃ h2 : s.length * i / 4 + 1 < s.length, q ≤ s[s.length * i / 4 + 1]) := by
  obtain ⟨q', h1, e', c⟩ := quartile_eq hn hi
  cases e.symm.trans e'
  refine ⟨h1, ?_⟩
  rcases c with ⟨h0, rfl⟩ | ⟨h2, rfl⟩
  · exact ⟨le_rfl, Or.inl ⟨h0, rfl⟩⟩
  · have g := sorted_le hs (i := s.length * i / 4) (j := s.length * i / 4 + 1) (by omega) h2
    have hf : ((s.length % 4 : ℕ) : ℝ) / 4 ≤ 1 := by
      rw [div_le_one (by norm_num)]
      exact_mod_cast (Nat.mod_lt s.length (show 0 < 4 by norm_num)).le
    have hf0 : 0 ≤ ((s.length % 4 : ℕ) : ℝ) / 4 := by positivity
    exact ⟨by nlinarith, Or.inr ⟨h2, by nlinarith⟩⟩

theorem quartile_mono {s : List ℝ} (hs : s.Pairwise (· ≤ ·)) (hn : 4 ≤ s.length) {i : ℕ} (hi : i + 1 ≤ 3) {q q' : ℝ} (e : quartile s i = .ok q) (e' : quartile s (i + 1) = .ok q') : q ≤ q' := by
  obtain ⟨h1, a1, b1⟩ := quartile_bounds hs hn (by omega) e
  obtain ⟨h2, a2, b2⟩ := quartile_bounds hs hn hi e'
  refine le_trans ?_ a2
  rcases b1 with ⟨-, rfl⟩ | ⟨h3, b1⟩
  · exact sorted_le hs (Nat.div_le_div_right (Nat.mul_le_mul_left _ (by omega))) h2
  · exact b1.trans (sorted_le hs (by rw [Nat.mul_add, Nat.mul_one]; omega) h2)

end Statistics

variable {data s : List ℝ}

/-- C91: for at least four values, the mean is the average of the values, and the standard deviation is that of a sample: its square times `n - 1` is the sum of the squared differences from the mean. -/
theorem C91_moments (hn : 4 ≤ data.length) : ∃ S, print data = .ok S ∧ S.mean * data.length = data.sum ∧ 0 ≤ S.stddev ∧
    S.stddev ^ 2 * (data.length - 1) = (data.map fun x => (x - S.mean) ^ 2).sum := by
  obtain ⟨S, q1, q2, q3, -, e, hm, hd, -⟩ := print_eq hn (ranking_mergeSort data)
  have h0 : (data.length : ℝ) ≠ 0 := by exact_mod_cast (show data.length ≠ 0 by omega)
  have h1 : ((data.length - 1 : ℕ) : ℝ) = data.length - 1 := by rw [Nat.cast_sub (by omega), Nat.cast_one]
  have h2 : (data.length : ℝ) - 1 ≠ 0 := by rw [← h1]; exact_mod_cast (show data.length - 1 ≠ 0 by omega)
  refine ⟨S, e, by rw [hm]; field_simp, by rw [hd]; exact Real.sqrt_nonneg _, ?_⟩
  rw [hd, Real.sq_sqrt, h1]
  · field_simp
  · refine div_nonneg (List.sum_nonneg ?_) (Nat.cast_nonneg _)
    intro x hx
    obtain ⟨y, -, rfl⟩ := List.mem_map.mp hx
    exact sq_nonneg _

/-- C91: for at least four values, there are five numbers in increasing order; the first is the least value, the last is the greatest, and for the `i`-th of the others at least `n * i / 4` values are not greater,
and less than `n * i / 4 + 1` values are less. When the number of values is divisible by four, at most `n * i / 4` values are less, so these are quartiles. -/
theorem C91_quartiles (hn : 4 ≤ data.length) : ∃ S, print data = .ok S ∧ ∃ q : ℕ → ℝ, S.quartiles = [q 0, q 1, q 2, q 3, q 4] ∧ q 0 ∈ data ∧ q 4 ∈ data ∧ (∀ x ∈ data, q 0 ≤ x ∧ x ≤ q 4) ∧
    (∀ i, i < 4 → q i ≤ q (i + 1)) ∧ ∀ i, 1 ≤ i → i ≤ 3 → data.length * i ≤ 4 * howMany (· ≤ q i) data ∧ 4 * howMany (· < q i) data ≤ data.length * i + 4 ∧
      (4 ∣ data.length → 4 * howMany (· < q i) data ≤ data.length * i) := by
  have hs := ranking_mergeSort data
  set s := data.mergeSort fun x y => decide (x ≤ y)
  have hl : s.length = data.length := hs.perm.length_eq
  have hn' : 4 ≤ s.length := by omega
  obtain ⟨S, q1, q2, q3, h0, e, -, -, hq, e1, e2, e3, -⟩ := print_eq hn hs
  have hq : ∃ q : ℕ → ℝ, S.quartiles = [q 0, q 1, q 2, q 3, q 4] ∧ q 0 = s[0] ∧ q 4 = s[s.length - 1] ∧ ∀ i, 1 ≤ i → i ≤ 3 → quartile s i = .ok (q i) :=
    ⟨fun i => [s[0], q1, q2, q3, s[s.length - 1]].getD i 0, hq, rfl, rfl, fun i h1 h2 => by interval_cases i <;> assumption⟩
  obtain ⟨q, hq, hq0, hq4, hqi⟩ := hq
  refine ⟨S, e, q, hq, ?_, ?_, fun x hx => ?_, fun i hi => ?_, fun i h1 h3 => ?_⟩
  · rw [hq0]; exact hs.perm.subset (List.getElem_mem _)
  · rw [hq4]; exact hs.perm.subset (List.getElem_mem _)
  · obtain ⟨i, hi, rfl⟩ := List.mem_iff_getElem.mp (hs.perm.symm.subset hx)
    rw [hq0, hq4]
    exact ⟨sorted_le hs.sorted (by omega) hi, sorted_le hs.sorted (by omega) (by omega)⟩
  · by_cases c0 : i = 0
    · subst c0
      obtain ⟨g1, g2, -⟩ := quartile_bounds hs.sorted hn' (by norm_num) (hqi 1 le_rfl (by norm_num))
      rw [hq0]
      exact (sorted_le hs.sorted (by omega) (by omega)).trans g2
    by_cases c3 : i = 3
    · subst c3
      obtain ⟨g1, -, g3⟩ := quartile_bounds hs.sorted hn' (by norm_num) (hqi 3 (by norm_num) le_rfl)
      rw [hq4]
      rcases g3 with ⟨-, g⟩ | ⟨g2, g⟩
      · rw [g]; exact sorted_le hs.sorted (by omega) (by omega)
      · exact g.trans (sorted_le hs.sorted (by omega) (by omega))
    · exact quartile_mono hs.sorted hn' (by omega) (hqi i (by omega) (by omega)) (hqi (i + 1) (by omega) (by omega))
  · obtain ⟨g1, g2, g3⟩ := quartile_bounds hs.sorted hn' h3 (hqi i h1 h3)
    rw [← hl, ← howMany_perm _ hs.perm, ← howMany_perm _ hs.perm]
    have p1 := howMany_le_of_sorted hs.sorted g1 g2
    refine ⟨by omega, ?_, fun hd => ?_⟩
    · rcases g3 with ⟨-, g⟩ | ⟨g4, g⟩
      · have := howMany_lt_of_sorted hs.sorted g1 g.le
        omega
      · have := howMany_lt_of_sorted hs.sorted g4 g
        omega
    · rcases g3 with ⟨-, g⟩ | ⟨g4, g⟩
      · have := howMany_lt_of_sorted hs.sorted g1 g.le
        omega
      · obtain ⟨q', g1', e', c⟩ := quartile_eq hn' h3
        obtain rfl : q i = q' := Except.ok.inj ((hqi i h1 h3).symm.trans e')
        have hmod : s.length % 4 = 0 := Nat.mod_eq_zero_of_dvd hd
        have : q i = s[s.length * i / 4] := by
          rcases c with ⟨-, c⟩ | ⟨_, c⟩
          · exact c
          · rw [c, hmod]; simp
        have := howMany_lt_of_sorted hs.sorted g1 this.le
        omega

/-- C91: the exact values: in the increasing order of the values, the `i`-th number is at the position `⌊n * i / 4⌋ + (n mod 4) / 4`. -/
theorem C91_position (hn : 4 ≤ data.length) (hs : Ranking data s) {i : ℕ} (h1 : 1 ≤ i) (h3 : i ≤ 3) : ∃ S q, print data = .ok S ∧ S.quartiles[i]? = some q ∧
    AtPosition s ((data.length * i / 4 : ℕ) + (data.length % 4 : ℕ) / 4) q := by
  have hl : s.length = data.length := hs.perm.length_eq
  have hn' : 4 ≤ s.length := by omega
  obtain ⟨S, q1, q2, q3, h0, e, -, -, hq, e1, e2, e3, -⟩ := print_eq hn hs
  obtain ⟨q, g1, e', c⟩ := quartile_eq hn' h3
  refine ⟨S, q, e, ?_, s.length * i / 4, (s.length % 4 : ℕ) / 4, s[s.length * i / 4], by rw [hl], by positivity, ?_, List.getElem?_eq_getElem g1, ?_⟩
  · rw [hq]
    interval_cases i
    · cases e1.symm.trans e'; rfl
    · cases e2.symm.trans e'; rfl
    · cases e3.symm.trans e'; rfl
  · rw [div_lt_one (by norm_num)]
    exact_mod_cast Nat.mod_lt s.length (show 0 < 4 by norm_num)
  · rcases c with ⟨h0, c⟩ | ⟨h2, c⟩
    · exact Or.inl ⟨by rw [h0]; simp, c⟩
    · exact Or.inr ⟨_, List.getElem?_eq_getElem h2, c⟩

/-- C91: the first number is the lower quartile: it is at the position `n / 4`. -/
theorem C91_lower (hn : 4 ≤ data.length) (hs : Ranking data s) : ∃ S q, print data = .ok S ∧ S.quartiles[1]? = some q ∧ AtPosition s (data.length / 4) q := by
  obtain ⟨S, q, e, h, hp⟩ := C91_position hn hs le_rfl (by norm_num)
  refine ⟨S, q, e, h, ?_⟩
  have : ((data.length * 1 / 4 : ℕ) : ℝ) + ((data.length % 4 : ℕ) : ℝ) / 4 = data.length / 4 := by
    have := congrArg (fun k : ℕ => (k : ℝ)) (Nat.div_add_mod data.length 4)
    simp only [Nat.cast_add, Nat.cast_mul, Nat.cast_ofNat] at this
    rw [mul_one]
    linarith
  rwa [this] at hp

/-- C91: less than four values lead to undefined behaviour or to a division by zero. -/
theorem C91_short (hn : data.length < 4) : ∃ e, print data = .error e := by
  cases h : print data with
  | error e => exact ⟨e, rfl⟩
  | ok S =>
    exfalso
    unfold print at h
    dsimp only at h
    have hs := ranking_mergeSort data
    have hl := hs.perm.length_eq
    by_cases h0 : data.length = 0
    · rw [h0, Nat.cast_zero, fdiv_zero] at h
      cases h
    · obtain ⟨_, _, h⟩ := bind_ok h
      obtain ⟨_, _, h⟩ := bind_ok h
      obtain ⟨_, _, h⟩ := bind_ok h
      obtain ⟨_, _, h⟩ := bind_ok h
      obtain ⟨_, _, h⟩ := bind_ok h
      obtain ⟨_, _, h⟩ := bind_ok h
      rw [quartile_short (by omega) (by omega)] at h
      cases h

/-- C91: the middle number is not the median: three of the five values are less than it. -/
theorem C91_median : ∃ (data : List ℝ) (S : Statistics ℝ) (q : ℝ), data.length = 5 ∧ print data = .ok S ∧ S.quartiles[2]? = some q ∧ howMany (· < q) data = 3 := by
  classical
  have hs : Ranking [0, 0, 0, 1, 1] [0, 0, 0, 1, 1] := ⟨List.Perm.refl _, by norm_num⟩
  obtain ⟨S, q, e, h, k, f, a, ht, h0, h1, ha, hc⟩ := C91_position (by norm_num) hs (i := 2) (by norm_num) (by norm_num)
  refine ⟨_, S, q, rfl, e, h, ?_⟩
  norm_num at ht
  obtain rfl : k = 2 := by
    have l1 : (k : ℝ) < 3 := by linarith
    have l2 : (1 : ℝ) < k := by linarith
    have : k < 3 := by exact_mod_cast l1
    have : 1 < k := by exact_mod_cast l2
    omega
  push_cast at ht
  have hf : f = 1 / 4 := by linarith
  have hq : q = 1 / 4 := by
    rcases hc with ⟨h, -⟩ | ⟨b, hb, hq⟩
    · rw [hf] at h; norm_num at h
    · simp only [List.getElem?_cons_succ, List.getElem?_cons_zero, Option.some.injEq] at ha hb
      rw [hq, hf, ← ha, ← hb]; norm_num
  rw [hq]
  simp only [howMany_cons, howMany_nil]
  norm_num

/-- C91: the histogram has 25 bins from the lower to the upper quartile. When each value above the lower quartile has a lesser value that is nearer than the width of the bins,
the count of a bin is the number of the values in it. -/
theorem C91_histogram (hn : 4 ≤ data.length) : ∃ S q1 q3, print data = .ok S ∧ S.quartiles[1]? = some q1 ∧ S.quartiles[3]? = some q3 ∧ S.counts.length = 25 ∧
    ((∀ x ∈ data, q1 < x → ∃ y ∈ data, y < x ∧ x ≤ y + (q3 - q1) / 25) → ∀ j, j < 25 → S.counts[j]? = some (howMany (InBin q1 ((q3 - q1) / 25) j) data)) := by
  have hs := ranking_mergeSort data
  set s := data.mergeSort fun x y => decide (x ≤ y)
  have hl : s.length = data.length := hs.perm.length_eq
  have hn' : 4 ≤ s.length := by omega
  obtain ⟨S, q1, q2, q3, h0, e, -, -, hq, e1, e2, e3, ef, lf, -⟩ := print_eq hn hs
  refine ⟨S, q1, q3, e, by rw [hq]; rfl, by rw [hq]; rfl, lf, fun hd j hj => ?_⟩
  have h12 := quartile_mono hs.sorted hn' (by norm_num) e1 e2
  have h23 := quartile_mono hs.sorted hn' (by norm_num) e2 e3
  have hw : 0 ≤ (q3 - q1) / 25 := div_nonneg (by linarith) (by norm_num)
  set w := (q3 - q1) / 25
  obtain ⟨g1, g2, -⟩ := quartile_bounds hs.sorted hn' (by norm_num) e1
  have hfirst : s[0] ≤ q1 := (sorted_le hs.sorted (Nat.zero_le _) g1).trans g2
  have hchain : (s[0] :: s).IsChain (fun a c => q1 < c → c ≤ a + w) := by
    rw [List.isChain_cons]
    constructor
    · intro y hy hqy
      rw [List.head?_eq_getElem?, List.getElem?_eq_getElem h0] at hy
      cases hy
      linarith
    · rw [List.isChain_iff_getElem]
      intro i hi hqc
      obtain ⟨y, hy, hlt, hle⟩ := hd _ (hs.perm.subset (List.getElem_mem _)) hqc
      obtain ⟨k, hk, rfl⟩ := List.mem_iff_getElem.mp (hs.perm.symm.subset hy)
      have : k ≤ i := by
        by_contra hc
        exact absurd hlt (not_lt.mpr (sorted_le hs.sorted (by omega) hk))
      have := sorted_le hs.sorted this (by omega)
      linarith
  have hsorted : (s[0] :: s).Pairwise (· ≤ ·) := by
    rw [List.pairwise_cons]
    refine ⟨fun y hy => ?_, hs.sorted⟩
    obtain ⟨k, hk, rfl⟩ := List.mem_iff_getElem.mp hy
    exact sorted_le hs.sorted (Nat.zero_le _) hk
  have ef' : fillBins 25 w s 0 (q1 + (0 : ℕ) * w) (q1 + ((0 : ℕ) + 1) * w) (List.replicate 25 0) = .ok S.counts := by
    rw [← ef]
    congr 1 <;> simp
  have := fillBins_dense hw s List.length_replicate (by norm_num) (by push_cast; linarith) (by norm_num) hsorted hchain ef' j 0
    (by rw [List.getElem?_replicate, if_pos hj])
  rw [this, howMany_perm _ hs.perm, Nat.zero_add]

/-- C91: the bars of the picture are at most 15 high, the highest bar is 15 high, and the bars are proportional to the counts, rounded down. -/
theorem C91_bars (hn : 4 ≤ data.length) : ∃ S m, print data = .ok S ∧ S.bars.length = 25 ∧ 0 < m ∧ m ∈ S.counts ∧ (∀ k ∈ S.counts, k ≤ m) ∧ 15 ∈ S.bars ∧ (∀ b ∈ S.bars, b ≤ 15) ∧
    ∀ (j k b : ℕ), S.counts[j]? = some k → S.bars[j]? = some b → b * m ≤ 15 * k ∧ 15 * k < (b + 1) * m := by
  obtain ⟨S, q1, q2, q3, -, e, -, -, -, -, -, -, -, lf, m, hm, hin, hmax, hb⟩ := print_eq hn (ranking_mergeSort data)
  refine ⟨S, m, e, by rw [hb, List.length_map, lf], hm, hin, hmax, ?_, fun b h => ?_, fun j k b h1 h2 => ?_⟩
  · rw [hb]
    exact List.mem_map.mpr ⟨m, hin, by rw [Nat.mul_comm, Nat.mul_div_cancel _ hm]⟩
  · rw [hb] at h
    obtain ⟨k, hk, rfl⟩ := List.mem_map.mp h
    exact Nat.div_le_of_le_mul (by have := hmax k hk; nlinarith)
  · rw [hb, List.getElem?_map, h1] at h2
    cases h2
    rw [Nat.mul_comm 15 k]
    exact ⟨Nat.div_mul_le_self _ _, by
      have := Nat.lt_mul_div_succ (k * 15) hm
      rwa [Nat.mul_comm m] at this⟩

/-- C91: without the hypothesis of `C91_histogram` values are counted in the wrong bin: here the bins have width 1, the second one contains no value, but its count is 1,
and the last one contains a value, but its count is 0. -/
theorem C91_gap : ∃ (data : List ℝ) (S : Statistics ℝ), print data = .ok S ∧ S.quartiles[1]? = some 0 ∧ S.quartiles[3]? = some 25 ∧
    howMany (InBin 0 1 1) data = 0 ∧ S.counts[1]? = some 1 ∧ howMany (InBin 0 1 24) data = 1 ∧ S.counts[24]? = some 0 := by
  classical
  have hs : Ranking [0, 0, 1, 25] [0, 0, 1, 25] := ⟨List.Perm.refl _, by norm_num⟩
  obtain ⟨S, q1, q2, q3, h0, e, -, -, hq, e1, e2, e3, ef, -⟩ := print_eq (by norm_num) hs
  have h1 : q1 = 0 := by
    have : quartile ([0, 0, 1, 25] : List ℝ) 1 = .ok 0 := rfl
    exact Except.ok.inj (e1.symm.trans this)
  have h3 : q3 = 25 := by
    have : quartile ([0, 0, 1, 25] : List ℝ) 3 = .ok 25 := rfl
    exact Except.ok.inj (e3.symm.trans this)
  subst h1 h3
  have hc : S.counts = 3 :: 1 :: List.replicate 23 0 := by
    refine Except.ok.inj (ef.symm.trans ?_)
    norm_num [fillBins, vget, vset]
    rfl
  refine ⟨_, S, e, by rw [hq]; rfl, by rw [hq]; rfl, ?_, by rw [hc]; rfl, ?_, by rw [hc]; rfl⟩
  · simp only [howMany_cons, howMany_nil, InBin]; norm_num
  · simp only [howMany_cons, howMany_nil, InBin]; norm_num

/-- The hypotheses of the theorems hold for four values. -/
example : (4 : ℕ) ≤ ([3, 1, 2, 1] : List ℝ).length ∧ Ranking [3, 1, 2, 1] [1, 1, 2, 3] ∧ ([1, 2, 3] : List ℝ).length < 4 := by
  refine ⟨le_rfl, ⟨?_, by norm_num⟩, by norm_num⟩
  rw [List.perm_iff_count]
  intro a
  simp only [List.count_cons, List.count_nil]
  omega

private theorem getElem_tab {n i : ℕ} (f : ℕ → ℝ) (h : i < (tab n f).length) : (tab n f)[i] = f i := by simp [tab]

/-- The hypothesis on the distances in `C91_histogram` holds for the numbers 0, ..., 99: the bins have width 2. -/
example : ∃ S : Statistics ℝ, print (tab 100 fun i => (i : ℝ)) = .ok S ∧ S.quartiles[1]? = some 25 ∧ S.quartiles[3]? = some 75 ∧
    S.counts[7]? = some (howMany (InBin 25 2 7) (tab 100 fun i => (i : ℝ))) := by
  have hl : (tab 100 fun i => (i : ℝ)).length = 100 := length_tab _ _
  have hs : Ranking (tab 100 fun i => (i : ℝ)) (tab 100 fun i => (i : ℝ)) := by
    refine ⟨List.Perm.refl _, List.pairwise_iff_getElem.mpr fun i j hi hj hij => ?_⟩
    rw [getElem_tab, getElem_tab]
    exact_mod_cast hij.le
  have key : ∀ i : ℕ, 1 ≤ i → i ≤ 3 → ∃ S, print (tab 100 fun i => (i : ℝ)) = .ok S ∧ S.quartiles[i]? = some (25 * i : ℝ) := by
    intro i h1 h3
    obtain ⟨q, g, e, c⟩ := quartile_eq (s := tab 100 fun i => (i : ℝ)) (by rw [hl]; norm_num) h3
    obtain ⟨S, q1, q2, q3, h0, e', -, -, hq, e1, e2, e3, -⟩ := print_eq (by rw [hl]; norm_num) hs
    have hq' : q = 25 * i := by
      have h4 : 100 * i / 4 = 25 * i := by omega
      rcases c with ⟨-, rfl⟩ | ⟨_, rfl⟩
      · rw [getElem_tab, hl, h4]; push_cast; ring
      · rw [getElem_tab, getElem_tab, hl, h4]; push_cast; norm_num
    refine ⟨S, e', ?_⟩
    rw [hq, ← hq']
    interval_cases i
    · cases e1.symm.trans e; rfl
    · cases e2.symm.trans e; rfl
    · cases e3.symm.trans e; rfl
  obtain ⟨S, q1, q3, e, h1, h3, -, h⟩ := C91_histogram (data := tab 100 fun i => (i : ℝ)) (by rw [hl]; norm_num)
  obtain ⟨S1, e1, k1⟩ := key 1 (by norm_num) (by norm_num)
  obtain ⟨S3, e3, k3⟩ := key 3 (by norm_num) (by norm_num)
  cases e.symm.trans e1
  cases e.symm.trans e3
  rw [k1] at h1
  rw [k3] at h3
  norm_num at h1 h3
  subst h1 h3
  refine ⟨S, e, by rw [k1]; norm_num, by rw [k3]; norm_num, ?_⟩
  rw [h (fun x hx hlt => ?_) 7 (by norm_num)]
  · norm_num
  · obtain ⟨i, hi, rfl⟩ := List.mem_iff_getElem.mp hx
    rw [getElem_tab] at hlt ⊢
    have hi' : 25 < i := by exact_mod_cast hlt
    rw [hl] at hi
    refine ⟨(i - 1 : ℕ), List.mem_iff_getElem.mpr ⟨i - 1, by rw [hl]; omega, getElem_tab ..⟩, by exact_mod_cast (by omega : i - 1 < i), ?_⟩
    rw [Nat.cast_sub (by omega)]
    norm_num
    linarith

end Transfinite
