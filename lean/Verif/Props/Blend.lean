import Verif.Lemmas.Blend
import Verif.Props.Utilities
import Verif.Spec.Patch

/-! # C28, C29: blending functions -/

namespace Transfinite

open Surf Spec

section
variable {K : Type} [Field K] [LinearOrder K] [IsStrictOrderedRing K]

/-! ### C28 -/

/-- C28, side blends: for every list of local parameters they are defined, nonnegative and sum to 1. Sides within
the tolerance share the weight evenly and the rest gets zero; if there is no such side, the blends are
inversely proportional to the squared distances. -/
theorem C28_side {ε : K} (hε : 0 < ε) {n : ℕ} (hn : 0 < n) (f : ℕ → P2 K) :
    ∃ b : ℕ → K, blendSideSingular ε (tab n f) = .ok (tab n b) ∧ (∀ j < n, 0 ≤ b j) ∧
      ∑ j ∈ Finset.range n, b j = 1 ∧
      (∀ j < n, ∀ k < n, (f j).y < ε → (f k).y < ε → b j = b k) ∧
      (∀ j < n, ∀ k < n, (f j).y < ε → ε ≤ (f k).y → b k = 0) ∧
      ((∀ j < n, ε ≤ (f j).y) → ∀ j < n, ∀ k < n, b j * (f j).y ^ 2 = b k * (f k).y ^ 2) := by
  by_cases hc : ∃ i < n, (f i).y < ε
  · obtain ⟨i, hi, h⟩ := hc
    refine ⟨_, blendSide_close hi h, ?_, ?_, ?_, ?_, ?_⟩
    · intro j _; split_ifs <;> positivity
    · have hpos : 0 < ((Finset.range n).filter fun j => (f j).y < ε).card := Finset.card_pos.mpr ⟨i, by simp [hi, h]⟩
      rw [← Finset.sum_filter, Finset.sum_const, nsmul_eq_mul, mul_one_div, div_self]
      exact_mod_cast hpos.ne'
    · intro j _ k _ a b; rw [if_pos a, if_pos b]
    · intro j _ k _ _ b; rw [if_neg (not_lt.mpr b)]
    · intro ha; exact absurd h (not_lt.mpr (ha i hi))
  · push Not at hc
    have hpos : ∀ j < n, 0 < (f j).y := fun j hj => lt_of_lt_of_le hε (hc j hj)
    have hsum : 0 < ∑ k ∈ Finset.range n, 1 / (f k).y ^ 2 :=
      Finset.sum_pos (fun j hj => by have := hpos j (Finset.mem_range.mp hj); positivity) ⟨0, Finset.mem_range.mpr hn⟩
    refine ⟨_, blendSide_none hε hn hc, ?_, ?_, ?_, ?_, ?_⟩
    · intro j hj; have := hpos j hj; positivity
    · rw [← Finset.sum_div, div_self hsum.ne']
    · intro j hj _ _ a; exact absurd a (not_lt.mpr (hc j hj))
    · intro j hj _ _ a; exact absurd a (not_lt.mpr (hc j hj))
    · intro _ j hj k hk
      have h1 := (hpos j hj).ne'
      have h2 := (hpos k hk).ne'
      generalize ∑ k ∈ Finset.range n, 1 / (f k).y ^ 2 = S at *
      have h3 := hsum.ne'
      field_simp

/-- C28, corner blends, no side within the tolerance: nonnegative, sum to 1, and inversely
proportional to the squared product of the distances from the two sides at the corner. -/
theorem C28_corner_inside {ε : K} (hε : 0 < ε) {n : ℕ} (hn : 0 < n) {f : ℕ → P2 K} (h : ∀ j < n, ε ≤ (f j).y) :
    ∃ b : ℕ → K, blendCorner ε n (tab n f) = .ok (tab n b) ∧ (∀ j < n, 0 ≤ b j) ∧
      ∑ j ∈ Finset.range n, b j = 1 ∧
      ∀ j < n, ∀ k < n, b j * ((f j).y * (f ((j + 1) % n)).y) ^ 2 = b k * ((f k).y * (f ((k + 1) % n)).y) ^ 2 := by
  have hpos : ∀ j < n, 0 < (f j).y := fun j hj => lt_of_lt_of_le hε (h j hj)
  have hw : ∀ j < n, 0 < (f j).y * (f (nextIx n j)).y := by
    intro j hj
    exact mul_pos (hpos j hj) (hpos _ (nextIx_lt hn))
  have hsum : 0 < ∑ k ∈ Finset.range n, 1 / ((f k).y * (f (nextIx n k)).y) ^ 2 :=
    Finset.sum_pos (fun j hj => by have := hw j (Finset.mem_range.mp hj); positivity) ⟨0, Finset.mem_range.mpr hn⟩
  refine ⟨_, blendCorner_none hε hn h, ?_, ?_, ?_⟩
  · intro j hj; have := hw j hj; positivity
  · rw [← Finset.sum_div, div_self hsum.ne']
  · intro j hj k hk
    have h1 := (hw j hj).ne'
    have h2 := (hw k hk).ne'
    change _ * ((f j).y * (f (nextIx n j)).y) ^ 2 = _ * ((f k).y * (f (nextIx n k)).y) ^ 2
    generalize ∑ k ∈ Finset.range n, 1 / ((f k).y * (f (nextIx n k)).y) ^ 2 = S at *
    generalize (f j).y * (f (nextIx n j)).y = a at *
    generalize (f k).y * (f (nextIx n k)).y = c at *
    have h3 := hsum.ne'
    field_simp

/-- C28, corner blends, one side within the tolerance: only the two corners of the side have nonzero
(positive) blends, they sum to 1, and are inversely proportional to the squared distance from the other
side at the corner. -/
theorem C28_corner_side {ε : K} (hε : 0 < ε) {n : ℕ} (hn : 3 ≤ n) {f : ℕ → P2 K} {i : ℕ} (hi : i < n)
    (h1 : (f i).y < ε) (h2 : ∀ j < n, j ≠ i → ε ≤ (f j).y) :
    ∃ b : ℕ → K, blendCorner ε n (tab n f) = .ok (tab n b) ∧ (∀ j < n, 0 ≤ b j) ∧
      ∑ j ∈ Finset.range n, b j = 1 ∧ b i + b ((i + n - 1) % n) = 1 ∧
      (∀ j < n, j ≠ i → j ≠ (i + n - 1) % n → b j = 0) ∧
      b i * (f ((i + 1) % n)).y ^ 2 = b ((i + n - 1) % n) * (f ((i + n - 1) % n)).y ^ 2 := by
  have hx : nextIx n i < n := nextIx_lt (by omega)
  have hp : prevIx n i < n := prevIx_lt (by omega)
  have hpx : 0 < (f (nextIx n i)).y := lt_of_lt_of_le hε (h2 _ hx (Param.next_ne (by omega) hi))
  have hpp : 0 < (f (prevIx n i)).y := lt_of_lt_of_le hε (h2 _ hp (Param.prev_ne (by omega) hi))
  have hne := Param.prev_ne (by omega) hi
  have hb : (f (prevIx n i)).y ^ 2 / ((f (prevIx n i)).y ^ 2 + (f (nextIx n i)).y ^ 2) +
      (f (nextIx n i)).y ^ 2 / ((f (prevIx n i)).y ^ 2 + (f (nextIx n i)).y ^ 2) = 1 := by
    rw [← add_div, div_self (by positivity)]
  refine ⟨_, blendCorner_one hε hn hi h1 h2, ?_, ?_, ?_, ?_, ?_⟩
  · intro j _; split_ifs <;> positivity
  · rw [Finset.sum_eq_add_of_mem i (prevIx n i) (Finset.mem_range.mpr hi) (Finset.mem_range.mpr hp) hne.symm]
    · rw [if_pos rfl, if_neg hne, if_pos rfl]; exact hb
    · intro j _ hj; rw [if_neg hj.1, if_neg hj.2]
  · change _ + (if prevIx n i = i then _ else if prevIx n i = prevIx n i then _ else _) = _
    rw [if_pos rfl, if_neg hne, if_pos rfl]; exact hb
  · intro j _ a b; exact (if_neg a).trans (if_neg b)
  · change _ * (f (nextIx n i)).y ^ 2 = (if prevIx n i = i then _ else if prevIx n i = prevIx n i then _ else _) * (f (prevIx n i)).y ^ 2
    rw [if_pos rfl, if_neg hne, if_pos rfl]; ring

/-- C28, corner blends, two adjacent sides within the tolerance: all weight is at their common corner. -/
theorem C28_corner_corner {ε : K} {n : ℕ} (hn : 3 ≤ n) {f : ℕ → P2 K} {i : ℕ} (hi : i < n)
    (h1 : (f i).y < ε) (h1' : (f ((i + 1) % n)).y < ε) (h2 : ∀ j < n, j ≠ i → j ≠ (i + 1) % n → ε ≤ (f j).y) :
    ∃ b : ℕ → K, blendCorner ε n (tab n f) = .ok (tab n b) ∧ (∀ j < n, 0 ≤ b j) ∧
      ∑ j ∈ Finset.range n, b j = 1 ∧ b i = 1 ∧ ∀ j < n, j ≠ i → b j = 0 := by
  have hx : nextIx n i < n := nextIx_lt (by omega)
  have hxi : nextIx n i ≠ i := Param.next_ne (by omega) hi
  have hz : ∀ j < n, j ≠ i → ¬ ((f j).y < ε ∧ (f (nextIx n j)).y < ε) := by
    rintro j hj hji ⟨a, b⟩
    by_cases hjx : j = nextIx n i
    · have hjj : nextIx n j < n := nextIx_lt (by omega)
      refine absurd b (not_lt.mpr (h2 _ hjj ?_ ?_))
      · rw [hjx, nextIx_eq hx, nextIx_eq hi]; split_ifs <;> omega
      · change nextIx n j ≠ nextIx n i
        rw [← hjx]; exact Param.next_ne (by omega) hj
    · exact absurd a (not_lt.mpr (h2 j hj hji hjx))
  refine ⟨_, blendCorner_many (by omega) hi hx hxi.symm h1 h1', ?_, ?_, ?_, ?_⟩
  · intro j _; split_ifs <;> simp
  · rw [Finset.sum_eq_single_of_mem i (Finset.mem_range.mpr hi)]
    · exact if_pos ⟨h1, h1'⟩
    · intro j hj hji; exact if_neg (hz j (Finset.mem_range.mp hj) hji)
  · exact if_pos ⟨h1, h1'⟩
  · intro j hj hji; exact if_neg (hz j hj hji)

/-- C28, the excluded cases: when several sides are within the tolerance, the sum of the corner blends is the number of
corners whose both sides are within the tolerance. -/
theorem C28_corner_several {ε : K} {n : ℕ} (hn : 0 < n) {f : ℕ → P2 K} {i k : ℕ} (hi : i < n) (hk : k < n) (hik : i ≠ k)
    (h1 : (f i).y < ε) (h2 : (f k).y < ε) :
    ∃ b : ℕ → K, blendCorner ε n (tab n f) = .ok (tab n b) ∧
      ∑ j ∈ Finset.range n, b j = (((Finset.range n).filter fun j => (f j).y < ε ∧ (f ((j + 1) % n)).y < ε).card : K) := by
  refine ⟨_, blendCorner_many hn hi hk hik h1 h2, ?_⟩
  rw [← Finset.sum_filter, Finset.sum_const, nsmul_eq_mul, mul_one]
  rfl

/-- So for two opposite sides of a quadrangle the corner blends vanish, and for all sides of a triangle their sum is 3. -/
theorem C28_corner_exceptions {ε : K} (hε : 0 < ε) :
    (∃ f : ℕ → P2 K, blendCorner ε 4 (tab 4 f) = .ok [0, 0, 0, 0]) ∧
    ∃ f : ℕ → P2 K, blendCorner ε 3 (tab 3 f) = .ok [1, 1, 1] := by
  constructor
  · refine ⟨fun j => ⟨0, if j % 2 = 0 then 0 else ε⟩, ?_⟩
    rw [blendCorner_many (i := 0) (k := 2) (by norm_num) (by norm_num) (by norm_num) (by norm_num) (by simpa) (by simpa)]
    simp [tab, List.range_succ, nextIx]
  · refine ⟨fun _ => 0, ?_⟩
    rw [blendCorner_many (i := 0) (k := 2) (by norm_num) (by norm_num) (by norm_num) (by norm_num) (by simpa) (by simpa)]
    simp [tab, List.range_succ, hε]

/-- The hypotheses of the three cases can be met. -/
example : (∀ j < 5, (1 / 100 : ℚ) ≤ ((fun j => ⟨1 / 2, 1 / (j + 1 : ℕ)⟩ : ℕ → P2 ℚ) j).y) := by decide +kernel
example : ((fun j => ⟨1 / 3, if j = 2 then 0 else 1 / 2⟩ : ℕ → P2 ℚ) 2).y < 1 / 100 ∧
    ∀ j < 5, j ≠ 2 → (1 / 100 : ℚ) ≤ ((fun j => ⟨1 / 3, if j = 2 then 0 else 1 / 2⟩ : ℕ → P2 ℚ) j).y := by decide +kernel

/-! ### C29 -/

private theorem hermite0_range {t : K} (h0 : 0 ≤ t) (h1 : t ≤ 1) : 0 ≤ hermite 0 t ∧ hermite 0 t ≤ 1 := by
  have e1 : hermite 0 t = (1 - t) ^ 3 + 3 * (1 - t) ^ 2 * t := by simp [hermite]
  have e2 : 1 - hermite 0 t = 3 * (1 - t) * t ^ 2 + t ^ 3 := by rw [e1]; ring
  have : 0 ≤ 1 - t := by linarith
  refine ⟨by rw [e1]; positivity, ?_⟩
  have : 0 ≤ 1 - hermite 0 t := by rw [e2]; positivity
  linarith

/-- C29: for local parameters in the unit square the deficient corner blends are defined and are in [0,1]. -/
theorem C29_range {ε : K} (hε : 0 < ε) {n : ℕ} (hn : 0 < n) {f : ℕ → P2 K}
    (h : ∀ j < n, 0 ≤ (f j).x ∧ (f j).x ≤ 1 ∧ 0 ≤ (f j).y ∧ (f j).y ≤ 1) :
    ∃ b : ℕ → K, blendCornerDeficient ε n (tab n f) = .ok (tab n b) ∧ ∀ j < n, 0 ≤ b j ∧ b j ≤ 1 := by
  have key : ∀ j < n, ∃ x, deficientBlend ε (f j) (f (nextIx n j)) = .ok x ∧ 0 ≤ x ∧ x ≤ 1 := by
    intro j hj
    obtain ⟨a1, a2, a3, a4⟩ := h j hj
    obtain ⟨b1, b2, b3, b4⟩ := h _ (nextIx_lt (i := j) (j := 1) hn)
    generalize f j = p at *
    generalize f (nextIx n j) = q at *
    unfold deficientBlend
    by_cases hc : p.y < ε ∧ q.y < ε
    · rw [if_pos hc]; exact ⟨1, rfl, zero_le_one, le_rfl⟩
    · rw [if_neg hc]
      have hpos : 0 < p.y + q.y := by
        by_contra hneg
        push Not at hneg
        apply hc
        constructor <;> linarith
      rw [fdiv_of_ne hpos.ne']
      obtain ⟨c1, c2⟩ := hermite0_range (t := 1 - p.x) (by linarith) (by linarith)
      obtain ⟨c3, c4⟩ := hermite0_range a3 a4
      obtain ⟨c5, c6⟩ := hermite0_range b1 b2
      obtain ⟨c7, c8⟩ := hermite0_range b3 b4
      refine ⟨_, rfl, ?_, ?_⟩
      · positivity
      · rw [div_le_one hpos]
        have m1 : hermite 0 (1 - p.x) * hermite 0 p.y ≤ 1 := mul_le_one₀ c2 c3 c4
        have m2 : hermite 0 q.x * hermite 0 q.y ≤ 1 := mul_le_one₀ c6 c7 c8
        have m3 := mul_le_mul_of_nonneg_left m1 b3
        have m4 := mul_le_mul_of_nonneg_left m2 a3
        rw [mul_assoc, mul_assoc]
        linarith
  choose! b hb using key
  refine ⟨b, ?_, fun j hj => (hb j hj).2⟩
  unfold blendCornerDeficient
  refine (forLoop_push n _ b [] ?_).trans (by rw [List.nil_append, tab])
  intro j l hj
  rw [vget_tab _ hj, M_bind_ok, vget_tab _ (nextIx_lt hn), M_bind_ok, (hb j hj).1, M_bind_ok]

/-- C29: the deficient blends at the points of side `i` (at the corners, or farther from them than the tolerance), when
all far sides have distance 1: only the two corners of the side have nonzero blends, these are complementary
cubic Hermite polynomials, and so the sum is 1. -/
theorem C29_side {ε : K} (hε : 0 < ε) (hε1 : ε ≤ 1) {n i : ℕ} (hn : 3 ≤ n) (hi : i < n) {s : K} {f : ℕ → P2 K}
    (h0 : ε ≤ s ∨ s = 0) (h1 : ε ≤ 1 - s ∨ s = 1) (hf : SideParams ε n i s f)
    (hfar : ∀ j < n, j ≠ i → j ≠ (i + 1) % n → j ≠ (i + n - 1) % n → (f j).y = 1) :
    ∃ b : ℕ → K, blendCornerDeficient ε n (tab n f) = .ok (tab n b) ∧
      b i = hermite 0 (1 - s) ∧ b ((i + n - 1) % n) = hermite 0 s ∧
      (∀ j < n, j ≠ i → j ≠ (i + n - 1) % n → b j = 0) ∧ ∑ j ∈ Finset.range n, b j = 1 := by
  have hx : nextIx n i < n := nextIx_lt (by omega)
  have hp : prevIx n i < n := prevIx_lt (by omega)
  have hxi : nextIx n i ≠ i := Param.next_ne (by omega) hi
  have hpi : prevIx n i ≠ i := Param.prev_ne (by omega) hi
  have hpx : nextIx n i ≠ prevIx n i := Param.next_ne_prev hn hi
  have s0 : 0 ≤ s := by rcases h0 with h | h <;> linarith
  have s1 : s ≤ 1 := by rcases h1 with h | h <;> linarith
  have H0 : hermite 0 (0 : K) = 1 := by simp [hermite]
  have H1 : hermite 0 (1 : K) = 0 := by simp [hermite]
  have hself := hf.self
  have hnext : f (nextIx n i) = ⟨0, 1 - s⟩ := hf.next
  have hprev : (f (prevIx n i)).y = s := hf.prevY
  have hprevX : s ≠ 1 → (f (prevIx n i)).x = 1 := fun h => hf.prevX (h1.resolve_right h)
  have hnn : ∀ j < n, nextIx n j = i ↔ j = prevIx n i := by
    intro j hj
    constructor
    · intro e; rw [← e, prevIx_nextIx hj]
    · rintro rfl; exact nextIx_prevIx hi
  have hval : ∀ j < n, deficientBlend ε (f j) (f (nextIx n j)) =
      .ok (if j = i then hermite 0 (1 - s) else if j = prevIx n i then hermite 0 s else 0) := by
    intro j hj
    unfold deficientBlend
    by_cases hji : j = i
    · subst hji
      rw [if_pos rfl, hself, hnext]
      dsimp only
      rcases h1 with h1 | h1
      · rw [if_neg (by rintro ⟨_, h⟩; linarith), fdiv_of_ne (by linarith)]
        congr 1
        rw [H0, zero_add]
        have : 1 - s ≠ 0 := by linarith
        field_simp
        ring
      · rw [h1, sub_self, if_pos ⟨hε, hε⟩, H0]
    · rw [if_neg hji]
      by_cases hjp : j = prevIx n i
      · have e : nextIx n j = i := (hnn j hj).mpr hjp
        rw [if_pos hjp, e, hjp, hself]
        dsimp only
        rw [hprev]
        rcases h0 with h0 | h0
        · rw [if_neg (by rintro ⟨h, _⟩; linarith), fdiv_of_ne (by linarith)]
          congr 1
          rw [H0, add_zero]
          have : s ≠ 0 := by linarith
          field_simp
          ring
        · rw [h0, if_pos ⟨hε, hε⟩, H0]
      · rw [if_neg hjp]
        -- a corner not on the side
        have hjj : nextIx n j < n := nextIx_lt (by omega)
        have hnj : nextIx n j ≠ i := fun e => hjp ((hnn j hj).mp e)
        have hnjx : nextIx n j ≠ nextIx n i := by
          intro e
          apply hji
          rw [← prevIx_nextIx hj, e, prevIx_nextIx hi]
        by_cases hjx : j = nextIx n i
        · -- the next side
          rw [hjx] at hjj hnj hnjx ⊢
          rw [hnext]
          dsimp only
          have hy : (f (nextIx n (nextIx n i))).y = s ∨ (f (nextIx n (nextIx n i))).y = 1 := by
            by_cases c : nextIx n (nextIx n i) = prevIx n i
            · left; rw [c, hprev]
            · right; exact hfar _ hjj hnj hnjx c
          have hz : (1 - s) * hermite 0 (f (nextIx n (nextIx n i))).x * hermite 0 (f (nextIx n (nextIx n i))).y = 0 := by
            by_cases c : nextIx n (nextIx n i) = prevIx n i
            · by_cases hs : s = 1
              · rw [hs, sub_self, zero_mul, zero_mul]
              · rw [c, hprevX hs, H1, mul_zero, zero_mul]
            · rw [hfar _ hjj hnj hnjx c, H1, mul_zero]
          rw [if_neg, fdiv_of_ne]
          · congr 1
            rw [sub_zero, H1, mul_zero, zero_mul, zero_add, hz, zero_div]
          · rcases hy with hy | hy <;> rw [hy] <;> linarith
          · rintro ⟨a, b⟩
            rcases hy with hy | hy <;> rw [hy] at b
            · rcases h0 with h0 | h0 <;> linarith
            · linarith
        · have hy1 : (f j).y = 1 := hfar j hj hji hjx hjp
          have hz : 1 * hermite 0 (f (nextIx n j)).x * hermite 0 (f (nextIx n j)).y = 0 := by
            by_cases c : nextIx n j = prevIx n i
            · by_cases hs : s = 1
              · rw [c, hprev, hs, H1, mul_zero]
              · rw [c, hprevX hs, H1, mul_zero, zero_mul]
            · rw [hfar _ hjj hnj hnjx c, H1, mul_zero]
          have hy2 : 0 ≤ (f (nextIx n j)).y := by
            by_cases c : nextIx n j = prevIx n i
            · rw [c, hprev]; exact s0
            · rw [hfar _ hjj hnj hnjx c]; exact zero_le_one
          rw [hy1, if_neg (by rintro ⟨h, _⟩; linarith), fdiv_of_ne (by linarith), hz, H1, mul_zero, zero_add, zero_div]
  refine ⟨fun j => if j = i then hermite 0 (1 - s) else if j = prevIx n i then hermite 0 s else 0, ?_, if_pos rfl, ?_, ?_, ?_⟩
  · unfold blendCornerDeficient
    refine (forLoop_push n _ _ [] ?_).trans (by rw [List.nil_append, tab])
    intro j l hj
    rw [vget_tab _ hj, M_bind_ok, vget_tab _ (nextIx_lt (by omega)), M_bind_ok, hval j hj, M_bind_ok]
  · change (if prevIx n i = i then _ else if prevIx n i = prevIx n i then _ else _) = _
    rw [if_neg hpi, if_pos rfl]
  · intro j _ a b; exact (if_neg a).trans (if_neg b)
  · rw [Finset.sum_eq_add_of_mem i (prevIx n i) (Finset.mem_range.mpr hi) (Finset.mem_range.mpr hp) hpi.symm]
    · rw [if_pos rfl, if_neg hpi, if_pos rfl]
      simp [hermite]; ring
    · intro j _ hj; rw [if_neg hj.1, if_neg hj.2]

/-- The hypotheses can be met: the middle of side 2 of a pentagon. -/
example : SideParams (1 / 100 : ℚ) 5 2 (1 / 2)
    (fun j => if j = 2 then ⟨1 / 2, 0⟩ else if j = 3 then ⟨0, 1 / 2⟩ else if j = 1 then ⟨1, 1 / 2⟩ else ⟨1 / 3, 1⟩) :=
  ⟨by decide +kernel, by decide +kernel, by decide +kernel, by decide +kernel, by decide +kernel, by decide +kernel⟩

end

end Transfinite
