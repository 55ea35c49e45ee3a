import Verif.Model.Surface
import Verif.Lemmas.Ribbon
import Verif.Lemmas.Barycentric
import Mathlib.Algebra.BigOperators.Field

/-! # Lemmas on the blending functions of `surface.cc` -/

namespace Transfinite

namespace Surf

variable {K : Type} [Field K] [LinearOrder K]

theorem countP_tab {α : Type} (p : α → Bool) (n : ℕ) (f : ℕ → α) :
    (tab n f).countP p = ((Finset.range n).filter fun j => p (f j) = true).card := by
  induction n with
  | zero => simp [tab]
  | succ n ih =>
    rw [tab_succ, List.countP_append, ih, Finset.range_add_one, Finset.filter_insert]
    split_ifs with h
    · rw [Finset.card_insert_of_notMem (by simp)]; simp [h]
    · simp [h]

theorem mapM_tab {α β : Type} (g : α → M β) (n : ℕ) (f : ℕ → α) (b : ℕ → β) (h : ∀ j < n, g (f j) = .ok (b j)) :
    (tab n f).mapM g = .ok (tab n b) := by
  induction n with
  | zero => rfl
  | succ n ih =>
    rw [tab_succ, List.mapM_append, ih (fun j hj => h j (by omega))]
    simp only [List.mapM_cons, List.mapM_nil, h n (Nat.lt_succ_self n), tab_succ]
    rfl

variable [IsStrictOrderedRing K]

theorem invSq_of_ne {x : K} (h : x ≠ 0) : invSq x = .ok (1 / x ^ 2) := fdiv_of_ne (pow_ne_zero 2 h)

theorem closeWeight_of_pos {x y : K} (hx : 0 < x) (hy : 0 < y) :
    closeWeight x y = .ok (y ^ 2 / (x ^ 2 + y ^ 2)) := by
  unfold closeWeight
  rw [invSq_of_ne hx.ne', M_bind_ok, invSq_of_ne hy.ne', M_bind_ok]
  have h1 : 0 < 1 / x ^ 2 + 1 / y ^ 2 := by positivity
  rw [fdiv_of_ne h1.ne']
  congr 1
  have : x ^ 2 + y ^ 2 ≠ 0 := by positivity
  field_simp
  ring

/-- No side within the tolerance. -/
theorem blendCorner_none {ε : K} (hε : 0 < ε) {n : ℕ} (hn : 0 < n) {f : ℕ → P2 K} (h : ∀ j < n, ε ≤ (f j).y) :
    blendCorner ε n (tab n f) =
      .ok (tab n fun j => (1 / ((f j).y * (f (nextIx n j)).y) ^ 2) /
        ∑ k ∈ Finset.range n, 1 / ((f k).y * (f (nextIx n k)).y) ^ 2) := by
  have hpos : ∀ j < n, 0 < (f j).y := fun j hj => lt_of_lt_of_le hε (h j hj)
  have hw : ∀ j < n, 0 < 1 / ((f j).y * (f (nextIx n j)).y) ^ 2 := by
    intro j hj
    have := hpos j hj
    have := hpos _ (nextIx_lt (i := j) (j := 1) hn)
    positivity
  have hsum : 0 < ∑ k ∈ Finset.range n, 1 / ((f k).y * (f (nextIx n k)).y) ^ 2 :=
    Finset.sum_pos (fun j hj => hw j (Finset.mem_range.mp hj)) ⟨0, Finset.mem_range.mpr hn⟩
  unfold blendCorner
  have hc : (tab n f).countP (fun sd => decide (sd.y < ε)) = 0 := by
    rw [countP_tab, Finset.card_eq_zero, Finset.filter_eq_empty_iff]
    intro j hj
    simp [h j (Finset.mem_range.mp hj)]
  dsimp only
  rw [hc, if_neg (by omega), forLoop_push n _ (fun j => 1 / ((f j).y * (f (nextIx n j)).y) ^ 2)]
  · rw [M_bind_ok, List.nil_append]
    change (tab n _).mapM _ = _
    apply mapM_tab
    intro j hj
    change fdiv _ (tab n _).sum = _
    rw [sum_tab, fdiv_of_ne hsum.ne']
  · intro j l hj
    rw [vget_tab _ hj, M_bind_ok, vget_tab _ (nextIx_lt hn), M_bind_ok, invSq_of_ne]
    · rfl
    · exact mul_ne_zero (hpos j hj).ne' (hpos _ (nextIx_lt hn)).ne'

/-- Only side `i` is within the tolerance. -/
theorem blendCorner_one {ε : K} (hε : 0 < ε) {n : ℕ} (hn : 3 ≤ n) {f : ℕ → P2 K} {i : ℕ} (hi : i < n)
    (h1 : (f i).y < ε) (h2 : ∀ j < n, j ≠ i → ε ≤ (f j).y) :
    blendCorner ε n (tab n f) =
      .ok (tab n fun j =>
        if j = i then (f (prevIx n i)).y ^ 2 / ((f (prevIx n i)).y ^ 2 + (f (nextIx n i)).y ^ 2)
        else if j = prevIx n i then (f (nextIx n i)).y ^ 2 / ((f (prevIx n i)).y ^ 2 + (f (nextIx n i)).y ^ 2)
        else 0) := by
  have hlt : ∀ j < n, ((f j).y < ε ↔ j = i) := by
    intro j hj
    constructor
    · intro h
      by_contra hne
      exact absurd h (not_lt.mpr (h2 j hj hne))
    · rintro rfl; exact h1
  have hx : nextIx n i < n := nextIx_lt (by omega)
  have hp : prevIx n i < n := prevIx_lt (by omega)
  have hpx : 0 < (f (nextIx n i)).y := lt_of_lt_of_le hε (h2 _ hx (Param.next_ne (by omega) hi))
  have hpp : 0 < (f (prevIx n i)).y := lt_of_lt_of_le hε (h2 _ hp (Param.prev_ne (by omega) hi))
  unfold blendCorner
  have hc : (tab n f).countP (fun sd => decide (sd.y < ε)) = 1 := by
    rw [countP_tab, Finset.card_eq_one]
    refine ⟨i, ?_⟩
    ext j
    simp only [Finset.mem_filter, Finset.mem_range, decide_eq_true_eq, Finset.mem_singleton]
    constructor
    · rintro ⟨a, b⟩; exact (hlt j a).mp b
    · rintro rfl; exact ⟨hi, h1⟩
  dsimp only
  rw [hc, if_pos one_pos]
  refine (forLoop_push n _ _ [] ?_).trans (by rw [List.nil_append, tab])
  intro j l hj
  have hjx : nextIx n j < n := nextIx_lt (by omega)
  unfold closeBlend
  rw [vget_tab _ hj, M_bind_ok, vget_tab _ hjx, M_bind_ok, vget_tab _ (prevIx_lt (by omega)), M_bind_ok,
    vget_tab _ (nextIx_lt (by omega)), M_bind_ok, if_neg (by omega)]
  have hnx : nextIx n j = i ↔ j = prevIx n i := by
    constructor
    · intro e; rw [← e, prevIx_nextIx hj]
    · rintro rfl; exact nextIx_prevIx hi
  by_cases a : j = i
  · subst a
    rw [if_pos h1, if_pos rfl, closeWeight_of_pos hpx hpp]
    simp only [M_bind_ok]
    congr 4
    ring
  · rw [if_neg (by rw [hlt j hj]; exact a), if_neg a]
    by_cases b : j = prevIx n i
    · have e : nextIx n j = i := hnx.mpr b
      rw [e, if_pos h1, if_pos b, b, closeWeight_of_pos hpp hpx]
      rfl
    · rw [if_neg (by rw [hlt _ hjx, hnx]; exact b), if_neg b]
      rfl

/-- At least two sides are within the tolerance. -/
theorem blendCorner_many {ε : K} {n : ℕ} (hn : 0 < n) {f : ℕ → P2 K} {i k : ℕ} (hi : i < n) (hk : k < n) (hik : i ≠ k)
    (h1 : (f i).y < ε) (h2 : (f k).y < ε) :
    blendCorner ε n (tab n f) = .ok (tab n fun j => if (f j).y < ε ∧ (f (nextIx n j)).y < ε then 1 else 0) := by
  unfold blendCorner
  have hc : 1 < (tab n f).countP (fun sd => decide (sd.y < ε)) := by
    rw [countP_tab, Finset.one_lt_card]
    exact ⟨i, by simp [hi, h1], k, by simp [hk, h2], hik⟩
  dsimp only
  rw [if_pos (by omega)]
  refine (forLoop_push n _ _ [] ?_).trans (by rw [List.nil_append, tab])
  intro j l hj
  unfold closeBlend
  rw [vget_tab _ hj, M_bind_ok, vget_tab _ (nextIx_lt hn), M_bind_ok, vget_tab _ (prevIx_lt hn), M_bind_ok,
    vget_tab _ (nextIx_lt hn), M_bind_ok, if_pos hc]
  rfl

/-- Side blends when some side is within the tolerance. -/
theorem blendSide_close {ε : K} {n : ℕ} {f : ℕ → P2 K} {i : ℕ} (hi : i < n) (h : (f i).y < ε) :
    blendSideSingular ε (tab n f) =
      .ok (tab n fun j => if (f j).y < ε then 1 / (((Finset.range n).filter fun j => (f j).y < ε).card : K) else 0) := by
  unfold blendSideSingular
  have hc : (tab n f).countP (fun sd => decide (sd.y < ε)) = ((Finset.range n).filter fun j => (f j).y < ε).card := by
    rw [countP_tab]; simp
  have hpos : 0 < ((Finset.range n).filter fun j => (f j).y < ε).card := Finset.card_pos.mpr ⟨i, by simp [hi, h]⟩
  dsimp only
  rw [hc, if_pos hpos, fdiv_of_ne (by exact_mod_cast hpos.ne'), M_bind_ok]
  congr 1
  simp only [tab, List.map_map]
  rfl

theorem blendSide_none {ε : K} (hε : 0 < ε) {n : ℕ} (hn : 0 < n) {f : ℕ → P2 K} (h : ∀ j < n, ε ≤ (f j).y) :
    blendSideSingular ε (tab n f) =
      .ok (tab n fun j => (1 / (f j).y ^ 2) / ∑ k ∈ Finset.range n, 1 / (f k).y ^ 2) := by
  have hpos : ∀ j < n, 0 < (f j).y := fun j hj => lt_of_lt_of_le hε (h j hj)
  have hsum : 0 < ∑ k ∈ Finset.range n, 1 / (f k).y ^ 2 :=
    Finset.sum_pos (fun j hj => by have := hpos j (Finset.mem_range.mp hj); positivity) ⟨0, Finset.mem_range.mpr hn⟩
  unfold blendSideSingular
  have hc : (tab n f).countP (fun sd => decide (sd.y < ε)) = 0 := by
    rw [countP_tab, Finset.card_eq_zero, Finset.filter_eq_empty_iff]
    intro j hj
    simp [h j (Finset.mem_range.mp hj)]
  dsimp only
  rw [hc, if_neg (by omega), mapM_tab _ n f (fun j => 1 / (f j).y ^ 2) (fun j hj => invSq_of_ne (hpos j hj).ne'), M_bind_ok]
  apply mapM_tab
  intro j _
  rw [sum_tab, fdiv_of_ne hsum.ne']

end Surf

end Transfinite
