import Verif.Model.Statistics
import Verif.Spec.Statistics
import Mathlib.Data.Real.Sqrt
import Mathlib.Data.List.Sort
import Mathlib.Tactic.IntervalCases

/-! # Lemmas about `printStatistics` -/

namespace Transfinite

open Spec

namespace Statistics

theorem ranking_mergeSort (data : List ℝ) : Ranking data (data.mergeSort fun x y => decide (x ≤ y)) := by
  refine ⟨List.mergeSort_perm _ _, ?_⟩
  have := List.pairwise_mergeSort (le := fun x y : ℝ => decide (x ≤ y)) (by intro a b c; simp only [decide_eq_true_eq]; exact le_trans)
    (by intro a b; simp only [Bool.or_eq_true, decide_eq_true_eq]; exact le_total a b) data
  exact this.imp (fun h => by simpa using h)

theorem howMany_nil (p : ℝ → Prop) : howMany p [] = 0 := rfl

theorem howMany_cons (p : ℝ → Prop) [DecidablePred p] (x : ℝ) (l : List ℝ) : howMany p (x :: l) = howMany p l + if p x then 1 else 0 := by
  unfold howMany
  rw [List.countP_cons]
  by_cases h : p x <;> simp [h]

theorem howMany_perm (p : ℝ → Prop) {l l' : List ℝ} (h : l.Perm l') : howMany p l = howMany p l' := by
  unfold howMany
  exact h.countP_eq _

theorem howMany_append (p : ℝ → Prop) (l l' : List ℝ) : howMany p (l ++ l') = howMany p l + howMany p l' := by
  unfold howMany
  exact List.countP_append

theorem howMany_all {p : ℝ → Prop} {l : List ℝ} (h : ∀ x ∈ l, p x) : howMany p l = l.length := by
  unfold howMany
  rw [List.countP_eq_length]
  simpa using h

theorem howMany_none {p : ℝ → Prop} {l : List ℝ} (h : ∀ x ∈ l, ¬ p x) : howMany p l = 0 := by
  unfold howMany
  rw [List.countP_eq_zero]
  simpa using h

theorem howMany_le (p : ℝ → Prop) (l : List ℝ) : howMany p l ≤ l.length := by
  unfold howMany
  exact List.countP_le_length

/-- In a sorted list the values of larger index are larger. -/
theorem sorted_le {s : List ℝ} (hs : s.Pairwise (· ≤ ·)) {i j : ℕ} (hij : i ≤ j) (hj : j < s.length) : s[i]'(by omega) ≤ s[j] := by
  rcases Nat.lt_or_eq_of_le hij with h | rfl
  · exact List.pairwise_iff_getElem.mp hs i j _ _ h
  · exact le_rfl

/-- At least `k + 1` values are at most the one with index `k`. -/
theorem howMany_le_of_sorted {s : List ℝ} (hs : s.Pairwise (· ≤ ·)) {k : ℕ} (hk : k < s.length) {q : ℝ} (hq : s[k] ≤ q) : k + 1 ≤ howMany (· ≤ q) s := by
  rw [← List.take_append_drop (k + 1) s, howMany_append, howMany_all]
  · rw [List.length_take]; omega
  · intro x hx
    obtain ⟨i, hi, rfl⟩ := List.mem_iff_getElem.mp hx
    rw [List.length_take] at hi
    rw [List.getElem_take]
    exact (sorted_le hs (by omega) hk).trans hq

/-- At most `k` values are less than the one with index `k`. -/
theorem howMany_lt_of_sorted {s : List ℝ} (hs : s.Pairwise (· ≤ ·)) {k : ℕ} (hk : k < s.length) {q : ℝ} (hq : q ≤ s[k]) : howMany (· < q) s ≤ k := by
  rw [← List.take_append_drop k s, howMany_append, howMany_none (l := s.drop k)]
  · refine (howMany_le _ _).trans ?_
    rw [List.length_take]; omega
  · intro x hx
    obtain ⟨i, hi, rfl⟩ := List.mem_iff_getElem.mp hx
    rw [List.length_drop] at hi
    rw [List.getElem_drop]
    exact not_lt.mpr (hq.trans (sorted_le hs (by omega) (by omega)))

/-- The quartile with index `i`. -/
theorem quartile_eq {s : List ℝ} (hn : 4 ≤ s.length) {i : ℕ} (hi : i ≤ 3) : ∃ (q : ℝ) (h1 : s.length * i / 4 < s.length), quartile s i = .ok q ∧
    ((s.length % 4 = 0 ∧ q = s[s.length * i / 4]) ∨ ∃ h2 : s.length * i / 4 + 1 < s.length,
      q = (1 - ((s.length % 4 : ℕ) : ℝ) / 4) * s[s.length * i / 4] + ((s.length % 4 : ℕ) : ℝ) / 4 * s[s.length * i / 4 + 1]) := by
  have h1 : s.length * i / 4 < s.length := by interval_cases i <;> omega
  have hm := Nat.mod_lt s.length (show 0 < 4 by norm_num)
  unfold quartile
  dsimp only
  by_cases h0 : s.length % 4 = 0
  · exact ⟨_, h1, by rw [if_pos h0, vget_of_lt h1], Or.inl ⟨h0, rfl⟩⟩
  have h2 : s.length * i / 4 + 1 < s.length := by interval_cases i <;> omega
  rw [if_neg h0, vget_of_lt h1, M_bind_ok, vget_of_lt h2, M_bind_ok, M_bind_ok, M_bind_ok]
  by_cases e1 : s.length % 4 = 1
  · exact ⟨_, h1, by rw [if_pos e1], Or.inr ⟨h2, by rw [e1]; push_cast; ring⟩⟩
  by_cases e2 : s.length % 4 = 2
  · exact ⟨_, h1, by rw [if_neg e1, if_pos e2], Or.inr ⟨h2, by rw [e2]; push_cast; ring⟩⟩
  · exact ⟨_, h1, by rw [if_neg e1, if_neg e2]; rfl, Or.inr ⟨h2, by rw [show s.length % 4 = 3 by omega]; push_cast; ring⟩⟩

/-- For less than four values the index of the last quartile is out of the vector. -/
theorem quartile_short {s : List ℝ} (hn : s.length < 4) (h0 : s.length ≠ 0) : quartile s 3 = .error .oob := by
  unfold quartile
  dsimp only
  rw [if_neg (by omega)]
  have h1 : s.length * 3 / 4 < s.length := by omega
  have h2 : s.length ≤ s.length * 3 / 4 + 1 := by omega
  rw [vget_of_lt h1, M_bind_ok, vget_oob h2]
  split_ifs <;> rfl

/-! ## The histogram -/

/-- The counts never decrease, and the loop does not fail. -/
theorem fillBins_ok (bins : ℕ) (w : ℝ) (xs : List ℝ) : ∀ (b : ℕ) (lo hi : ℝ) (h : List ℕ), h.length = bins →
    ∃ h', fillBins bins w xs b lo hi h = .ok h' ∧ h'.length = bins ∧ ∀ (j : ℕ) (k : ℕ), h[j]? = some k → ∃ k', h'[j]? = some k' ∧ k ≤ k' := by
  induction xs with
  | nil => exact fun b lo hi h hl => ⟨h, rfl, hl, fun j k e => ⟨k, e, le_rfl⟩⟩
  | cons x xs ih =>
    intro b lo hi h hl
    unfold fillBins
    dsimp only
    split_ifs with c1 c2 c3 c4
    · exact ih b lo hi h hl
    · exact ⟨h, rfl, hl, fun j k e => ⟨k, e, le_rfl⟩⟩
    · have hb : b + 1 < h.length := by omega
      rw [vget_of_lt hb, M_bind_ok, vset_of_lt hb, M_bind_ok]
      obtain ⟨h', e, l, q⟩ := ih (b + 1) (lo + w) (hi + w) (h.set (b + 1) (h[b + 1] + 1)) (by rw [List.length_set, hl])
      refine ⟨h', e, l, fun j k hk => ?_⟩
      by_cases hj : j = b + 1
      · subst hj
        rw [List.getElem?_eq_getElem hb] at hk
        obtain ⟨k', e', le⟩ := q (b + 1) (h[b + 1] + 1) (by rw [List.getElem?_set_self hb])
        exact ⟨k', e', by cases hk; omega⟩
      · exact q j k (by rw [List.getElem?_set_ne (by omega)]; exact hk)
    · exact ⟨h, rfl, hl, fun j k e => ⟨k, e, le_rfl⟩⟩
    · have hb : b < h.length := by omega
      rw [vget_of_lt hb, M_bind_ok, vset_of_lt hb, M_bind_ok]
      obtain ⟨h', e, l, q⟩ := ih b lo hi (h.set b (h[b] + 1)) (by rw [List.length_set, hl])
      refine ⟨h', e, l, fun j k hk => ?_⟩
      by_cases hj : j = b
      · subst hj
        rw [List.getElem?_eq_getElem hb] at hk
        obtain ⟨k', e', le⟩ := q j (h[j] + 1) (by rw [List.getElem?_set_self hb])
        exact ⟨k', e', by cases hk; omega⟩
      · exact q j k (by rw [List.getElem?_set_ne (by omega)]; exact hk)

/-- When there is a value in the range, there is a nonempty bin. -/
theorem fillBins_pos {bins : ℕ} {w : ℝ} (xs : List ℝ) : ∀ {b : ℕ} {lo hi : ℝ} {h h' : List ℕ}, h.length = bins → b + 1 < bins → (∃ x ∈ xs, lo ≤ x) →
    fillBins bins w xs b lo hi h = .ok h' → ∃ j k : ℕ, h'[j]? = some (k + 1) := by
  induction xs with
  | nil => rintro b lo hi h h' - - ⟨x, hx, -⟩; cases hx
  | cons x xs ih =>
    intro b lo hi h h' hl hb hx e
    unfold fillBins at e
    dsimp only at e
    split_ifs at e with c1 c2 c3 c4
    · refine ih hl hb ?_ e
      obtain ⟨y, hy, le⟩ := hx
      rcases List.mem_cons.mp hy with rfl | hy
      · exact absurd c1 (not_lt.mpr le)
      · exact ⟨y, hy, le⟩
    · omega
    · have hb' : b + 1 < h.length := by omega
      rw [vget_of_lt hb', M_bind_ok, vset_of_lt hb', M_bind_ok] at e
      obtain ⟨h1, e1, -, q⟩ := fillBins_ok bins w xs (b + 1) (lo + w) (hi + w) (h.set (b + 1) (h[b + 1] + 1)) (by rw [List.length_set, hl])
      cases e.symm.trans e1
      obtain ⟨k', e', le⟩ := q (b + 1) (h[b + 1] + 1) (by rw [List.getElem?_set_self hb'])
      exact ⟨b + 1, k' - 1, by rw [e']; congr 1; omega⟩
    · omega
    · have hb' : b < h.length := by omega
      rw [vget_of_lt hb', M_bind_ok, vset_of_lt hb', M_bind_ok] at e
      obtain ⟨h1, e1, -, q⟩ := fillBins_ok bins w xs b lo hi (h.set b (h[b] + 1)) (by rw [List.length_set, hl])
      cases e.symm.trans e1
      obtain ⟨k', e', le⟩ := q b (h[b] + 1) (by rw [List.getElem?_set_self hb'])
      exact ⟨b, k' - 1, by rw [e']; congr 1; omega⟩

/-- The counts when consecutive values are near each other: the induction. -/
theorem fillBins_dense {bins : ℕ} {q w : ℝ} (hw : 0 ≤ w) (xs : List ℝ) : ∀ {b : ℕ} {p : ℝ} {h h' : List ℕ}, h.length = bins → b < bins →
    p ≤ q + (b + 1) * w → (1 ≤ b → q + b * w < p) → (p :: xs).Pairwise (· ≤ ·) → (p :: xs).IsChain (fun a c => q < c → c ≤ a + w) →
    fillBins bins w xs b (q + b * w) (q + (b + 1) * w) h = .ok h' → ∀ j k, h[j]? = some k → h'[j]? = some (k + howMany (InBin q w j) xs) := by
  classical
  induction xs with
  | nil =>
    intro b p h h' _ _ _ _ _ _ e j k hk
    cases e
    rw [howMany_nil]
    exact hk
  | cons x xs ih =>
    intro b p h h' hl hb hp hp' hs hc e j k hk
    have hpx : p ≤ x := List.rel_of_pairwise_cons hs List.mem_cons_self
    have hs' : (x :: xs).Pairwise (· ≤ ·) := (List.pairwise_cons.mp hs).2
    have hc' : (x :: xs).IsChain (fun a c => q < c → c ≤ a + w) := (List.isChain_cons_cons.mp hc).2
    have hxw : q < x → x ≤ p + w := (List.isChain_cons_cons.mp hc).1
    have hbw : 0 ≤ (b : ℝ) * w := by positivity
    have mono : ∀ {i m : ℕ}, i ≤ m → (i : ℝ) * w ≤ m * w := fun him => mul_le_mul_of_nonneg_right (by exact_mod_cast him) hw
    rw [howMany_cons]
    unfold fillBins at e
    dsimp only at e
    split_ifs at e with c1 c2 c3 c4
    · -- below the first bin
      have hb0 : b = 0 := by
        by_contra hne
        have := hp' (by omega)
        linarith
      subst hb0
      have hxq : x < q := by simpa using c1
      have hnot : ¬ InBin q w j x := by
        rintro (⟨-, rfl⟩ | ⟨h1, -⟩)
        · exact lt_irrefl _ hxq
        · have : 0 ≤ (j : ℝ) * w := by positivity
          linarith
      rw [if_neg hnot, add_zero]
      refine ih hl hb ?_ (by omega) hs' hc' e j k hk
      push_cast
      linarith
    · -- after the last bin
      cases e
      have hnone : ∀ y ∈ x :: xs, ¬ InBin q w j y := by
        intro y hy
        have hxy : x ≤ y := by
          rcases List.mem_cons.mp hy with rfl | hy
          · exact le_rfl
          · exact List.rel_of_pairwise_cons hs' hy
        have hj : j < bins := by
          rw [← hl]; exact (List.getElem?_eq_some_iff.mp hk).1
        have hjb : j ≤ b := by omega
        have := mono (i := j) (m := b) hjb
        rintro (⟨-, rfl⟩ | ⟨-, h1⟩)
        · nlinarith
        · have := mono (i := j + 1) (m := b + 1) (by omega)
          push_cast at this
          linarith
      rw [← howMany_cons, howMany_none hnone, add_zero]
      exact hk
    · -- the next bin
      have hb' : b + 1 < h.length := by omega
      have hqx : q < x := by nlinarith
      have hx2 : x ≤ q + ((b + 1 : ℕ) + 1) * w := by
        have := hxw hqx
        push_cast
        linarith
      rw [vget_of_lt hb', M_bind_ok, vset_of_lt hb', M_bind_ok] at e
      have e' : fillBins bins w xs (b + 1) (q + ((b + 1 : ℕ) : ℝ) * w) (q + (((b + 1 : ℕ) : ℝ) + 1) * w) (h.set (b + 1) (h[b + 1] + 1)) = .ok h' := by
        rw [← e]
        congr 1 <;> push_cast <;> ring
      have key := ih (by rw [List.length_set, hl]) (by omega) hx2 (fun _ => by push_cast; exact c2) hs' hc' e' j
      by_cases hj : j = b + 1
      · subst hj
        rw [List.getElem?_eq_getElem hb'] at hk
        cases hk
        have hin : InBin q w (b + 1) x := Or.inr ⟨by push_cast; exact c2, hx2⟩
        rw [if_pos hin, key (h[b + 1] + 1) (by rw [List.getElem?_set_self hb'])]
        congr 1
        omega
      · have hnot : ¬ InBin q w j x := by
          rintro (⟨-, rfl⟩ | ⟨h1, h2⟩)
          · exact lt_irrefl _ hqx
          · rcases Nat.lt_or_gt_of_ne hj with hj | hj
            · have := mono (i := j + 1) (m := b + 1) (by omega)
              push_cast at this
              linarith
            · have := mono (i := b + 2) (m := j) (by omega)
              push_cast at this hx2
              linarith
        rw [if_neg hnot, add_zero]
        exact key k (by rw [List.getElem?_set_ne (by omega)]; exact hk)
    · omega
    · -- the same bin
      have hb' : b < h.length := by omega
      have hx2 : x ≤ q + (b + 1) * w := not_lt.mp c2
      have hx1 : q + b * w ≤ x := not_lt.mp c1
      rw [vget_of_lt hb', M_bind_ok, vset_of_lt hb', M_bind_ok] at e
      have hin : InBin q w b x := by
        by_cases hb0 : 1 ≤ b
        · exact Or.inr ⟨(hp' hb0).trans_le hpx, hx2⟩
        · obtain rfl : b = 0 := by omega
          rcases eq_or_lt_of_le hx1 with h1 | h1
          · exact Or.inl ⟨rfl, by rw [← h1]; simp⟩
          · exact Or.inr ⟨h1, hx2⟩
      have key := ih (by rw [List.length_set, hl]) hb hx2 (fun h1 => (hp' h1).trans_le hpx) hs' hc' e j
      by_cases hj : j = b
      · subst hj
        rw [List.getElem?_eq_getElem hb'] at hk
        cases hk
        rw [if_pos hin, key (h[j] + 1) (by rw [List.getElem?_set_self hb'])]
        congr 1
        omega
      · have hnot : ¬ InBin q w j x := by
          rintro (⟨rfl, rfl⟩ | ⟨h1, h2⟩)
          · rcases hin with ⟨rfl, -⟩ | ⟨h1, -⟩
            · exact hj rfl
            · nlinarith
          · rcases Nat.lt_or_gt_of_ne hj with hj | hj
            · have := mono (i := j + 1) (m := b) (by omega)
              push_cast at this
              have h3 := (hp' (by omega)).trans_le hpx
              linarith
            · have := mono (i := b + 1) (m := j) (by omega)
              push_cast at this
              linarith
        rw [if_neg hnot, add_zero]
        exact key k (by rw [List.getElem?_set_ne (by omega)]; exact hk)

theorem foldl_max (l : List ℕ) : ∀ m : ℕ, (∀ k ∈ l, k ≤ l.foldl Nat.max m) ∧ m ≤ l.foldl Nat.max m ∧ (l.foldl Nat.max m = m ∨ l.foldl Nat.max m ∈ l) := by
  induction l with
  | nil => exact fun m => ⟨(fun k hk => by cases hk), le_rfl, Or.inl rfl⟩
  | cons x l ih =>
    intro m
    obtain ⟨h1, h2, h3⟩ := ih (Nat.max m x)
    rw [List.foldl_cons]
    refine ⟨fun k hk => ?_, (Nat.le_max_left m x).trans h2, ?_⟩
    · rcases List.mem_cons.mp hk with rfl | hk
      · exact (Nat.le_max_right m k).trans h2
      · exact h1 k hk
    · rcases h3 with h3 | h3
      · rw [h3]
        rcases Nat.le_total m x with h | h
        · exact Or.inr (by rw [show Nat.max m x = x from Nat.max_eq_right h]; exact List.mem_cons_self)
        · exact Or.inl (Nat.max_eq_left h)
      · exact Or.inr (List.mem_cons_of_mem _ h3)

/-- The bars: the largest count has the given height, and the others are proportional, rounded down. -/
theorem scale_eq {height : ℕ} {h : List ℕ} {m : ℕ} (hm : 0 < m) (hin : m ∈ h) (hmax : ∀ k ∈ h, k ≤ m) : scale height h = .ok (h.map fun k => k * height / m) := by
  have e : h.foldl Nat.max 0 = m := by
    obtain ⟨h1, -, h3⟩ := foldl_max h 0
    have := h1 m hin
    rcases h3 with h3 | h3
    · omega
    · exact le_antisymm (hmax _ h3) this
  unfold scale
  rw [e]
  have : ∀ l : List ℕ, (l.mapM fun k => if m = 0 then (.error .divZero : M ℕ) else .ok (k * height / m)) = .ok (l.map fun k => k * height / m) := by
    intro l
    induction l with
    | nil => rfl
    | cons x l ih => rw [List.mapM_cons, if_neg (by omega), M_bind_ok, ih]; rfl
  exact this h

end Statistics

end Transfinite
