import Verif.Lemmas.Enumeration

/-! # C46: the loop over all control points -/

namespace Transfinite

open Spec

namespace GB

/-- The loop visits these points. -/
def visited (n d : ℕ) : List Name := tab (enumCount n d) (enumPos n d ⟨0, 0, 0⟩)

variable {n d : ℕ}

theorem rowStart_zero : rowStart n d 0 = 0 := by simp [rowStart]

theorem visited_mem {a : Name} (h : a.side < n) (h1 : a.row ≤ a.col) (h2 : a.col + a.row < d) :
    ∃ t < enumCount n d, enumPos n d ⟨0, 0, 0⟩ t = a ∧ t = rowStart n d a.row + a.side * (d - 2 * a.row) + (a.col - a.row) := by
  obtain ⟨i, j, k⟩ := a
  dsimp only at *
  have := pos_eq (f := 0) (r := k) (c := j - k) (Nat.zero_le _) h (by omega : j - k + 2 * k < d)
  rw [rowStart_zero, Nat.sub_zero, show k + (j - k) = j by omega] at this
  refine ⟨_, ?_, this, rfl⟩
  rw [enumCount_eq]
  have h3 := rowStart_mono (n := n) (d := d) (r := k + 1) (q := (d + 1) / 2) (by omega) (by omega)
  rw [rowStart_succ (by omega)] at h3
  have h4 : (i + 1) * (d - 2 * k) ≤ n * (d - 2 * k) := Nat.mul_le_mul_right _ h
  rw [Nat.succ_mul] at h4
  omega

theorem visited_at {m t : ℕ} (hm : 2 * m ≤ d + 1) (h : t < rowStart n d m) :
    (enumPos n d ⟨0, 0, 0⟩ t).side < n ∧ (enumPos n d ⟨0, 0, 0⟩ t).row ≤ (enumPos n d ⟨0, 0, 0⟩ t).col ∧
      (enumPos n d ⟨0, 0, 0⟩ t).col + (enumPos n d ⟨0, 0, 0⟩ t).row < d ∧ (enumPos n d ⟨0, 0, 0⟩ t).row < m ∧
      t = rowStart n d (enumPos n d ⟨0, 0, 0⟩ t).row + (enumPos n d ⟨0, 0, 0⟩ t).side * (d - 2 * (enumPos n d ⟨0, 0, 0⟩ t).row) +
        ((enumPos n d ⟨0, 0, 0⟩ t).col - (enumPos n d ⟨0, 0, 0⟩ t).row) := by
  obtain ⟨r, i, c, h1, h2, h3, h4, h5⟩ := place (f := 0) (Nat.zero_le m) hm (by rw [rowStart_zero]; exact h)
  have := pos_eq h1 h3 h4
  rw [← h5] at this
  rw [this]
  dsimp only
  rw [rowStart_zero, Nat.sub_zero] at h5
  exact ⟨h3, by omega, by omega, h2, by rw [h5]; congr 1; omega⟩

theorem visited_spec {t : ℕ} (h : t < enumCount n d) :
    (enumPos n d ⟨0, 0, 0⟩ t).side < n ∧ (enumPos n d ⟨0, 0, 0⟩ t).row ≤ (enumPos n d ⟨0, 0, 0⟩ t).col ∧
      (enumPos n d ⟨0, 0, 0⟩ t).col + (enumPos n d ⟨0, 0, 0⟩ t).row < d := by
  rw [enumCount_eq] at h
  obtain ⟨h1, h2, h3, _⟩ := visited_at (by omega) h
  exact ⟨h1, h2, h3⟩

theorem visited_inj {t u : ℕ} (ht : t < enumCount n d) (hu : u < enumCount n d) (e : enumPos n d ⟨0, 0, 0⟩ t = enumPos n d ⟨0, 0, 0⟩ u) : t = u := by
  rw [enumCount_eq] at ht hu
  obtain ⟨_, _, _, _, h1⟩ := visited_at (by omega) ht
  obtain ⟨_, _, _, _, h2⟩ := visited_at (by omega) hu
  rw [h1, h2, e]

/-- Names of the form that is visited. -/
def Name.Main (n d : ℕ) (a : Name) : Prop := a.side < n ∧ a.row ≤ a.col ∧ a.col + a.row < d

theorem Name.Main.inRange {a : Name} (h : Name.Main n d a) : a.InRange n d := by
  obtain ⟨h1, h2, h3⟩ := h
  exact ⟨h1, by omega, by omega⟩

/-- Each point has a name of this form. -/
theorem main_exists {a : Name} (h : a.InRange n d) : ∃ b, Name.Main n d b ∧ SamePoint n d a b := by
  obtain ⟨i, j, k⟩ := a
  obtain ⟨hi, hj, hk⟩ := h
  dsimp only at hi hj hk
  by_cases h1 : j < k
  · refine ⟨⟨(i + n - 1) % n, d - k, j⟩, ⟨Nat.mod_lt _ (by omega), by dsimp only; omega, by dsimp only; omega⟩, Or.inr (Or.inl ⟨?_, hk, rfl⟩)⟩
    dsimp only; omega
  · by_cases h2 : j + k < d
    · exact ⟨⟨i, j, k⟩, ⟨hi, by dsimp only; omega, h2⟩, Or.inl rfl⟩
    · refine ⟨⟨(i + 1) % n, k, d - j⟩, ⟨Nat.mod_lt _ (by omega), by dsimp only; omega, by dsimp only; omega⟩, Or.inr (Or.inr ⟨hk, by dsimp only; omega, ?_⟩)⟩
      simp only [Name.mk.injEq]
      exact ⟨(prevIx_nextIx hi).symm, by omega, trivial⟩

/-- Names of this form belong to different points. -/
theorem main_unique {a b : Name} (ha : Name.Main n d a) (hb : Name.Main n d b) (h : SamePoint n d a b) : a = b := by
  obtain ⟨i, j, k⟩ := a
  obtain ⟨i', j', k'⟩ := b
  obtain ⟨a1, a2, a3⟩ := ha
  obtain ⟨b1, b2, b3⟩ := hb
  rcases h with h | ⟨h1, h2, h3⟩ | ⟨h1, h2, h3⟩
  · exact h
  · simp only [Name.mk.injEq] at h3
    dsimp only at *
    omega
  · simp only [Name.mk.injEq] at h3
    dsimp only at *
    omega

/-- C46: for every number of sides and every degree there is a list `V` of names such that
- the loop runs its body on the elements of `V` in this order, with the loop counter 1, 2, ...;
- `V` has `n (1 + d/2) ((d+1)/2)` elements (so the loop counter is at most `cp - 1`);
- all of these are valid indices of the network;
- every control point has exactly one name in `V`, where the two names of a point count as one;
- for any `f ≤ (d+1)/2`, the first `n (d+1-f) f` are exactly those in the first `f` rows. -/
theorem C46_enumeration (n d : ℕ) : ∃ V : List Name,
    (∀ (σ : Type) (body : ℕ → Name → σ → M σ) (s : σ), enumLoop n d body 1 (enumCount n d) ⟨0, 0, 0⟩ s =
      forLoop V.length (fun t s => vget V t >>= fun a => body (1 + t) a s) s) ∧
    V.length = n * (1 + d / 2) * ((d + 1) / 2) ∧ (∀ a ∈ V, a.InRange n d) ∧ V.Nodup ∧
    (∀ a : Name, a.InRange n d → ∃! b, b ∈ V ∧ SamePoint n d a b) ∧
    ∀ f ≤ (d + 1) / 2, V.take (n * (d + 1 - f) * f) = V.filter (fun a => a.row < f) := by
  have hlen : (visited n d).length = enumCount n d := length_tab _ _
  have hmem : ∀ a ∈ visited n d, Name.Main n d a := by
    intro a ha
    obtain ⟨t, ht, rfl⟩ := List.mem_map.mp ha
    exact visited_spec (List.mem_range.mp ht)
  have hmem' : ∀ a, Name.Main n d a → a ∈ visited n d := by
    intro a ha
    obtain ⟨t, ht, e, _⟩ := visited_mem ha.1 ha.2.1 ha.2.2
    exact List.mem_map.mpr ⟨t, List.mem_range.mpr ht, e⟩
  refine ⟨visited n d, ?_, hlen, fun a ha => (hmem a ha).inRange, ?_, ?_, ?_⟩
  · intro σ body s
    rw [enumLoop_eq, hlen]
    apply forLoop_congr
    intro t s ht
    unfold visited
    rw [vget_tab _ ht, M_bind_ok]
  · unfold visited tab
    refine List.Nodup.map_on (fun t ht u hu e => visited_inj (List.mem_range.mp ht) (List.mem_range.mp hu) e) List.nodup_range
  · intro a ha
    obtain ⟨b, hb, hab⟩ := main_exists ha
    refine ⟨b, ⟨hmem' b hb, hab⟩, ?_⟩
    rintro c ⟨hc, hac⟩
    exact main_unique (hmem c hc) hb (samePoint_trans (hmem c hc).1 hb.1 (samePoint_symm hac) hab)
  · intro f hf
    have hF : n * (d + 1 - f) * f = rowStart n d f := by unfold rowStart; ring
    have hle : rowStart n d f ≤ enumCount n d := by rw [enumCount_eq]; exact rowStart_mono hf (by omega)
    obtain ⟨m, hm⟩ := Nat.exists_eq_add_of_le hle
    have hsplit : visited n d = tab (rowStart n d f) (enumPos n d ⟨0, 0, 0⟩) ++ (List.range m).map (fun t => enumPos n d ⟨0, 0, 0⟩ (rowStart n d f + t)) := by
      unfold visited tab
      rw [hm, List.range_add, List.map_append, List.map_map]
      rfl
    rw [hF, hsplit, List.filter_append, List.take_left' (length_tab _ _)]
    rw [List.filter_eq_self.mpr, List.filter_eq_nil_iff.mpr, List.append_nil]
    · intro a ha
      obtain ⟨t, ht, rfl⟩ := List.mem_map.mp ha
      have ht' : rowStart n d f + t < enumCount n d := by have := List.mem_range.mp ht; omega
      rw [enumCount_eq] at ht'
      obtain ⟨h1, h2, h3, _, h4⟩ := visited_at (by omega) ht'
      intro q
      have q' := of_decide_eq_true q
      set a := enumPos n d ⟨0, 0, 0⟩ (rowStart n d f + t) with ha
      have h5 : rowStart n d (a.row + 1) ≤ rowStart n d f := rowStart_mono q' (by omega)
      rw [rowStart_succ (by omega)] at h5
      have h6 : (a.side + 1) * (d - 2 * a.row) ≤ n * (d - 2 * a.row) := Nat.mul_le_mul_right _ h1
      rw [Nat.succ_mul] at h6
      omega
    · intro a ha
      obtain ⟨t, ht, rfl⟩ := List.mem_map.mp ha
      exact decide_eq_true (visited_at (by omega) (List.mem_range.mp ht)).2.2.2.1

/-- The points visited for a triangle of degree 3, collected by the loop itself. -/
example : enumLoop 3 3 (fun i a (l : List (ℕ × ℕ × ℕ × ℕ)) => .ok (l ++ [(i, a.side, a.col, a.row)])) 1 (enumCount 3 3) ⟨0, 0, 0⟩ [] =
    .ok [(1, 0, 0, 0), (2, 0, 1, 0), (3, 0, 2, 0), (4, 1, 0, 0), (5, 1, 1, 0), (6, 1, 2, 0), (7, 2, 0, 0), (8, 2, 1, 0), (9, 2, 2, 0),
      (10, 0, 1, 1), (11, 1, 1, 1), (12, 2, 1, 1)] := by decide +kernel

/-- C46, the second loop (gb-fit.cc 176-183, 201-208): started with `side = 0`, `col = row = f` and `i = n (d+1-f) f + 1`, the loop visits exactly the rest of the
points, with the same loop counters. -/
theorem C46_rest (n d f : ℕ) (hf : f < (d + 1) / 2) (hn : 1 ≤ n) : ∃ V : List Name,
    (∀ (σ : Type) (body : ℕ → Name → σ → M σ) (s : σ), enumLoop n d body 1 (enumCount n d) ⟨0, 0, 0⟩ s =
      forLoop V.length (fun t s => vget V t >>= fun a => body (1 + t) a s) s) ∧
    ∀ (σ : Type) (body : ℕ → Name → σ → M σ) (s : σ), enumLoop n d body (n * (d + 1 - f) * f + 1) (enumCount n d - n * (d + 1 - f) * f) ⟨0, f, f⟩ s =
      forLoop (V.length - n * (d + 1 - f) * f) (fun t s => vget V (n * (d + 1 - f) * f + t) >>= fun a => body (n * (d + 1 - f) * f + 1 + t) a s) s := by
  have hlen : (visited n d).length = enumCount n d := length_tab _ _
  have hF : n * (d + 1 - f) * f = rowStart n d f := by unfold rowStart; ring
  have hle : rowStart n d f ≤ enumCount n d := by rw [enumCount_eq]; exact rowStart_mono (by omega) (by omega)
  refine ⟨visited n d, ?_, ?_⟩
  · intro σ body s
    rw [enumLoop_eq, hlen]
    apply forLoop_congr
    intro t s ht
    unfold visited
    rw [vget_tab _ ht, M_bind_ok]
  · intro σ body s
    rw [hF, enumLoop_eq, hlen]
    apply forLoop_congr
    intro t s ht
    unfold visited
    rw [vget_tab _ (by omega), M_bind_ok]
    have := pos_rows (n := n) (d := d) (f := 0) (r := f) (u := t) hn (Nat.zero_le _) (by omega)
    rw [rowStart_zero, Nat.sub_zero] at this
    rw [this]

end GB

end Transfinite
