import Verif.Lemmas.Interp

/-! # Values of the surfaces at the points of a side, from the local parameters -/

namespace Transfinite

namespace Surf

open Spec

variable {K : Type} [Field K] [LinearOrder K] [Libm K] [IsStrictOrderedRing K]
variable {ε : K} {S : Surf K} {n i : ℕ} {c : ℕ → Curve K} {s : K} {f : ℕ → P2 K}

theorem cornerBased_side (h : Compatible ε S n c) (hε : 0 < ε) (hε2 : ε ≤ 1 / 2) (hi : i < n) (h0 : 0 ≤ s) (h1 : s ≤ 1)
    (hf : SideParams ε n i s f) : S.cornerBased ε (tab n f) = .ok ((c i).pt s) := by
  obtain ⟨b, e, hb1, hb0, hbp⟩ := blendCorner_side hε hε2 h.hn hi hf
  obtain ⟨q, hq, hq1, hqp⟩ := cornerInterpolant_side h hε hi h0 h1 hf
  unfold cornerBased
  rw [h.len, e, M_bind_ok, forLoop_sum n _ (fun j => b j • q j), zero_add]
  · congr 1
    refine sum_blend h.hn hi hb1 hb0 hq1 ?_
    rcases lt_or_ge (1 - s) ε with hs | hs
    · exact Or.inl (hbp hs)
    · exact Or.inr (hqp hs)
  · intro j p hj
    rw [hq j hj, M_bind_ok, vget_tab _ hj, M_bind_ok]

theorem generalizedCoons_side (h : Compatible ε S n c) (hε : 0 < ε) (hε2 : ε ≤ 1 / 2) (hi : i < n) (h0 : 0 ≤ s) (h1 : s ≤ 1)
    (hf : SideParams ε n i s f) : S.generalizedCoons ε (tab n f) = .ok ((c i).pt s) := by
  obtain ⟨b, e, hb1, hb0, hbp⟩ := blendCorner_side hε hε2 h.hn hi hf
  unfold generalizedCoons
  rw [h.len, e, M_bind_ok]
  exact coonsSum_side h hε hi h0 h1 hf hb1 hb0 hbp

theorem composite_side (h : Compatible ε S n c) (hε : 0 < ε) (hε2 : ε ≤ 1 / 2) (hi : i < n) (h0 : 0 ≤ s) (h1 : s ≤ 1)
    (hf : SideParams ε n i s f) : S.composite ε (tab n f) = .ok ((c i).pt s) := by
  have hn := h.hn
  obtain ⟨b, e, hb1, hb0, hbp⟩ := blendCorner_side hε hε2 h.hn hi hf
  obtain ⟨q, hq, hq1, hqn, hqp⟩ := compositeRibbon_side h hε hi h0 h1 hf
  unfold composite
  rw [h.len, e, M_bind_ok, forLoop_sum n _ (fun j => (b j + b (prevIx n j)) • q j), M_bind_ok, zero_add]
  · congr 1
    have e : ∑ j ∈ Finset.range n, (b j + b (prevIx n j)) • q j = ∑ j ∈ Finset.range n, b j • (q j + q (nextIx n j)) := by
      have sh := sum_shift (n := n) (by omega) (fun a j => b a • q j)
      simp only [add_smul, smul_add, Finset.sum_add_distrib]
      rw [sh]
    rw [e, sum_blend hn hi hb1 hb0 (p := (2 : K) • (c i).pt s)]
    · rw [smul_smul]; norm_num
    · rw [hq1, hqn]; module
    · rcases lt_or_ge (1 - s) ε with hs | hs
      · exact Or.inl (hbp hs)
      · right; rw [nextIx_prevIx hi, hqp hs, hq1]; module
  · intro j p hj
    rw [vget_tab _ hj, M_bind_ok, hq j hj, M_bind_ok, vget_tab _ hj, M_bind_ok, vget_tab _ (prevIx_lt (by omega)), M_bind_ok]

theorem midpoint_side (h : Compatible ε S n c) (hε : 0 < ε) (hε1 : ε ≤ 1) (hi : i < n)
    (h0 : ε ≤ s ∨ s = 0) (h1 : ε ≤ 1 - s ∨ s = 1) (hf : SideParams ε n i s f)
    (hfar : ∀ j < n, j ≠ i → j ≠ (i + 1) % n → j ≠ (i + n - 1) % n → (f j).y = 1) (central : P3 K) :
    S.midpoint ε central (tab n f) = .ok ((c i).pt s) := by
  have s0 : 0 ≤ s := by rcases h0 with h | h <;> linarith
  have s1 : s ≤ 1 := by rcases h1 with h | h <;> linarith
  obtain ⟨b, e, e1, e2, hb0, hs⟩ := C29_side hε hε1 h.hn hi h0 h1 hf hfar
  obtain ⟨q, hq, hq1, hqp⟩ := cornerInterpolant_side h hε hi s0 s1 hf
  have hb1 : b i + b (prevIx n i) = 1 := by
    have e2' : b (prevIx n i) = hermite 0 s := e2
    rw [e1, e2']; unfold hermite; rw [if_pos rfl, if_pos rfl]; ring
  unfold midpoint
  rw [h.len, e, M_bind_ok, forLoop_sum n _ (fun j => b j • q j), zero_add, M_bind_ok, sum_tab, hs, sub_self, zero_smul, add_zero]
  · congr 1
    refine sum_blend h.hn hi hb1 hb0 hq1 ?_
    rcases h1 with hs | hs
    · exact Or.inr (hqp hs)
    · left
      have e2' : b (prevIx n i) = hermite 0 s := e2
      rw [e2', hs]; exact hermite_ends.2
  · intro j p hj
    rw [hq j hj, M_bind_ok, vget_tab _ hj, M_bind_ok]

theorem midpointCoons_side (h : Compatible ε S n c) (hε : 0 < ε) (hε1 : ε ≤ 1) (hi : i < n)
    (h0 : ε ≤ s ∨ s = 0) (h1 : ε ≤ 1 - s ∨ s = 1) (hf : SideParams ε n i s f)
    (hfar : ∀ j < n, j ≠ i → j ≠ (i + 1) % n → j ≠ (i + n - 1) % n → (f j).y = 1) (central : P3 K) :
    S.midpointCoons ε central (tab n f) = .ok ((c i).pt s) := by
  have s0 : 0 ≤ s := by rcases h0 with h | h <;> linarith
  have s1 : s ≤ 1 := by rcases h1 with h | h <;> linarith
  obtain ⟨b, e, e1, e2, hb0, hs⟩ := C29_side hε hε1 h.hn hi h0 h1 hf hfar
  have hb1 : b i + b (prevIx n i) = 1 := by
    have e2' : b (prevIx n i) = hermite 0 s := e2
    rw [e1, e2']; unfold hermite; rw [if_pos rfl, if_pos rfl]; ring
  unfold midpointCoons
  rw [h.len, e, M_bind_ok, coonsSum_side h hε hi s0 s1 hf hb1 hb0, M_bind_ok, sum_tab, hs, sub_self, zero_smul, add_zero]
  intro hlt
  have e2' : b (prevIx n i) = hermite 0 s := e2
  rcases h1 with h | h
  · linarith
  · rw [e2', h]; exact hermite_ends.2

/-- The side-based surface: at a point of side `i` that is not within the tolerance of another side. -/
theorem sideBased_inner (h : Compatible ε S n c) (hε : 0 < ε) (hi : i < n) (h0 : 0 ≤ s) (h1 : s ≤ 1)
    (hfi : f i = ⟨s, 0⟩) (hfar : ∀ j < n, j ≠ i → ε ≤ (f j).y) : S.sideBased ε (tab n f) = .ok ((c i).pt s) := by
  have hn := h.hn
  obtain ⟨b, e, _, hsum, _, hz, _⟩ := C28_side hε (n := n) (by omega) f
  have hb0 : ∀ j < n, j ≠ i → b j = 0 := fun j hj hne => hz i hi j hj (by rw [hfi]; exact hε) (hfar j hj hne)
  have hb1 : b i = 1 := by
    rw [← hsum, Finset.sum_eq_single i]
    · intro j hj hne; exact hb0 j (Finset.mem_range.mp hj) hne
    · intro hni; exact absurd (Finset.mem_range.mpr hi) hni
  have hs : ∀ j < n, ∃ q, S.sideInterpolant ε j (f j).x (f j).y = .ok q := by
    intro j hj
    refine h.side_ok hj _ ?_
    by_cases hji : j = i
    · rw [hji, hfi]
    · exact hε.le.trans (hfar j hj hji)
  choose! q hq using hs
  unfold sideBased
  rw [h.len, e, M_bind_ok, forLoop_sum n _ (fun j => b j • q j), zero_add]
  · congr 1
    rw [Finset.sum_eq_single i, hb1, one_smul]
    · have e := hq i hi
      rw [hfi] at e
      dsimp only at e
      rw [h.side_base hi h0 h1] at e
      exact (Except.ok.inj e).symm
    · intro j hj hne; rw [hb0 j (Finset.mem_range.mp hj) hne, zero_smul]
    · intro hni; exact absurd (Finset.mem_range.mpr hi) hni
  · intro j p hj
    rw [vget_tab _ hj, M_bind_ok, hq j hj, M_bind_ok, vget_tab _ hj, M_bind_ok]

/-- The side-based surface at the corner between sides `i` and `i+1`. -/
theorem sideBased_corner (h : Compatible ε S n c) (hε : 0 < ε) (hi : i < n)
    (hfi : f i = ⟨1, 0⟩) (hfx : f (nextIx n i) = ⟨0, 0⟩) (hfar : ∀ j < n, j ≠ i → j ≠ nextIx n i → ε ≤ (f j).y) :
    S.sideBased ε (tab n f) = .ok ((c i).pt 1) := by
  have hn := h.hn
  have hx : nextIx n i < n := nextIx_lt (by omega)
  have hxi : nextIx n i ≠ i := Param.next_ne (by omega) hi
  obtain ⟨b, e, _, hsum, heq, hz, _⟩ := C28_side hε (n := n) (by omega) f
  have ci : (f i).y < ε := by rw [hfi]; exact hε
  have cx : (f (nextIx n i)).y < ε := by rw [hfx]; exact hε
  have hb0 : ∀ j < n, j ≠ i → j ≠ nextIx n i → b j = 0 := fun j hj a b => hz i hi j hj ci (hfar j hj a b)
  have hb1 : b i + b (nextIx n i) = 1 := by
    rw [← hsum, Finset.sum_eq_add_of_mem i (nextIx n i) (Finset.mem_range.mpr hi) (Finset.mem_range.mpr hx) hxi.symm]
    intro j hj hne; exact hb0 j (Finset.mem_range.mp hj) hne.1 hne.2
  have hs : ∀ j < n, ∃ q, S.sideInterpolant ε j (f j).x (f j).y = .ok q := by
    intro j hj
    refine h.side_ok hj _ ?_
    by_cases hji : j = i
    · rw [hji, hfi]
    · by_cases hjx : j = nextIx n i
      · rw [hjx, hfx]
      · exact hε.le.trans (hfar j hj hji hjx)
  choose! q hq using hs
  have q1 : q i = (c i).pt 1 := by
    have e := hq i hi
    rw [hfi] at e
    dsimp only at e
    rw [h.side_base hi zero_le_one le_rfl] at e
    exact (Except.ok.inj e).symm
  have q2 : q (nextIx n i) = (c i).pt 1 := by
    have e := hq _ hx
    rw [hfx] at e
    dsimp only at e
    rw [h.side_base hx le_rfl zero_le_one, ← h.closed i hi] at e
    exact (Except.ok.inj e).symm
  unfold sideBased
  rw [h.len, e, M_bind_ok, forLoop_sum n _ (fun j => b j • q j), zero_add]
  · congr 1
    rw [Finset.sum_eq_add_of_mem i (nextIx n i) (Finset.mem_range.mpr hi) (Finset.mem_range.mpr hx) hxi.symm]
    · rw [q1, q2, ← add_smul, hb1, one_smul]
    · intro j hj hne; rw [hb0 j (Finset.mem_range.mp hj) hne.1 hne.2, zero_smul]
  · intro j p hj
    rw [vget_tab _ hj, M_bind_ok, hq j hj, M_bind_ok, vget_tab _ hj, M_bind_ok]

/-- The C0 Coons surface, from the values of its ribbons. -/
theorem c0Coons_side (hn : 3 ≤ n) (hS : S.n = n) (hε : 0 < ε) (hi : i < n) (h0 : 0 ≤ s) (h1 : s ≤ 1) (hs1 : ε ≤ 1 - s ∨ s = 1) (hf : SideParams ε n i s f)
    (hfar : ∀ j < n, j ≠ i → j ≠ (i + 1) % n → j ≠ (i + n - 1) % n → (f j).y = 1)
    (hr : ∀ j < n, ∃ r, vget S.ribbons j = .ok r ∧ (∀ x, 0 ≤ x → x ≤ 1 → r.eval ε ⟨x, 0⟩ = .ok ((c j).pt x)) ∧
      (∀ x, 0 ≤ x → x ≤ 1 → r.eval ε ⟨0, x⟩ = .ok ((c (prevIx n j)).pt (1 - x))) ∧
      (∀ x, 0 ≤ x → x ≤ 1 → r.eval ε ⟨1, x⟩ = .ok ((c (nextIx n j)).pt x)) ∧ ∀ sd, ∃ q, r.eval ε sd = .ok q) :
    S.c0Coons ε (tab n f) = .ok ((c i).pt s) := by
  have hx : nextIx n i < n := nextIx_lt (by omega)
  have hp : prevIx n i < n := prevIx_lt (by omega)
  have hxi : nextIx n i ≠ i := Param.next_ne (by omega) hi
  have hpi : prevIx n i ≠ i := Param.prev_ne (by omega) hi
  have hpx : nextIx n i ≠ prevIx n i := Param.next_ne_prev hn hi
  have hnext : f (nextIx n i) = ⟨0, 1 - s⟩ := hf.next
  have hq : ∀ j < n, ∃ q, (do let r ← vget S.ribbons j; r.eval ε (f j) : M (P3 K)) = .ok q := by
    intro j hj
    obtain ⟨r, e, _, _, _, e'⟩ := hr j hj
    rw [e, M_bind_ok]
    exact e' _
  choose! q hq using hq
  have q1 : q i = (c i).pt s := by
    obtain ⟨r, e, e', _⟩ := hr i hi
    have := hq i hi
    rw [e, M_bind_ok, hf.self, e' s h0 h1] at this
    exact (Except.ok.inj this).symm
  have q2 : q (nextIx n i) = (c i).pt s := by
    obtain ⟨r, e, _, e', _⟩ := hr _ hx
    have := hq _ hx
    rw [e, M_bind_ok, hnext, e' _ (by linarith) (by linarith), prevIx_nextIx hi, sub_sub_cancel] at this
    exact (Except.ok.inj this).symm
  have q3 : s ≠ 1 → q (prevIx n i) = (c i).pt s := by
    intro hne
    obtain ⟨r, e, _, _, e', _⟩ := hr _ hp
    have := hq _ hp
    have hfp : f (prevIx n i) = ⟨1, s⟩ := by
      ext
      · exact hf.prevX (hs1.resolve_right hne)
      · exact hf.prevY
    rw [e, M_bind_ok, hfp, e' _ h0 h1, nextIx_prevIx hi] at this
    exact (Except.ok.inj this).symm
  unfold c0Coons
  rw [hS, forLoop_sum n _ (fun j => ((1 - (f j).y) / 2) • q j), zero_add]
  · congr 1
    have hsub : ({i, nextIx n i, prevIx n i} : Finset ℕ) ⊆ Finset.range n := by
      intro j hj
      simp only [Finset.mem_insert, Finset.mem_singleton] at hj
      rcases hj with rfl | rfl | rfl <;> simpa
    rw [← Finset.sum_subset hsub]
    · rw [Finset.sum_insert (by simp [hxi.symm, hpi.symm]), Finset.sum_insert (by simpa using hpx), Finset.sum_singleton, q1, q2]
      have e1 : (f i).y = 0 := by rw [hf.self]
      have e2 : (f (nextIx n i)).y = 1 - s := by rw [hnext]
      have e3 : (f (prevIx n i)).y = s := hf.prevY
      rw [e1, e2, e3]
      by_cases hne : s = 1
      · rw [hne]
        simp only [sub_self, zero_div, zero_smul, sub_zero, add_zero]
        module
      · rw [q3 hne]; module
    · intro j hj hj'
      simp only [Finset.mem_insert, Finset.mem_singleton, not_or] at hj'
      rw [hfar j (Finset.mem_range.mp hj) hj'.1 hj'.2.1 hj'.2.2, sub_self, zero_div, zero_smul]
  · intro j p hj
    obtain ⟨r, e, _⟩ := hr j hj
    have := hq j hj
    rw [e, M_bind_ok] at this
    rw [vget_tab _ hj, M_bind_ok, e, M_bind_ok, this, M_bind_ok]

end Surf

end Transfinite
