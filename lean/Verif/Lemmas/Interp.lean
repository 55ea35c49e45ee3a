import Verif.Props.Blend

/-! # Lemmas on the interpolants of `surface.cc` at the points of a side -/

namespace Transfinite

namespace Surf

open Spec

variable {K : Type} [Field K] [LinearOrder K] [Libm K]

/-- What the evaluation of the surfaces uses of a closed loop of updated ribbons: the cross
derivatives of the ribbons at the corners are the end derivatives of the neighbouring curves, and the corner data
belongs to the curves. -/
structure Compatible (ε : K) (S : Surf K) (n : ℕ) (c : ℕ → Curve K) : Prop where
  hn : 3 ≤ n
  len : S.n = n
  ribbon : ∀ j < n, ∃ r, vget S.ribbons j = .ok r ∧ r.curve = c j ∧ r.kind ≠ .coons ∧ r.kind ≠ .nsided ∧
    r.crossDerivative ε 0 = .ok (-(c (prevIx n j)).der 1) ∧ r.crossDerivative ε 1 = .ok ((c (nextIx n j)).der 0) ∧
    ∀ s, 0 ≤ s → s ≤ 1 → ∃ x, r.crossDerivative ε s = .ok x
  corner : ∀ j < n, ∃ t1 t2, vget S.corners j = .ok ⟨(c j).pt 1, -(c j).der 1, (c (nextIx n j)).der 0, t1, t2⟩
  closed : ∀ j < n, (c j).pt 1 = (c (nextIx n j)).pt 0

/-- The value of `gamma(d)` for `d ≥ 0`. -/
def gam (S : Surf K) (d : K) : K := if S.useGamma then d / (2 * d + 1) else d

theorem gam_zero (S : Surf K) : S.gam 0 = 0 := by unfold gam; split_ifs <;> simp

theorem eval_base {ε : K} {r : Ribbon K} (h1 : r.kind ≠ .coons) (h2 : r.kind ≠ .nsided) (sd : P2 K) :
    r.eval ε sd = r.baseEval ε sd := by
  unfold Ribbon.eval
  cases h : r.kind <;> simp_all

theorem clamp_range [IsStrictOrderedRing K] (x : K) : 0 ≤ Domain.clamp x 0 1 ∧ Domain.clamp x 0 1 ≤ 1 := by
  unfold Domain.clamp
  exact ⟨le_max_left _ _, max_le zero_le_one (min_le_right _ _)⟩

theorem clamp_of_mem {x : K} (h0 : 0 ≤ x) (h1 : x ≤ 1) : Domain.clamp x 0 1 = x := by
  unfold Domain.clamp
  rw [min_eq_left h1, max_eq_right h0]

variable [IsStrictOrderedRing K]

theorem gamma_ok (S : Surf K) {d : K} (h : 0 ≤ d) : S.gamma d = .ok (S.gam d) := by
  unfold gamma gam
  split_ifs
  · exact fdiv_of_ne (by linarith)
  · rfl

theorem gam_nonneg (S : Surf K) {d : K} (h : 0 ≤ d) : 0 ≤ S.gam d := by
  unfold gam; split_ifs
  · positivity
  · exact h

theorem gam_le_one (S : Surf K) {d : K} (h : 0 ≤ d) (h1 : d ≤ 1) : S.gam d ≤ 1 := by
  unfold gam; split_ifs
  · rw [div_le_one (by linarith)]; linarith
  · exact h1

namespace Compatible

variable {ε : K} {S : Surf K} {n : ℕ} {c : ℕ → Curve K}

theorem side_ok (h : Compatible ε S n c) {j : ℕ} (hj : j < n) (x : K) {d : K} (hd : 0 ≤ d) :
    ∃ q, S.sideInterpolant ε j x d = .ok q := by
  obtain ⟨r, hr, hc, k1, k2, _, _, hx⟩ := h.ribbon j hj
  obtain ⟨y, hy⟩ := hx _ (clamp_range x).1 (clamp_range x).2
  unfold sideInterpolant
  rw [gamma_ok S hd, M_bind_ok, hr, M_bind_ok, eval_base k1 k2]
  unfold Ribbon.baseEval
  dsimp only
  rw [hy]
  exact ⟨_, rfl⟩

theorem side_base (h : Compatible ε S n c) {j : ℕ} (hj : j < n) {x : K} (h0 : 0 ≤ x) (h1 : x ≤ 1) :
    S.sideInterpolant ε j x 0 = .ok ((c j).pt x) := by
  obtain ⟨r, hr, hc, k1, k2, _, _, hx⟩ := h.ribbon j hj
  obtain ⟨y, hy⟩ := hx _ h0 h1
  unfold sideInterpolant
  rw [gamma_ok S le_rfl, M_bind_ok, hr, M_bind_ok, eval_base k1 k2, clamp_of_mem h0 h1]
  unfold Ribbon.baseEval
  dsimp only
  rw [hy, gam_zero, M_bind_ok, max_self, zero_smul, add_zero, hc]

theorem side_zero (h : Compatible ε S n c) {j : ℕ} (hj : j < n) {d : K} (hd : 0 ≤ d) :
    S.sideInterpolant ε j 0 d = .ok ((c j).pt 0 + S.gam d • -(c (prevIx n j)).der 1) := by
  obtain ⟨r, hr, hc, k1, k2, e0, _, _⟩ := h.ribbon j hj
  unfold sideInterpolant
  rw [gamma_ok S hd, M_bind_ok, hr, M_bind_ok, eval_base k1 k2, clamp_of_mem le_rfl zero_le_one]
  unfold Ribbon.baseEval
  dsimp only
  rw [e0, M_bind_ok, max_eq_left (gam_nonneg S hd), hc]

theorem side_one (h : Compatible ε S n c) {j : ℕ} (hj : j < n) {d : K} (hd : 0 ≤ d) :
    S.sideInterpolant ε j 1 d = .ok ((c j).pt 1 + S.gam d • (c (nextIx n j)).der 0) := by
  obtain ⟨r, hr, hc, k1, k2, _, e1, _⟩ := h.ribbon j hj
  unfold sideInterpolant
  rw [gamma_ok S hd, M_bind_ok, hr, M_bind_ok, eval_base k1 k2, clamp_of_mem zero_le_one le_rfl]
  unfold Ribbon.baseEval
  dsimp only
  rw [e1, M_bind_ok, max_eq_left (gam_nonneg S hd), hc]

theorem twist_ok (hε : 0 < ε) (u v : K) (f g : P3 K) : ∃ t, rationalTwist ε u v f g = .ok t := by
  unfold rationalTwist
  split_ifs with h
  · exact ⟨_, rfl⟩
  · unfold Ribbon.vdiv
    have : u + v ≠ 0 := by
      intro e; rw [e, abs_zero] at h; exact h hε
    rw [fdiv_of_ne this]
    exact ⟨_, rfl⟩

theorem corr_ok (h : Compatible ε S n c) (hε : 0 < ε) {j : ℕ} (hj : j < n) {s1 s2 : K} (h1 : 0 ≤ s1) (h2 : 0 ≤ s2) :
    ∃ q, S.cornerCorrection ε j s1 s2 = .ok q := by
  obtain ⟨t1, t2, hc⟩ := h.corner j hj
  unfold cornerCorrection
  rw [gamma_ok S h1, M_bind_ok, gamma_ok S h2, M_bind_ok, hc]
  dsimp only
  rw [M_bind_ok]
  obtain ⟨t, ht⟩ := twist_ok hε (Domain.clamp (S.gam s1) 0 1) (Domain.clamp (S.gam s2) 0 1) t2 t1
  rw [ht]
  exact ⟨_, rfl⟩

theorem corr_first (h : Compatible ε S n c) (hε : 0 < ε) {j : ℕ} (hj : j < n) {d : K} (h0 : 0 ≤ d) (h1 : d ≤ 1) :
    S.cornerCorrection ε j d 0 = .ok ((c j).pt 1 + S.gam d • -(c j).der 1) := by
  obtain ⟨t1, t2, hc⟩ := h.corner j hj
  unfold cornerCorrection
  rw [gamma_ok S h0, M_bind_ok, gamma_ok S le_rfl, M_bind_ok, hc]
  dsimp only
  rw [M_bind_ok, gam_zero, clamp_of_mem le_rfl zero_le_one, clamp_of_mem (gam_nonneg S h0) (gam_le_one S h0 h1)]
  obtain ⟨t, ht⟩ := twist_ok hε (S.gam d) 0 t2 t1
  rw [ht, M_bind_ok, mul_zero, zero_smul, zero_smul, add_zero, add_zero]

theorem corr_second (h : Compatible ε S n c) (hε : 0 < ε) {j : ℕ} (hj : j < n) {d : K} (h0 : 0 ≤ d) (h1 : d ≤ 1) :
    S.cornerCorrection ε j 0 d = .ok ((c j).pt 1 + S.gam d • (c (nextIx n j)).der 0) := by
  obtain ⟨t1, t2, hc⟩ := h.corner j hj
  unfold cornerCorrection
  rw [gamma_ok S le_rfl, M_bind_ok, gamma_ok S h0, M_bind_ok, hc]
  dsimp only
  rw [M_bind_ok, gam_zero, clamp_of_mem le_rfl zero_le_one, clamp_of_mem (gam_nonneg S h0) (gam_le_one S h0 h1)]
  obtain ⟨t, ht⟩ := twist_ok hε 0 (S.gam d) t2 t1
  rw [ht, M_bind_ok, zero_mul, zero_smul, zero_smul, add_zero, add_zero]

/-- At a corner, the side interpolants agree with the corner correction. -/
theorem next_corr (h : Compatible ε S n c) (hε : 0 < ε) {j : ℕ} (hj : j < n) {d : K} (h0 : 0 ≤ d) (h1 : d ≤ 1) :
    S.sideInterpolant ε (nextIx n j) 0 d = S.cornerCorrection ε j d 0 := by
  have hn := h.hn
  rw [h.side_zero (nextIx_lt (by omega)) h0, h.corr_first hε hj h0 h1, prevIx_nextIx hj, h.closed j hj]

theorem one_corr (h : Compatible ε S n c) (hε : 0 < ε) {j : ℕ} (hj : j < n) {d : K} (h0 : 0 ≤ d) (h1 : d ≤ 1) :
    S.sideInterpolant ε j 1 d = S.cornerCorrection ε j 0 d := by
  rw [h.side_one hj h0, h.corr_second hε hj h0 h1]

end Compatible

/-! ### Sums over the sides -/

omit [Field K] [LinearOrder K] [Libm K] [IsStrictOrderedRing K] in
/-- A cyclic shift of a sum. -/
theorem sum_shift {β : Type*} [AddCommMonoid β] {n : ℕ} (hn : 0 < n) (F : ℕ → ℕ → β) :
    ∑ j ∈ Finset.range n, F (prevIx n j) j = ∑ j ∈ Finset.range n, F j (nextIx n j) := by
  refine Finset.sum_nbij' (fun j => prevIx n j) (fun j => nextIx n j) ?_ ?_ ?_ ?_ ?_
  · intro j _; exact Finset.mem_range.mpr (prevIx_lt hn)
  · intro j _; exact Finset.mem_range.mpr (nextIx_lt hn)
  · intro j hj; exact nextIx_prevIx (Finset.mem_range.mp hj)
  · intro j hj; exact prevIx_nextIx (Finset.mem_range.mp hj)
  · intro j hj; rw [nextIx_prevIx (Finset.mem_range.mp hj)]

omit [LinearOrder K] [Libm K] [IsStrictOrderedRing K] in
/-- A sum weighted by blends concentrated at the corners of side `i`. -/
theorem sum_blend {n i : ℕ} (hn : 3 ≤ n) (hi : i < n) {b : ℕ → K} {q : ℕ → P3 K} {p : P3 K}
    (h1 : b i + b (prevIx n i) = 1) (h0 : ∀ j < n, j ≠ i → j ≠ prevIx n i → b j = 0)
    (hqi : q i = p) (hqp : b (prevIx n i) = 0 ∨ q (prevIx n i) = p) :
    ∑ j ∈ Finset.range n, b j • q j = p := by
  have hp : prevIx n i < n := prevIx_lt (by omega)
  rw [Finset.sum_eq_add_of_mem i (prevIx n i) (Finset.mem_range.mpr hi) (Finset.mem_range.mpr hp)
    (Param.prev_ne (by omega) hi).symm]
  · have e : b (prevIx n i) • q (prevIx n i) = b (prevIx n i) • p := by
      rcases hqp with h | h
      · rw [h, zero_smul, zero_smul]
      · rw [h]
    rw [hqi, e, ← add_smul, h1, one_smul]
  · intro j hj hne
    rw [h0 j (Finset.mem_range.mp hj) hne.1 hne.2, zero_smul]

/-- Corner blends at the points of side `i`. -/
theorem blendCorner_side {ε : K} (hε : 0 < ε) (hε2 : ε ≤ 1 / 2) {n i : ℕ} (hn : 3 ≤ n) (hi : i < n) {s : K}
    {f : ℕ → P2 K} (hf : SideParams ε n i s f) :
    ∃ b : ℕ → K, blendCorner ε n (tab n f) = .ok (tab n b) ∧ b i + b (prevIx n i) = 1 ∧
      (∀ j < n, j ≠ i → j ≠ prevIx n i → b j = 0) ∧ (1 - s < ε → b (prevIx n i) = 0) := by
  have hx : nextIx n i < n := nextIx_lt (by omega)
  have hp : prevIx n i < n := prevIx_lt (by omega)
  have hxi : nextIx n i ≠ i := Param.next_ne (by omega) hi
  have hpi : prevIx n i ≠ i := Param.prev_ne (by omega) hi
  have hpx : nextIx n i ≠ prevIx n i := Param.next_ne_prev hn hi
  have hyi : (f i).y = 0 := by rw [hf.self]
  have hyx : (f (nextIx n i)).y = 1 - s := by have : f (nextIx n i) = _ := hf.next; rw [this]
  have hyp : (f (prevIx n i)).y = s := hf.prevY
  have hfar : ∀ j < n, j ≠ i → j ≠ nextIx n i → j ≠ prevIx n i → ε ≤ (f j).y := hf.far
  by_cases h1 : 1 - s < ε
  · have : ε ≤ s := by linarith
    obtain ⟨b, e, _, _, e1, e0⟩ := C28_corner_corner hn hi (f := f) (ε := ε) (by rw [hyi]; exact hε) (by change (f (nextIx n i)).y < ε; rw [hyx]; exact h1)
      (by
        intro j hj a c
        by_cases hjp : j = prevIx n i
        · rw [hjp, hyp]; exact this
        · exact hfar j hj a c hjp)
    refine ⟨b, e, by rw [e1, e0 _ hp hpi, add_zero], fun j hj a _ => e0 j hj a, fun _ => e0 _ hp hpi⟩
  · push Not at h1
    by_cases h0 : s < ε
    · obtain ⟨b, e, _, _, e1, e0⟩ := C28_corner_corner hn hp (f := f) (ε := ε) (by rw [hyp]; exact h0)
        (by change (f (nextIx n (prevIx n i))).y < ε; rw [nextIx_prevIx hi, hyi]; exact hε)
        (by
          intro j hj a c
          have c' : j ≠ i := by rw [← nextIx_prevIx hi]; exact c
          by_cases hjx : j = nextIx n i
          · rw [hjx, hyx]; exact h1
          · exact hfar j hj c' hjx a)
      refine ⟨b, e, by rw [e1, e0 _ hi hpi.symm, zero_add], fun j hj _ a => e0 j hj a, fun h => absurd h (not_lt.mpr h1)⟩
    · push Not at h0
      obtain ⟨b, e, _, _, e1, e0, _⟩ := C28_corner_side hε hn hi (f := f) (by rw [hyi]; exact hε)
        (by
          intro j hj a
          by_cases hjx : j = nextIx n i
          · rw [hjx, hyx]; exact h1
          · by_cases hjp : j = prevIx n i
            · rw [hjp, hyp]; exact h0
            · exact hfar j hj a hjx hjp)
      exact ⟨b, e, e1, e0, fun h => absurd h (not_lt.mpr h1)⟩

/-- The local distances at the points of side `i` are not negative. -/
theorem side_params_y {ε : K} (hε : 0 < ε) {n i : ℕ} {s : K} (h0 : 0 ≤ s) (h1 : s ≤ 1)
    {f : ℕ → P2 K} (hf : SideParams ε n i s f) {j : ℕ} (hj : j < n) : 0 ≤ (f j).y := by
  by_cases a : j = i
  · rw [a, hf.self]
  · by_cases b : j = (i + 1) % n
    · rw [b, hf.next]; dsimp only; linarith
    · by_cases c : j = (i + n - 1) % n
      · rw [c, hf.prevY]; exact h0
      · exact hε.le.trans (hf.far j hj a b c)

/-! ### Values of the building blocks at the points of side `i` -/

section values

variable {ε : K} {S : Surf K} {n i : ℕ} {c : ℕ → Curve K} {s : K} {f : ℕ → P2 K}

/-- The values of the corner interpolants. -/
theorem cornerInterpolant_side (h : Compatible ε S n c) (hε : 0 < ε) (hi : i < n) (h0 : 0 ≤ s) (h1 : s ≤ 1)
    (hf : SideParams ε n i s f) :
    ∃ q : ℕ → P3 K, (∀ j < n, S.cornerInterpolant ε j (tab n f) = .ok (q j)) ∧ q i = (c i).pt s ∧
      (ε ≤ 1 - s → q (prevIx n i) = (c i).pt s) := by
  have hn := h.hn
  have hp : prevIx n i < n := prevIx_lt (by omega)
  have hall : ∀ j < n, ∃ q, S.cornerInterpolant ε j (tab n f) = .ok q := by
    intro j hj
    have hjx : nextIx n j < n := nextIx_lt (by omega)
    obtain ⟨a1, a2⟩ := hf.range j hj
    obtain ⟨b1, b2⟩ := hf.range _ hjx
    unfold cornerInterpolant
    rw [h.len, vget_tab _ hj, M_bind_ok, vget_tab _ hjx, M_bind_ok]
    obtain ⟨x, hx⟩ := h.side_ok hj (f j).x b1
    obtain ⟨y, hy⟩ := h.side_ok hjx (f (nextIx n j)).x (d := 1 - (f j).x) (by linarith)
    obtain ⟨z, hz⟩ := h.corr_ok hε hj (s1 := 1 - (f j).x) (by linarith) b1
    rw [hx, M_bind_ok, hy, M_bind_ok, hz]
    exact ⟨_, rfl⟩
  choose! q hq using hall
  have hnext : f (nextIx n i) = ⟨0, 1 - s⟩ := hf.next
  refine ⟨q, hq, ?_, ?_⟩
  · have e := hq i hi
    have hx : nextIx n i < n := nextIx_lt (by omega)
    unfold cornerInterpolant at e
    rw [h.len, vget_tab _ hi, M_bind_ok, vget_tab _ hx, M_bind_ok, hf.self, hnext] at e
    dsimp only at e
    rw [h.side_base hi h0 h1, M_bind_ok, h.next_corr hε hi (by linarith) (by linarith),
      h.corr_first hε hi (by linarith) (by linarith), M_bind_ok, M_bind_ok, add_sub_cancel_right] at e
    exact (Except.ok.inj e).symm
  · intro hs
    have hpx : (f (prevIx n i)).x = 1 := hf.prevX hs
    have e := hq _ hp
    unfold cornerInterpolant at e
    rw [h.len, nextIx_prevIx hi, vget_tab _ hp, M_bind_ok, vget_tab _ hi, M_bind_ok, hf.self, hpx] at e
    dsimp only at e
    rw [sub_self, h.one_corr hε hp h0 h1, h.corr_second hε hp h0 h1, M_bind_ok, h.side_base hi h0 h1, M_bind_ok, M_bind_ok,
      add_sub_cancel_left] at e
    exact (Except.ok.inj e).symm

/-- The values of the Coons sum. -/
theorem coonsSum_side (h : Compatible ε S n c) (hε : 0 < ε) (hi : i < n) (h0 : 0 ≤ s) (h1 : s ≤ 1)
    (hf : SideParams ε n i s f) {b : ℕ → K} (hb1 : b i + b (prevIx n i) = 1)
    (hb0 : ∀ j < n, j ≠ i → j ≠ prevIx n i → b j = 0) (hbp : 1 - s < ε → b (prevIx n i) = 0) :
    S.coonsSum ε (tab n f) (tab n b) = .ok ((c i).pt s) := by
  have hn := h.hn
  have hp : prevIx n i < n := prevIx_lt (by omega)
  have hx : nextIx n i < n := nextIx_lt (by omega)
  have hs : ∀ j < n, ∃ q, S.sideInterpolant ε j (f j).x (f j).y = .ok q :=
    fun j hj => h.side_ok hj _ (side_params_y hε h0 h1 hf hj)
  have hk : ∀ j < n, ∃ k, S.cornerCorrection ε j (1 - (f j).x) (f (nextIx n j)).x = .ok k := by
    intro j hj
    obtain ⟨a1, a2⟩ := hf.range j hj
    exact h.corr_ok hε hj (by linarith) (hf.range _ (nextIx_lt (by omega))).1
  choose! q hq using hs
  choose! k hk using hk
  have hnext : f (nextIx n i) = ⟨0, 1 - s⟩ := hf.next
  have hprev : (f (prevIx n i)).y = s := hf.prevY
  have q1 : q i = (c i).pt s := by
    have e := hq i hi
    rw [hf.self] at e
    rw [h.side_base hi h0 h1] at e
    exact (Except.ok.inj e).symm
  have q2 : q (nextIx n i) = k i := by
    have e := hq _ hx
    have e' := hk _ hi
    rw [hnext] at e
    rw [hf.self, hnext] at e'
    dsimp only at e e'
    rw [h.next_corr hε hi (by linarith) (by linarith)] at e
    rw [e] at e'
    exact Except.ok.inj e'
  have q3 : ε ≤ 1 - s → q (prevIx n i) = k (prevIx n i) := by
    intro hs
    have hpx : (f (prevIx n i)).x = 1 := hf.prevX hs
    have e := hq _ hp
    have e' := hk _ hp
    rw [hprev, hpx] at e
    rw [hpx, nextIx_prevIx hi, hf.self] at e'
    dsimp only at e'
    rw [sub_self] at e'
    rw [h.one_corr hε hp h0 h1, e'] at e
    exact (Except.ok.inj e).symm
  unfold coonsSum
  rw [h.len, forLoop_sum n _ (fun j => (b j + b (prevIx n j)) • q j - b j • k j), zero_add]
  · congr 1
    have e : ∑ j ∈ Finset.range n, ((b j + b (prevIx n j)) • q j - b j • k j) =
        ∑ j ∈ Finset.range n, b j • (q j + q (nextIx n j) - k j) := by
      have sh := sum_shift (n := n) (by omega) (fun a j => b a • q j)
      simp only [add_smul, smul_sub, smul_add, Finset.sum_add_distrib, Finset.sum_sub_distrib]
      rw [sh]
    rw [e]
    refine sum_blend hn hi hb1 hb0 ?_ ?_
    · rw [q2, q1, add_sub_cancel_right]
    · rcases lt_or_ge (1 - s) ε with hs | hs
      · exact Or.inl (hbp hs)
      · right; rw [nextIx_prevIx hi, q3 hs, q1, add_sub_cancel_left]
  · intro j p hj
    rw [vget_tab _ hj, M_bind_ok, vget_tab _ (nextIx_lt (by omega)), M_bind_ok, vget_tab _ hj, M_bind_ok,
      vget_tab _ (prevIx_lt (by omega)), M_bind_ok, hq j hj, M_bind_ok, hk j hj, M_bind_ok, add_sub_assoc]

omit [LinearOrder K] [Libm K] [IsStrictOrderedRing K] in
theorem hermite_ends : hermite 0 (0 : K) = 1 ∧ hermite 0 (1 : K) = 0 := by simp [hermite]

/-- The values of the composite ribbons. -/
theorem compositeRibbon_side (h : Compatible ε S n c) (hε : 0 < ε) (hi : i < n) (h0 : 0 ≤ s) (h1 : s ≤ 1)
    (hf : SideParams ε n i s f) :
    ∃ q : ℕ → P3 K, (∀ j < n, S.compositeRibbon ε j (f j) = .ok (q j)) ∧ q i = (c i).pt s ∧
      q (nextIx n i) = (c i).pt s ∧ (ε ≤ 1 - s → q (prevIx n i) = (c i).pt s) := by
  have hn := h.hn
  have hp : prevIx n i < n := prevIx_lt (by omega)
  have hx : nextIx n i < n := nextIx_lt (by omega)
  have hall : ∀ j < n, ∃ q, S.compositeRibbon ε j (f j) = .ok q := by
    intro j hj
    have hjx : nextIx n j < n := nextIx_lt (by omega)
    have hjp : prevIx n j < n := prevIx_lt (by omega)
    obtain ⟨a1, a2⟩ := hf.range j hj
    have hy := side_params_y hε h0 h1 hf hj
    unfold compositeRibbon
    rw [h.len]
    dsimp only
    obtain ⟨x1, e1⟩ := h.side_ok hj (f j).x hy
    obtain ⟨x2, e2⟩ := h.side_ok hjp (1 - (f j).y) a1
    obtain ⟨x3, e3⟩ := h.side_ok hjx (f j).y (d := 1 - (f j).x) (by linarith)
    obtain ⟨x4, e4⟩ := h.corr_ok hε hjp hy a1
    obtain ⟨x5, e5⟩ := h.corr_ok hε hj (s1 := 1 - (f j).x) (by linarith) hy
    rw [e1, M_bind_ok, e2, M_bind_ok, e3, M_bind_ok, e4, M_bind_ok, e5]
    exact ⟨_, rfl⟩
  choose! q hq using hall
  obtain ⟨H0, H1⟩ := hermite_ends (K := K)
  have hnext : f (nextIx n i) = ⟨0, 1 - s⟩ := hf.next
  refine ⟨q, hq, ?_, ?_, ?_⟩
  · have e := hq i hi
    unfold compositeRibbon at e
    rw [h.len, hf.self] at e
    dsimp only at e
    rw [h.side_base hi h0 h1, sub_zero, h.one_corr hε hp h0 h1, h.corr_second hε hp h0 h1,
      h.next_corr hε hi (by linarith) (by linarith), h.corr_first hε hi (by linarith) (by linarith), H0] at e
    simp only [M_bind_ok] at e
    rw [← Except.ok.inj e]
    module
  · have e := hq _ hx
    unfold compositeRibbon at e
    rw [h.len, hnext] at e
    dsimp only at e
    obtain ⟨z, hz⟩ := h.side_ok (nextIx_lt (i := nextIx n i) (j := 1) (by omega)) (1 - s) (d := 1 - 0) (by norm_num)
    obtain ⟨w, hw⟩ := h.corr_ok hε hx (s1 := 1 - 0) (s2 := 1 - s) (by norm_num) (by linarith)
    rw [prevIx_nextIx hi, h.next_corr hε hi (by linarith) (by linarith), h.corr_first hε hi (by linarith) (by linarith),
      sub_sub_cancel, h.side_base hi h0 h1, hz, hw, H0] at e
    simp only [M_bind_ok] at e
    rw [← Except.ok.inj e]
    module
  · intro hs
    have e := hq _ hp
    have hpx : f (prevIx n i) = ⟨1, s⟩ := by
      ext
      · exact hf.prevX hs
      · exact hf.prevY
    unfold compositeRibbon at e
    rw [h.len, hpx] at e
    dsimp only at e
    obtain ⟨z, hz⟩ := h.side_ok (prevIx_lt (i := prevIx n i) (j := 1) (by omega)) (1 - s) (d := 1) zero_le_one
    obtain ⟨w, hw⟩ := h.corr_ok hε (prevIx_lt (i := prevIx n i) (j := 1) (by omega)) h0 (s2 := 1) zero_le_one
    rw [nextIx_prevIx hi, sub_self, h.one_corr hε hp h0 h1, h.corr_second hε hp h0 h1, h.side_base hi h0 h1, hz, hw, H1] at e
    simp only [M_bind_ok] at e
    rw [← Except.ok.inj e]
    module

end values

end Surf

end Transfinite
