import Verif.Props.Midpoint

/-! # C34, C35: the boundary within the tolerance of a corner -/

namespace Transfinite

open Spec Real

/-- The excess of the sum of the deficient blends over 1 at the point `s` of a side: zero at the corners and at the points that are not within
the tolerance of a corner. -/
noncomputable def Spec.bump (ε s : ℝ) : ℝ := if s < ε then s ^ 2 * (3 - 2 * s) else if 1 - s < ε then (1 - s) ^ 2 * (1 + 2 * s) else 0

open Surf in
/-- C29: the deficient blends on the whole side. -/
theorem C29_band {ε : ℝ} (hε : 0 < ε) (hε2 : ε ≤ 1 / 2) {n i : ℕ} (hn : 3 ≤ n) (hi : i < n) {s : ℝ} {f : ℕ → P2 ℝ}
    (s0 : 0 ≤ s) (s1 : s ≤ 1) (hf : SideParams ε n i s f) (hprevX : s ≠ 1 → (f ((i + n - 1) % n)).x = 1)
    (hfar : ∀ j < n, j ≠ i → j ≠ (i + 1) % n → j ≠ (i + n - 1) % n → (f j).y = 1) :
    ∃ b : ℕ → ℝ, blendCornerDeficient ε n (tab n f) = .ok (tab n b) ∧
      (∀ j < n, j ≠ i → j ≠ (i + n - 1) % n → b j = 0) ∧ b i + b ((i + n - 1) % n) = 1 + bump ε s ∧
      (s = 1 → b ((i + n - 1) % n) = 0) ∧ ∑ j ∈ Finset.range n, b j = 1 + bump ε s := by
  have hx : nextIx n i < n := nextIx_lt (by omega)
  have hp : prevIx n i < n := prevIx_lt (by omega)
  have hxi : nextIx n i ≠ i := Param.next_ne (by omega) hi
  have hpi : prevIx n i ≠ i := Param.prev_ne (by omega) hi
  have hpx : nextIx n i ≠ prevIx n i := Param.next_ne_prev hn hi
  have H0 : hermite 0 (0 : ℝ) = 1 := by simp [hermite]
  have H1 : hermite 0 (1 : ℝ) = 0 := by simp [hermite]
  have hself := hf.self
  have hnext : f (nextIx n i) = ⟨0, 1 - s⟩ := hf.next
  have hprev : (f (prevIx n i)).y = s := hf.prevY
  replace hprevX : s ≠ 1 → (f (prevIx n i)).x = 1 := hprevX
  have hnn : ∀ j < n, nextIx n j = i ↔ j = prevIx n i := by
    intro j hj
    constructor
    · intro e; rw [← e, prevIx_nextIx hj]
    · rintro rfl; exact nextIx_prevIx hi
  have hval : ∀ j < n, deficientBlend ε (f j) (f (nextIx n j)) =
      .ok (if j = i then (if 1 - s < ε then 1 else hermite 0 (1 - s)) else if j = prevIx n i then (if s < ε then 1 else hermite 0 s) else 0) := by
    intro j hj
    unfold deficientBlend
    by_cases hji : j = i
    · subst hji
      rw [if_pos rfl, hself, hnext]
      dsimp only
      by_cases h1 : 1 - s < ε
      · rw [if_pos ⟨hε, h1⟩, if_pos h1]
      · rw [if_neg (by rintro ⟨_, h⟩; exact h1 h), fdiv_of_ne (by linarith), if_neg h1]
        congr 1
        rw [H0, zero_add]
        have : 1 - s ≠ 0 := by linarith
        field_simp
        ring
    · rw [if_neg hji]
      by_cases hjp : j = prevIx n i
      · have e : nextIx n j = i := (hnn j hj).mpr hjp
        rw [if_pos hjp, e, hjp, hself]
        dsimp only
        rw [hprev]
        by_cases h0 : s < ε
        · rw [if_pos ⟨h0, hε⟩, if_pos h0]
        · rw [if_neg (by rintro ⟨h, _⟩; exact h0 h), fdiv_of_ne (by linarith), if_neg h0]
          congr 1
          rw [H0, add_zero]
          have : s ≠ 0 := by linarith
          field_simp
          ring
      · rw [if_neg hjp]
        -- a corner not on the side
        have hjj : nextIx n j < n := nextIx_lt (by omega)
        have hnj : nextIx n j ≠ i := fun e => hjp ((hnn j hj).mp e)
        have hnjx : nextIx n j ≠ nextIx n i := by
          intro e
          apply hji
          rw [← prevIx_nextIx hj, e, prevIx_nextIx hi]
        by_cases hjx : j = nextIx n i
        · -- the next side
          rw [hjx] at hjj hnj hnjx ⊢
          rw [hnext]
          dsimp only
          have hy : (f (nextIx n (nextIx n i))).y = s ∨ (f (nextIx n (nextIx n i))).y = 1 := by
            by_cases c : nextIx n (nextIx n i) = prevIx n i
            · left; rw [c, hprev]
            · right; exact hfar _ hjj hnj hnjx c
          have hz : (1 - s) * hermite 0 (f (nextIx n (nextIx n i))).x * hermite 0 (f (nextIx n (nextIx n i))).y = 0 := by
            by_cases c : nextIx n (nextIx n i) = prevIx n i
            · by_cases hs : s = 1
              · rw [hs, sub_self, zero_mul, zero_mul]
              · rw [c, hprevX hs, H1, mul_zero, zero_mul]
            · rw [hfar _ hjj hnj hnjx c, H1, mul_zero]
          rw [if_neg, fdiv_of_ne]
          · congr 1
            rw [sub_zero, H1, mul_zero, zero_mul, zero_add, hz, zero_div]
          · rcases hy with hy | hy <;> rw [hy] <;> linarith
          · rintro ⟨a, b⟩
            rcases hy with hy | hy <;> rw [hy] at b <;> linarith
        · have hy1 : (f j).y = 1 := hfar j hj hji hjx hjp
          have hz : 1 * hermite 0 (f (nextIx n j)).x * hermite 0 (f (nextIx n j)).y = 0 := by
            by_cases c : nextIx n j = prevIx n i
            · by_cases hs : s = 1
              · rw [c, hprev, hs, H1, mul_zero]
              · rw [c, hprevX hs, H1, mul_zero, zero_mul]
            · rw [hfar _ hjj hnj hnjx c, H1, mul_zero]
          have hy2 : 0 ≤ (f (nextIx n j)).y := by
            by_cases c : nextIx n j = prevIx n i
            · rw [c, hprev]; exact s0
            · rw [hfar _ hjj hnj hnjx c]; exact zero_le_one
          rw [hy1, if_neg (by rintro ⟨h, _⟩; linarith), fdiv_of_ne (by linarith), hz, H1, mul_zero, zero_add, zero_div]
  have hsum : (if 1 - s < ε then 1 else hermite 0 (1 - s)) + (if s < ε then 1 else hermite 0 s) = 1 + bump ε s := by
    have e : ∀ x : ℝ, hermite 0 x = (1 - x) ^ 3 + 3 * (1 - x) ^ 2 * x := fun x => by simp [hermite]
    rw [e, e]
    unfold bump
    split_ifs
    · exfalso; linarith
    · ring
    · ring
    · ring
  refine ⟨fun j => if j = i then (if 1 - s < ε then 1 else hermite 0 (1 - s)) else if j = prevIx n i then (if s < ε then 1 else hermite 0 s) else 0, ?_, ?_, ?_, ?_, ?_⟩
  · unfold blendCornerDeficient
    refine (forLoop_push n _ _ [] ?_).trans (by rw [List.nil_append, tab])
    intro j l hj
    rw [vget_tab _ hj, M_bind_ok, vget_tab _ (nextIx_lt (by omega)), M_bind_ok, hval j hj, M_bind_ok]
  · intro j _ a b; exact (if_neg a).trans (if_neg b)
  · change (if i = i then _ else _) + (if prevIx n i = i then _ else if prevIx n i = prevIx n i then _ else _) = _
    rw [if_pos rfl, if_neg hpi, if_pos rfl, hsum]
  · intro h
    change (if prevIx n i = i then _ else if prevIx n i = prevIx n i then _ else _) = _
    rw [if_neg hpi, if_pos rfl, h, if_neg (by linarith), H1]
  · rw [Finset.sum_eq_add_of_mem i (prevIx n i) (Finset.mem_range.mpr hi) (Finset.mem_range.mpr hp) hpi.symm]
    · rw [if_pos rfl, if_neg hpi, if_pos rfl, hsum]
    · intro j _ hj; rw [if_neg hj.1, if_neg hj.2]

/-- Barycentric parameters of the points of a side of a regular polygon with at least four sides: the previous side gets `(1,s)` everywhere. -/
theorem bary_sideParams_four {n : ℕ} (h4 : 4 ≤ n) {r φ : ℝ} (hr : 1 ≤ r) {d : Domain ℝ} (h : ConvexDomain d n (regularVertex n r φ)) {ε : ℝ} (hε : 0 < ε)
    (hle : ε ≤ sin (2 * π / n) ^ 2 * sin (π / n)) {i : ℕ} (hi : i < n) {s : ℝ} (h0 : 0 ≤ s) (h1 : s ≤ 1) {q : P2 ℝ}
    (hq : Param.baryMap ε .wachspress d (prevIx n i) (sidePoint n (regularVertex n r φ) i s) = .ok q) : q.x = 1 := by
  have hn := h.hn
  have hp : prevIx n i < n := prevIx_lt (by omega)
  have hpp : prevIx n (prevIx n i) < n := prevIx_lt (by omega)
  have hpi : prevIx n i ≠ i := Param.prev_ne (by omega) hi
  obtain ⟨sp1, sp2⟩ := sin_pi_div_pos hn
  have su1 := sin_le_one (π / n)
  have su2 := sin_le_one (2 * π / n)
  have hε1 : ε ≤ 1 := by
    have : sin (2 * π / n) ^ 2 ≤ 1 := by nlinarith
    nlinarith
  have hr0 : 0 < r := by linarith
  obtain ⟨l0, l1, l2, l3⟩ := regular_side hn (r := r) (φ := φ) hi h0 h1
  by_cases hs : ε ≤ 1 - s
  · obtain ⟨p, e, _, _, ⟨x, e', _, _, k⟩, _⟩ := C12_map_side h hε hε1 hi h0 h1
    rw [h.edgePoint hi] at e
    cases e
    rw [show (i + n - 1) % n = prevIx n i from rfl, hq] at e'
    cases e'
    exact k hs
  · have hpp1 : prevIx n (prevIx n i) ≠ i := by
      intro q
      exact Param.next_ne_prev hn hi (by rw [← nextIx_prevIx hp, q])
    have hpp2 : prevIx n (prevIx n i) ≠ prevIx n i := Param.prev_ne (by omega) hp
    have hpp3 : prevIx n (prevIx n i) ≠ nextIx n i := by
      intro q
      rw [nextIx_eq hi, prevIx_eq hp, prevIx_eq hi] at q
      split_ifs at q <;> omega
    have hA := (l3 _ hpp hpp1 hpp3 hpp2).1
    have hb : Param.barycentric ε .wachspress d (sidePoint n (regularVertex n r φ) i s) =
        .ok (tab n fun j => if j = i then s else if j = prevIx n i then 1 - s else 0) := by
      unfold Param.barycentric
      rw [h.vertices_eq, length_tab]
      exact Param.baryWith_side hn h.convex hε hi h0 h1 (fun _ _ => hε1)
    have hcj : (if prevIx n (prevIx n i) = i then s else if prevIx n (prevIx n i) = prevIx n i then 1 - s else 0) +
        (if prevIx n i = i then s else if prevIx n i = prevIx n i then 1 - s else 0) < ε := by
      rw [if_neg hpp1, if_neg hpp2, if_neg hpi, if_pos rfl]; linarith
    have hval := regular_baryMapWith hr h hε (c := fun j => if j = i then s else if j = prevIx n i then 1 - s else 0) hp hcj
      (uv := sidePoint n (regularVertex n r φ) i s) (by
        rw [nextIx_prevIx hi, l0, add_zero, le_div_iff₀ hr0]
        have q1 : sin (2 * π / n) / 2 * (r ^ 2 * (4 * sin (π / n) ^ 2) * sin (2 * π / n)) ≤ sin (2 * π / n) / 2 * _ :=
          mul_le_mul_of_nonneg_left hA (by positivity)
        refine le_trans ?_ q1
        have q2 : ε * (sin (π / n) * r) ≤ sin (2 * π / n) ^ 2 * sin (π / n) * (sin (π / n) * r) :=
          mul_le_mul_of_nonneg_right hle (by positivity)
        have q3 : 0 ≤ sin (2 * π / n) ^ 2 * sin (π / n) ^ 2 * r := by positivity
        have q4 : sin (2 * π / n) ^ 2 * sin (π / n) ^ 2 * r ≤ sin (2 * π / n) ^ 2 * sin (π / n) ^ 2 * r * r := by nlinarith
        nlinarith)
    unfold Param.baryMap at hq
    rw [hb, M_bind_ok, hval, nextIx_prevIx hi, l0, add_zero] at hq
    have hHp : 0 < r ^ 2 * (4 * sin (π / n) ^ 2) * sin (2 * π / n) := by positivity
    rw [← Except.ok.inj hq]
    exact div_self (by linarith)


namespace Surf

variable {ε : ℝ} {S : Surf ℝ} {n i : ℕ} {c : ℕ → Curve ℝ} {s : ℝ} {f : ℕ → P2 ℝ}

private theorem sum_two {n i : ℕ} (hn : 3 ≤ n) (hi : i < n) {b : ℕ → ℝ} {q : ℕ → P3 ℝ} {p : P3 ℝ} {m : ℝ}
    (h1 : b i + b (prevIx n i) = m) (h0 : ∀ j < n, j ≠ i → j ≠ prevIx n i → b j = 0)
    (hqi : q i = p) (hqp : b (prevIx n i) = 0 ∨ q (prevIx n i) = p) : ∑ j ∈ Finset.range n, b j • q j = m • p := by
  have hp : prevIx n i < n := prevIx_lt (by omega)
  rw [Finset.sum_eq_add_of_mem i (prevIx n i) (Finset.mem_range.mpr hi) (Finset.mem_range.mpr hp)
    (Param.prev_ne (by omega) hi).symm]
  · have e : b (prevIx n i) • q (prevIx n i) = b (prevIx n i) • p := by
      rcases hqp with h | h
      · rw [h, zero_smul, zero_smul]
      · rw [h]
    rw [hqi, e, ← add_smul, h1]
  · intro j hj hne
    rw [h0 j (Finset.mem_range.mp hj) hne.1 hne.2, zero_smul]

private theorem prev_interpolant (h : Compatible ε S n c) (hε : 0 < ε) (hi : i < n) (h0 : 0 ≤ s) (h1 : s ≤ 1) (hf : SideParams ε n i s f)
    (hpx : (f (prevIx n i)).x = 1) : S.cornerInterpolant ε (prevIx n i) (tab n f) = .ok ((c i).pt s) := by
  have hn := h.hn
  have hp : prevIx n i < n := prevIx_lt (by omega)
  unfold cornerInterpolant
  rw [h.len, nextIx_prevIx hi, vget_tab _ hp, M_bind_ok, vget_tab _ hi, M_bind_ok, hf.self, hpx]
  dsimp only
  rw [sub_self, h.one_corr hε hp h0 h1, h.corr_second hε hp h0 h1, M_bind_ok, h.side_base hi h0 h1, M_bind_ok, M_bind_ok, add_sub_cancel_left]

theorem midpoint_band (h : Compatible ε S n c) (hε : 0 < ε) (hε2 : ε ≤ 1 / 2) (hi : i < n) (s0 : 0 ≤ s) (s1 : s ≤ 1)
    (hf : SideParams ε n i s f) (hprevX : s ≠ 1 → (f ((i + n - 1) % n)).x = 1)
    (hfar : ∀ j < n, j ≠ i → j ≠ (i + 1) % n → j ≠ (i + n - 1) % n → (f j).y = 1) (central : P3 ℝ) :
    S.midpoint ε central (tab n f) = .ok ((c i).pt s + bump ε s • ((c i).pt s - central)) := by
  obtain ⟨b, e, hb0, hb1, hbs, hs⟩ := C29_band hε hε2 h.hn hi s0 s1 hf hprevX hfar
  obtain ⟨q, hq, hq1, _⟩ := cornerInterpolant_side h hε hi s0 s1 hf
  have hp : prevIx n i < n := prevIx_lt (by have := h.hn; omega)
  unfold midpoint
  rw [h.len, e, M_bind_ok, forLoop_sum n _ (fun j => b j • q j), zero_add, M_bind_ok, sum_tab, hs]
  · congr 1
    rw [sum_two h.hn hi hb1 hb0 hq1 ?_]
    · module
    · by_cases hs1 : s = 1
      · exact Or.inl (hbs hs1)
      · right
        have := hq _ hp
        rw [prev_interpolant h hε hi s0 s1 hf (hprevX hs1)] at this
        exact (Except.ok.inj this).symm
  · intro j p hj
    rw [hq j hj, M_bind_ok, vget_tab _ hj, M_bind_ok]

/-- The values of the Coons sum for blends with any sum. -/
theorem coonsSum_band (h : Compatible ε S n c) (hε : 0 < ε) (hi : i < n) (h0 : 0 ≤ s) (h1 : s ≤ 1)
    (hf : SideParams ε n i s f) {b : ℕ → ℝ} {m : ℝ} (hb1 : b i + b (prevIx n i) = m)
    (hb0 : ∀ j < n, j ≠ i → j ≠ prevIx n i → b j = 0) (hbp : 1 - s < ε → b (prevIx n i) = 0) :
    S.coonsSum ε (tab n f) (tab n b) = .ok (m • (c i).pt s) := by
  have hn := h.hn
  have hp : prevIx n i < n := prevIx_lt (by omega)
  have hx : nextIx n i < n := nextIx_lt (by omega)
  have hs : ∀ j < n, ∃ q, S.sideInterpolant ε j (f j).x (f j).y = .ok q :=
    fun j hj => h.side_ok hj _ (side_params_y hε h0 h1 hf hj)
  have hk : ∀ j < n, ∃ k, S.cornerCorrection ε j (1 - (f j).x) (f (nextIx n j)).x = .ok k := by
    intro j hj
    obtain ⟨a1, a2⟩ := hf.range j hj
    exact h.corr_ok hε hj (by linarith) (hf.range _ (nextIx_lt (by omega))).1
  choose! q hq using hs
  choose! k hk using hk
  have hnext : f (nextIx n i) = ⟨0, 1 - s⟩ := hf.next
  have hprev : (f (prevIx n i)).y = s := hf.prevY
  have q1 : q i = (c i).pt s := by
    have e := hq i hi
    rw [hf.self] at e
    rw [h.side_base hi h0 h1] at e
    exact (Except.ok.inj e).symm
  have q2 : q (nextIx n i) = k i := by
    have e := hq _ hx
    have e' := hk _ hi
    rw [hnext] at e
    rw [hf.self, hnext] at e'
    dsimp only at e e'
    rw [h.next_corr hε hi (by linarith) (by linarith)] at e
    rw [e] at e'
    exact Except.ok.inj e'
  have q3 : ε ≤ 1 - s → q (prevIx n i) = k (prevIx n i) := by
    intro hs
    have hpx : (f (prevIx n i)).x = 1 := hf.prevX hs
    have e := hq _ hp
    have e' := hk _ hp
    rw [hprev, hpx] at e
    rw [hpx, nextIx_prevIx hi, hf.self] at e'
    dsimp only at e'
    rw [sub_self] at e'
    rw [h.one_corr hε hp h0 h1, e'] at e
    exact (Except.ok.inj e).symm
  unfold coonsSum
  rw [h.len, forLoop_sum n _ (fun j => (b j + b (prevIx n j)) • q j - b j • k j), zero_add]
  · congr 1
    have e : ∑ j ∈ Finset.range n, ((b j + b (prevIx n j)) • q j - b j • k j) =
        ∑ j ∈ Finset.range n, b j • (q j + q (nextIx n j) - k j) := by
      have sh := sum_shift (n := n) (by omega) (fun a j => b a • q j)
      simp only [add_smul, smul_sub, smul_add, Finset.sum_add_distrib, Finset.sum_sub_distrib]
      rw [sh]
    rw [e]
    refine sum_two hn hi hb1 hb0 ?_ ?_
    · rw [q2, q1, add_sub_cancel_right]
    · rcases lt_or_ge (1 - s) ε with hs | hs
      · exact Or.inl (hbp hs)
      · right; rw [nextIx_prevIx hi, q3 hs, q1, add_sub_cancel_left]
  · intro j p hj
    rw [vget_tab _ hj, M_bind_ok, vget_tab _ (nextIx_lt (by omega)), M_bind_ok, vget_tab _ hj, M_bind_ok,
      vget_tab _ (prevIx_lt (by omega)), M_bind_ok, hq j hj, M_bind_ok, hk j hj, M_bind_ok, add_sub_assoc]

theorem midpointCoons_band (h : Compatible ε S n c) (hε : 0 < ε) (hε2 : ε ≤ 1 / 2) (hi : i < n) (s0 : 0 ≤ s) (hs1 : ε ≤ 1 - s ∨ s = 1)
    (hf : SideParams ε n i s f) (hfar : ∀ j < n, j ≠ i → j ≠ (i + 1) % n → j ≠ (i + n - 1) % n → (f j).y = 1) (central : P3 ℝ) :
    S.midpointCoons ε central (tab n f) = .ok ((c i).pt s + bump ε s • ((c i).pt s - central)) := by
  have s1 : s ≤ 1 := by rcases hs1 with q | q <;> linarith
  obtain ⟨b, e, hb0, hb1, hbs, hs⟩ := C29_band hε hε2 h.hn hi s0 s1 hf (fun q => hf.prevX (hs1.resolve_right q)) hfar
  unfold midpointCoons
  rw [h.len, e, M_bind_ok, coonsSum_band h hε hi s0 s1 hf hb1 hb0, M_bind_ok, sum_tab, hs]
  · congr 1
    module
  · intro q
    exact hbs (hs1.resolve_left (by linarith))

/-- The C0 Coons surface on a side: all ribbons agree, except for that of the previous side. -/
theorem c0Coons_band (hn : 3 ≤ n) (hS : S.n = n) (hi : i < n) (h0 : 0 ≤ s) (h1 : s ≤ 1) (hf : SideParams ε n i s f)
    (hfar : ∀ j < n, j ≠ i → j ≠ (i + 1) % n → j ≠ (i + n - 1) % n → (f j).y = 1)
    (hr : ∀ j < n, ∃ r, vget S.ribbons j = .ok r ∧ (∀ x, 0 ≤ x → x ≤ 1 → r.eval ε ⟨x, 0⟩ = .ok ((c j).pt x)) ∧
      (∀ x, 0 ≤ x → x ≤ 1 → r.eval ε ⟨0, x⟩ = .ok ((c (prevIx n j)).pt (1 - x))) ∧
      (∀ x, 0 ≤ x → x ≤ 1 → r.eval ε ⟨1, x⟩ = .ok ((c (nextIx n j)).pt x)) ∧ ∀ sd, ∃ q, r.eval ε sd = .ok q)
    {p : P3 ℝ} (hpx : ((f (prevIx n i)).x = 1 ∧ p = (c i).pt s) ∨ ((f (prevIx n i)).x = 0 ∧ p = (c (prevIx n (prevIx n i))).pt (1 - s))) :
    S.c0Coons ε (tab n f) = .ok ((c i).pt s + ((1 - s) / 2) • (p - (c i).pt s)) := by
  have hx : nextIx n i < n := nextIx_lt (by omega)
  have hp : prevIx n i < n := prevIx_lt (by omega)
  have hxi : nextIx n i ≠ i := Param.next_ne (by omega) hi
  have hpi : prevIx n i ≠ i := Param.prev_ne (by omega) hi
  have hpx' : nextIx n i ≠ prevIx n i := Param.next_ne_prev hn hi
  have hnext : f (nextIx n i) = ⟨0, 1 - s⟩ := hf.next
  have hq : ∀ j < n, ∃ q, (do let r ← vget S.ribbons j; r.eval ε (f j) : M (P3 ℝ)) = .ok q := by
    intro j hj
    obtain ⟨r, e, _, _, _, e'⟩ := hr j hj
    rw [e, M_bind_ok]
    exact e' _
  choose! q hq using hq
  have q1 : q i = (c i).pt s := by
    obtain ⟨r, e, e', _⟩ := hr i hi
    have := hq i hi
    rw [e, M_bind_ok, hf.self, e' s h0 h1] at this
    exact (Except.ok.inj this).symm
  have q2 : q (nextIx n i) = (c i).pt s := by
    obtain ⟨r, e, _, e', _⟩ := hr _ hx
    have := hq _ hx
    rw [e, M_bind_ok, hnext, e' _ (by linarith) (by linarith), prevIx_nextIx hi, sub_sub_cancel] at this
    exact (Except.ok.inj this).symm
  have q3 : q (prevIx n i) = p := by
    obtain ⟨r, e, _, e0, e1, _⟩ := hr _ hp
    have := hq _ hp
    have fy : (f (prevIx n i)).y = s := hf.prevY
    rcases hpx with ⟨w, hw⟩ | ⟨w, hw⟩
    · have hfp : f (prevIx n i) = ⟨1, s⟩ := P2.ext w fy
      rw [e, M_bind_ok, hfp, e1 _ h0 h1, nextIx_prevIx hi] at this
      rw [hw]; exact (Except.ok.inj this).symm
    · have hfp : f (prevIx n i) = ⟨0, s⟩ := P2.ext w fy
      rw [e, M_bind_ok, hfp, e0 _ h0 h1] at this
      rw [hw]; exact (Except.ok.inj this).symm
  unfold c0Coons
  rw [hS, forLoop_sum n _ (fun j => ((1 - (f j).y) / 2) • q j), zero_add]
  · congr 1
    have hsub : ({i, nextIx n i, prevIx n i} : Finset ℕ) ⊆ Finset.range n := by
      intro j hj
      simp only [Finset.mem_insert, Finset.mem_singleton] at hj
      rcases hj with rfl | rfl | rfl <;> simpa
    rw [← Finset.sum_subset hsub]
    · rw [Finset.sum_insert (by simp [hxi.symm, hpi.symm]), Finset.sum_insert (by simpa using hpx'), Finset.sum_singleton, q1, q2, q3]
      have e1 : (f i).y = 0 := by rw [hf.self]
      have e2 : (f (nextIx n i)).y = 1 - s := by rw [hnext]
      have e3 : (f (prevIx n i)).y = s := hf.prevY
      rw [e1, e2, e3]
      module
    · intro j hj hj'
      simp only [Finset.mem_insert, Finset.mem_singleton, not_or] at hj'
      rw [hfar j (Finset.mem_range.mp hj) hj'.1 hj'.2.1 hj'.2.2, sub_self, zero_div, zero_smul]
  · intro j p hj
    obtain ⟨r, e, _⟩ := hr j hj
    have := hq j hj
    rw [e, M_bind_ok] at this
    rw [vget_tab _ hj, M_bind_ok, e, M_bind_ok, this, M_bind_ok]

end Surf

/-- Barycentric parameters of the points of a side of a regular polygon: the previous side gets `(1,s)` or `(0,s)`. -/
theorem bary_prev_cases {n : ℕ} {r φ : ℝ} (hr : 1 ≤ r) {d : Domain ℝ} (h : ConvexDomain d n (regularVertex n r φ)) {ε : ℝ} (hε : 0 < ε) (hε1 : ε ≤ 1)
    {i : ℕ} (hi : i < n) {s : ℝ} (h0 : 0 ≤ s) (h1 : s ≤ 1) {q : P2 ℝ}
    (hq : Param.baryMap ε .wachspress d (prevIx n i) (sidePoint n (regularVertex n r φ) i s) = .ok q) : q.x = 1 ∨ q.x = 0 ∧ 1 - s < ε := by
  have hn := h.hn
  have hp : prevIx n i < n := prevIx_lt (by omega)
  have hpp : prevIx n (prevIx n i) < n := prevIx_lt (by omega)
  have hpi : prevIx n i ≠ i := Param.prev_ne (by omega) hi
  obtain ⟨sp1, sp2⟩ := sin_pi_div_pos hn
  have hr0 : 0 < r := by linarith
  obtain ⟨l0, l1, l2, l3⟩ := regular_side hn (r := r) (φ := φ) hi h0 h1
  by_cases hs : ε ≤ 1 - s
  · obtain ⟨p, e, _, _, ⟨x, e', _, _, k⟩, _⟩ := C12_map_side h hε hε1 hi h0 h1
    rw [h.edgePoint hi] at e
    cases e
    rw [show (i + n - 1) % n = prevIx n i from rfl, hq] at e'
    cases e'
    exact Or.inl (k hs)
  · have hpp1 : prevIx n (prevIx n i) ≠ i := by
      intro q
      exact Param.next_ne_prev hn hi (by rw [← nextIx_prevIx hp, q])
    have hpp2 : prevIx n (prevIx n i) ≠ prevIx n i := Param.prev_ne (by omega) hp
    have hb : Param.barycentric ε .wachspress d (sidePoint n (regularVertex n r φ) i s) =
        .ok (tab n fun j => if j = i then s else if j = prevIx n i then 1 - s else 0) := by
      unfold Param.barycentric
      rw [h.vertices_eq, length_tab]
      exact Param.baryWith_side hn h.convex hε hi h0 h1 (fun _ _ => hε1)
    obtain ⟨cc, hcc⟩ : ∃ cc : ℕ → ℝ, cc = fun j => if j = i then s else if j = prevIx n i then 1 - s else 0 := ⟨_, rfl⟩
    rw [← hcc] at hb
    have hcj : cc (prevIx n (prevIx n i)) + cc (prevIx n i) < ε := by
      rw [hcc]
      dsimp only
      rw [if_neg hpp1, if_neg hpp2, if_neg hpi, if_pos rfl]; linarith
    by_cases hbig : ε * sin (π / n) ≤ sin (2 * π / n) / 2 * (leftOf n (regularVertex n r φ) (prevIx n (prevIx n i)) (sidePoint n (regularVertex n r φ) i s) +
        leftOf n (regularVertex n r φ) (nextIx n (prevIx n i)) (sidePoint n (regularVertex n r φ) i s)) / r
    · have hval := regular_baryMapWith hr h hε (c := cc) hp hcj
        (uv := sidePoint n (regularVertex n r φ) i s) hbig
      unfold Param.baryMap at hq
      rw [hb, M_bind_ok, hval, nextIx_prevIx hi, l0, add_zero] at hq
      rw [nextIx_prevIx hi, l0, add_zero] at hbig
      rw [← Except.ok.inj hq]
      refine Or.inl (div_self ?_)
      intro z
      rw [z, mul_zero, zero_div] at hbig
      have := mul_pos hε sp1
      linarith
    · right
      refine ⟨?_, not_le.mp hs⟩
      unfold Param.baryMap at hq
      rw [hb, M_bind_ok] at hq
      unfold Param.baryMapWith at hq
      simp only [h.length_eq] at hq
      rw [vget_tab _ hpp, vget_tab _ hp] at hq
      simp only [M_bind_ok] at hq
      rw [if_pos hcj] at hq
      obtain ⟨a, ea, ha⟩ := regular_angle hr0 h hp
      obtain ⟨b, eb, hb'⟩ := regular_angle hr0 h hpp
      obtain ⟨tp, etp⟩ := h.toLocal_self hpp (sidePoint n (regularVertex n r φ) i s)
      have etn := h.toLocal_prev (nextIx_lt (i := prevIx n i) (j := 1) (by omega) : nextIx n (prevIx n i) < n) (sidePoint n (regularVertex n r φ) i s)
      rw [prevIx_nextIx hp] at etn
      have len : ∀ k < n, d.edgeLength k = .ok (r * (2 * sin (π / n))) := by
        intro k hk
        unfold Domain.edgeLength
        rw [h.n_eq, h.vget_vertex hk, h.vget_vertex (prevIx_lt (by omega))]
        change Except.ok (√(P2.dot (duOf n (regularVertex n r φ) k) (duOf n (regularVertex n r φ) k))) = _
        rw [regular_du hn, show r ^ 2 * (4 * sin (π / n) ^ 2) = (r * (2 * sin (π / n))) ^ 2 by ring, Real.sqrt_sq (by positivity)]
      rw [ea, eb, h.vget_vertex hpp, h.vget_vertex hp] at hq
      simp only [M_bind_ok] at hq
      rw [etp, len _ hpp, etn, len _ (nextIx_lt (by omega))] at hq
      simp only [M_bind_ok] at hq
      rw [regular_du hn, regular_du hn] at hq
      rw [nextIx_prevIx hi, l0, add_zero] at hbig
      rw [nextIx_prevIx hi, l0] at hq
      generalize leftOf n (regularVertex n r φ) (prevIx n (prevIx n i)) (sidePoint n (regularVertex n r φ) i s) = A at *
      have key : sin a * (A / (r ^ 2 * (4 * sin (π / n) ^ 2)) * (r * (2 * sin (π / n)))) + sin b * (0 / (r ^ 2 * (4 * sin (π / n) ^ 2)) * (r * (2 * sin (π / n)))) < ε := by
        rw [ha, zero_div, zero_mul, mul_zero, add_zero]
        have e : sin (2 * π / n) * (A / (r ^ 2 * (4 * sin (π / n) ^ 2)) * (r * (2 * sin (π / n)))) = sin (2 * π / n) / 2 * A / r / sin (π / n) := by
          field_simp; ring
        rw [e, div_lt_iff₀ sp1]
        exact not_le.mp hbig
      change (if sin a * (A / (r ^ 2 * (4 * sin (π / n) ^ 2)) * (r * (2 * sin (π / n)))) +
        sin b * (0 / (r ^ 2 * (4 * sin (π / n) ^ 2)) * (r * (2 * sin (π / n)))) < ε then
        (.ok _ : M (P2 ℝ)) else _) = _ at hq
      rw [if_pos key] at hq
      rw [← Except.ok.inj hq]

section patches
variable {ε : ℝ} {n : ℕ} {c : ℕ → Curve ℝ} {P : Patch ℝ} {i : ℕ} {s : ℝ}

private theorem value {ε : ℝ} {n : ℕ} {c : ℕ → Curve ℝ} {P : Patch ℝ} (h : Patch.Ready ε P n c) {v : ℕ → P2 ℝ}
    (hd : ConvexDomain P.dom.dom n v) {i : ℕ} (hi : i < n) {s : ℝ} {f : ℕ → P2 ℝ} {p : P3 ℝ}
    (hf : ∀ o : Param.Obj ℝ, Param.update P.kind.param P.dom.dom = .ok o → ∀ j < n,
      Param.mapRaw ε P.kind.param P.dom.dom o.mult j (sidePoint n v i s) = .ok (f j))
    (hp : P.evalWith ε (tab n f) = .ok p) : SideValue ε P i s p := by
  obtain ⟨P', e⟩ := h.eval_side hd hf hp
  exact ⟨_, P', hd.edgePoint hi s, e⟩

/-- C34: the midpoint surface on a whole side of at least four-sided patches (for triangles, except within the tolerance of the end of the side):
within the tolerance of a corner the central control point has a small negative weight. -/
theorem C34_band (hε : 0 < ε) (hε2 : ε ≤ 1 / 2) (hεn : ε ≤ sin (2 * π / n) ^ 2 * sin (π / n)) (hl : Loop n c) (hex : ∀ j < n, ExactCurve ε (c j))
    (h : UpToDate ε .midpoint n c P) (hi : i < n) (h0 : 0 ≤ s) (h1 : s ≤ 1) (h3 : n = 3 → ε ≤ 1 - s ∨ s = 1) :
    SideValue ε P i s ((c i).pt s + bump ε s • ((c i).pt s - P.central)) := by
  have hn := hl.sides
  obtain ⟨hr, hk⟩ := upToDate_ready h hn
  have hsurf := hr.surf
  rw [hk] at hsurf
  have hcomp := Surf.Ready.compatible hε hsurf hn hl.closed hex hl.regular
  obtain ⟨r, φ, r1, hd⟩ := hr.regularDomain (by rw [hk]; rfl) hn
  obtain ⟨f, f1, f2, f3⟩ := bary_sideParams hd hε (by linarith) hi h0 h1
  refine value hr hd hi (f := f) ?_ ?_
  · intro o _ j hj
    rw [hk]
    exact f1 j hj
  · unfold Patch.evalWith; rw [hk]; dsimp only
    refine Surf.midpoint_band hcomp hε hε2 hi h0 h1 f2 ?_ f3 _
    intro hs
    by_cases hn3 : n = 3
    · exact f2.prevX ((h3 hn3).resolve_right hs)
    · exact bary_sideParams_four (by omega) r1 hd hε hεn hi h0 h1 (f1 _ (prevIx_lt (by omega)))

/-- C34: the midpoint Coons surface near the start of a side. -/
theorem C34_bandCoons (hε : 0 < ε) (hεn : ε ≤ sin (2 * π / n) ^ 2 * sin (π / n) / 2) (hl : Loop n c)
    (hex : ∀ j < n, ExactCurve ε (c j)) (h : UpToDate ε .midpointCoons n c P) (hi : i < n) (h0 : 0 ≤ s) (h1 : ε ≤ 1 - s ∨ s = 1) :
    SideValue ε P i s ((c i).pt s + bump ε s • ((c i).pt s - P.central)) := by
  have hn := hl.sides
  obtain ⟨sp1, sp2⟩ := sin_pi_div_pos hn
  have q := sin_sq_le_one (2 * π / n)
  have hε2 : ε ≤ 1 / 2 := by nlinarith [sin_le_one (π / n)]
  obtain ⟨hr, hk⟩ := upToDate_ready h hn
  have hsurf := hr.surf
  rw [hk] at hsurf
  have hcomp := Surf.Ready.compatible hε hsurf hn hl.closed hex hl.regular
  obtain ⟨r, φ, r1, hd⟩ := hr.regularDomain (by rw [hk]; rfl) hn
  obtain ⟨f, f1, f2, f3⟩ := constrained_sideParams r1 hd hε hεn hi h0 h1
  refine value hr hd hi (f := f) ?_ ?_
  · intro o _ j hj
    rw [hk]
    exact f1 j hj
  · unfold Patch.evalWith; rw [hk]; dsimp only
    exact Surf.midpointCoons_band hcomp hε hε2 hi h0 h1 f2 f3 _

/-- The weight of the error is nonnegative and at most three times the square of the tolerance. -/
theorem Spec.bump_le (hε : 0 < ε) (h0 : 0 ≤ s) (h1 : s ≤ 1) : 0 ≤ bump ε s ∧ bump ε s ≤ 3 * ε ^ 2 := by
  unfold bump
  split_ifs with a b
  · constructor
    · have : 0 ≤ 3 - 2 * s := by linarith
      positivity
    · have : s ^ 2 ≤ ε ^ 2 := by nlinarith
      nlinarith [pow_nonneg h0 2]
  · constructor
    · positivity
    · have : (1 - s) ^ 2 ≤ ε ^ 2 := by nlinarith
      nlinarith [sq_nonneg (1 - s)]
  · exact ⟨le_rfl, by positivity⟩

/-- C34 is violated: neither surface goes through both of two points of a boundary curve within the tolerance of the start of the side. -/
theorem C34_violated (hε : 0 < ε) (hεn : ε ≤ sin (2 * π / n) ^ 2 * sin (π / n) / 2) (hl : Loop n c) (hex : ∀ j < n, ExactCurve ε (c j))
    (h : UpToDate ε .midpoint n c P ∨ UpToDate ε .midpointCoons n c P) (hi : i < n) {s t : ℝ} (hs : 0 < s) (hs' : s < ε) (ht : 0 < t) (ht' : t < ε)
    (hst : (c i).pt s ≠ (c i).pt t) : ¬ (SideValue ε P i s ((c i).pt s) ∧ SideValue ε P i t ((c i).pt t)) := by
  have hn := hl.sides
  obtain ⟨sp1, sp2⟩ := sin_pi_div_pos hn
  have q := sin_sq_le_one (2 * π / n)
  have hε2 : ε ≤ 1 / 2 := by nlinarith [sin_le_one (π / n)]
  have key : ∀ u, 0 < u → u < ε → SideValue ε P i u ((c i).pt u) → P.central = (c i).pt u := by
    intro u u0 u1 ⟨uv, P', e1, e2⟩
    have : SideValue ε P i u ((c i).pt u + bump ε u • ((c i).pt u - P.central)) := by
      rcases h with h | h
      · exact C34_band hε hε2 (by have : 0 < sin (2 * π / n) ^ 2 * sin (π / n) := by positivity
                                  linarith) hl hex h hi u0.le (by linarith) (fun _ => Or.inl (by linarith))
      · exact C34_bandCoons hε hεn hl hex h hi u0.le (Or.inl (by linarith))
    obtain ⟨uv', P'', e1', e2'⟩ := this
    rw [e1] at e1'
    cases e1'
    rw [e2] at e2'
    have e := congrArg Prod.fst (Except.ok.inj e2')
    dsimp only at e
    have z : bump ε u • ((c i).pt u - P.central) = 0 := by
      have := e.symm
      rwa [add_eq_left] at this
    have hb : bump ε u ≠ 0 := by
      unfold bump
      rw [if_pos u1]
      have : 0 < 3 - 2 * u := by linarith
      positivity
    have := (smul_eq_zero.mp z).resolve_left hb
    exact (sub_eq_zero.mp this).symm
  rintro ⟨a, b⟩
  exact hst ((key s hs hs' a).symm.trans (key t ht ht' b))

/-- C35: the C0 Coons surface on a whole side of at least four-sided patches. -/
theorem C35_whole (hε : 0 < ε) (hεn : ε ≤ sin (2 * π / n) ^ 2 * sin (π / n)) (hn : 4 ≤ n) (hc : ∀ j < n, (c j).pt 1 = (c ((j + 1) % n)).pt 0)
    (h : UpToDate ε .c0Coons n c P) (hi : i < n) (h0 : 0 ≤ s) (h1 : s ≤ 1) : SideValue ε P i s ((c i).pt s) := by
  obtain ⟨sp1, sp2⟩ := sin_pi_div_pos (n := n) (by omega)
  have q := sin_sq_le_one (2 * π / n)
  have hε1 : ε ≤ 1 := by nlinarith [sin_le_one (π / n)]
  obtain ⟨hr, hk⟩ := upToDate_ready h (by omega)
  have hsurf := hr.surf
  rw [hk] at hsurf
  obtain ⟨r, φ, r1, hd⟩ := hr.regularDomain (by rw [hk]; rfl) (by omega)
  obtain ⟨f, f1, f2, f3⟩ := bary_sideParams hd hε hε1 hi h0 h1
  refine value hr hd hi (f := f) ?_ ?_
  · intro o _ j hj
    rw [hk]
    exact f1 j hj
  · unfold Patch.evalWith; rw [hk]; dsimp only
    rw [Surf.c0Coons_band (by omega) hr.length hi h0 h1 f2 f3 (Surf.Ready.coons hsurf (by omega) hc)
      (Or.inl ⟨bary_sideParams_four hn r1 hd hε hεn hi h0 h1 (f1 _ (prevIx_lt (by omega))), rfl⟩), sub_self, smul_zero, add_zero]

/-- C35: triangles. Within the tolerance of the end of a side the value may be off by half of `1-s` times the difference of the points on the two sides. -/
theorem C35_triangle (hε : 0 < ε) (hε1 : ε ≤ 1) (hc : ∀ j < 3, (c j).pt 1 = (c ((j + 1) % 3)).pt 0)
    (h : UpToDate ε .c0Coons 3 c P) (hi : i < 3) (h0 : 0 ≤ s) (h1 : s ≤ 1) : SideValue ε P i s ((c i).pt s) ∨
      (1 - s < ε ∧ SideValue ε P i s ((c i).pt s + ((1 - s) / 2) • ((c ((i + 1) % 3)).pt (1 - s) - (c i).pt s))) := by
  obtain ⟨hr, hk⟩ := upToDate_ready h (by omega)
  have hsurf := hr.surf
  rw [hk] at hsurf
  obtain ⟨r, φ, r1, hd⟩ := hr.regularDomain (by rw [hk]; rfl) (by omega)
  obtain ⟨f, f1, f2, f3⟩ := bary_sideParams hd hε hε1 hi h0 h1
  have hf : ∀ o : Param.Obj ℝ, Param.update P.kind.param P.dom.dom = .ok o → ∀ j < 3,
      Param.mapRaw ε P.kind.param P.dom.dom o.mult j (sidePoint 3 (regularVertex 3 r φ) i s) = .ok (f j) := by
    intro o _ j hj
    rw [hk]
    exact f1 j hj
  have hpp : prevIx 3 (prevIx 3 i) = (i + 1) % 3 := by
    interval_cases i <;> rfl
  rcases bary_prev_cases r1 hd hε hε1 hi h0 h1 (f1 _ (prevIx_lt (by omega))) with w | ⟨w, w'⟩
  · left
    refine value hr hd hi hf ?_
    unfold Patch.evalWith; rw [hk]; dsimp only
    rw [Surf.c0Coons_band (by omega) hr.length hi h0 h1 f2 f3 (Surf.Ready.coons hsurf (by omega) hc) (Or.inl ⟨w, rfl⟩), sub_self, smul_zero, add_zero]
  · right
    refine ⟨w', value hr hd hi hf ?_⟩
    unfold Patch.evalWith; rw [hk]; dsimp only
    rw [Surf.c0Coons_band (by omega) hr.length hi h0 h1 f2 f3 (Surf.Ready.coons hsurf (by omega) hc) (Or.inr ⟨w, rfl⟩), hpp]

end patches

private theorem square_tol : (1 / 10000 : ℝ) ≤ sin (2 * π / (4 : ℕ)) ^ 2 * sin (π / (4 : ℕ)) / 2 := by
  rw [show 2 * π / ((4 : ℕ) : ℝ) = π / 2 by push_cast; ring, sin_pi_div_two]
  push_cast
  rw [sin_pi_div_four]
  have : (1 : ℝ) ≤ √2 := by rw [Real.one_le_sqrt]; norm_num
  linarith

/-- The midpoint surface of the square misses one of these points of the first side. -/
example : ∃ P, UpToDate (1 / 10000) .midpoint 4 squareLoop P ∧ ¬ (SideValue (1 / 10000) P 0 (1 / 20000) ((squareLoop 0).pt (1 / 20000)) ∧
    SideValue (1 / 10000) P 0 (1 / 30000) ((squareLoop 0).pt (1 / 30000))) := by
  obtain ⟨P, v, -, h, -, -⟩ := square_built .midpoint
  refine ⟨P, h.1, C34_violated (by norm_num) square_tol ⟨square_good.sides, square_good.closed, square_good.regular⟩ square_good.exact (Or.inl h.1) (by norm_num)
    (by norm_num) (by norm_num) (by norm_num) (by norm_num) ?_⟩
  intro q
  have qx := congrArg P3.x q
  norm_num [squareLoop, segment] at qx

/-- So does the midpoint Coons surface. -/
example : ∃ P, UpToDate (1 / 10000) .midpointCoons 4 squareLoop P ∧ ¬ (SideValue (1 / 10000) P 0 (1 / 20000) ((squareLoop 0).pt (1 / 20000)) ∧
    SideValue (1 / 10000) P 0 (1 / 30000) ((squareLoop 0).pt (1 / 30000))) := by
  obtain ⟨P, v, -, h, -, -⟩ := square_built .midpointCoons
  refine ⟨P, h.1, C34_violated (by norm_num) square_tol ⟨square_good.sides, square_good.closed, square_good.regular⟩ square_good.exact (Or.inr h.1) (by norm_num)
    (by norm_num) (by norm_num) (by norm_num) (by norm_num) ?_⟩
  intro q
  have qx := congrArg P3.x q
  norm_num [squareLoop, segment] at qx

/-- The C0 Coons surface of the square goes through the same points. -/
example : ∃ P, UpToDate (1 / 10000) .c0Coons 4 squareLoop P ∧ ∀ s, 0 ≤ s → s ≤ 1 → SideValue (1 / 10000) P 0 s ((squareLoop 0).pt s) := by
  obtain ⟨P, v, -, h, -, -⟩ := square_built .c0Coons
  have := square_tol
  exact ⟨P, h.1, fun s h0 h1 => C35_whole (by norm_num) (by linarith) (by norm_num) square_good.closed h.1 (by norm_num) h0 h1⟩

/-- C35_triangle applies to a triangle. -/
example : ∃ P, UpToDate (1 / 10000) .c0Coons 3 triangleLoop P ∧ (SideValue (1 / 10000) P 0 (19999 / 20000) ((triangleLoop 0).pt (19999 / 20000)) ∨
    SideValue (1 / 10000) P 0 (19999 / 20000) ((triangleLoop 0).pt (19999 / 20000) +
      ((1 - 19999 / 20000 : ℝ) / 2) • ((triangleLoop 1).pt (1 - 19999 / 20000) - (triangleLoop 0).pt (19999 / 20000)))) := by
  obtain ⟨P, v, -, h, -⟩ := triangle_built .c0Coons (by simp)
  refine ⟨P, h.1, ?_⟩
  rcases C35_triangle (i := 0) (s := 19999 / 20000) (by norm_num) (by norm_num) triangle_good.closed h.1 (by norm_num) (by norm_num) (by norm_num) with w | ⟨_, w⟩
  · exact Or.inl w
  · exact Or.inr w

end Transfinite
