import Verif.Lemmas.RegularBilinear
import Verif.Props.Parameterization
import Verif.Spec.Patch

/-! Local parameters of the points of a domain side, for the parameterizations used by the patches. -/

namespace Transfinite

open Param Spec Real

/-- Barycentric parameterization, on any convex domain. -/
theorem bary_sideParams {d : Domain ℝ} {n : ℕ} {v : ℕ → P2 ℝ} (h : ConvexDomain d n v) {ε : ℝ} (hε : 0 < ε)
    (hε1 : ε ≤ 1) {i : ℕ} (hi : i < n) {s : ℝ} (h0 : 0 ≤ s) (h1 : s ≤ 1) :
    ∃ f : ℕ → P2 ℝ, (∀ j < n, baryMap ε .wachspress d j (sidePoint n v i s) = .ok (f j)) ∧ SideParams ε n i s f ∧
      ∀ j < n, j ≠ i → j ≠ (i + 1) % n → j ≠ (i + n - 1) % n → (f j).y = 1 := by
  have hn := h.hn
  obtain ⟨p, e, k1, k2, ⟨x, k3, x0, x1, x2⟩, k4⟩ := C12_map_side h hε hε1 hi h0 h1
  rw [h.edgePoint hi] at e
  cases e
  have all : ∀ j, ∃ q : P2 ℝ, j < n → baryMap ε .wachspress d j (sidePoint n v i s) = .ok q ∧ 0 ≤ q.x ∧ q.x ≤ 1 ∧
      (j ≠ i → j ≠ (i + 1) % n → j ≠ (i + n - 1) % n → q.y = 1) := by
    intro j
    by_cases hj : j < n
    · by_cases a : j = i
      · exact ⟨_, fun _ => ⟨by rw [a]; exact k1, h0, h1, fun q => absurd a q⟩⟩
      · by_cases b : j = (i + 1) % n
        · exact ⟨_, fun _ => ⟨by rw [b]; exact k2, le_rfl, zero_le_one, fun _ q => absurd b q⟩⟩
        · by_cases c : j = (i + n - 1) % n
          · exact ⟨_, fun _ => ⟨by rw [c]; exact k3, x0, x1, fun _ _ q => absurd c q⟩⟩
          · obtain ⟨y, hy, y0, y1⟩ := k4 j hj a b c
            exact ⟨_, fun _ => ⟨hy, y0, y1, fun _ _ _ => rfl⟩⟩
    · exact ⟨0, fun q => absurd q hj⟩
  choose f hf using all
  have hx : (i + 1) % n < n := Nat.mod_lt _ (by omega)
  have hp : (i + n - 1) % n < n := Nat.mod_lt _ (by omega)
  have fi := (hf i hi).1
  have fx := (hf _ hx).1
  have fp := (hf _ hp).1
  rw [k1] at fi
  rw [k2] at fx
  rw [k3] at fp
  have fi := (Except.ok.inj fi).symm
  have fx := (Except.ok.inj fx).symm
  have fp := (Except.ok.inj fp).symm
  refine ⟨f, fun j hj => (hf j hj).1, ⟨fi, fx, by rw [fp], fun hs => by rw [fp]; exact x2 hs, ?_, fun j hj => ⟨(hf j hj).2.1, (hf j hj).2.2.1⟩⟩,
    fun j hj => (hf j hj).2.2.2⟩
  intro j hj a b c
  rw [(hf j hj).2.2.2 a b c]
  exact hε1

section regular

variable {n : ℕ} {r φ : ℝ}

theorem regular_far (hn : 3 ≤ n) {j k : ℕ} (hj : j < n) (hk : k < n) (h1 : k ≠ j) (h2 : k ≠ prevIx n j) :
    r ^ 2 * (4 * sin (π / n) ^ 2) * sin (2 * π / n) ≤ leftOf n (regularVertex n r φ) j (regularVertex n r φ k) ∧
    leftOf n (regularVertex n r φ) j (regularVertex n r φ k) ≤ r ^ 2 * (4 * sin (π / n)) := by
  obtain ⟨m, m1, m2, rfl⟩ := exists_offset hj hk h1 h2
  exact ⟨regular_leftOf_ge hn hj m1 m2, regular_leftOf_le hn hj (by omega)⟩

theorem leftOf_side (v : ℕ → P2 ℝ) (i j : ℕ) (s : ℝ) :
    leftOf n v j (sidePoint n v i s) = (1 - s) * leftOf n v j (v (prevIx n i)) + s * leftOf n v j (v i) := by
  unfold sidePoint
  rw [leftOf_comb2 n v _ (by ring)]
  rfl

/-- Distances of a side point of a regular polygon from the sides. -/
theorem regular_side (hn : 3 ≤ n) {i : ℕ} (hi : i < n) {s : ℝ} (h0 : 0 ≤ s) (h1 : s ≤ 1) :
    let v := regularVertex n r φ
    let p := sidePoint n v i s
    let H := r ^ 2 * (4 * sin (π / n) ^ 2) * sin (2 * π / n)
    leftOf n v i p = 0 ∧ leftOf n v (nextIx n i) p = (1 - s) * H ∧ leftOf n v (prevIx n i) p = s * H ∧
    ∀ j < n, j ≠ i → j ≠ nextIx n i → j ≠ prevIx n i → H ≤ leftOf n v j p ∧ leftOf n v j p ≤ r ^ 2 * (4 * sin (π / n)) := by
  intro v p H
  have hx : nextIx n i < n := nextIx_lt (by omega)
  have hp : prevIx n i < n := prevIx_lt (by omega)
  refine ⟨leftOf_sidePoint n v i s, ?_, ?_, ?_⟩
  · have e1 : leftOf n v (nextIx n i) (v i) = 0 := by
      have := leftOf_prev n v (nextIx n i)
      change leftOf n v (nextIx n i) (v (prevIx n (nextIx n i))) = 0 at this
      rwa [prevIx_nextIx hi] at this
    have e2 := regular_leftOf_prev hn (r := r) (φ := φ) hx
    rw [prevIx_nextIx hi] at e2
    change leftOf n v _ (sidePoint n v i s) = _
    rw [leftOf_side, e1, e2]; ring
  · have e1 : leftOf n v (prevIx n i) (v (prevIx n i)) = 0 := leftOf_self n v (prevIx n i)
    have e2 := regular_leftOf_next hn (r := r) (φ := φ) hp
    rw [nextIx_prevIx hi] at e2
    change leftOf n v _ (sidePoint n v i s) = _
    rw [leftOf_side, e1, e2]; ring
  · intro j hj a b c
    have b' : i ≠ prevIx n j := by intro q; apply b; rw [q, nextIx_prevIx hj]
    have a' : prevIx n i ≠ prevIx n j := by
      intro q; apply a; rw [← nextIx_prevIx hj, ← q, nextIx_prevIx hi]
    have q1 := regular_far hn (r := r) (φ := φ) hj hi a.symm b'
    have q2 := regular_far hn (r := r) (φ := φ) hj hp c.symm a'
    change H ≤ leftOf n v j (sidePoint n v i s) ∧ leftOf n v j (sidePoint n v i s) ≤ _
    rw [leftOf_side]
    obtain ⟨u1, u2⟩ := q1
    obtain ⟨w1, w2⟩ := q2
    constructor <;> nlinarith

/-- Bilinear parameters of a side point of a regular polygon. -/
theorem regular_bilinear_side (hr : 0 < r) {d : Domain ℝ} (h : ConvexDomain d n (regularVertex n r φ)) {ε : ℝ} (hε : 0 < ε)
    (hle : ε ≤ sin (2 * π / n)) {i : ℕ} (hi : i < n) {s : ℝ} (h0 : 0 ≤ s) (h1 : s ≤ 1) :
    ∃ f : ℕ → P2 ℝ, (∀ j < n, bilinearMap ε d j (sidePoint n (regularVertex n r φ) i s) = .ok (f j)) ∧
      f i = ⟨s, 0⟩ ∧ f (nextIx n i) = ⟨0, 1 - s⟩ ∧ (f (prevIx n i)).y = s ∧
      ((4 ≤ n ∨ ε ≤ sin (2 * π / n) * (1 - s)) → (f (prevIx n i)).x = 1) ∧
      (∀ j < n, 0 ≤ (f j).x ∧ (f j).x ≤ 1) ∧
      ∀ j < n, j ≠ i → j ≠ nextIx n i → j ≠ prevIx n i → 1 ≤ (f j).y ∧
        (f (prevIx n j)).x ≤ 1 - sin (2 * π / n) * sin (π / n) / 2 ∧ sin (2 * π / n) * sin (π / n) / 2 ≤ (f (nextIx n j)).x := by
  have hn := h.hn
  have hx : nextIx n i < n := nextIx_lt (by omega)
  have hp : prevIx n i < n := prevIx_lt (by omega)
  obtain ⟨l0, l1, l2, l3⟩ := regular_side hn (r := r) (φ := φ) hi h0 h1
  obtain ⟨sp1, sp2⟩ := sin_pi_div_pos hn
  have su1 := sin_le_one (π / n)
  have su2 := sin_le_one (2 * π / n)
  have hin := h.insideClosed_side hi h0 h1
  have hxi : nextIx n i ≠ i := Param.next_ne (by omega) hi
  have hpi : prevIx n i ≠ i := Param.prev_ne (by omega) hi
  have hpx : nextIx n i ≠ prevIx n i := Param.next_ne_prev hn hi
  have key : ∀ j < n, bilinearMap ε d j (sidePoint n (regularVertex n r φ) i s) = .ok ⟨
      if (leftOf n (regularVertex n r φ) (prevIx n j) (sidePoint n (regularVertex n r φ) i s) +
          leftOf n (regularVertex n r φ) (nextIx n j) (sidePoint n (regularVertex n r φ) i s)) / (r ^ 2 * (4 * sin (π / n) ^ 2)) < ε then 0
        else leftOf n (regularVertex n r φ) (prevIx n j) (sidePoint n (regularVertex n r φ) i s) /
          (leftOf n (regularVertex n r φ) (prevIx n j) (sidePoint n (regularVertex n r φ) i s) +
          leftOf n (regularVertex n r φ) (nextIx n j) (sidePoint n (regularVertex n r φ) i s)),
      leftOf n (regularVertex n r φ) j (sidePoint n (regularVertex n r φ) i s) / (r ^ 2 * (4 * sin (π / n) ^ 2) * sin (2 * π / n))⟩ := by
    intro j hj
    have := bilinearMap_ratio h hε hj (by rw [regular_leftOf_prev hn hj, regular_leftOf_next hn hj])
      (hin _ (prevIx_lt (i := j) (j := 1) (by omega))) (hin _ (nextIx_lt (i := j) (j := 1) (by omega)))
    rw [this, regular_du hn, regular_leftOf_next hn hj]
  have hD : 0 < r ^ 2 * (4 * sin (π / n) ^ 2) := by positivity
  have hM : ∀ j < n, leftOf n (regularVertex n r φ) j (sidePoint n (regularVertex n r φ) i s) ≤ r ^ 2 * (4 * sin (π / n)) := by
    have hHM : r ^ 2 * (4 * sin (π / n) ^ 2) * sin (2 * π / n) ≤ r ^ 2 * (4 * sin (π / n)) := by
      have : sin (π / n) * sin (2 * π / n) ≤ 1 := by nlinarith
      have := mul_le_mul_of_nonneg_left this (show 0 ≤ r ^ 2 * (4 * sin (π / n)) by positivity)
      linarith
    have hH0 : 0 ≤ r ^ 2 * (4 * sin (π / n) ^ 2) * sin (2 * π / n) := by positivity
    intro j hj
    by_cases a : j = i
    · rw [a, l0]; positivity
    · by_cases b : j = nextIx n i
      · rw [b, l1]; nlinarith
      · by_cases c : j = prevIx n i
        · rw [c, l2]; nlinarith
        · exact (l3 j hj a b c).2
  have hL0 : ∀ j < n, 0 ≤ leftOf n (regularVertex n r φ) j (sidePoint n (regularVertex n r φ) i s) := hin
  have hMD : (r ^ 2 * (4 * sin (π / n) ^ 2) * sin (2 * π / n)) =
      r ^ 2 * (4 * sin (π / n)) * (sin (2 * π / n) * sin (π / n)) := by ring
  have hMp : 0 < r ^ 2 * (4 * sin (π / n)) := by positivity
  have hMD' : r ^ 2 * (4 * sin (π / n) ^ 2) ≤ r ^ 2 * (4 * sin (π / n)) := by nlinarith [mul_pos (pow_pos hr 2) sp1]
  refine ⟨_, key, ?_⟩
  dsimp only
  have hsig : 0 < sin (2 * π / n) * sin (π / n) := by positivity
  have hsig1 : sin (2 * π / n) * sin (π / n) ≤ 1 := by nlinarith
  generalize leftOf n (regularVertex n r φ) = L at *
  generalize sidePoint n (regularVertex n r φ) i s = p at *
  have hHpos : 0 < r ^ 2 * (4 * sin (π / n) ^ 2) * sin (2 * π / n) := by positivity
  have hcross : ∀ a : ℝ, sin (2 * π / n) ≤ a → ¬ (a < ε) := fun a ha => not_lt.mpr (hle.trans ha)
  refine ⟨?_, ?_, ?_, ?_, ?_, ?_⟩
  · rw [l0, l1, l2, zero_div]
    have e : s * (r ^ 2 * (4 * sin (π / n) ^ 2) * sin (2 * π / n)) + (1 - s) * (r ^ 2 * (4 * sin (π / n) ^ 2) * sin (2 * π / n)) =
        r ^ 2 * (4 * sin (π / n) ^ 2) * sin (2 * π / n) := by ring
    rw [e, if_neg (hcross _ (le_of_eq _)), mul_div_assoc, div_self hHpos.ne', mul_one]
    exact (mul_div_cancel_left₀ _ hD.ne').symm
  · rw [prevIx_nextIx hi, l0, l1, mul_div_assoc, div_self hHpos.ne', mul_one, zero_div]
    simp
  · rw [l2, mul_div_assoc, div_self hHpos.ne', mul_one]
  · rw [nextIx_prevIx hi, l0, add_zero]
    intro hc
    have hlp : ε * (r ^ 2 * (4 * sin (π / n) ^ 2)) ≤ L (prevIx n (prevIx n i)) p := by
      have hpp : prevIx n (prevIx n i) < n := prevIx_lt (by omega)
      have hppi : prevIx n (prevIx n i) ≠ prevIx n i := Param.prev_ne (by omega) hp
      have hppi' : prevIx n (prevIx n i) ≠ i := by
        intro q
        exact hpx (by rw [← nextIx_prevIx hp, q])
      by_cases h3 : 4 ≤ n
      · have hppx : prevIx n (prevIx n i) ≠ nextIx n i := by
          intro q
          rw [nextIx_eq hi, prevIx_eq hp, prevIx_eq hi] at q
          split_ifs at q <;> omega
        refine le_trans ?_ (l3 _ hpp hppi' hppx hppi).1
        rw [mul_comm ε]
        exact mul_le_mul_of_nonneg_left hle hD.le
      · have hn3 : n = 3 := by omega
        have hppx : prevIx n (prevIx n i) = nextIx n i := by
          rw [nextIx_eq hi, prevIx_eq hp, prevIx_eq hi]
          split_ifs <;> omega
        rw [hppx, l1]
        have := hc.resolve_left h3
        have := mul_le_mul_of_nonneg_left this hD.le
        linarith
    have hpos : 0 < L (prevIx n (prevIx n i)) p := lt_of_lt_of_le (by positivity) hlp
    rw [if_neg (by rw [not_lt, le_div_iff₀ hD]; exact hlp), div_self hpos.ne']
  · intro j hj
    have q1 := hL0 _ (prevIx_lt (n := n) (i := j) (j := 1) (by omega))
    have q2 := hL0 _ (nextIx_lt (n := n) (i := j) (j := 1) (by omega))
    split_ifs with hc
    · exact ⟨le_rfl, zero_le_one⟩
    · have : 0 < L (prevIx n j) p + L (nextIx n j) p := by
        rw [not_lt, le_div_iff₀ hD] at hc
        exact lt_of_lt_of_le (by positivity) hc
      exact ⟨div_nonneg q1 this.le, (div_le_one this).mpr (by linarith)⟩
  · intro j hj a b c
    obtain ⟨q1, q2⟩ := l3 j hj a b c
    refine ⟨(one_le_div hHpos).mpr q1, ?_, ?_⟩
    · rw [nextIx_prevIx hj]
      have w1 := hL0 _ (prevIx_lt (n := n) (i := prevIx n j) (j := 1) (by omega))
      have w2 := hM _ (prevIx_lt (n := n) (i := prevIx n j) (j := 1) (by omega))
      generalize L (prevIx n (prevIx n j)) p = A at *
      generalize L j p = B at *
      split_ifs
      · linarith
      · have hAB : 0 < A + B := by linarith
        rw [div_le_iff₀ hAB]
        rw [hMD] at q1
        generalize r ^ 2 * (4 * sin (π / n)) = M at *
        generalize sin (2 * π / n) * sin (π / n) = t at *
        nlinarith
    · rw [prevIx_nextIx hj]
      have w1 := hL0 _ (nextIx_lt (n := n) (i := nextIx n j) (j := 1) (by omega))
      have w2 := hM _ (nextIx_lt (n := n) (i := nextIx n j) (j := 1) (by omega))
      generalize L (nextIx n (nextIx n j)) p = A at *
      have hBA : 0 < L j p + A := by linarith
      rw [if_neg]
      · rw [le_div_iff₀ hBA]
        rw [hMD] at q1
        generalize r ^ 2 * (4 * sin (π / n)) = M at *
        generalize sin (2 * π / n) * sin (π / n) = t at *
        nlinarith
      · apply hcross
        rw [le_div_iff₀ hD]
        nlinarith

/-- Bilinear parameterization on a regular domain. In a triangle there is a band near the end of the side, where the
parameters of the previous side are not those of the side point. -/
theorem bilinear_sideParams (hr : 0 < r) {d : Domain ℝ} (h : ConvexDomain d n (regularVertex n r φ)) {ε : ℝ} (hε : 0 < ε)
    (hle : ε ≤ sin (2 * π / n)) {i : ℕ} (hi : i < n) {s : ℝ} (h0 : 0 ≤ s) (h1 : s ≤ 1)
    (h3 : n = 3 → 1 - s < ε ∨ ε ≤ sin (2 * π / 3) * (1 - s)) :
    ∃ f : ℕ → P2 ℝ, (∀ j < n, bilinearMap ε d j (sidePoint n (regularVertex n r φ) i s) = .ok (f j)) ∧ SideParams ε n i s f := by
  have hn := h.hn
  obtain ⟨f, hf, f1, f2, f3, f4, f5, f6⟩ := regular_bilinear_side hr h hε hle hi h0 h1
  refine ⟨f, hf, f1, f2, f3, ?_, ?_, f5⟩
  · intro hs
    apply f4
    by_cases h4 : 4 ≤ n
    · exact Or.inl h4
    · obtain rfl : n = 3 := by omega
      right
      exact_mod_cast (h3 rfl).resolve_left (not_lt.mpr hs)
  · intro j hj a b c
    exact hle.trans ((sin_le_one _).trans (f6 j hj a b c).1)

/-- Interconnected parameterization on a regular domain. -/
theorem interconnected_sideParams (hr : 0 < r) {d : Domain ℝ} (h : ConvexDomain d n (regularVertex n r φ)) {ε : ℝ} (hε : 0 < ε)
    (hle : ε ≤ sin (2 * π / n) * sin (π / n) / 2) {i : ℕ} (hi : i < n) {s : ℝ} (h0 : 0 ≤ s) (h1 : s ≤ 1)
    (h3 : n = 3 → s = 1 ∨ ε ≤ sin (2 * π / 3) * (1 - s)) :
    ∃ f : ℕ → P2 ℝ, (∀ j < n, interconnectedMap ε d j (sidePoint n (regularVertex n r φ) i s) = .ok (f j)) ∧
      SideParams ε n i s f := by
  have hn := h.hn
  have hx : nextIx n i < n := nextIx_lt (by omega)
  have hp : prevIx n i < n := prevIx_lt (by omega)
  obtain ⟨sp1, sp2⟩ := sin_pi_div_pos hn
  have su1 := sin_le_one (π / n)
  have hle' : ε ≤ sin (2 * π / n) := by nlinarith
  obtain ⟨g, hg, g1, g2, g3, g4, g5, g6⟩ := regular_bilinear_side hr h hε hle' hi h0 h1
  have H0 : hermite 0 (0 : ℝ) = 1 := by simp [hermite]
  have H1 : hermite 0 (1 : ℝ) = 0 := by simp [hermite]
  have cases3 : (g (prevIx n i)).x = 1 ∨ (s = 1 ∧ n = 3) := by
    by_cases h4 : 4 ≤ n
    · exact Or.inl (g4 (Or.inl h4))
    · obtain rfl : n = 3 := by omega
      rcases h3 rfl with q | q
      · exact Or.inr ⟨q, rfl⟩
      · exact Or.inl (g4 (Or.inr (by exact_mod_cast q)))
  refine ⟨fun j => ⟨(g j).x, (1 - (g (prevIx n j)).x) * hermite 0 (g j).x + (g (nextIx n j)).x * (1 - hermite 0 (g j).x)⟩, ?_, ?_⟩
  · intro j hj
    unfold interconnectedMap
    rw [h.length_eq]
    dsimp only
    rw [hg _ (prevIx_lt (by omega)), hg _ (nextIx_lt (by omega)), hg j hj]
    rfl
  · refine ⟨?_, ?_, ?_, ?_, ?_, g5⟩
    · rw [g1, g2]
      rcases cases3 with q | ⟨q, _⟩
      · rw [q]; norm_num
      · rw [q, H1]; norm_num
    · change (⟨(g (nextIx n i)).x, (1 - (g (prevIx n (nextIx n i))).x) * hermite 0 (g (nextIx n i)).x +
        (g (nextIx n (nextIx n i))).x * (1 - hermite 0 (g (nextIx n i)).x)⟩ : P2 ℝ) = _
      rw [prevIx_nextIx hi, g1, g2, H0]
      norm_num
    · change (1 - (g (prevIx n (prevIx n i))).x) * hermite 0 (g (prevIx n i)).x +
        (g (nextIx n (prevIx n i))).x * (1 - hermite 0 (g (prevIx n i)).x) = s
      rw [nextIx_prevIx hi, g1]
      rcases cases3 with q | ⟨q, hn3⟩
      · rw [q, H1]; norm_num
      · have : prevIx n (prevIx n i) = nextIx n i := by
          rw [nextIx_eq hi, prevIx_eq hp, prevIx_eq hi]
          split_ifs <;> omega
        rw [this, g2, q]; norm_num
    · intro hs
      change (g (prevIx n i)).x = 1
      rcases cases3 with q | ⟨q, _⟩
      · exact q
      · linarith
    · intro j hj a b c
      obtain ⟨_, q1, q2⟩ := g6 j hj a b c
      obtain ⟨x0, x1⟩ := g5 j hj
      change ε ≤ (1 - (g (prevIx n j)).x) * hermite 0 (g j).x + (g (nextIx n j)).x * (1 - hermite 0 (g j).x)
      have k0 : 0 ≤ hermite 0 (g j).x := by
        simp only [hermite, if_true]
        have : 0 ≤ 1 - (g j).x := by linarith
        positivity
      have k1 : hermite 0 (g j).x ≤ 1 := by
        have e : 1 - hermite 0 (g j).x = 3 * (1 - (g j).x) * (g j).x ^ 2 + (g j).x ^ 3 := by
          simp only [hermite, if_true]; ring
        have : 0 ≤ 1 - (g j).x := by linarith
        have : 0 ≤ 3 * (1 - (g j).x) * (g j).x ^ 2 + (g j).x ^ 3 := by positivity
        linarith
      generalize hermite 0 (g j).x = t at *
      nlinarith

theorem regular_du_next (hn : 3 ≤ n) {j : ℕ} (hj : j < n) :
    P2.dot (regularVertex n r φ (prevIx n j) - regularVertex n r φ j) (regularVertex n r φ (nextIx n j) - regularVertex n r φ j) =
      r ^ 2 * (4 * sin (π / n) ^ 2) * cos (π - 2 * π / n) := by
  have hn0 : (0 : ℝ) < n := by positivity
  have e1 : regularVertex n r φ ((j + n - 1) % n) = r • circ (φ + 2 * π / n * j - 2 * π / n) := by
    rw [regularVertex_mod (by omega), Nat.cast_sub (by omega)]
    rw [show φ + 2 * π / n * (((j + n : ℕ) : ℝ) - ((1 : ℕ) : ℝ)) = φ + 2 * π / n * j - 2 * π / n + 2 * π by
      push_cast; field_simp; ring, circ_add_two_pi]
  have e3 : regularVertex n r φ ((j + 1) % n) = r • circ (φ + 2 * π / n * j + 2 * π / n) := by
    rw [regularVertex_mod (by omega)]
    rw [show φ + 2 * π / n * ((j + 1 : ℕ) : ℝ) = φ + 2 * π / n * j + 2 * π / n by push_cast; ring]
  have e2 : regularVertex n r φ j = r • circ (φ + 2 * π / n * j) := rfl
  rw [show prevIx n j = (j + n - 1) % n from rfl, show nextIx n j = (j + 1) % n from rfl, e1, e2, e3]
  set θ := φ + 2 * π / n * j
  have hα : 2 * π / n = 2 * (π / n) := by ring
  rw [hα, cos_pi_sub]
  generalize π / n = x
  simp only [P2.dot, P2.sub_x, P2.sub_y, P2.smul_x, P2.smul_y, circ]
  have e : sin x ^ 2 = (1 - cos (2 * x)) / 2 := by
    have := cos_two_mul x
    have h := sin_sq_add_cos_sq x
    linarith
  clear_value θ
  rw [e, cos_sub, cos_add, sin_sub, sin_add]
  have k1 := sin_sq_add_cos_sq θ
  have k2 := sin_sq_add_cos_sq (2 * x)
  generalize cos (2 * x) = c at *
  generalize sin (2 * x) = t at *
  generalize cos θ = a at *
  generalize sin θ = b at *
  linear_combination r ^ 2 * ((c - 1) ^ 2 - t ^ 2) * k1 - r ^ 2 * k2

theorem regular_angle (hr : 0 < r) {d : Domain ℝ} (h : ConvexDomain d n (regularVertex n r φ)) {j : ℕ} (hj : j < n) :
    ∃ a, d.angle j = .ok a ∧ sin a = sin (2 * π / n) := by
  have hn := h.hn
  have hx : nextIx n j < n := nextIx_lt (by omega)
  have hp : prevIx n j < n := prevIx_lt (by omega)
  obtain ⟨sp1, sp2⟩ := sin_pi_div_pos hn
  have n1 : P2.norm (regularVertex n r φ (prevIx n j) - regularVertex n r φ j) = r * (2 * sin (π / n)) := by
    have e := regular_du hn (r := r) (φ := φ) (j := j)
    unfold duOf at e
    change √(P2.dot _ _) = _
    rw [show P2.dot (regularVertex n r φ (prevIx n j) - regularVertex n r φ j) (regularVertex n r φ (prevIx n j) - regularVertex n r φ j) =
      (r * (2 * sin (π / n))) ^ 2 by
        rw [show (r * (2 * sin (π / n))) ^ 2 = r ^ 2 * (4 * sin (π / n) ^ 2) by ring, ← e]
        simp only [P2.dot, P2.sub_x, P2.sub_y]; ring, Real.sqrt_sq (by positivity)]
  have n2 : P2.norm (regularVertex n r φ (nextIx n j) - regularVertex n r φ j) = r * (2 * sin (π / n)) := by
    have e := regular_du hn (r := r) (φ := φ) (j := nextIx n j)
    unfold duOf at e
    rw [prevIx_nextIx hj] at e
    change √(P2.dot _ _) = _
    rw [e, show r ^ 2 * (4 * sin (π / n) ^ 2) = (r * (2 * sin (π / n))) ^ 2 by ring, Real.sqrt_sq (by positivity)]
  have hE : 0 < r * (2 * sin (π / n)) := by positivity
  unfold Domain.angle
  rw [h.n_eq, h.vget_vertex hj, h.vget_vertex hp, h.vget_vertex hx]
  simp only [M_bind_ok]
  unfold P2.normalize
  rw [n1, n2, if_neg hE.ne', if_neg hE.ne']
  refine ⟨_, rfl, ?_⟩
  have e : P2.dot ((r * (2 * sin (π / n)))⁻¹ • (regularVertex n r φ (prevIx n j) - regularVertex n r φ j))
      ((r * (2 * sin (π / n)))⁻¹ • (regularVertex n r φ (nextIx n j) - regularVertex n r φ j)) = cos (π - 2 * π / n) := by
    have := regular_du_next hn (r := r) (φ := φ) hj
    rw [show ∀ (k : ℝ) (a b : P2 ℝ), P2.dot (k • a) (k • b) = k ^ 2 * P2.dot a b by
      intro k a b; simp only [P2.dot, P2.smul_x, P2.smul_y]; ring, this]
    field_simp
    ring
  have hlow := neg_one_le_cos (π - 2 * π / n)
  have hup := cos_le_one (π - 2 * π / n)
  rw [e]
  unfold Domain.clamp
  rw [min_eq_left hup, max_eq_right hlow]
  change sin (arccos (cos (π - 2 * π / n))) = _
  have hn3 : (3 : ℝ) ≤ n := by exact_mod_cast hn
  have hn' : (n : ℝ) * (π / n) = π := by field_simp
  have hxx : 0 < π / n := by have := pi_pos; positivity
  have e2 : 2 * π / n = 2 * (π / n) := by ring
  rw [arccos_cos (by rw [e2]; nlinarith) (by rw [e2]; linarith), sin_pi_sub]

/-- The degenerate branch of the barycentric mapping on a regular domain: the ratio of distances from the neighbouring sides. -/
theorem regular_baryMapWith (hr : 1 ≤ r) {d : Domain ℝ} (h : ConvexDomain d n (regularVertex n r φ)) {ε : ℝ} (hε : 0 < ε)
    {c : ℕ → ℝ} {j : ℕ} (hj : j < n) {uv : P2 ℝ} (hc : c (prevIx n j) + c j < ε)
    (hd : ε * sin (π / n) ≤ sin (2 * π / n) / 2 *
      (leftOf n (regularVertex n r φ) (prevIx n j) uv + leftOf n (regularVertex n r φ) (nextIx n j) uv) / r) :
    baryMapWith ε d (tab n c) j uv = .ok ⟨leftOf n (regularVertex n r φ) (prevIx n j) uv /
      (leftOf n (regularVertex n r φ) (prevIx n j) uv + leftOf n (regularVertex n r φ) (nextIx n j) uv), 1 - c j - c (prevIx n j)⟩ := by
  have hn := h.hn
  have hx : nextIx n j < n := nextIx_lt (by omega)
  have hp : prevIx n j < n := prevIx_lt (by omega)
  obtain ⟨sp1, sp2⟩ := sin_pi_div_pos hn
  have hr0 : 0 < r := by linarith
  unfold baryMapWith
  simp only [h.length_eq]
  rw [vget_tab _ hp, vget_tab _ hj]
  simp only [M_bind_ok]
  rw [if_pos hc]
  obtain ⟨a, ea, ha⟩ := regular_angle hr0 h hj
  obtain ⟨b, eb, hb⟩ := regular_angle hr0 h hp
  obtain ⟨tp, etp⟩ := h.toLocal_self hp uv
  have etn := h.toLocal_prev hx uv
  rw [prevIx_nextIx hj] at etn
  have len : ∀ k < n, d.edgeLength k = .ok (r * (2 * sin (π / n))) := by
    intro k hk
    unfold Domain.edgeLength
    rw [h.n_eq, h.vget_vertex hk, h.vget_vertex (prevIx_lt (by omega))]
    change Except.ok (√(P2.dot (duOf n (regularVertex n r φ) k) (duOf n (regularVertex n r φ) k))) = _
    rw [regular_du hn, show r ^ 2 * (4 * sin (π / n) ^ 2) = (r * (2 * sin (π / n))) ^ 2 by ring, Real.sqrt_sq (by positivity)]
  rw [ea, eb, h.vget_vertex hp, h.vget_vertex hj]
  simp only [M_bind_ok]
  rw [etp, len _ hp, etn, len _ hx]
  simp only [M_bind_ok]
  rw [regular_du hn, regular_du hn]
  generalize leftOf n (regularVertex n r φ) (prevIx n j) uv = A at *
  generalize leftOf n (regularVertex n r φ) (nextIx n j) uv = B at *
  change (if sin a * (A / (r ^ 2 * (4 * sin (π / n) ^ 2)) * (r * (2 * sin (π / n)))) +
      sin b * (B / (r ^ 2 * (4 * sin (π / n) ^ 2)) * (r * (2 * sin (π / n)))) < ε then
      (.ok ⟨0, 1 - c j - c (prevIx n j)⟩ : M (P2 ℝ)) else
      fdiv (sin a * (A / (r ^ 2 * (4 * sin (π / n) ^ 2)) * (r * (2 * sin (π / n))))) (sin a * (A / (r ^ 2 * (4 * sin (π / n) ^ 2)) * (r * (2 * sin (π / n)))) +
        sin b * (B / (r ^ 2 * (4 * sin (π / n) ^ 2)) * (r * (2 * sin (π / n))))) >>=
      fun s => (.ok ⟨s, 1 - c j - c (prevIx n j)⟩ : M (P2 ℝ))) = _
  rw [ha, hb]
  generalize sin (2 * π / n) = t at *
  generalize sin (π / n) = u at *
  have e : ∀ X : ℝ, t * (X / (r ^ 2 * (4 * u ^ 2)) * (r * (2 * u))) = t / 2 * X / r / u := by
    intro X; field_simp; ring
  rw [e A, e B]
  have e2 : t / 2 * A / r / u + t / 2 * B / r / u = t / 2 * (A + B) / r / u := by ring
  rw [e2]
  have hge : ε ≤ t / 2 * (A + B) / r / u := by rw [le_div_iff₀ sp1]; exact hd
  rw [if_neg (not_lt.mpr hge), fdiv_of_ne (by linarith), M_bind_ok]
  have hAB : A + B ≠ 0 := by
    intro q
    rw [q] at hge
    simp at hge
    linarith
  congr 2
  field_simp

end regular

theorem constrainedBlend_top {ε x s_1 s1 : ℝ} (hε : 0 < ε) (hε1 : ε ≤ 1 / 2) (h0 : x < ε → s_1 = 0) (h1 : 1 - x < ε → s1 = 1) :
    constrainedBlend ε ⟨x, 1⟩ s_1 s1 = .ok ⟨x, 1⟩ := by
  have a : ¬ (1 : ℝ) < ε := by linarith
  have b : (1 : ℝ) - 1 < ε := by linarith
  unfold constrainedBlend singularBlend
  by_cases c : x < ε
  · have c' : ¬ (1 - x < ε) := by linarith
    simp [List.countP_cons, a, c, c', vget, fdiv, hε, h0 c]
    norm_num
  · by_cases c' : 1 - x < ε
    · simp [List.countP_cons, a, c, c', vget, fdiv, hε, h1 c']
      norm_num
    · simp [List.countP_cons, a, c, c', vget, fdiv, hε]

theorem small_ratio {A B M t ε : ℝ} (AM : A ≤ M) (hM : 0 < M) (hB : M * t ≤ B) (hε : 0 < ε) (hε1 : ε ≤ 1 / 2) (h2 : ε ≤ t / 2) :
    ¬ (1 - ε) * (A + B) < A := by
  have h1 : ε * A ≤ ε * M := mul_le_mul_of_nonneg_left AM hε.le
  have h3 : ε * M ≤ t / 2 * M := mul_le_mul_of_nonneg_right h2 hM.le
  have h4 : 0 ≤ M * t := mul_nonneg hM.le (by linarith)
  have h5 : 1 / 2 * B ≤ (1 - ε) * B := mul_le_mul_of_nonneg_right (by linarith) (by linarith)
  intro h
  nlinarith

set_option maxHeartbeats 1000000 in
/-- The constrained barycentric parameterization on a regular domain. -/
theorem constrained_sideParams {n : ℕ} {r φ : ℝ} (hr : 1 ≤ r) {d : Domain ℝ} (h : ConvexDomain d n (regularVertex n r φ)) {ε : ℝ} (hε : 0 < ε)
    (hle : ε ≤ sin (2 * π / n) ^ 2 * sin (π / n) / 2) {i : ℕ} (hi : i < n) {s : ℝ} (h0 : 0 ≤ s) (h1 : ε ≤ 1 - s ∨ s = 1) :
    ∃ f : ℕ → P2 ℝ, (∀ j < n, constrainedMap ε d j (sidePoint n (regularVertex n r φ) i s) = .ok (f j)) ∧ SideParams ε n i s f ∧
      ∀ j < n, j ≠ i → j ≠ (i + 1) % n → j ≠ (i + n - 1) % n → (f j).y = 1 := by
  have hn := h.hn
  have s1 : s ≤ 1 := by rcases h1 with q | q <;> linarith
  have hx : nextIx n i < n := nextIx_lt (by omega)
  have hp : prevIx n i < n := prevIx_lt (by omega)
  have hxi : nextIx n i ≠ i := Param.next_ne (by omega) hi
  have hpi : prevIx n i ≠ i := Param.prev_ne (by omega) hi
  have hpx : nextIx n i ≠ prevIx n i := Param.next_ne_prev hn hi
  obtain ⟨sp1, sp2⟩ := sin_pi_div_pos hn
  have su1 := sin_le_one (π / n)
  have su2 := sin_le_one (2 * π / n)
  have hε2 : ε ≤ sin (2 * π / n) * sin (π / n) / 2 := by
    have : sin (2 * π / n) ^ 2 ≤ sin (2 * π / n) := by nlinarith
    nlinarith
  have hε1 : ε ≤ 1 / 2 := by nlinarith
  have hε11 : ε ≤ 1 := by linarith
  obtain ⟨p', e', k1, k2, k3⟩ := C16_constrained h hε hε1 hi h0 s1
  rw [h.edgePoint hi] at e'
  cases e'
  obtain ⟨f, hf, hS, hfar⟩ := bary_sideParams h hε (by linarith) hi h0 s1
  obtain ⟨l0, l1, l2, l3⟩ := regular_side hn (r := r) (φ := φ) hi h0 s1
  have hin := h.insideClosed_side hi h0 s1
  have hr0 : 0 < r := by linarith
  have hD : 0 < r ^ 2 * (4 * sin (π / n) ^ 2) := by positivity
  have hM : ∀ j < n, leftOf n (regularVertex n r φ) j (sidePoint n (regularVertex n r φ) i s) ≤ r ^ 2 * (4 * sin (π / n)) := by
    have hHM : r ^ 2 * (4 * sin (π / n) ^ 2) * sin (2 * π / n) ≤ r ^ 2 * (4 * sin (π / n)) := by
      have : sin (π / n) * sin (2 * π / n) ≤ 1 := by nlinarith
      have := mul_le_mul_of_nonneg_left this (show 0 ≤ r ^ 2 * (4 * sin (π / n)) by positivity)
      linarith
    have hH0 : 0 ≤ r ^ 2 * (4 * sin (π / n) ^ 2) * sin (2 * π / n) := by positivity
    intro j hj
    by_cases a : j = i
    · rw [a, l0]; positivity
    · by_cases b : j = nextIx n i
      · rw [b, l1]; nlinarith
      · by_cases c : j = prevIx n i
        · rw [c, l2]; nlinarith
        · exact (l3 j hj a b c).2
  have hb : barycentric ε .wachspress d (sidePoint n (regularVertex n r φ) i s) =
      .ok (tab n fun j => if j = i then s else if j = prevIx n i then 1 - s else 0) := by
    unfold barycentric
    rw [h.vertices_eq, length_tab]
    exact baryWith_side hn h.convex hε hi h0 s1 (fun _ _ => hε11)
  have hfp : (f (prevIx n i)).x = 1 ∨ s = 1 := by
    rcases h1 with q | q
    · exact Or.inl (hS.prevX q)
    · exact Or.inr q
  -- far sides: the distance ratio
  have far : ∀ j < n, j ≠ i → j ≠ nextIx n i → j ≠ prevIx n i →
      constrainedMap ε d j (sidePoint n (regularVertex n r φ) i s) = .ok ⟨(f j).x, 1⟩ := by
    intro j hj a b c
    have hpj : prevIx n j < n := prevIx_lt (by omega)
    have hnj : nextIx n j < n := nextIx_lt (by omega)
    have b1 : prevIx n j ≠ i := by intro q; apply b; rw [← q, nextIx_prevIx hj]
    have b2 : prevIx n j ≠ prevIx n i := by intro q; apply a; rw [← nextIx_prevIx hj, q, nextIx_prevIx hi]
    have b3 : nextIx n j ≠ i := by intro q; apply c; rw [← q, prevIx_nextIx hj]
    have b4 : nextIx n j ≠ nextIx n i := by intro q; apply a; rw [← prevIx_nextIx hj, q, prevIx_nextIx hi]
    have A0 := hin _ hpj
    have B0 := hin _ hnj
    have AM := hM _ hpj
    have BM := hM _ hnj
    have hA : prevIx n j ≠ nextIx n i → r ^ 2 * (4 * sin (π / n) ^ 2) * sin (2 * π / n) ≤
        leftOf n (regularVertex n r φ) (prevIx n j) (sidePoint n (regularVertex n r φ) i s) := fun q => (l3 _ hpj b1 q b2).1
    have hB : nextIx n j ≠ prevIx n i → r ^ 2 * (4 * sin (π / n) ^ 2) * sin (2 * π / n) ≤
        leftOf n (regularVertex n r φ) (nextIx n j) (sidePoint n (regularVertex n r φ) i s) := fun q => (l3 _ hnj b3 b4 q).1
    have hsum : r ^ 2 * (4 * sin (π / n) ^ 2) * sin (2 * π / n) ≤
        leftOf n (regularVertex n r φ) (prevIx n j) (sidePoint n (regularVertex n r φ) i s) +
        leftOf n (regularVertex n r φ) (nextIx n j) (sidePoint n (regularVertex n r φ) i s) := by
      by_cases q1 : prevIx n j = nextIx n i
      · by_cases q2 : nextIx n j = prevIx n i
        · rw [q1, q2, l1, l2]; apply le_of_eq; ring
        · linarith [hB q2]
      · linarith [hA q1]
    have hcj : (if prevIx n j = i then s else if prevIx n j = prevIx n i then 1 - s else 0) +
        (if j = i then s else if j = prevIx n i then 1 - s else 0) < ε := by
      rw [if_neg b1, if_neg b2, if_neg a, if_neg c, add_zero]; exact hε
    have hval := regular_baryMapWith hr h hε (c := fun j => if j = i then s else if j = prevIx n i then 1 - s else 0) hj hcj
      (uv := sidePoint n (regularVertex n r φ) i s) (by
        rw [le_div_iff₀ hr0]
        have q1 : sin (2 * π / n) / 2 * (r ^ 2 * (4 * sin (π / n) ^ 2) * sin (2 * π / n)) ≤ sin (2 * π / n) / 2 * _ :=
          mul_le_mul_of_nonneg_left hsum (by positivity)
        refine le_trans ?_ q1
        have q2 : ε * (sin (π / n) * r) ≤ sin (2 * π / n) ^ 2 * sin (π / n) / 2 * (sin (π / n) * r) :=
          mul_le_mul_of_nonneg_right hle (by positivity)
        have q3 : 0 ≤ sin (2 * π / n) ^ 2 * sin (π / n) ^ 2 * r := by positivity
        have q4 : sin (2 * π / n) ^ 2 * sin (π / n) ^ 2 * r ≤ sin (2 * π / n) ^ 2 * sin (π / n) ^ 2 * r * r := by nlinarith
        nlinarith)
    have hfj := hf j hj
    unfold baryMap at hfj
    rw [hb, M_bind_ok, hval] at hfj
    have fx : (f j).x = _ := congrArg P2.x (Except.ok.inj hfj).symm
    have fy := hfar j hj a b c
    have fe : f j = ⟨(f j).x, 1⟩ := by rw [← fy]
    unfold constrainedMap constrainedMapWith
    dsimp only
    rw [h.length_eq, hf j hj, hf _ hpj, hf _ hnj]
    simp only [M_bind_ok]
    rw [fe]
    have hMD : (r ^ 2 * (4 * sin (π / n) ^ 2) * sin (2 * π / n)) =
      r ^ 2 * (4 * sin (π / n)) * (sin (2 * π / n) * sin (π / n)) := by ring
    have hMp : 0 < r ^ 2 * (4 * sin (π / n)) := by positivity
    have hHp : 0 < r ^ 2 * (4 * sin (π / n) ^ 2) * sin (2 * π / n) := by positivity
    have hsig : 0 < sin (2 * π / n) * sin (π / n) := by positivity
    have hsig1 : sin (2 * π / n) * sin (π / n) ≤ 1 := by nlinarith
    refine constrainedBlend_top hε hε1 ?_ ?_
    · intro hlt
      by_cases q : prevIx n j = nextIx n i
      · rw [q]; exact congrArg P2.x hS.next
      · exfalso
        rw [fx] at hlt
        have hA' := hA q
        generalize leftOf n (regularVertex n r φ) (prevIx n j) (sidePoint n (regularVertex n r φ) i s) = A at *
        generalize leftOf n (regularVertex n r φ) (nextIx n j) (sidePoint n (regularVertex n r φ) i s) = B at *
        dsimp only at hlt
        rw [div_lt_iff₀ (by linarith)] at hlt
        rw [hMD] at hA'
        generalize r ^ 2 * (4 * sin (π / n)) = M at *
        generalize sin (2 * π / n) * sin (π / n) = t at *
        nlinarith
    · intro hlt
      by_cases q : nextIx n j = prevIx n i
      · rw [q]
        rcases hfp with w | w
        · exact w
        · exfalso
          rw [fx] at hlt
          have hB' := l2
          rw [← q] at hB'
          rw [show ∀ x : ℝ, s * x = x from fun x => by rw [w, one_mul]] at hB'
          replace hB' := hB'.ge
          generalize leftOf n (regularVertex n r φ) (prevIx n j) (sidePoint n (regularVertex n r φ) i s) = A at *
          generalize leftOf n (regularVertex n r φ) (nextIx n j) (sidePoint n (regularVertex n r φ) i s) = B at *
          dsimp only at hlt
          rw [sub_lt_comm, lt_div_iff₀ (by linarith)] at hlt
          rw [hMD] at hB'
          exact small_ratio AM hMp hB' hε hε1 hε2 hlt
      · exfalso
        rw [fx] at hlt
        have hB' := hB q
        generalize leftOf n (regularVertex n r φ) (prevIx n j) (sidePoint n (regularVertex n r φ) i s) = A at *
        generalize leftOf n (regularVertex n r φ) (nextIx n j) (sidePoint n (regularVertex n r φ) i s) = B at *
        dsimp only at hlt
        rw [sub_lt_comm, lt_div_iff₀ (by linarith)] at hlt
        rw [hMD] at hB'
        exact small_ratio AM hMp hB' hε hε1 hε2 hlt
  have prevc : ∃ x, constrainedMap ε d (prevIx n i) (sidePoint n (regularVertex n r φ) i s) = .ok ⟨x, s⟩ ∧ 0 ≤ x ∧ x ≤ 1 ∧
      (ε ≤ 1 - s → x = 1) := by
    rcases h1 with q | q
    · exact ⟨1, k3 q, zero_le_one, le_rfl, fun _ => rfl⟩
    · refine ⟨(f (prevIx n i)).x, ?_, (hS.range _ hp).1, (hS.range _ hp).2, hS.prevX⟩
      unfold constrainedMap constrainedMapWith
      have hpp : prevIx n (prevIx n i) < n := prevIx_lt (by omega)
      dsimp only
      rw [h.length_eq, hf _ hp, hf _ hpp, nextIx_prevIx hi, hf _ hi]
      simp only [M_bind_ok]
      have fy : (f (prevIx n i)).y = s := hS.prevY
      have fe : f (prevIx n i) = ⟨(f (prevIx n i)).x, 1⟩ := by rw [← q, ← fy]
      have fi : (f i).x = 1 := by rw [hS.self]; exact q
      rw [fe, q]
      refine constrainedBlend_top hε hε1 ?_ (fun _ => fi)
      intro hlt
      have hpp1 : prevIx n (prevIx n i) ≠ i := by
        intro q
        exact hpx (by rw [← nextIx_prevIx hp, q])
      have hpp2 : prevIx n (prevIx n i) ≠ prevIx n i := Param.prev_ne (by omega) hp
      by_cases h3 : n = 3
      · have : prevIx n (prevIx n i) = nextIx n i := by
          rw [nextIx_eq hi, prevIx_eq hp, prevIx_eq hi]
          split_ifs <;> omega
        rw [this]; exact congrArg P2.x hS.next
      · exfalso
        have hpp3 : prevIx n (prevIx n i) ≠ nextIx n i := by
          intro q
          rw [nextIx_eq hi, prevIx_eq hp, prevIx_eq hi] at q
          split_ifs at q <;> omega
        have hA := (l3 _ hpp hpp1 hpp3 hpp2).1
        have hcj : (if prevIx n (prevIx n i) = i then s else if prevIx n (prevIx n i) = prevIx n i then 1 - s else 0) +
            (if prevIx n i = i then s else if prevIx n i = prevIx n i then 1 - s else 0) < ε := by
          rw [if_neg hpp1, if_neg hpp2, if_neg hpi, if_pos rfl, q]; linarith
        have hval := regular_baryMapWith hr h hε (c := fun j => if j = i then s else if j = prevIx n i then 1 - s else 0) hp hcj
          (uv := sidePoint n (regularVertex n r φ) i s) (by
            rw [nextIx_prevIx hi, l0, add_zero, le_div_iff₀ hr0]
            have q1 : sin (2 * π / n) / 2 * (r ^ 2 * (4 * sin (π / n) ^ 2) * sin (2 * π / n)) ≤ sin (2 * π / n) / 2 * _ :=
              mul_le_mul_of_nonneg_left hA (by positivity)
            refine le_trans ?_ q1
            have q2 : ε * (sin (π / n) * r) ≤ sin (2 * π / n) ^ 2 * sin (π / n) / 2 * (sin (π / n) * r) :=
              mul_le_mul_of_nonneg_right hle (by positivity)
            have q3 : 0 ≤ sin (2 * π / n) ^ 2 * sin (π / n) ^ 2 * r := by positivity
            have q4 : sin (2 * π / n) ^ 2 * sin (π / n) ^ 2 * r ≤ sin (2 * π / n) ^ 2 * sin (π / n) ^ 2 * r * r := by nlinarith
            nlinarith)
        have hfj := hf _ hp
        unfold baryMap at hfj
        rw [hb, M_bind_ok, hval, nextIx_prevIx hi, l0, add_zero] at hfj
        have fx : (f (prevIx n i)).x = _ := congrArg P2.x (Except.ok.inj hfj).symm
        have hHp : 0 < r ^ 2 * (4 * sin (π / n) ^ 2) * sin (2 * π / n) := by positivity
        dsimp only at fx
        rw [fx, div_self (by linarith)] at hlt
        linarith
  have all : ∀ j, ∃ q : P2 ℝ, j < n → constrainedMap ε d j (sidePoint n (regularVertex n r φ) i s) = .ok q ∧ 0 ≤ q.x ∧ q.x ≤ 1 ∧
      (j ≠ i → j ≠ (i + 1) % n → j ≠ (i + n - 1) % n → q.y = 1) := by
    obtain ⟨x, x3, x0, x1, x2⟩ := prevc
    intro j
    by_cases hj : j < n
    · by_cases a : j = i
      · exact ⟨_, fun _ => ⟨by rw [a]; exact k1, h0, s1, fun q => absurd a q⟩⟩
      · by_cases b : j = (i + 1) % n
        · exact ⟨_, fun _ => ⟨by rw [b]; exact k2, le_rfl, zero_le_one, fun _ q => absurd b q⟩⟩
        · by_cases c : j = (i + n - 1) % n
          · exact ⟨_, fun _ => ⟨by rw [c]; exact x3, x0, x1, fun _ _ q => absurd c q⟩⟩
          · exact ⟨_, fun _ => ⟨far j hj a b c, (hS.range j hj).1, (hS.range j hj).2, fun _ _ _ => rfl⟩⟩
    · exact ⟨0, fun q => absurd q hj⟩
  obtain ⟨x, x3, x0, x1, x2⟩ := prevc
  choose g hg using all
  have gi := (hg i hi).1
  have gx := (hg _ hx).1
  have gp := (hg _ hp).1
  rw [k1] at gi
  rw [show nextIx n i = (i + 1) % n from rfl, k2] at gx
  rw [x3] at gp
  have gi := (Except.ok.inj gi).symm
  have gx := (Except.ok.inj gx).symm
  have gp : g ((i + n - 1) % n) = _ := (Except.ok.inj gp).symm
  refine ⟨g, fun j hj => (hg j hj).1, ⟨gi, gx, by rw [gp], fun hs => by rw [gp]; exact x2 hs, ?_, fun j hj => ⟨(hg j hj).2.1, (hg j hj).2.2.1⟩⟩,
    fun j hj => (hg j hj).2.2.2⟩
  intro j hj a b c
  rw [(hg j hj).2.2.2 a b c]
  linarith

end Transfinite
