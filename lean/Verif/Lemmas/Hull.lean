import Verif.Props.SuperD
import Verif.Lemmas.Centre
import Mathlib.Analysis.Convex.Combination

/-! Ribbons of SuperD patches and convex sets. -/

namespace Transfinite

open Spec Real

namespace SuperD

variable {n : ℕ} {ε : ℝ} {S : SuperD ℝ} {C : Set (P3 ℝ)}

theorem affineCombine_mem (hC : Convex ℝ C) {p q : P3 ℝ} (hp : p ∈ C) (hq : q ∈ C) {x : ℝ} (h0 : 0 ≤ x) (h1 : x ≤ 1) : affineCombine3 p x q ∈ C := by
  have : affineCombine3 p x q = (1 - x) • p + x • q := rfl
  rw [this]
  exact hC hp hq (by linarith) h0 (by ring)

theorem generateQuartic_mem (hC : Convex ℝ C) {f : ℝ} (f0 : 0 ≤ f) (f1 : f ≤ 1) {p q r : P3 ℝ} (hp : p ∈ C) (hq : q ∈ C) (hr : r ∈ C) : ∀ x ∈ generateQuartic f p q r, x ∈ C := by
  intro x hx
  have a0 : 0 ≤ (2 / 5 * f + 3 / 5) * f := by positivity
  have a1 : (2 / 5 * f + 3 / 5) * f ≤ 1 := by nlinarith
  have b0 : 0 ≤ (-2 / 7 * f + 9 / 7) * f := mul_nonneg (by linarith) f0
  have b1 : (-2 / 7 * f + 9 / 7) * f ≤ 1 := by nlinarith
  unfold generateQuartic at hx
  simp only [List.mem_cons, List.not_mem_nil, or_false] at hx
  rcases hx with rfl | rfl | rfl | rfl | rfl
  · exact hp
  · exact affineCombine_mem hC hp hq a0 a1
  · exact affineCombine_mem hC (affineCombine_mem hC hp hq b0 b1) (affineCombine_mem hC hr hq b0 b1) (by norm_num) (by norm_num)
  · exact affineCombine_mem hC hr hq a0 a1
  · exact hr

theorem generateBase_mem (hC : Convex ℝ C) (f0 : 0 ≤ S.fullness) (f1 : S.fullness ≤ 1) (hF : ∀ x ∈ S.cpF, x ∈ C) (hE : ∀ x ∈ S.cpE, x ∈ C) {i : ℕ} {l : List (P3 ℝ)}
    (h : S.generateBase i = .ok l) : ∀ x ∈ l, x ∈ C := by
  unfold generateBase at h
  obtain ⟨p, e1, h⟩ := bind_ok h
  obtain ⟨q, e2, h⟩ := bind_ok h
  obtain ⟨r, e3, h⟩ := bind_ok h
  cases h
  exact generateQuartic_mem hC f0 f1 (hF _ (vget_mem e1)) (hE _ (vget_mem e2)) (hF _ (vget_mem e3))

theorem generateRibbon_mem (hC : Convex ℝ C) (hn : S.n ≤ 4) (f0 : 0 ≤ S.fullness) (f1 : S.fullness ≤ 1) (hV : S.cpV ∈ C) (hF : ∀ x ∈ S.cpF, x ∈ C) (hE : ∀ x ∈ S.cpE, x ∈ C) {i : ℕ}
    {R : List (List (P3 ℝ))} (h : S.generateRibbon i = .ok R) : ∀ row ∈ R, ∀ x ∈ row, x ∈ C := by
  unfold generateRibbon at h
  obtain ⟨base, e1, h⟩ := bind_ok h
  have hb := generateBase_mem hC f0 f1 hF hE e1
  rw [if_neg (by omega)] at h
  obtain ⟨mid, e2, h⟩ := bind_ok h
  obtain ⟨opp, e3, h⟩ := bind_ok h
  have hm : ∀ x ∈ mid, x ∈ C := by
    unfold generateMid at e2
    obtain ⟨p, x1, e2⟩ := bind_ok e2
    obtain ⟨q, x2, e2⟩ := bind_ok e2
    cases e2
    exact generateQuartic_mem hC f0 f1 (hE _ (vget_mem x1)) hV (hE _ (vget_mem x2))
  have ho : ∀ x ∈ opp, x ∈ C := by
    unfold generateOpp at e3
    split_ifs at e3
    · obtain ⟨f, x1, e3⟩ := bind_ok e3
      cases e3
      intro x hx
      rw [List.eq_of_mem_replicate hx]
      exact hF _ (vget_mem x1)
    · obtain ⟨b, x1, e3⟩ := bind_ok e3
      cases e3
      intro x hx
      exact generateBase_mem hC f0 f1 hF hE x1 x (List.mem_reverse.mp hx)
  unfold ribbonFew at h
  refine Patch.forLoop_inv' (fun R : List (List (P3 ℝ)) => ∀ row ∈ R, ∀ x ∈ row, x ∈ C) (by simp) ?_ h
  intro j R R' hR e
  obtain ⟨b, x1, e⟩ := bind_ok e
  obtain ⟨m, x2, e⟩ := bind_ok e
  obtain ⟨o, x3, e⟩ := bind_ok e
  cases e
  intro r hr
  rcases List.mem_append.mp hr with q | q
  · exact hR r q
  · rw [List.mem_singleton.mp q]
    exact generateQuartic_mem hC f0 f1 (hb _ (vget_mem x1)) (hm _ (vget_mem x2)) (ho _ (vget_mem x3))

theorem bezier_mem (hC : Convex ℝ C) {d : ℕ} {p : ℕ → P3 ℝ} (h : ∀ j ≤ d, p j ∈ C) {u : ℝ} (u0 : 0 ≤ u) (u1 : u ≤ 1) : bezier d p u ∈ C := by
  unfold bezier
  exact hC.sum_mem (fun j _ => bern_nonneg d j u0 u1) (bern_sum d u) fun j hj => h j (by have := Finset.mem_range.mp hj; omega)

/-- In a triangle or a square, no point is farther from a side than the ends of the adjacent sides. -/
theorem left_le {d : Domain ℝ} {r φ : ℝ} (hr : 0 < r) (hd : ConvexDomain d n (regularVertex n r φ)) (hn4 : n ≤ 4) {uv : P2 ℝ} (hin : InsideClosed n (regularVertex n r φ) uv) {i : ℕ} (hi : i < n) :
    leftOf n (regularVertex n r φ) i uv ≤ r ^ 2 * (4 * sin (π / n) ^ 2) * sin (2 * π / n) := by
  have hn := hd.hn
  obtain ⟨l, hl⟩ := C11_defined (ε := 1) one_pos .wachspress hn hd.vertices_eq hd.convex hin
  obtain ⟨c, rfl, hsum, hprec⟩ := C11_partition_precision hn hd.vertices_eq le_rfl hl
  have hprec := hprec.resolve_right fun q => q.1 rfl
  have hc0 : ∀ i < n, 0 ≤ c i := by
    intro i hi
    obtain ⟨⟨l, e, _, q⟩, _⟩ := C13_unit_square hd one_pos le_rfl hin
    rw [hl] at e
    cases e
    exact (q (c i) (List.mem_map.mpr ⟨i, List.mem_range.mpr hi, rfl⟩)).1
  obtain ⟨s1, s2⟩ := sin_pi_div_pos hn
  set A := r ^ 2 * (4 * sin (π / n) ^ 2) * sin (2 * π / n) with hA
  have hA0 : 0 ≤ A := by positivity
  have hv : ∀ k < n, leftOf n (regularVertex n r φ) i (regularVertex n r φ k) ≤ A := by
    intro k hk
    by_cases h1 : k = i
    · rw [h1]
      have : leftOf n (regularVertex n r φ) i (regularVertex n r φ i) = 0 := by unfold leftOf area2; ring
      rw [this]; exact hA0
    by_cases h2 : k = prevIx n i
    · rw [h2]
      have : leftOf n (regularVertex n r φ) i (regularVertex n r φ (prevIx n i)) = 0 := by unfold leftOf area2 prevIx; ring
      rw [this]; exact hA0
    · have : k = nextIx n i ∨ k = prevIx n (prevIx n i) := by
        rw [prevIx_eq hi] at h2
        rw [nextIx_eq hi, prevIx_eq (prevIx_lt (by omega)), prevIx_eq hi]
        split_ifs at h2 ⊢ <;> omega
      rcases this with q | q
      · rw [q, regular_leftOf_next hn hi]
      · rw [q, regular_leftOf_prev hn hi]
  rw [← hprec, leftOf_sum _ _ _ _ _ _ hsum]
  calc _ ≤ ∑ k ∈ Finset.range n, c k * A := Finset.sum_le_sum fun k hk => mul_le_mul_of_nonneg_left (hv k (Finset.mem_range.mp hk)) (hc0 k (Finset.mem_range.mp hk))
    _ = A := by rw [← Finset.sum_mul, hsum, one_mul]

end SuperD

end Transfinite
