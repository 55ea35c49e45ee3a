import Verif.Lemmas.ConvexDomain
import Mathlib.Analysis.SpecialFunctions.Trigonometric.Bounds

/-! # Properties C11, C12, C13: barycentric coordinates -/

namespace Transfinite

open Spec Param

/-! ## C11 -/

section C11
variable {K : Type} [Field K] [LinearOrder K] [IsStrictOrderedRing K] [Libm K]

/-- How far `uv` is considered to be from the vertex `p` by the three kinds (distance for mean value,
squared distance for harmonic coordinates; Wachspress coordinates do not need a special case). -/
def vertexDistance : BaryType → P2 K → P2 K → K
  | .wachspress, _, _ => 1
  | .meanValue, uv, p => Libm.sqrt ((uv.x - p.x) * (uv.x - p.x) + (uv.y - p.y) * (uv.y - p.y))
  | .harmonic, uv, p => (uv.x - p.x) * (uv.x - p.x) + (uv.y - p.y) * (uv.y - p.y)

omit [IsStrictOrderedRing K] [LinearOrder K] in
private theorem baryRadius_eq (t : BaryType) (uv p : P2 K) : baryRadius t (uv - p) = vertexDistance t uv p := by
  cases t <;> rfl

/-- C11: whenever coordinates are returned, they sum to 1; they reproduce `uv`, or `uv` is nearer to
a vertex than the tolerance and its coordinate is 1. -/
theorem C11_partition_precision {ε : K} {t : BaryType} {d : Domain K} {v : ℕ → P2 K} {n : ℕ} (hn : 3 ≤ n)
    (hv : d.vertices = tab n v) (hε1 : ε ≤ 1) {uv : P2 K} {l : List K} (h : barycentric ε t d uv = .ok l) :
    ∃ c : ℕ → K, l = tab n c ∧ ∑ i ∈ Finset.range n, c i = 1 ∧
      (∑ i ∈ Finset.range n, c i • v i = uv ∨
        t ≠ .wachspress ∧ ∃ i < n, vertexDistance t uv (v i) < ε ∧ c i = 1 ∧ ∀ j < n, j ≠ i → c j = 0) := by
  unfold barycentric at h
  rw [hv, length_tab] at h
  by_cases hr : ∀ i < n, ε ≤ baryRadius t (uv - v i)
  · by_cases hs : ∑ i ∈ Finset.range n, weightOf (baryRadius t) n v uv i = 0
    · rw [baryWith_zero (by omega) v uv hr hs] at h
      exact absurd h (by simp)
    · rw [baryWith_eq (by omega) v uv hr hs] at h
      have h1 : ∑ i ∈ Finset.range n, weightOf (baryRadius t) n v uv i /
          ∑ i ∈ Finset.range n, weightOf (baryRadius t) n v uv i = 1 := by
        rw [← Finset.sum_div, div_self hs]
      refine ⟨_, (Except.ok.inj h).symm, h1, Or.inl ?_⟩
      have hc := weights_combination hn two_ne_zero (baryRadius t) v uv
      set W := ∑ i ∈ Finset.range n, weightOf (baryRadius t) n v uv i with hW
      have e : ∑ i ∈ Finset.range n, (weightOf (baryRadius t) n v uv i / W) • (uv - v i) = 0 := by
        have : ∀ i ∈ Finset.range n, (weightOf (baryRadius t) n v uv i / W) • (uv - v i) =
            W⁻¹ • (weightOf (baryRadius t) n v uv i • (uv - v i)) := by
          intro i _; rw [smul_smul, div_eq_inv_mul]
        rw [Finset.sum_congr rfl this, ← Finset.smul_sum, hc, smul_zero]
      simp only [smul_sub] at e
      rw [Finset.sum_sub_distrib, ← Finset.sum_smul, h1, one_smul, sub_eq_zero] at e
      exact e.symm
  · push Not at hr
    -- first hit
    have hex : ∃ i, i < n ∧ baryRadius t (uv - v i) < ε := hr
    classical
    have hi := Nat.find_spec hex
    have hmin : ∀ j < Nat.find hex, ε ≤ baryRadius t (uv - v j) := by
      intro j hj
      have := Nat.find_min hex hj
      push Not at this
      exact this (by omega)
    rw [baryWith_hit (by omega) v uv hi.1 hmin hi.2] at h
    refine ⟨_, (Except.ok.inj h).symm, ?_, Or.inr ⟨?_, Nat.find hex, hi.1, ?_, if_pos rfl, ?_⟩⟩
    · rw [Finset.sum_ite_eq']; simp [hi.1]
    · rintro rfl
      exact absurd hi.2 (not_lt.mpr hε1)
    · rw [← baryRadius_eq]; exact hi.2
    · intro j _ hj; exact if_neg hj

/-- C11: coordinates of all three kinds are returned for every point of a strictly convex polygon. -/
theorem C11_defined {ε : K} (hε : 0 < ε) (t : BaryType) {d : Domain K} {v : ℕ → P2 K} {n : ℕ} (hn : 3 ≤ n)
    (hv : d.vertices = tab n v) (hc : StrictConvex n v) {uv : P2 K} (hin : InsideClosed n v uv) :
    ∃ l, barycentric ε t d uv = .ok l := by
  unfold barycentric
  rw [hv, length_tab]
  by_cases hr : ∀ i < n, ε ≤ baryRadius t (uv - v i)
  · have := weights_sum_pos hn hc hin (r := baryRadius t) (fun i hi => lt_of_lt_of_le hε (hr i hi))
    exact ⟨_, baryWith_eq (by omega) v uv hr this.ne'⟩
  · push Not at hr
    classical
    have hex : ∃ i, i < n ∧ baryRadius t (uv - v i) < ε := hr
    have hi := Nat.find_spec hex
    have hmin : ∀ j < Nat.find hex, ε ≤ baryRadius t (uv - v j) := by
      intro j hj
      have := Nat.find_min hex hj
      push Not at this
      exact this (by omega)
    exact ⟨_, baryWith_hit (by omega) v uv hi.1 hmin hi.2⟩

end C11

/-- An ordered-field instance of the `<cmath>` functions for concrete rational examples that do not
use them. -/
@[reducible] def libmQ : Libm ℚ := ⟨fun x => x, fun x => x, fun x => x, fun x => x, 3⟩

section
attribute [local instance] libmQ

example : barycentric (1/1000) .wachspress (⟨4, 0, [⟨1, 1⟩, ⟨-1, 1⟩, ⟨-1, -1⟩, ⟨1, -1⟩], [], []⟩ : Domain ℚ) ⟨1/2, 0⟩ =
    .ok [3/8, 1/8, 1/8, 3/8] := by decide +kernel

example : barycentric (1/1000) .harmonic (⟨4, 0, [⟨1, 1⟩, ⟨-1, 1⟩, ⟨-1, -1⟩, ⟨1, -1⟩], [], []⟩ : Domain ℚ) ⟨1/2, 0⟩ =
    .ok [3/8, 1/8, 1/8, 3/8] := by decide +kernel

/-- outside of the polygon the normalizer may vanish -/
example : barycentric (1/1000) .wachspress (⟨4, 0, [⟨1, 1⟩, ⟨-1, 2⟩, ⟨-1, -2⟩, ⟨1, -1⟩], [], []⟩ : Domain ℚ) ⟨3, 0⟩ =
    .error .divZero := by decide +kernel

end

/-! ## C12 -/

section C12
variable {K : Type} [Field K] [LinearOrder K] [IsStrictOrderedRing K] [Libm K]

/-- C12: coordinates of a side point, for all three kinds (for mean value and harmonic coordinates,
outside of the vertex tolerance). -/
theorem C12_coordinates {ε : K} (hε : 0 < ε) (t : BaryType) {d : Domain K} {v : ℕ → P2 K} {n : ℕ} (hn : 3 ≤ n)
    (hdn : d.n = n) (hv : d.vertices = tab n v) (hc : StrictConvex n v) {i : ℕ} (hi : i < n) {s : K}
    (h0 : 0 ≤ s) (h1 : s ≤ 1) :
    ∃ p, d.edgePoint i s = .ok p ∧ ((∀ j < n, ε ≤ vertexDistance t p (v j)) →
      barycentric ε t d p = .ok ((List.range n).map fun j =>
        if j = i then s else if j = (i + n - 1) % n then 1 - s else 0)) := by
  refine ⟨sidePoint n v i s, ?_, ?_⟩
  · have := edgePoint_eq (d := d) (v := v) (by rw [hdn]; exact hv) (i := i) (by rw [hdn]; exact hi) s
    rwa [hdn] at this
  · intro hr
    unfold barycentric
    rw [hv, length_tab]
    exact baryWith_side hn hc hε hi h0 h1 (fun j hj => by rw [baryRadius_eq]; exact hr j hj)

omit [IsStrictOrderedRing K] in
/-- For Wachspress coordinates the condition of `C12_coordinates` is `ε ≤ 1`. -/
theorem C12_wachspress_condition {ε : K} (h : ε ≤ 1) (p q : P2 K) : ε ≤ vertexDistance .wachspress p q := h

end C12

section real
open Real

private theorem sq_dist_pos {a : P2 ℝ} (h : a ≠ 0) : 0 < a.norm := by
  unfold P2.norm
  apply Real.sqrt_pos.mpr
  unfold P2.dot
  by_contra hc
  have hx : a.x = 0 := by nlinarith [mul_self_nonneg a.x, mul_self_nonneg a.y]
  have hy : a.y = 0 := by nlinarith [mul_self_nonneg a.x, mul_self_nonneg a.y]
  exact h (P2.ext hx hy)

private theorem angle_ok {d : Domain ℝ} {n : ℕ} {v : ℕ → P2 ℝ} (h : ConvexDomain d n v) {i : ℕ} (hi : i < n) :
    ∃ a, d.angle i = .ok a ∧ 0 ≤ sin a := by
  unfold Domain.angle
  have hn := h.hn
  have hp : prevIx n i < n := prevIx_lt (by omega)
  have hx : nextIx n i < n := nextIx_lt (by omega)
  rw [h.n_eq, h.vget_vertex hi, h.vget_vertex hp, h.vget_vertex hx]
  simp only [M_bind_ok]
  have e1 : (v (prevIx n i) - v i) ≠ 0 := sub_ne_zero.mpr (h.side_ne hi).symm
  have e2 : (v (nextIx n i) - v i) ≠ 0 := by
    have := h.side_ne hx
    rw [prevIx_nextIx hi] at this
    exact sub_ne_zero.mpr this
  unfold P2.normalize
  rw [if_neg (sq_dist_pos e1).ne', if_neg (sq_dist_pos e2).ne']
  refine ⟨_, rfl, ?_⟩
  exact sin_nonneg_of_nonneg_of_le_pi (arccos_nonneg _) (arccos_le_pi _)

private theorem edgeLength_ok {d : Domain ℝ} {n : ℕ} {v : ℕ → P2 ℝ} (h : ConvexDomain d n v) {i : ℕ} (hi : i < n) :
    ∃ a, d.edgeLength i = .ok a ∧ 0 ≤ a := by
  unfold Domain.edgeLength
  have hn := h.hn
  rw [h.n_eq, h.vget_vertex hi, h.vget_vertex (prevIx_lt (by omega))]
  exact ⟨_, rfl, Real.sqrt_nonneg _⟩

/-- The mapping from coordinates: it never fails in a convex domain; in the degenerate branch the
first parameter is in [0,1], and it is 0 if `uv` is on side `prev(i)`. -/
theorem baryMapWith_spec {d : Domain ℝ} {n : ℕ} {v : ℕ → P2 ℝ} (h : ConvexDomain d n v) {ε : ℝ} (hε : 0 < ε)
    (c : ℕ → ℝ) {i : ℕ} (hi : i < n) {uv : P2 ℝ} (hin : InsideClosed n v uv) :
    ∃ s, baryMapWith ε d (tab n c) i uv = .ok ⟨s, 1 - c i - c (prevIx n i)⟩ ∧
      (ε ≤ c (prevIx n i) + c i → s = c i / (c (prevIx n i) + c i)) ∧
      (c (prevIx n i) + c i < ε → 0 ≤ s ∧ s ≤ 1 ∧ (leftOf n v (prevIx n i) uv = 0 → s = 0)) := by
  have hn := h.hn
  have hp : prevIx n i < n := prevIx_lt (by omega)
  have hx : nextIx n i < n := nextIx_lt (by omega)
  unfold baryMapWith
  simp only [h.length_eq]
  rw [vget_tab _ hp, vget_tab _ hi]
  simp only [M_bind_ok]
  by_cases hlt : c (prevIx n i) + c i < ε
  · rw [if_pos hlt]
    obtain ⟨a, ea, ha⟩ := angle_ok h hi
    obtain ⟨b, eb, hb⟩ := angle_ok h hp
    obtain ⟨tp, etp⟩ := h.toLocal_self hp uv
    obtain ⟨ep, eep, hep⟩ := edgeLength_ok h hp
    have etn := h.toLocal_prev hx uv
    rw [prevIx_nextIx hi] at etn
    obtain ⟨en, een, hen⟩ := edgeLength_ok h hx
    rw [ea, eb, h.vget_vertex hp, h.vget_vertex hi]
    simp only [M_bind_ok]
    rw [etp, eep, etn, een]
    simp only [M_bind_ok]
    have q1 : 0 ≤ leftOf n v (prevIx n i) uv / P2.dot (duOf n v (prevIx n i)) (duOf n v (prevIx n i)) * ep :=
      mul_nonneg (div_nonneg (hin _ hp) (h.du_pos hp).le) hep
    have q2 : 0 ≤ leftOf n v (nextIx n i) uv / P2.dot (duOf n v (nextIx n i)) (duOf n v (nextIx n i)) * en :=
      mul_nonneg (div_nonneg (hin _ hx) (h.du_pos hx).le) hen
    have q3 : leftOf n v (prevIx n i) uv = 0 →
      leftOf n v (prevIx n i) uv / P2.dot (duOf n v (prevIx n i)) (duOf n v (prevIx n i)) * ep = 0 := by
      intro e; rw [e]; simp
    generalize leftOf n v (prevIx n i) uv / P2.dot (duOf n v (prevIx n i)) (duOf n v (prevIx n i)) * ep = dp at *
    generalize leftOf n v (nextIx n i) uv / P2.dot (duOf n v (nextIx n i)) (duOf n v (nextIx n i)) * en = dn at *
    change ∃ s, (if sin a * dp + sin b * dn < ε then (.ok ⟨0, 1 - c i - c (prevIx n i)⟩ : M (P2 ℝ)) else
      fdiv (sin a * dp) (sin a * dp + sin b * dn) >>=
      fun s => (.ok ⟨s, 1 - c i - c (prevIx n i)⟩ : M (P2 ℝ))) = _ ∧ _
    by_cases h2 : sin a * dp + sin b * dn < ε
    · rw [if_pos h2]
      exact ⟨0, rfl, fun hc => absurd hlt (not_lt.mpr hc), fun _ => ⟨le_refl _, zero_le_one, fun _ => rfl⟩⟩
    · rw [if_neg h2]
      have hD : 0 < sin a * dp + sin b * dn := lt_of_lt_of_le hε (not_lt.mp h2)
      rw [fdiv_of_ne hD.ne']
      refine ⟨_, rfl, fun hc => absurd hlt (not_lt.mpr hc), fun _ => ⟨?_, ?_, ?_⟩⟩
      · exact div_nonneg (mul_nonneg ha q1) hD.le
      · rw [div_le_one hD]; have := mul_nonneg hb q2; linarith
      · intro h0; rw [q3 h0]; simp
  · rw [if_neg hlt]
    have hD : 0 < c (prevIx n i) + c i := lt_of_lt_of_le hε (not_lt.mp hlt)
    rw [fdiv_of_ne hD.ne']
    exact ⟨_, rfl, fun _ => rfl, fun hc => absurd hc hlt⟩

/-- C12: local parameters of a side point for the Wachspress parameterization of a strictly convex
domain. Side `i` gets `(s,0)`; the next side gets `(0,1-s)`; the previous side gets `(1,s)` (in the
last `ε` part of the side only the distance parameter is guaranteed: the first parameter is then 1 or
some other number in [0,1]); all other sides get distance 1. -/
theorem C12_map_side {d : Domain ℝ} {n : ℕ} {v : ℕ → P2 ℝ} (h : ConvexDomain d n v) {ε : ℝ} (hε : 0 < ε)
    (hε1 : ε ≤ 1) {i : ℕ} (hi : i < n) {s : ℝ} (h0 : 0 ≤ s) (h1 : s ≤ 1) :
    ∃ p, d.edgePoint i s = .ok p ∧
      baryMap ε .wachspress d i p = .ok ⟨s, 0⟩ ∧
      baryMap ε .wachspress d ((i + 1) % n) p = .ok ⟨0, 1 - s⟩ ∧
      (∃ x, baryMap ε .wachspress d ((i + n - 1) % n) p = .ok ⟨x, s⟩ ∧ 0 ≤ x ∧ x ≤ 1 ∧ (ε ≤ 1 - s → x = 1)) ∧
      ∀ j < n, j ≠ i → j ≠ (i + 1) % n → j ≠ (i + n - 1) % n →
        ∃ x, baryMap ε .wachspress d j p = .ok ⟨x, 1⟩ ∧ 0 ≤ x ∧ x ≤ 1 := by
  have hn := h.hn
  have hin := h.insideClosed_side hi h0 h1
  refine ⟨_, h.edgePoint hi s, ?_⟩
  have hb : barycentric ε .wachspress d (sidePoint n v i s) =
      .ok (tab n fun j => if j = i then s else if j = prevIx n i then 1 - s else 0) := by
    unfold barycentric
    rw [h.vertices_eq, length_tab]
    exact baryWith_side hn h.convex hε hi h0 h1 (fun _ _ => hε1)
  have hp : prevIx n i < n := prevIx_lt (by omega)
  have hx : nextIx n i < n := nextIx_lt (by omega)
  have hpi := prev_ne (by omega) hi
  have hxi := next_ne (by omega) hi
  have hxp := next_ne_prev hn hi
  unfold baryMap
  simp only [hb, M_bind_ok]
  set c : ℕ → ℝ := fun j => if j = i then s else if j = prevIx n i then 1 - s else 0 with hc
  have ci : c i = s := by simp [hc]
  have cp : c (prevIx n i) = 1 - s := by simp [hc, hpi]
  have co : ∀ j, j ≠ i → j ≠ prevIx n i → c j = 0 := by intro j a b; simp [hc, a, b]
  refine ⟨?_, ?_, ?_, ?_⟩
  · obtain ⟨x, e, k1, _⟩ := baryMapWith_spec h hε c hi hin
    rw [e, ci, cp] at *
    have := k1 (by linarith)
    rw [this]
    norm_num
  · change baryMapWith ε d (tab n c) (nextIx n i) _ = _
    obtain ⟨x, e, k1, k2⟩ := baryMapWith_spec h hε c hx hin
    rw [prevIx_nextIx hi, ci, co _ hxi hxp] at *
    have hx0 : x = 0 := by
      by_cases hs : ε ≤ s + 0
      · rw [k1 hs]; simp
      · exact (k2 (not_le.mp hs)).2.2 (leftOf_sidePoint n v i s)
    rw [e, hx0]; simp
  · change ∃ x, baryMapWith ε d (tab n c) (prevIx n i) _ = _ ∧ _
    obtain ⟨x, e, k1, k2⟩ := baryMapWith_spec h hε c hp hin
    have hpp : prevIx n (prevIx n i) ≠ i ∧ prevIx n (prevIx n i) ≠ prevIx n i := by
      constructor
      · intro hh
        have := prevIx_eq hp
        rw [prevIx_eq hi] at this hh
        split_ifs at * <;> omega
      · exact prev_ne (by omega) hp
    rw [co _ hpp.1 hpp.2, cp, zero_add] at *
    refine ⟨x, by rw [e]; congr 2; ring, ?_⟩
    by_cases hs : ε ≤ 1 - s
    · have : x = 1 := by rw [k1 hs]; exact div_self (by linarith)
      rw [this]; exact ⟨zero_le_one, le_refl _, fun _ => rfl⟩
    · have := k2 (not_le.mp hs)
      exact ⟨this.1, this.2.1, fun hh => absurd hh hs⟩
  · intro j hj a1 a2 a3
    change ∃ x, baryMapWith ε d (tab n c) j _ = _ ∧ _
    obtain ⟨x, e, _, k2⟩ := baryMapWith_spec h hε c hj hin
    have b1 : prevIx n j ≠ i := by
      intro hh; apply a2; change j = nextIx n i; rw [← hh, nextIx_prevIx hj]
    have b2 : prevIx n j ≠ prevIx n i := by
      intro hh; apply a1; rw [← nextIx_prevIx hj, hh, nextIx_prevIx hi]
    rw [co _ a1 a3, co _ b1 b2] at *
    have := k2 (by linarith)
    exact ⟨x, by rw [e]; norm_num, this.1, this.2.1⟩

/-- C13: in a strictly convex domain the Wachspress coordinates are nonnegative, and both parameters
of every side are in [0,1]. -/
theorem C13_unit_square {d : Domain ℝ} {n : ℕ} {v : ℕ → P2 ℝ} (h : ConvexDomain d n v) {ε : ℝ} (hε : 0 < ε)
    (hε1 : ε ≤ 1) {uv : P2 ℝ} (hin : InsideClosed n v uv) :
    (∃ l, barycentric ε .wachspress d uv = .ok l ∧ l.length = n ∧ ∀ x ∈ l, 0 ≤ x ∧ x ≤ 1) ∧
    ∀ i < n, ∃ s t, baryMap ε .wachspress d i uv = .ok ⟨s, t⟩ ∧ 0 ≤ s ∧ s ≤ 1 ∧ 0 ≤ t ∧ t ≤ 1 := by
  have hn := h.hn
  have hpos := weights_sum_pos hn h.convex hin (r := fun _ => 1) (fun _ _ => one_pos)
  have hb : barycentric ε .wachspress d uv = .ok (tab n fun i => weightOf (fun _ => 1) n v uv i /
      ∑ i ∈ Finset.range n, weightOf (fun _ => 1) n v uv i) := by
    unfold barycentric
    rw [h.vertices_eq, length_tab]
    exact baryWith_eq (by omega) v uv (fun _ _ => hε1) hpos.ne'
  set W := ∑ i ∈ Finset.range n, weightOf (fun _ => 1) n v uv i with hW
  have hc0 : ∀ i < n, 0 ≤ weightOf (fun _ => 1) n v uv i / W := fun i hi =>
    div_nonneg (weightOf_nonneg hn h.convex hin hi) hpos.le
  have hsum : ∑ i ∈ Finset.range n, weightOf (fun _ => 1) n v uv i / W = 1 := by
    rw [← Finset.sum_div, ← hW, div_self hpos.ne']
  have hc1 : ∀ i < n, weightOf (fun _ => 1) n v uv i / W ≤ 1 := by
    intro i hi
    exact (Finset.single_le_sum (f := fun i => weightOf (fun _ => 1) n v uv i / W)
      (fun j hj => hc0 j (Finset.mem_range.mp hj)) (Finset.mem_range.mpr hi)).trans_eq hsum
  constructor
  · refine ⟨_, hb, length_tab _ _, ?_⟩
    intro x hx
    simp only [tab, List.mem_map, List.mem_range] at hx
    obtain ⟨i, hi, rfl⟩ := hx
    exact ⟨hc0 i hi, hc1 i hi⟩
  · intro i hi
    unfold baryMap
    rw [hb, M_bind_ok]
    set c : ℕ → ℝ := fun i => weightOf (fun _ => 1) n v uv i / W with hc
    obtain ⟨s, e, k1, k2⟩ := baryMapWith_spec h hε c hi hin
    have hp : prevIx n i < n := prevIx_lt (by omega)
    have hpi := prev_ne (by omega) hi
    have h2 : c (prevIx n i) + c i ≤ 1 := by
      rw [← hsum, ← Finset.sum_pair hpi]
      apply Finset.sum_le_sum_of_subset_of_nonneg
      · intro j hj
        simp only [Finset.mem_insert, Finset.mem_singleton] at hj
        rcases hj with rfl | rfl <;> simpa
      · intro j hj _; exact hc0 j (Finset.mem_range.mp hj)
    have a1 : 0 ≤ c i := hc0 i hi
    have a2 : 0 ≤ c (prevIx n i) := hc0 _ hp
    refine ⟨s, _, e, ?_, ?_, by linarith, by linarith⟩
    · by_cases hs : ε ≤ c (prevIx n i) + c i
      · rw [k1 hs]; exact div_nonneg a1 (by linarith)
      · exact (k2 (not_le.mp hs)).1
    · by_cases hs : ε ≤ c (prevIx n i) + c i
      · rw [k1 hs, div_le_one (by linarith)]; linarith
      · exact (k2 (not_le.mp hs)).2.1

/-- A triangle satisfying the hypotheses of the previous theorems (all regular domains do, C08). -/
example : ∃ (d : Domain ℝ) (v : ℕ → P2 ℝ), ConvexDomain d 3 v ∧ Inside 3 v ⟨1/4, 1/4⟩ := by
  let v : ℕ → P2 ℝ := fun i => if i = 0 then ⟨0, 0⟩ else if i = 1 then ⟨1, 0⟩ else ⟨0, 1⟩
  have hin : Inside 3 v ⟨1/4, 1/4⟩ := by
    intro i hi
    have hi' : i = 0 ∨ i = 1 ∨ i = 2 := by omega
    rcases hi' with rfl | rfl | rfl <;> simp [leftOf, area2, v]
    norm_num
  refine ⟨⟨3, ⟨1/4, 1/4⟩, tab 3 v, tab 3 (duOf 3 v), tab 3 (dvOf 3 v ⟨1/4, 1/4⟩)⟩, v,
    ⟨le_refl _, ?_, hin, updateFrom_eq 3 v ⟨1/4, 1/4⟩⟩, hin⟩
  · intro i hi j hj h1 h2
    have hi' : i = 0 ∨ i = 1 ∨ i = 2 := by omega
    have hj' : j = 0 ∨ j = 1 ∨ j = 2 := by omega
    rcases hi' with rfl | rfl | rfl <;> rcases hj' with rfl | rfl | rfl <;>
      first
        | (exfalso; revert h1 h2; decide)
        | (simp [leftOf, area2, v])

/-- C13: mean value coordinates are positive strictly inside (away from the vertex tolerance). -/
theorem C13_meanvalue_positive {d : Domain ℝ} {n : ℕ} {v : ℕ → P2 ℝ} (hn : 3 ≤ n) (hv : d.vertices = tab n v)
    (hc : StrictConvex n v) {ε : ℝ} (hε : 0 < ε) {uv : P2 ℝ} (hin : Inside n v uv)
    (hfar : ∀ i < n, ε ≤ sqrt ((uv.x - (v i).x) * (uv.x - (v i).x) + (uv.y - (v i).y) * (uv.y - (v i).y))) :
    ∃ l, barycentric ε .meanValue d uv = .ok l ∧ l.length = n ∧ ∀ x ∈ l, 0 < x := by
  have hr : ∀ i < n, ε ≤ baryRadius .meanValue (uv - v i) := hfar
  have hpos := weights_sum_pos hn hc (fun i hi => (hin i hi).le) (r := baryRadius .meanValue)
    (fun i hi => lt_of_lt_of_le hε (hr i hi))
  refine ⟨_, by
    unfold barycentric
    rw [hv, length_tab]
    exact baryWith_eq (by omega) v uv hr hpos.ne', length_tab _ _, ?_⟩
  intro x hx
  simp only [tab, List.mem_map, List.mem_range] at hx
  obtain ⟨i, hi, rfl⟩ := hx
  apply div_pos _ hpos
  set A := areaOf n v uv with hA
  have hp : prevIx n i < n := prevIx_lt (by omega)
  have hx : nextIx n i < n := nextIx_lt (by omega)
  have hpn := prev_ne (by omega) hi
  have hAp : ∀ j < n, 0 < A j := by
    intro j hj
    rw [hA, areaOf_eq_leftOf n v uv hj]
    have := hin _ (nextIx_lt (n := n) (i := j) (j := 1) (by omega))
    positivity
  have k1 : prodBut n A (· = i) = A (prevIx n i) * prodBut n A (fun j => j = i ∨ j = prevIx n i) :=
    prodBut_split A hp hpn
  have k2 : prodBut n A (· = prevIx n i) = A i * prodBut n A (fun j => j = i ∨ j = prevIx n i) := by
    rw [prodBut_split A hi hpn.symm]
    unfold prodBut
    congr 1
    apply Finset.prod_congr rfl
    intro j _
    simp [or_comm]
  have hP : 0 < prodBut n A (fun j => j = i ∨ j = prevIx n i) := prodBut_pos fun j hj _ => hAp j hj
  unfold weightOf
  rw [← hA, k1, k2]
  have r1 := hr i hi
  have r2 := hr _ hp
  have r3 := hr _ hx
  have p1 := hAp i hi
  have p2 := hAp _ hp
  have a1 : A (prevIx n i) = ((uv - v (prevIx n i)).x * (uv - v i).y - (uv - v (prevIx n i)).y * (uv - v i).x) / 2 := by
    simp only [hA, areaOf, nextIx_prevIx hi]
  have a2 : A i = ((uv - v i).x * (uv - v (nextIx n i)).y - (uv - v i).y * (uv - v (nextIx n i)).x) / 2 := rfl
  have a3 : bOf n v uv i = ((uv - v (prevIx n i)).x * (uv - v (nextIx n i)).y - (uv - v (prevIx n i)).y * (uv - v (nextIx n i)).x) / 2 := rfl
  rw [a1] at p2
  rw [a2] at p1
  rw [a1, a2, a3]
  generalize uv - v i = b at *
  generalize uv - v (prevIx n i) = a at *
  generalize uv - v (nextIx n i) = c at *
  generalize prodBut n A (fun j => j = i ∨ j = prevIx n i) = P at *
  have nsq : ∀ q : P2 ℝ, baryRadius .meanValue q ^ 2 = q.x * q.x + q.y * q.y := by
    intro q
    change (Real.sqrt (P2.dot q q)) ^ 2 = _
    rw [Real.sq_sqrt (by unfold P2.dot; nlinarith [mul_self_nonneg q.x, mul_self_nonneg q.y])]; rfl
  have ha := nsq a
  have hb := nsq b
  have hcc := nsq c
  generalize baryRadius .meanValue a = ra at *
  generalize baryRadius .meanValue b = rb at *
  generalize baryRadius .meanValue c = rc at *
  have hXp : 0 < (a.x * b.y - a.y * b.x) / 2 := p2
  have hYp : 0 < (b.x * c.y - b.y * c.x) / 2 := p1
  have ra0 : 0 < ra := by linarith
  have rb0 : 0 < rb := by linarith
  have rc0 : 0 < rc := by linarith
  have cs : ∀ (p q : P2 ℝ) (x y : ℝ), 0 < x → 0 < y → x ^ 2 = p.x * p.x + p.y * p.y → y ^ 2 = q.x * q.x + q.y * q.y →
      0 < (p.x * q.y - p.y * q.x) / 2 → 0 < x * y - (p.x * q.x + p.y * q.y) := by
    intro p q x y hx hy h1 h2 h3
    have e : (x * y) ^ 2 - (p.x * q.x + p.y * q.y) ^ 2 = (p.x * q.y - p.y * q.x) ^ 2 := by
      rw [mul_pow, h1, h2]; ring
    have : 0 < (p.x * q.y - p.y * q.x) ^ 2 := pow_pos (by linarith) 2
    have hxy : 0 < x * y := by positivity
    nlinarith [abs_lt_of_sq_lt_sq (show (p.x * q.x + p.y * q.y) ^ 2 < (x * y) ^ 2 by linarith) hxy.le,
      le_abs_self (p.x * q.x + p.y * q.y)]
  have c1 := cs a b ra rb ra0 rb0 ha hb p2
  have c2 := cs b c rb rc rb0 rc0 hb hcc p1
  set X := (a.x * b.y - a.y * b.x) / 2 with hX
  set Y := (b.x * c.y - b.y * c.x) / 2 with hY
  have key : rb * (ra * (Y * P) + rc * (X * P) - rb * ((a.x * c.y - a.y * c.x) / 2) * P) =
      P * (Y * (ra * rb - (a.x * b.x + a.y * b.y)) + X * (rb * rc - (b.x * c.x + b.y * c.y))) := by
    have : rb ^ 2 * ((a.x * c.y - a.y * c.x) / 2) = Y * (a.x * b.x + a.y * b.y) + X * (b.x * c.x + b.y * c.y) := by
      rw [hb, hX, hY]; ring
    linear_combination -P * this
  have : 0 < rb * (ra * (Y * P) + rc * (X * P) - rb * ((a.x * c.y - a.y * c.x) / 2) * P) := by
    rw [key]
    exact mul_pos hP (add_pos (mul_pos p1 c1) (mul_pos p2 c2))
  exact (mul_pos_iff_of_pos_left rb0).mp this

end real

end Transfinite
