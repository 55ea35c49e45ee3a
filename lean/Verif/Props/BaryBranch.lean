import Verif.Lemmas.BaryBranch
import Verif.Lemmas.Square

/-! # C109: the workaround for the far sides in the barycentric parameterization -/

namespace Transfinite.Param

open Spec Real Branch
open scoped ContDiff

variable {n : ℕ} {d : Domain ℝ} {v : ℕ → P2 ℝ}

/-- C109: with Wachspress coordinates, in every strictly convex domain and in every point of it, the parameters of a side do not depend on the tolerance deciding between the two formulas, as long as it does not exceed the weighted distance from the neighbouring sides. -/
theorem C109_wachspress (h : ConvexDomain d n v) {uv : P2 ℝ} (hin : InsideClosed n v uv) {j : ℕ} (hj : j < n) :
    ∃ t, ∀ ε, 0 < ε → ε ≤ 1 → ε ≤ neighbourDist n v j uv → baryMap ε .wachspress d j uv = .ok ⟨sideRatio n v j uv, t⟩ :=
  ⟨_, fun _ hε hε1 hd => both h hε hε1 hin hj hd⟩

/-- C109: with at least four sides this is so in the whole domain, for every small tolerance; the parameters are analytic functions of the point, up to and including the boundary. -/
theorem C109_smooth (h : ConvexDomain d n v) (hn : 4 ≤ n) :
    ∃ ε₀ > 0, ∃ F : ℕ → P2 ℝ → P2 ℝ, ∀ j < n, ∀ uv, InsideClosed n v uv →
      (∀ ε, 0 < ε → ε ≤ ε₀ → baryMap ε .wachspress d j uv = .ok (F j uv)) ∧ (F j uv).x = sideRatio n v j uv ∧ PlaneSmoothAt (F j) uv := by
  have hd : ∀ j < n, ∃ δ, 0 < δ ∧ ∀ uv, InsideClosed n v uv → δ ≤ neighbourDist n v j uv := by
    intro j hj
    obtain ⟨δ, d0, hδ⟩ := far h hn hj
    have hp : prevIx n j < n := prevIx_lt (by omega)
    have hx : nextIx n j < n := nextIx_lt (by omega)
    have p1 := sideLen_pos h hp
    have p2 := sideLen_pos h hj
    have p3 := sideLen_pos h hx
    have hL : 0 < sideLen n v (prevIx n j) * sideLen n v j * sideLen n v (nextIx n j) := by positivity
    exact ⟨δ / (sideLen n v (prevIx n j) * sideLen n v j * sideLen n v (nextIx n j)), div_pos d0 hL, fun uv hin => div_le_div_of_nonneg_right (hδ uv hin) hL.le⟩
  choose! δ δ0 hδ using hd
  obtain ⟨m, hm, hmin⟩ := Finset.exists_min_image (Finset.range n) δ ⟨0, Finset.mem_range.mpr (by omega)⟩
  have hm := Finset.mem_range.mp hm
  refine ⟨min 1 (δ m), lt_min one_pos (δ0 m hm),
    fun j uv => ⟨sideRatio n v j uv, 1 - Surf.lam n v uv j - Surf.lam n v uv (prevIx n j)⟩, fun j hj uv hin => ⟨fun ε hε hle => ?_, rfl, ?_⟩⟩
  · exact both h hε (hle.trans (min_le_left _ _)) hin hj
      ((hle.trans (min_le_right _ _)).trans ((hmin j (Finset.mem_range.mpr hj)).trans (hδ j hj uv hin)))
  · obtain ⟨δ', d0, hδ'⟩ := far h hn hj
    have hs : Analytic2 (neighbourSum n v j) uv := ((Analytic2.const _).mul (Analytic2.leftOf n v _)).add ((Analytic2.const _).mul (Analytic2.leftOf n v _))
    have a : Analytic2 (sideRatio n v j) uv := ((Analytic2.const _).mul (Analytic2.leftOf n v _)).div hs (lt_of_lt_of_le d0 (hδ' uv hin)).ne'
    have b : Analytic2 (fun q => 1 - Surf.lam n v q j - Surf.lam n v q (prevIx n j)) uv :=
      ((Analytic2.const 1).sub (Analytic2.lam h.hn h.convex hin j)).sub (Analytic2.lam h.hn h.convex hin _)
    exact ContDiffAt.prodMk a b

section

variable (hv : v 1 = v 0 + (v 2 - v 3))

include hv

theorem par_left (u w : ℝ) {i : ℕ} (hi : i < 4) : leftOf 4 v i (parPoint v u w) = cornerTriangle 4 v 0 * sqDist u w i := by
  unfold leftOf cornerTriangle area2 sqDist parPoint
  interval_cases i <;> norm_num [hv, P2.add_x, P2.add_y, P2.sub_x, P2.sub_y, P2.smul_x, P2.smul_y] <;> ring

theorem par_corner : cornerTriangle 4 v 3 = cornerTriangle 4 v 0 := by
  unfold cornerTriangle area2
  norm_num [hv, P2.add_x, P2.add_y, P2.sub_x, P2.sub_y]
  ring

theorem par_b (u w : ℝ) : bOf 4 v (parPoint v u w) 0 = cornerTriangle 4 v 0 / 2 * (w - u) ∧ bOf 4 v (parPoint v u w) 1 = cornerTriangle 4 v 0 / 2 * (1 - u - w) ∧
    bOf 4 v (parPoint v u w) 2 = cornerTriangle 4 v 0 / 2 * (u - w) ∧ bOf 4 v (parPoint v u w) 3 = cornerTriangle 4 v 0 / 2 * (u + w - 1) := by
  unfold bOf cornerTriangle area2 parPoint nextIx prevIx
  refine ⟨?_, ?_, ?_, ?_⟩ <;> norm_num [hv, P2.add_x, P2.add_y, P2.sub_x, P2.sub_y, P2.smul_x, P2.smul_y] <;> ring

/-- The weights in a parallelogram. -/
theorem par_weights (r : P2 ℝ → ℝ) (u w : ℝ) {a : ℝ} (ha : cornerTriangle 4 v 0 = 2 * a) :
    let R := fun k => r (parPoint v u w - v k)
    weightOf r 4 v (parPoint v u w) 0 = a ^ 3 * ((1 - w) * u * (R 3 * (1 - u) + R 1 * w - R 0 * (w - u))) ∧
    weightOf r 4 v (parPoint v u w) 1 = a ^ 3 * (u * w * (R 0 * (1 - w) + R 2 * (1 - u) - R 1 * (1 - u - w))) ∧
    weightOf r 4 v (parPoint v u w) 2 = a ^ 3 * (w * (1 - u) * (R 1 * u + R 3 * (1 - w) - R 2 * (u - w))) ∧
    weightOf r 4 v (parPoint v u w) 3 = a ^ 3 * ((1 - u) * (1 - w) * (R 2 * w + R 0 * u - R 3 * (u + w - 1))) := by
  intro R
  have A : ∀ i < 4, areaOf 4 v (parPoint v u w) i = a * sqDist u w (nextIx 4 i) := by
    intro i hi
    rw [areaOf_eq_leftOf 4 v _ hi, par_left hv u w (nextIx_lt (by omega)), ha]; ring
  obtain ⟨b0, b1, b2, b3⟩ := par_b hv u w
  rw [ha] at b0 b1 b2 b3
  have a0 := A 0 (by omega)
  have a1 := A 1 (by omega)
  have a2 := A 2 (by omega)
  have a3 := A 3 (by omega)
  norm_num [sqDist, nextIx] at a0 a1 a2 a3
  refine ⟨?_, ?_, ?_, ?_⟩ <;> unfold weightOf prodBut <;>
    norm_num [Finset.prod_range_succ, prevIx, nextIx, a0, a1, a2, a3, b0, b1, b2, b3, R] <;> ring

end

/-- C109: in a parallelogram, with any of the three coordinates, the side parameter in the points nearer to the far side than the tolerance is that of the parallelogram; at the border of this strip it is the same if and only if the sums of the two "distances" from the opposite vertices are equal. -/
theorem C109_parallelogram (h : ConvexDomain d 4 v) (hv : v 1 = v 0 + (v 2 - v 3)) {t : BaryType} {ε u : ℝ} (hε : 0 < ε) (hε1 : ε < 1) (u0 : 0 < u) (u1 : u < 1)
    (hr : ∀ w, 1 - ε ≤ w → w ≤ 1 → ∀ k < 4, ε ≤ vertexDistance t (parPoint v u w) (v k))
    (hD : ε * (sideLen 4 v 3 * sideLen 4 v 0 * sideLen 4 v 1) ≤ cornerTriangle 4 v 0 ^ 2) :
    (∀ w, 1 - ε < w → w ≤ 1 → baryMap ε t d 0 (parPoint v u w) = .ok ⟨u, w⟩) ∧
    ∃ s, baryMap ε t d 0 (parPoint v u (1 - ε)) = .ok ⟨s, 1 - ε⟩ ∧
      (s = u ↔ vertexDistance t (parPoint v u (1 - ε)) (v 0) + vertexDistance t (parPoint v u (1 - ε)) (v 2) =
        vertexDistance t (parPoint v u (1 - ε)) (v 1) + vertexDistance t (parPoint v u (1 - ε)) (v 3)) := by
  have hS := corner_pos h (show 0 < 4 by omega)
  obtain ⟨a, ha⟩ : ∃ a, cornerTriangle 4 v 0 = 2 * a := ⟨cornerTriangle 4 v 0 / 2, by ring⟩
  have a0 : 0 < a := by linarith
  have hin : ∀ w, 1 - ε ≤ w → w ≤ 1 → InsideClosed 4 v (parPoint v u w) := fun w h1 h2 i hi => by
    rw [par_left hv u w hi]
    exact mul_nonneg hS.le (sqDist_mem u0.le u1.le (by linarith) h2 i).1
  have hb : ∀ w, 1 - ε ≤ w → w ≤ 1 → ∃ c : ℕ → ℝ, barycentric ε t d (parPoint v u w) = .ok (tab 4 c) ∧ c 3 + c 0 = 1 - w ∧
      ((1 - u) * c 0 = u * c 3 ↔ (1 - w) * (vertexDistance t (parPoint v u w) (v 1) + vertexDistance t (parPoint v u w) (v 3) - vertexDistance t (parPoint v u w) (v 0) -
        vertexDistance t (parPoint v u w) (v 2)) = 0) := by
    intro w h1 h2
    have er : ∀ k, baryRadius t (parPoint v u w - v k) = vertexDistance t (parPoint v u w) (v k) := fun k => by cases t <;> rfl
    have hpos := weights_sum_pos h.hn h.convex (hin w h1 h2) (r := baryRadius t) (fun i hi => by rw [er]; exact lt_of_lt_of_le hε (hr w h1 h2 i hi))
    refine ⟨fun i => weightOf (baryRadius t) 4 v (parPoint v u w) i / ∑ i ∈ Finset.range 4, weightOf (baryRadius t) 4 v (parPoint v u w) i, ?_, ?_, ?_⟩
    · unfold barycentric
      rw [h.vertices_eq, length_tab]
      exact baryWith_eq (by omega) v _ (fun i hi => by rw [er]; exact hr w h1 h2 i hi) hpos.ne'
    · obtain ⟨w0, w1, w2, w3⟩ := par_weights hv (baryRadius t) u w ha
      rw [← add_div, div_eq_iff hpos.ne']
      simp only [Finset.sum_range_succ, Finset.sum_range_zero]
      rw [w0, w1, w2, w3]
      ring
    · obtain ⟨w0, _, _, w3⟩ := par_weights hv (baryRadius t) u w ha
      rw [mul_div_assoc', mul_div_assoc', div_left_inj' hpos.ne', w0, w3]
      simp only [er]
      have hw : w ≠ 0 := by linarith
      have hk : a ^ 3 * u * (1 - u) * w ≠ 0 := by
        have : 0 < 1 - u := by linarith
        have : 0 < a ^ 3 * u * (1 - u) := by positivity
        exact mul_ne_zero this.ne' hw
      generalize vertexDistance t (parPoint v u w) (v 0) = r0
      generalize vertexDistance t (parPoint v u w) (v 1) = r1
      generalize vertexDistance t (parPoint v u w) (v 2) = r2
      generalize vertexDistance t (parPoint v u w) (v 3) = r3
      rw [← sub_eq_zero]
      have e : (1 - u) * (a ^ 3 * ((1 - w) * u * (r3 * (1 - u) + r1 * w - r0 * (w - u)))) -
          u * (a ^ 3 * ((1 - u) * (1 - w) * (r2 * w + r0 * u - r3 * (u + w - 1)))) = a ^ 3 * u * (1 - u) * w * ((1 - w) * (r1 + r3 - r0 - r2)) := by ring
      rw [e, mul_eq_zero, or_iff_right hk]
  constructor
  · intro w h1 h2
    obtain ⟨c, ec, es, _⟩ := hb w h1.le h2
    unfold baryMap
    rw [ec, M_bind_ok]
    have p1 := sideLen_pos h (show 3 < 4 by omega)
    have p2 := sideLen_pos h (show 0 < 4 by omega)
    have p3 := sideLen_pos h (show 1 < 4 by omega)
    have eN : neighbourSum 4 v 0 (parPoint v u w) = cornerTriangle 4 v 0 ^ 2 := by
      change cornerTriangle 4 v 0 * leftOf 4 v 3 _ + cornerTriangle 4 v 3 * leftOf 4 v 1 _ = _
      rw [par_corner hv, par_left hv u w (by omega), par_left hv u w (by omega)]
      norm_num [sqDist]
      ring
    have eR : sideRatio 4 v 0 (parPoint v u w) = u := by
      unfold sideRatio
      rw [eN]
      change cornerTriangle 4 v 0 * leftOf 4 v 3 _ / _ = _
      rw [par_left hv u w (by omega)]
      norm_num [sqDist]
      field_simp
    have := second (uv := parPoint v u w) h hε (c := c) (show 0 < 4 by omega) (by change c 3 + c 0 < ε; linarith) (by
      unfold neighbourDist
      rw [eN]
      change ε ≤ _ / (sideLen 4 v 3 * sideLen 4 v 0 * sideLen 4 v 1)
      rw [le_div_iff₀ (by positivity)]
      exact hD)
    rw [this, eR]
    congr 2
    change 1 - c 0 - c 3 = w
    linarith
  · obtain ⟨c, ec, es, ei⟩ := hb (1 - ε) le_rfl (by linarith)
    obtain ⟨s, e, k, _⟩ := baryMapWith_spec h hε c (show 0 < 4 by omega) (hin (1 - ε) le_rfl (by linarith))
    have es' : c (prevIx 4 0) + c 0 = ε := by change c 3 + c 0 = ε; linarith
    have k := k es'.ge
    rw [es'] at k
    refine ⟨s, ?_, ?_⟩
    · unfold baryMap
      rw [ec, M_bind_ok, e]
      congr 2
      linarith
    · rw [k, div_eq_iff hε.ne']
      have : (c 0 = u * ε) ↔ (1 - u) * c 0 = u * c 3 := by
        constructor <;> intro q <;> nlinarith
      rw [this, ei, mul_eq_zero, or_iff_right (by linarith)]
      constructor <;> intro q <;> linarith

/-- C109: in the four-sided domain of the library, the parameterization by mean value coordinates is discontinuous for every tolerance up to 1/4: at the points with distance parameter `1 - ε` the side parameter is not `u`, but it is `u` in all points nearer to the far side. -/
theorem C109_meanvalue_jump {vs : List (P2 ℝ)} (h1 : Domain.regularVertices 4 = .ok vs) (h2 : Domain.updateFrom vs 0 = .ok d)
    {ε u : ℝ} (hε : 0 < ε) (hε4 : ε ≤ 1 / 4) (u0 : ε ≤ u) (u1 : u ≤ 1 - ε) (hu : u ≠ 1 / 2) :
    (∀ w, 1 - ε < w → w ≤ 1 → baryMap ε .meanValue d 0 ⟨1 - 2 * w, 2 * u - 1⟩ = .ok ⟨u, w⟩) ∧
    ∃ s ≠ u, baryMap ε .meanValue d 0 ⟨1 - 2 * (1 - ε), 2 * u - 1⟩ = .ok ⟨s, 1 - ε⟩ := by
  obtain ⟨r, φ, _, _, hd, _⟩ := square_domain h1 h2
  unfold Domain.regularVertices at h1
  rw [if_pos rfl] at h1
  cases h1
  have hvs : d.vertices = [⟨1, 1⟩, ⟨-1, 1⟩, ⟨-1, -1⟩, ⟨1, -1⟩] := by
    unfold Domain.updateFrom at h2
    obtain ⟨_, _, h2⟩ := bind_ok h2
    cases h2
    rfl
  have e0 : [regularVertex 4 r φ 0, regularVertex 4 r φ 1, regularVertex 4 r φ 2, regularVertex 4 r φ 3] = [⟨1, 1⟩, ⟨-1, 1⟩, ⟨-1, -1⟩, ⟨1, -1⟩] :=
    hd.vertices_eq.symm.trans hvs
  simp only [List.cons.injEq, and_true] at e0
  generalize regularVertex 4 r φ = v at *
  obtain ⟨v0, v1, v2, v3⟩ := e0
  have ep : ∀ u w, parPoint v u w = ⟨1 - 2 * w, 2 * u - 1⟩ := by
    intro u w
    unfold parPoint
    rw [v0, v2, v3]
    ext <;> norm_num [P2.add_x, P2.add_y, P2.sub_x, P2.sub_y, P2.smul_x, P2.smul_y] <;> ring
  have L : ∀ i < 4, sideLen 4 v i = 2 := by
    intro i hi
    unfold sideLen
    rw [show (2 : ℝ) = √(2 ^ 2) by rw [Real.sqrt_sq (by norm_num)]]
    interval_cases i <;> norm_num [v0, v1, v2, v3]
  have S : cornerTriangle 4 v 0 = 4 := by
    unfold cornerTriangle area2
    norm_num [v0, v1, v3]
  have vd : ∀ w k, vertexDistance .meanValue (parPoint v u w) (v k) = √((1 - 2 * w - (v k).x) * (1 - 2 * w - (v k).x) + (2 * u - 1 - (v k).y) * (2 * u - 1 - (v k).y)) := by
    intro w k
    rw [ep]; rfl
  obtain ⟨c1, s, e, c2⟩ := C109_parallelogram (t := .meanValue) (ε := ε) (u := u) hd (by rw [v0, v1, v2, v3]; ext <;> norm_num [P2.add_x, P2.add_y, P2.sub_x, P2.sub_y]) hε (by linarith) (by linarith) (by linarith) (by
      intro w w1 w2 k hk
      rw [vd]
      apply Real.le_sqrt_of_sq_le
      interval_cases k
      · rw [v0]; nlinarith
      · rw [v1]; nlinarith [mul_self_nonneg (1 - 2 * w - (-1))]
      · rw [v2]; nlinarith [mul_self_nonneg (1 - 2 * w - (-1))]
      · rw [v3]; nlinarith) (by
      rw [L 3 (by omega), L 0 (by omega), L 1 (by omega), S]; linarith)
  simp only [ep] at c1 e
  refine ⟨c1, s, ?_, e⟩
  rw [Ne, c2]
  rw [vd, vd, vd, vd, v0, v1, v2, v3]
  intro q
  change √_ + √_ = √_ + √_ at q
  set r0 := √((1 - 2 * (1 - ε) - 1) * (1 - 2 * (1 - ε) - 1) + (2 * u - 1 - 1) * (2 * u - 1 - 1)) with h0
  set r1 := √((1 - 2 * (1 - ε) - -1) * (1 - 2 * (1 - ε) - -1) + (2 * u - 1 - 1) * (2 * u - 1 - 1)) with h1
  set r2 := √((1 - 2 * (1 - ε) - -1) * (1 - 2 * (1 - ε) - -1) + (2 * u - 1 - -1) * (2 * u - 1 - -1)) with h2
  set r3 := √((1 - 2 * (1 - ε) - 1) * (1 - 2 * (1 - ε) - 1) + (2 * u - 1 - -1) * (2 * u - 1 - -1)) with h3
  have s0 : r0 ^ 2 = 4 * (1 - ε) ^ 2 + 4 * (1 - u) ^ 2 := by rw [h0, Real.sq_sqrt (by nlinarith [mul_self_nonneg (1 - 2 * (1 - ε) - 1), mul_self_nonneg (2 * u - 1 - 1)])]; ring
  have s1 : r1 ^ 2 = 4 * ε ^ 2 + 4 * (1 - u) ^ 2 := by rw [h1, Real.sq_sqrt (by nlinarith [mul_self_nonneg (1 - 2 * (1 - ε) - -1), mul_self_nonneg (2 * u - 1 - 1)])]; ring
  have s2 : r2 ^ 2 = 4 * ε ^ 2 + 4 * u ^ 2 := by rw [h2, Real.sq_sqrt (by nlinarith [mul_self_nonneg (1 - 2 * (1 - ε) - -1), mul_self_nonneg (2 * u - 1 - -1)])]; ring
  have s3 : r3 ^ 2 = 4 * (1 - ε) ^ 2 + 4 * u ^ 2 := by rw [h3, Real.sq_sqrt (by nlinarith [mul_self_nonneg (1 - 2 * (1 - ε) - 1), mul_self_nonneg (2 * u - 1 - -1)])]; ring
  -- `(r0 - r1) (r0 + r1) = (r3 - r2) (r3 + r2)` and `r0 - r1 = r3 - r2`
  have q1 : r0 - r1 = r3 - r2 := by linarith
  have q2 : (r0 - r1) * ((r0 + r1) - (r3 + r2)) = 0 := by
    have : (r0 - r1) * (r0 + r1) = (r3 - r2) * (r3 + r2) := by nlinarith
    rw [← q1] at this
    linarith
  rcases mul_eq_zero.mp q2 with z | z
  · have : r0 ^ 2 = r1 ^ 2 := by rw [sub_eq_zero.mp z]
    rw [s0, s1] at this
    nlinarith
  · have : r0 = r3 := by linarith
    have : r0 ^ 2 = r3 ^ 2 := by rw [this]
    rw [s0, s3] at this
    exact hu (by linarith)

/-- C109: with discrete harmonic coordinates the side parameter jumps at the same place in every parallelogram except for rectangles. -/
theorem C109_harmonic_jump (h : ConvexDomain d 4 v) (hv : v 1 = v 0 + (v 2 - v 3)) {ε u : ℝ} (hε : 0 < ε) (hε1 : ε < 1) (u0 : 0 < u) (u1 : u < 1)
    (hr : ∀ w, 1 - ε ≤ w → w ≤ 1 → ∀ k < 4, ε ≤ vertexDistance .harmonic (parPoint v u w) (v k))
    (hD : ε * (sideLen 4 v 3 * sideLen 4 v 0 * sideLen 4 v 1) ≤ cornerTriangle 4 v 0 ^ 2) :
    (∀ w, 1 - ε < w → w ≤ 1 → baryMap ε .harmonic d 0 (parPoint v u w) = .ok ⟨u, w⟩) ∧
    ∃ s, baryMap ε .harmonic d 0 (parPoint v u (1 - ε)) = .ok ⟨s, 1 - ε⟩ ∧ (s = u ↔ P2.dot (v 0 - v 3) (v 2 - v 3) = 0) := by
  obtain ⟨c1, s, e, c2⟩ := C109_parallelogram h hv hε hε1 u0 u1 hr hD
  refine ⟨c1, s, e, c2.trans ?_⟩
  unfold vertexDistance parPoint P2.dot
  simp only [hv, P2.add_x, P2.add_y, P2.sub_x, P2.sub_y, P2.smul_x, P2.smul_y]
  constructor <;> intro q <;> linarith

/-- A parallelogram that is not a rectangle meets the hypotheses of the theorems above. -/
theorem parallelogram_example : ∃ (d : Domain ℝ) (v : ℕ → P2 ℝ), ConvexDomain d 4 v ∧ v 1 = v 0 + (v 2 - v 3) ∧ P2.dot (v 0 - v 3) (v 2 - v 3) ≠ 0 ∧
    (∀ w, 1 - 1 / 4 ≤ w → w ≤ 1 → ∀ k < 4, 1 / 4 ≤ vertexDistance .harmonic (parPoint v (1 / 2) w) (v k)) ∧
    1 / 4 * (sideLen 4 v 3 * sideLen 4 v 0 * sideLen 4 v 1) ≤ cornerTriangle 4 v 0 ^ 2 := by
  let v : ℕ → P2 ℝ := fun i => if i = 0 then ⟨4, 0⟩ else if i = 1 then ⟨5, 4⟩ else if i = 2 then ⟨1, 4⟩ else ⟨0, 0⟩
  have hin : Inside 4 v ⟨5/2, 2⟩ := by
    intro i hi
    interval_cases i <;> norm_num [leftOf, area2, v]
  refine ⟨⟨4, ⟨5/2, 2⟩, tab 4 v, tab 4 (duOf 4 v), tab 4 (dvOf 4 v ⟨5/2, 2⟩)⟩, v, ⟨by norm_num, ?_, hin, updateFrom_eq 4 v ⟨5/2, 2⟩⟩, ?_, ?_, ?_, ?_⟩
  · intro i hi j hj h1 h2
    interval_cases i <;> interval_cases j <;> first
        | (exfalso; revert h1 h2; decide)
        | (norm_num [leftOf, area2, v])
  · ext <;> norm_num [v, P2.add_x, P2.add_y, P2.sub_x, P2.sub_y]
  · norm_num [v, P2.dot, P2.sub_x, P2.sub_y]
  · intro w h1 h2 k hk
    unfold vertexDistance parPoint
    interval_cases k <;> norm_num [v, P2.add_x, P2.add_y, P2.sub_x, P2.sub_y, P2.smul_x, P2.smul_y] <;> nlinarith
  · have e3 : sideLen 4 v 3 = √17 := by unfold sideLen; norm_num [v]
    have e1 : sideLen 4 v 1 = √17 := by unfold sideLen; norm_num [v]
    have e0 : sideLen 4 v 0 = 4 := by
      unfold sideLen
      rw [show (4 : ℝ) = √(4 ^ 2) by rw [Real.sqrt_sq (by norm_num)]]
      norm_num [v]
    have eS : cornerTriangle 4 v 0 = 16 := by unfold cornerTriangle area2; norm_num [v]
    rw [e0, e1, e3, eS]
    nlinarith [Real.mul_self_sqrt (show (0 : ℝ) ≤ 17 by norm_num)]

/-- In this parallelogram the discrete harmonic parameterization jumps, while the Wachspress parameterization is analytic. -/
example : ∃ (d : Domain ℝ) (v : ℕ → P2 ℝ) (s : ℝ), s ≠ 1 / 2 ∧ baryMap (1 / 4) .harmonic d 0 (parPoint v (1 / 2) (1 - 1 / 4)) = .ok ⟨s, 1 - 1 / 4⟩ ∧
    (∀ w, 1 - 1 / 4 < w → w ≤ 1 → baryMap (1 / 4) .harmonic d 0 (parPoint v (1 / 2) w) = .ok ⟨1 / 2, w⟩) ∧
    ∃ ε₀ > 0, ∃ F : ℕ → P2 ℝ → P2 ℝ, ∀ j < 4, ∀ uv, InsideClosed 4 v uv →
      (∀ ε, 0 < ε → ε ≤ ε₀ → baryMap ε .wachspress d j uv = .ok (F j uv)) ∧ PlaneSmoothAt (F j) uv := by
  obtain ⟨d, v, h, hv, hdot, hr, hD⟩ := parallelogram_example
  obtain ⟨c1, s, e, c2⟩ := C109_harmonic_jump h hv (ε := 1 / 4) (u := 1 / 2) (by norm_num) (by norm_num) (by norm_num) (by norm_num) hr hD
  obtain ⟨ε₀, p, F, hF⟩ := C109_smooth h le_rfl
  exact ⟨d, v, s, fun q => hdot (c2.mp q), e, c1, ε₀, p, F, fun j hj uv hin => ⟨(hF j hj uv hin).1, (hF j hj uv hin).2.2⟩⟩

/-- The four-sided domain of the library with tolerance 1/100 meets the hypotheses of the theorem on mean value coordinates. -/
example : ∃ (d : Domain ℝ) (s : ℝ), s ≠ 1 / 4 ∧ baryMap (1 / 100) .meanValue d 0 ⟨1 - 2 * (1 - 1 / 100), 2 * (1 / 4) - 1⟩ = .ok ⟨s, 1 - 1 / 100⟩ := by
  obtain ⟨vs, d, h1, h2⟩ : ∃ vs d, Domain.regularVertices (K := ℝ) 4 = .ok vs ∧ Domain.updateFrom vs 0 = .ok d := by
    obtain ⟨r, φ, _, e⟩ := regularVertices_form (n := 4) (by omega)
    exact ⟨_, _, e, updateFrom_eq 4 _ 0⟩
  obtain ⟨_, s, hs, e⟩ := C109_meanvalue_jump h1 h2 (ε := 1 / 100) (u := 1 / 4) (by norm_num) (by norm_num) (by norm_num) (by norm_num) (by norm_num)
  exact ⟨d, s, hs, e⟩

end Transfinite.Param
