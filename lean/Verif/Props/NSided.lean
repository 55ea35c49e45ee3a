import Verif.Model.NSided
import Verif.Props.Parameterization
import Verif.Props.Blend
import Verif.Props.RMF
import Verif.Lemmas.ParamFresh
import Verif.Lemmas.PatchSide
import Mathlib.Analysis.SpecialFunctions.Trigonometric.Inverse

/-! # Properties C63, C68: the n-sided experimental patch, and the perpendicular-polar parameterization -/

namespace Transfinite

open Spec

/-- The point with coordinates `(x, y)` in the frame of side `i`: the first axis is the side itself, the second axis is the
side turned counterclockwise by a right angle. -/
noncomputable def Spec.framePoint (n : ℕ) (v : ℕ → P2 ℝ) (i : ℕ) (x y : ℝ) : P2 ℝ :=
  let b := v ((i + n - 1) % n)
  let s := v i - b
  b + x • s + y • (⟨-s.y, s.x⟩ : P2 ℝ)

theorem P2.norm_sq (a : P2 ℝ) : a.norm * a.norm = P2.dot a a :=
  Real.mul_self_sqrt (by unfold P2.dot; nlinarith [mul_self_nonneg a.x, mul_self_nonneg a.y])

theorem P2.norm_pos_of {a : P2 ℝ} (h : 0 < P2.dot a a) : 0 < a.norm := Real.sqrt_pos.mpr h

namespace Param

variable {d : Domain ℝ} {n : ℕ} {v : ℕ → P2 ℝ}

private theorem local_frame (h : ConvexDomain d n v) {i : ℕ} (hi : i < n) (x y : ℝ) :
    d.toLocal i (framePoint n v i x y - v (prevIx n i)) = .ok ⟨x, y⟩ := by
  rw [h.toLocal_prev hi]
  have hpos := h.du_pos hi
  congr 2
  · rw [div_eq_iff hpos.ne']
    simp only [framePoint, P2.dot, duOf, prevIx, P2.sub_x, P2.sub_y, P2.add_x, P2.add_y, P2.smul_x, P2.smul_y]; ring
  · rw [div_eq_iff hpos.ne']
    simp only [framePoint, leftOf, area2, P2.dot, duOf, prevIx, P2.sub_x, P2.sub_y, P2.add_x, P2.add_y, P2.smul_x, P2.smul_y]; ring

private theorem from_frame (h : ConvexDomain d n v) {i : ℕ} (hi : i < n) :
    d.fromLocal i ⟨0, 1⟩ = .ok ⟨-(duOf n v i).y, (duOf n v i).x⟩ := by
  have e := h.eq
  unfold Domain.fromLocal
  rw [e]
  dsimp only
  rw [vget_tab _ hi, vget_tab _ hi, dvOf_eq (h.inside i hi)]
  simp only [M_bind_ok]
  congr 1
  ext <;> simp

private theorem edge_frame (h : ConvexDomain d n v) {i : ℕ} (hi : i < n) : d.edgeLength i = .ok (duOf n v i).norm := by
  unfold Domain.edgeLength
  have := h.hn
  rw [h.n_eq, h.vget_vertex hi, h.vget_vertex (prevIx_lt (by omega))]
  rfl

/-- The angle of the fan parts. -/
private theorem fan_angle {c e L N : ℝ} (hL : 0 < L) (hN : 0 < N)
    (hNs : N * N = (c * c + e * e) * (L * L)) (hc : 0 < c) :
    let φ := Real.arccos (Domain.clamp (e * L / N) (-1) 1)
    0 < φ ∧ φ < Real.pi ∧ N / L * Real.cos φ = e ∧ N / L * Real.sin φ = c := by
  intro φ
  have hNe : N ≠ 0 := hN.ne'
  have hLe : L ≠ 0 := hL.ne'
  have h1 : (e * L / N) ^ 2 + (c * L / N) ^ 2 = 1 := by
    rw [div_pow, div_pow, ← add_div, div_eq_one_iff_eq (by positivity)]
    linear_combination -hNs
  have hc' : 0 < c * L / N := by positivity
  have h2 : e * L / N < 1 := by nlinarith
  have h3 : -1 < e * L / N := by nlinarith
  have hcl : Domain.clamp (e * L / N) (-1) 1 = e * L / N := by
    unfold Domain.clamp
    rw [min_eq_left h2.le, max_eq_right h3.le]
  have hφ : φ = Real.arccos (e * L / N) := by rw [← hcl]
  refine ⟨?_, ?_, ?_, ?_⟩
  · rw [hφ]; exact Real.arccos_pos.mpr h2
  · rw [hφ]; exact Real.arccos_lt_pi.mpr h3
  · rw [hφ, Real.cos_arccos h3.le h2.le]; field_simp
  · rw [hφ, Real.sin_arccos, show 1 - (e * L / N) ^ 2 = (c * L / N) ^ 2 by linarith, Real.sqrt_sq hc'.le]; field_simp

/-- Every point has coordinates in the frame of a side. -/
theorem exists_frame (h : ConvexDomain d n v) {i : ℕ} (hi : i < n) (uv : P2 ℝ) : ∃ x y, uv = framePoint n v i x y := by
  have hpos := h.du_pos hi
  have key : ∀ {X Y u w a z D : ℝ}, D ≠ 0 → X * u + Y * w = D * (z - a) → z = a + X / D * u + Y / D * w := by
    intro X Y u w a z D hD e
    field_simp
    linear_combination -e
  refine ⟨P2.dot (uv - v (prevIx n i)) (duOf n v i) / P2.dot (duOf n v i) (duOf n v i),
    leftOf n v i uv / P2.dot (duOf n v i) (duOf n v i), ?_⟩
  simp only [framePoint, leftOf, area2, P2.dot, duOf, prevIx, P2.sub_x, P2.sub_y] at hpos ⊢
  ext <;> simp only [P2.sub_x, P2.sub_y, P2.add_x, P2.add_y, P2.smul_x, P2.smul_y]
  all_goals
    generalize v ((i + n - 1) % n) = a at *
    generalize v i = b at *
    exact key hpos.ne' (by ring)

/-- C68: the perpendicular-polar parameters of the point with coordinates `(x, y)` in the frame of the side are always defined.
In the strip of the side they are the coordinates; left of it they are minus the angle from the inner normal and the distance
(relative to the length of the side) from the left end; right of it they are one plus the angle from the outer normal,
and the distance from the right end. -/
theorem C68_perpPolar (h : ConvexDomain d n v) {i : ℕ} (hi : i < n) (x y : ℝ) :
    ∃ s ρ : ℝ, perpPolarMap d i (framePoint n v i x y) = .ok ⟨s, ρ⟩ ∧
      (0 ≤ x → x ≤ 1 → s = x ∧ ρ = y) ∧
      (x < 0 → -Real.pi < s ∧ s < 0 ∧ 0 < ρ ∧ x = ρ * Real.sin s ∧ y = ρ * Real.cos s) ∧
      (1 < x → 1 < s ∧ s < 1 + Real.pi ∧ 0 < ρ ∧ x - 1 = ρ * Real.sin (s - 1) ∧ y = -(ρ * Real.cos (s - 1))) := by
  have hn := h.hn
  have hpos := h.du_pos hi
  have hL := P2.norm_pos_of hpos
  have hLs := P2.norm_sq (duOf n v i)
  set du := duOf n v i with hdu
  have hw : (P2.norm ⟨-du.y, du.x⟩ : ℝ) = du.norm := by
    unfold P2.norm
    congr 1
    simp only [P2.dot]; ring
  have hw' : (P2.norm (-⟨-du.y, du.x⟩) : ℝ) = du.norm := by
    unfold P2.norm
    congr 1
    simp only [P2.dot, P2.neg_x, P2.neg_y]; ring
  unfold perpPolarMap
  dsimp only
  rw [h.length_eq, h.vget_vertex (prevIx_lt (by omega)), M_bind_ok, local_frame h hi, M_bind_ok]
  dsimp only
  by_cases h0 : 0 ≤ x
  · by_cases h1 : x ≤ 1
    · exact ⟨x, y, by rw [if_pos ⟨h0, h1⟩], fun _ _ => ⟨rfl, rfl⟩, fun h => by linarith, fun h => by linarith⟩
    · have h1 : 1 < x := not_le.mp h1
      rw [if_neg (by rintro ⟨_, q⟩; linarith), from_frame h hi, M_bind_ok, h.vget_vertex hi, M_bind_ok, edge_frame h hi, M_bind_ok,
        ← hdu, if_pos h1, if_pos h1]
      have hv : framePoint n v i x y - v i = (⟨(x - 1) * du.x - y * du.y, (x - 1) * du.y + y * du.x⟩ : P2 ℝ) := by
        ext <;> simp only [framePoint, hdu, duOf, prevIx, P2.sub_x, P2.sub_y, P2.add_x, P2.add_y, P2.smul_x, P2.smul_y] <;> ring
      rw [hv]
      set w : P2 ℝ := ⟨(x - 1) * du.x - y * du.y, (x - 1) * du.y + y * du.x⟩ with hwdef
      have hww : P2.dot w w = ((x - 1) * (x - 1) + (-y) * (-y)) * (du.norm * du.norm) := by
        rw [hLs, hwdef]; simp only [P2.dot]; ring
      have hN : 0 < w.norm := P2.norm_pos_of (by rw [hww]; nlinarith [mul_pos hL hL, mul_self_nonneg y, mul_pos (sub_pos.mpr h1) (sub_pos.mpr h1)])
      obtain ⟨a1, a2, a3, a4⟩ := fan_angle (c := x - 1) (e := -y) hL hN (by rw [P2.norm_sq, hww]) (by linarith)
      have hdot : P2.dot (du.norm⁻¹ • (-⟨-du.y, du.x⟩ : P2 ℝ)) (w.norm⁻¹ • w) = -y * du.norm / w.norm := by
        have : P2.dot (-⟨-du.y, du.x⟩ : P2 ℝ) w = -y * (du.norm * du.norm) := by
          rw [hLs, hwdef]; simp only [P2.dot, P2.neg_x, P2.neg_y]; ring
        have e : P2.dot (du.norm⁻¹ • (-⟨-du.y, du.x⟩ : P2 ℝ)) (w.norm⁻¹ • w) = du.norm⁻¹ * w.norm⁻¹ * P2.dot (-⟨-du.y, du.x⟩ : P2 ℝ) w := by
          simp only [P2.dot, P2.smul_x, P2.smul_y]; ring
        rw [e, this]
        field_simp
      unfold P2.normalize
      rw [fdiv_of_ne hL.ne', M_bind_ok, hw', if_neg hL.ne', M_bind_ok, if_neg hN.ne', M_bind_ok, if_neg (by linarith), hdot]
      refine ⟨_, _, rfl, fun _ q => by linarith, fun q => by linarith, fun _ => ?_⟩
      change 1 < 1 + Real.arccos _ ∧ _
      refine ⟨by linarith, by change 1 + Real.arccos _ < _; linarith, by positivity, ?_, ?_⟩
      · rw [add_sub_cancel_left]; exact a4.symm
      · rw [add_sub_cancel_left]; exact (by linarith [a3] : y = -(w.norm / du.norm * Real.cos (Real.arccos _)))
  · have h0 : x < 0 := not_le.mp h0
    rw [if_neg (by rintro ⟨q, _⟩; linarith), from_frame h hi, M_bind_ok, h.vget_vertex hi, M_bind_ok, edge_frame h hi, M_bind_ok,
      ← hdu, if_neg (by linarith), if_neg (by linarith)]
    have hv : framePoint n v i x y - v (prevIx n i) = (⟨x * du.x - y * du.y, x * du.y + y * du.x⟩ : P2 ℝ) := by
      ext <;> simp only [framePoint, hdu, duOf, prevIx, P2.sub_x, P2.sub_y, P2.add_x, P2.add_y, P2.smul_x, P2.smul_y] <;> ring
    rw [hv]
    set w : P2 ℝ := ⟨x * du.x - y * du.y, x * du.y + y * du.x⟩ with hwdef
    have hww : P2.dot w w = ((-x) * (-x) + y * y) * (du.norm * du.norm) := by
      rw [hLs, hwdef]; simp only [P2.dot]; ring
    have hN : 0 < w.norm := P2.norm_pos_of (by rw [hww]; nlinarith [mul_pos hL hL, mul_self_nonneg y, mul_pos (neg_pos.mpr h0) (neg_pos.mpr h0)])
    obtain ⟨a1, a2, a3, a4⟩ := fan_angle (c := -x) (e := y) hL hN (by rw [P2.norm_sq, hww]) (by linarith)
    have hdot : P2.dot (du.norm⁻¹ • (⟨-du.y, du.x⟩ : P2 ℝ)) (w.norm⁻¹ • w) = y * du.norm / w.norm := by
      have : P2.dot (⟨-du.y, du.x⟩ : P2 ℝ) w = y * (du.norm * du.norm) := by
        rw [hLs, hwdef]; simp only [P2.dot]; ring
      have e : P2.dot (du.norm⁻¹ • (⟨-du.y, du.x⟩ : P2 ℝ)) (w.norm⁻¹ • w) = du.norm⁻¹ * w.norm⁻¹ * P2.dot (⟨-du.y, du.x⟩ : P2 ℝ) w := by
        simp only [P2.dot, P2.smul_x, P2.smul_y]; ring
      rw [e, this]
      field_simp
    unfold P2.normalize
    rw [fdiv_of_ne hL.ne', M_bind_ok, hw, if_neg hL.ne', M_bind_ok, if_neg hN.ne', M_bind_ok, if_pos h0, hdot]
    refine ⟨_, _, rfl, fun q _ => by linarith, fun _ => ?_, fun q => by linarith⟩
    change -Real.pi < -Real.arccos _ ∧ _
    refine ⟨by linarith, by change -Real.arccos _ < _; linarith, by positivity, ?_, ?_⟩
    · change x = w.norm / du.norm * Real.sin (-Real.arccos _)
      rw [Real.sin_neg]; linarith
    · change y = w.norm / du.norm * Real.cos (-Real.arccos _)
      rw [Real.cos_neg]; exact a3.symm

/-- C68: on the side itself the parameters are the parameter of the point and zero. -/
theorem C68_side (h : ConvexDomain d n v) {i : ℕ} (hi : i < n) {s : ℝ} (h0 : 0 ≤ s) (h1 : s ≤ 1) :
    perpPolarMap d i (sidePoint n v i s) = .ok ⟨s, 0⟩ := by
  obtain ⟨a, b, e, q, _⟩ := C68_perpPolar h hi s 0
  obtain ⟨rfl, rfl⟩ := q h0 h1
  rw [← e]
  congr 1
  ext <;> simp only [framePoint, sidePoint, P2.sub_x, P2.sub_y, P2.add_x, P2.add_y, P2.smul_x, P2.smul_y] <;> ring

end Param

/-- C63: the ribbon of the n-sided patch at the parameters of the point with coordinates `(x, y)` in the frame of its side is
the image of this frame: the curve point nearest in parameter, moved in the directions of the unit tangent there and of
the perpendicular of the normal, by the coordinates scaled by the length of the curve. The normal is taken at the
parameter `s` of the parameterization, which is outside of the unit interval beyond the ends. -/
theorem C63_ribbon {d : Domain ℝ} {n : ℕ} {v : ℕ → P2 ℝ} (h : ConvexDomain d n v) {i : ℕ} (hi : i < n) {ε : ℝ} {r : Ribbon ℝ}
    (hk : r.kind = .nsided) (x y : ℝ) (hreg : r.curve.der (Domain.clamp x 0 1) ≠ 0) {sd : P2 ℝ} {m t : P3 ℝ}
    (hsd : Param.perpPolarMap d i (framePoint n v i x y) = .ok sd) (hm : r.normal ε sd.x = .ok m)
    (ht : t = (r.curve.der (Domain.clamp x 0 1)).norm⁻¹ • r.curve.der (Domain.clamp x 0 1)) :
    r.eval ε sd = .ok (r.curve.pt (Domain.clamp x 0 1) + r.baseLength • ((x - Domain.clamp x 0 1) • t + y • P3.cross m t)) := by
  obtain ⟨s, ρ, e, q1, q2, q3⟩ := Param.C68_perpPolar h hi x y
  rw [hsd] at e
  cases e
  have hcl : Domain.clamp s 0 1 = Domain.clamp x 0 1 := by
    unfold Domain.clamp
    rcases lt_or_ge x 0 with hx | hx
    · obtain ⟨_, b, _⟩ := q2 hx
      rw [min_eq_left (by linarith), min_eq_left (by linarith), max_eq_left b.le, max_eq_left hx.le]
    · rcases le_or_gt x 1 with hx' | hx'
      · rw [(q1 hx hx').1]
      · obtain ⟨b, _⟩ := q3 hx'
        rw [min_eq_right b.le, min_eq_right hx'.le]
  unfold Ribbon.eval
  rw [hk]
  unfold Ribbon.nsidedEval Ribbon.crossDerivative
  dsimp only at hm ⊢
  rw [hk]
  unfold Ribbon.nsidedCross
  dsimp only
  rw [hm, M_bind_ok, hcl, P3.normalize_ok hreg, M_bind_ok, ← ht]
  have hc0 : x < 0 → Domain.clamp x 0 1 = 0 := fun hx => by
    unfold Domain.clamp; rw [min_eq_left (by linarith), max_eq_left hx.le]
  have hc1 : 1 < x → Domain.clamp x 0 1 = 1 := fun hx => by
    unfold Domain.clamp; rw [min_eq_right hx.le]; norm_num
  have hcx : 0 ≤ x → x ≤ 1 → Domain.clamp x 0 1 = x := fun h0 h1 => by
    unfold Domain.clamp; rw [min_eq_left h1, max_eq_right h0]
  rcases lt_or_ge x 0 with hx | hx
  · obtain ⟨_, b, _, e1, e2⟩ := q2 hx
    rw [hc0 hx, if_neg b.ne, if_pos b, if_pos b, M_bind_ok]
    congr 1
    change _ + (ρ * _) • (Real.cos (-s) • P3.cross (-t) m + Real.sin (-s) • -t) = _
    rw [Real.cos_neg, Real.sin_neg, e1, e2]
    ext <;> simp only [P3.cross, P3.add_x, P3.add_y, P3.add_z, P3.smul_x, P3.smul_y, P3.smul_z, P3.neg_x, P3.neg_y, P3.neg_z] <;> ring
  · rcases le_or_gt x 1 with hx' | hx'
    · obtain ⟨rfl, rfl⟩ := q1 hx hx'
      rw [hcx hx hx', if_pos rfl, M_bind_ok]
      congr 1
      ext <;> simp only [P3.add_x, P3.add_y, P3.add_z, P3.smul_x, P3.smul_y, P3.smul_z] <;> ring
    · obtain ⟨b, _, _, e1, e2⟩ := q3 hx'
      rw [hc1 hx', if_neg b.ne', if_neg (by linarith), if_neg (by linarith), M_bind_ok]
      congr 1
      change _ + (ρ * _) • (Real.cos (s - 1) • P3.cross t m + Real.sin (s - 1) • t) = _
      rw [e1, e2]
      ext <;> simp only [P3.cross, P3.add_x, P3.add_y, P3.add_z, P3.smul_x, P3.smul_y, P3.smul_z] <;> ring

section patch

variable {d : Domain ℝ} {n : ℕ} {v : ℕ → P2 ℝ} {ε : ℝ} {param blend : Param.Obj ℝ}

/-- Both parameterizations are defined everywhere. -/
private theorem maps_ok (h : ConvexDomain d n v) (hε : 0 < ε) (hp : Param.Fresh ε .perpPolar d param) (hb : Param.Fresh ε .parallel d blend)
    (S : Surf ℝ) (uv : P2 ℝ) : ∃ f : ℕ → P2 ℝ, (∀ j < n, Param.perpPolarMap d j uv = .ok (f j)) ∧
      evalNSided ε S param blend uv = (do
        let r ← vget S.ribbons 3
        let sd ← vget (tab n f) 3
        r.eval ε sd) := by
  have hf : ∀ j, ∃ p, j < n → Param.perpPolarMap d j uv = .ok p := by
    intro j
    by_cases hj : j < n
    · obtain ⟨x, y, rfl⟩ := Param.exists_frame h hj uv
      obtain ⟨a, b, e, _⟩ := Param.C68_perpPolar h hj x y
      exact ⟨_, fun _ => e⟩
    · exact ⟨0, fun q => absurd q hj⟩
  choose f hf using hf
  obtain ⟨o1, e1⟩ := hp.maps_of_raw h.length_eq (fun _ _ j hj => hf j hj)
  obtain ⟨mult, _, e2, _⟩ := C15_parallel h ε
  obtain ⟨g, hg, _⟩ := Patch.parallel_side h hε (uv := uv) e2
  obtain ⟨o2, e3⟩ := hb.maps_of_raw (uv := uv) (f := g) h.length_eq (fun o ho j hj => by
    unfold Param.update at ho
    dsimp only at ho
    rw [e2, M_bind_ok] at ho
    cases ho
    exact hg j hj)
  obtain ⟨b, e4, _⟩ := C28_side hε (by have := h.hn; omega : 0 < n) g
  refine ⟨f, hf, ?_⟩
  unfold evalNSided Surf.nsided
  rw [e1, M_bind_ok, e3, M_bind_ok, e4, M_bind_ok]

/-- C63: for at least four sides the patch is ribbon 3 at its parameters, whatever the other ribbons are. -/
theorem C63_only3 (h : ConvexDomain d n v) (hn : 4 ≤ n) (hε : 0 < ε) (hp : Param.Fresh ε .perpPolar d param)
    (hb : Param.Fresh ε .parallel d blend) (S : Surf ℝ) {r : Ribbon ℝ} (hr : S.ribbons[3]? = some r) {uv sd : P2 ℝ}
    (hsd : Param.perpPolarMap d 3 uv = .ok sd) : evalNSided ε S param blend uv = r.eval ε sd := by
  obtain ⟨f, hf, e⟩ := maps_ok h hε hp hb S uv
  rw [hf 3 (by omega)] at hsd
  cases hsd
  rw [e, vget_eq_ok.mpr hr, M_bind_ok, vget_tab _ (by omega), M_bind_ok]

/-- C63: for three sides the evaluation is out of range everywhere. -/
theorem C63_three (h : ConvexDomain d 3 v) (hε : 0 < ε) (hp : Param.Fresh ε .perpPolar d param)
    (hb : Param.Fresh ε .parallel d blend) (S : Surf ℝ) (hS : S.n = 3) (uv : P2 ℝ) :
    evalNSided ε S param blend uv = .error .oob := by
  obtain ⟨f, hf, e⟩ := maps_ok h hε hp hb S uv
  rw [e, vget_oob (by unfold Surf.n at hS; omega)]
  rfl

/-- C63: the point at coordinates `(x, y)` in the frame of side 3. -/
theorem C63_value (h : ConvexDomain d n v) (hn : 4 ≤ n) (hε : 0 < ε) (hp : Param.Fresh ε .perpPolar d param)
    (hb : Param.Fresh ε .parallel d blend) (S : Surf ℝ) {r : Ribbon ℝ} (hr : S.ribbons[3]? = some r) (hk : r.kind = .nsided)
    {f : ℝ → P3 ℝ} (hf : r.fence = some f) (x y : ℝ) {t : P3 ℝ} (hreg : r.curve.der (Domain.clamp x 0 1) ≠ 0)
    (ht : t = (r.curve.der (Domain.clamp x 0 1)).norm⁻¹ • r.curve.der (Domain.clamp x 0 1)) :
    ∃ s : ℝ, Domain.clamp s 0 1 = Domain.clamp x 0 1 ∧ evalNSided ε S param blend (framePoint n v 3 x y) =
      .ok (r.curve.pt (Domain.clamp x 0 1) + r.baseLength • ((x - Domain.clamp x 0 1) • t + y • P3.cross (f s) t)) := by
  obtain ⟨s, ρ, e, q1, q2, q3⟩ := Param.C68_perpPolar h (i := 3) (by omega) x y
  refine ⟨s, ?_, ?_⟩
  · unfold Domain.clamp
    rcases lt_or_ge x 0 with hx | hx
    · obtain ⟨_, b, _⟩ := q2 hx
      rw [min_eq_left (by linarith), min_eq_left (by linarith), max_eq_left b.le, max_eq_left hx.le]
    · rcases le_or_gt x 1 with hx' | hx'
      · rw [(q1 hx hx').1]
      · obtain ⟨b, _⟩ := q3 hx'
        rw [min_eq_right b.le, min_eq_right hx'.le]
  · rw [C63_only3 h hn hε hp hb S hr e]
    refine C63_ribbon h (i := 3) (by omega) hk x y hreg e ?_ ht
    unfold Ribbon.normal
    rw [hf]

/-- C63: on side 3 the patch is on the boundary curve, with the prescribed normals or the computed ones. -/
theorem C63_side3 (h : ConvexDomain d n v) (hn : 4 ≤ n) (hε : 0 < ε) (hp : Param.Fresh ε .perpPolar d param)
    (hb : Param.Fresh ε .parallel d blend) (S : Surf ℝ) {r : Ribbon ℝ} (hr : S.ribbons[3]? = some r) (hk : r.kind = .nsided)
    {s : ℝ} (h0 : 0 ≤ s) (h1 : s ≤ 1) (hreg : r.curve.der s ≠ 0) {m : P3 ℝ} (hm : r.normal ε s = .ok m) :
    evalNSided ε S param blend (sidePoint n v 3 s) = .ok (r.curve.pt s) := by
  have e := Param.C68_side h (i := 3) (by omega) h0 h1
  rw [C63_only3 h hn hε hp hb S hr e]
  have hcl : Domain.clamp s 0 1 = s := by unfold Domain.clamp; rw [min_eq_left h1, max_eq_right h0]
  have e' : framePoint n v 3 s 0 = sidePoint n v 3 s := by
    ext <;> simp only [framePoint, sidePoint, P2.sub_x, P2.sub_y, P2.add_x, P2.add_y, P2.smul_x, P2.smul_y] <;> ring
  rw [C63_ribbon h (i := 3) (by omega) hk s 0 (by rwa [hcl]) (by rwa [e']) hm rfl, hcl, sub_self, zero_smul, zero_smul, add_zero, smul_zero, add_zero]

/-- C63, disagreement: the patch does not interpolate the other curves. Of two loops with the same ribbon 3 but different points
on side `i ≠ 3`, at most one can be reproduced. -/
theorem C63_not_interpolating (h : ConvexDomain d n v) (hn : 4 ≤ n) (hε : 0 < ε) (hp : Param.Fresh ε .perpPolar d param)
    (hb : Param.Fresh ε .parallel d blend) (S S' : Surf ℝ) {r a a' : Ribbon ℝ} (hr : S.ribbons[3]? = some r)
    (hr' : S'.ribbons[3]? = some r) {i : ℕ} (_ : S.ribbons[i]? = some a) (_ : S'.ribbons[i]? = some a') {s : ℝ}
    (hne : a.curve.pt s ≠ a'.curve.pt s) :
    ¬ (evalNSided ε S param blend (sidePoint n v i s) = .ok (a.curve.pt s) ∧
      evalNSided ε S' param blend (sidePoint n v i s) = .ok (a'.curve.pt s)) := by
  rintro ⟨e1, e2⟩
  obtain ⟨x, y, e⟩ := Param.exists_frame h (i := 3) (by omega) (sidePoint n v i s)
  obtain ⟨q, ρ, e3, _⟩ := Param.C68_perpPolar h (i := 3) (by omega) x y
  rw [← e] at e3
  rw [C63_only3 h hn hε hp hb S hr e3] at e1
  rw [C63_only3 h hn hε hp hb S' hr' e3, e1] at e2
  exact hne (Except.ok.inj e2)

/-- C63, disagreement: left of the strip of side 3 the computed normal fence is read before its first frame, so without
prescribed normals the evaluation is out of range. -/
theorem C63_left (h : ConvexDomain d n v) (hn : 4 ≤ n) (hε : 0 < ε) (hp : Param.Fresh ε .perpPolar d param)
    (hb : Param.Fresh ε .parallel d blend) (S : Surf ℝ) {nb : Neighbors ℝ} {r0 r : Ribbon ℝ} (hr : S.ribbons[3]? = some r) (hk : r0.kind = .nsided)
    (hf : r0.fence = none) (hu : r0.update ε nb = .ok r) {x : ℝ} (hx : x < 0) (y : ℝ) :
    evalNSided ε S param blend (framePoint n v 3 x y) = .error .oob := by
  obtain ⟨s, ρ, e, _, q2, _⟩ := Param.C68_perpPolar h (i := 3) (by omega) x y
  obtain ⟨_, b, _⟩ := q2 hx
  rw [C63_only3 h hn hε hp hb S hr e]
  unfold Ribbon.update at hu
  rw [hk] at hu
  dsimp only at hu
  unfold Ribbon.nsidedUpdate Ribbon.baseUpdate at hu
  obtain ⟨st, u1, hu⟩ := bind_ok hu
  obtain ⟨fi, u2, hu⟩ := bind_ok hu
  obtain ⟨rm, u3, hu⟩ := bind_ok hu
  cases hu
  have hst := (P3.normalize_unit u1).2.2
  have := C21_negative hε (by unfold RMF.resolution; norm_num) hst u3 b
  unfold Ribbon.eval
  dsimp only
  rw [hk]
  dsimp only
  unfold Ribbon.nsidedEval Ribbon.crossDerivative
  dsimp only
  unfold Ribbon.nsidedCross Ribbon.normal
  dsimp only
  rw [hf]
  dsimp only
  rw [this]
  rfl

end patch

/-! ### Satisfiability -/

private def trapV : ℕ → P2 ℝ := fun i => if i = 0 then ⟨2, 1⟩ else if i = 1 then ⟨-1, 1⟩ else if i = 2 then ⟨0, 0⟩ else ⟨1, 0⟩

private theorem trap_inside : Inside 4 trapV ⟨1/2, 1/2⟩ ∧ Inside 4 trapV (framePoint 4 trapV 3 (-1/4) (1/2)) := by
  constructor
  all_goals
    intro i hi
    have hi' : i = 0 ∨ i = 1 ∨ i = 2 ∨ i = 3 := by omega
    rcases hi' with rfl | rfl | rfl | rfl <;> simp [leftOf, area2, trapV, framePoint] <;> norm_num

private theorem trap_convex : ∃ d, ConvexDomain d 4 trapV := by
  refine ⟨⟨4, ⟨1/2, 1/2⟩, tab 4 trapV, tab 4 (duOf 4 trapV), tab 4 (dvOf 4 trapV ⟨1/2, 1/2⟩)⟩,
    ⟨by norm_num, ?_, trap_inside.1, updateFrom_eq 4 trapV ⟨1/2, 1/2⟩⟩⟩
  intro i hi j hj h1 h2
  have hi' : i = 0 ∨ i = 1 ∨ i = 2 ∨ i = 3 := by omega
  have hj' : j = 0 ∨ j = 1 ∨ j = 2 ∨ j = 3 := by omega
  rcases hi' with rfl | rfl | rfl | rfl <;> rcases hj' with rfl | rfl | rfl | rfl <;>
    first
      | (exfalso; revert h1 h2; decide)
      | (simp [leftOf, area2, trapV] <;> norm_num)

private theorem fresh_params (ε : ℝ) {d : Domain ℝ} {n : ℕ} {v : ℕ → P2 ℝ} (h : ConvexDomain d n v) :
    ∃ param blend, Param.Fresh ε .perpPolar d param ∧ Param.Fresh ε .parallel d blend := by
  obtain ⟨mult, _, e, _⟩ := C15_parallel h ε
  exact ⟨⟨d, [], [], []⟩, ⟨d, mult, [], []⟩, Param.Fresh.new rfl, Param.Fresh.new (by unfold Param.update; dsimp only; rw [e]; rfl)⟩

/-- A trapezoid domain with a straight curve on side 3 whose normals are computed: on the side the curve point is obtained,
while at a point inside of the domain, left of the strip of side 3, the evaluation is out of range (`C63_left`, `C63_side3`,
`C63_only3`). The hypotheses of `C63_three` are met by the regular domain with three sides (`C14_regular`). -/
example : ∃ (d : Domain ℝ) (v : ℕ → P2 ℝ) (param blend : Param.Obj ℝ) (S : Surf ℝ) (uv : P2 ℝ), ConvexDomain d 4 v ∧ Inside 4 v uv ∧
    evalNSided (1 / 10000) S param blend (sidePoint 4 v 3 0) = .ok 0 ∧
    evalNSided (1 / 10000) S param blend uv = .error .oob := by
  obtain ⟨d, h⟩ := trap_convex
  obtain ⟨param, blend, hp, hb⟩ := fresh_params (1 / 10000) h
  obtain ⟨rm, e1, e2, _⟩ := segment_ends
  let c : Curve ℝ := ⟨fun u => ⟨10 * u, 0, 0⟩, fun _ => ⟨10, 0, 0⟩, fun a b => 10 * (b - a)⟩
  let cp : Curve ℝ := ⟨fun u => ⟨0, 1 - u, 0⟩, fun _ => ⟨0, -1, 0⟩, fun a b => b - a⟩
  let cn : Curve ℝ := ⟨fun u => ⟨10, 0, -u⟩, fun _ => ⟨0, 0, -1⟩, fun a b => b - a⟩
  let r0 : Ribbon ℝ := Ribbon.new .nsided c
  have hn : ∀ q : P3 ℝ, P3.dot q q = 100 → q.normalize = .ok ((10 : ℝ)⁻¹ • q) := by
    intro q hq
    have : q.norm = 10 := by
      unfold P3.norm
      rw [hq]
      change Real.sqrt _ = _
      rw [show (100 : ℝ) = 10 ^ 2 by norm_num]
      exact Real.sqrt_sq (by norm_num)
    unfold P3.normalize
    rw [this, if_neg (by norm_num)]
  have hu : r0.update (1 / 10000) ⟨cp, cn, cp, cn, false⟩ = .ok { r0 with baseLength := 10 * (1 - 0), rmf := rm } := by
    unfold Ribbon.update
    change Ribbon.nsidedUpdate _ _ _ = _
    unfold Ribbon.nsidedUpdate Ribbon.baseUpdate
    dsimp only
    rw [hn _ (by simp [cp, r0, c, P3.dot, P3.cross, Ribbon.new]; norm_num), M_bind_ok,
      hn _ (by simp [cn, r0, c, P3.dot, P3.cross, Ribbon.new]; norm_num), M_bind_ok]
    have a1 : (10 : ℝ)⁻¹ • P3.cross (cp.der 1) (r0.curve.der 0) = ⟨0, 0, 1⟩ := by
      ext <;> simp [cp, r0, c, P3.cross, Ribbon.new]
    have a2 : (10 : ℝ)⁻¹ • P3.cross (r0.curve.der 1) (cn.der 0) = ⟨0, 1, 0⟩ := by
      ext <;> simp [cn, r0, c, P3.cross, Ribbon.new]
    rw [a1, a2]
    change (do
      let rmf ← RMF.update (1 / 10000 : ℝ) 100 c ⟨0, 0, 1⟩ ⟨0, 1, 0⟩
      _) = _
    rw [e1]
    rfl
  let r := { r0 with baseLength := 10 * (1 - 0), rmf := rm }
  let S : Surf ℝ := ⟨true, [r, r, r, r], []⟩
  refine ⟨d, trapV, param, blend, S, _, h, trap_inside.2, ?_, ?_⟩
  · have := C63_side3 h le_rfl (by norm_num) hp hb S (r := r) rfl rfl (s := 0) le_rfl (by norm_num)
      (by intro q; have := congrArg P3.x q; simp [r, r0, c, Ribbon.new] at this) (m := ⟨0, 0, 1⟩) e2
    rw [this]
    congr 1
    ext <;> simp [r, r0, c, Ribbon.new]
  · exact C63_left h le_rfl (by norm_num) hp hb S (r := r) rfl rfl rfl hu (by norm_num) _

/-- Two surfaces as in `C63_not_interpolating`, and a ribbon with prescribed normals as in `C63_value`. -/
example : ∃ (d : Domain ℝ) (v : ℕ → P2 ℝ) (param blend : Param.Obj ℝ) (S S' : Surf ℝ) (r a a' : Ribbon ℝ) (f : ℝ → P3 ℝ), ConvexDomain d 4 v ∧
    Param.Fresh (1 / 10000) .perpPolar d param ∧ Param.Fresh (1 / 10000) .parallel d blend ∧ S.ribbons[3]? = some r ∧
    S'.ribbons[3]? = some r ∧ r.kind = .nsided ∧ r.fence = some f ∧ (∀ u, r.curve.der u ≠ 0) ∧
    S.ribbons[1]? = some a ∧ S'.ribbons[1]? = some a' ∧ a.curve.pt (1/2) ≠ a'.curve.pt (1/2) := by
  obtain ⟨d, h⟩ := trap_convex
  obtain ⟨param, blend, hp, hb⟩ := fresh_params (1 / 10000) h
  let c (b : ℝ) : Curve ℝ := ⟨fun u => ⟨u, b * (u * (1 - u)), 0⟩, fun u => ⟨1, b * (1 - 2 * u), 0⟩, fun a b => b - a⟩
  let r (b : ℝ) : Ribbon ℝ := { Ribbon.new .nsided (c b) with fence := some fun _ => ⟨0, 0, 1⟩ }
  refine ⟨d, trapV, param, blend, ⟨true, [r 0, r 0, r 0, r 0], []⟩, ⟨true, [r 0, r 1, r 0, r 0], []⟩, r 0, r 0, r 1, fun _ => ⟨0, 0, 1⟩, h, hp, hb,
    rfl, rfl, rfl, rfl, ?_, rfl, rfl, ?_⟩
  · intro u q
    have := congrArg P3.x q
    simp [r, c, Ribbon.new] at this
  · intro q
    have := congrArg P3.y q
    simp [r, c, Ribbon.new] at this
    norm_num at this

end Transfinite
