import Verif.Props.Polar

/-! # C18, continued: the polar parameterization and its inverse in strictly convex domains -/

namespace Transfinite

open Spec Param Domain Real

section vectors

private theorem dot_self_pos {a : P2 ℝ} (h : a ≠ 0) : 0 < P2.dot a a := by
  unfold P2.dot
  by_contra hc
  have hx : a.x = 0 := by nlinarith [mul_self_nonneg a.x, mul_self_nonneg a.y]
  have hy : a.y = 0 := by nlinarith [mul_self_nonneg a.x, mul_self_nonneg a.y]
  exact h (P2.ext hx hy)

private theorem norm_pos {a : P2 ℝ} (h : a ≠ 0) : 0 < a.norm := Real.sqrt_pos.mpr (dot_self_pos h)

private theorem normalize_ok {a : P2 ℝ} (h : a ≠ 0) : a.normalize = .ok (a.norm⁻¹ • a) := by
  unfold P2.normalize; rw [if_neg (norm_pos h).ne']

private theorem norm_mul_self (a : P2 ℝ) : a.norm * a.norm = a.x * a.x + a.y * a.y :=
  Real.mul_self_sqrt (by unfold P2.dot; nlinarith [mul_self_nonneg a.x, mul_self_nonneg a.y])

private theorem unit_dot {a : P2 ℝ} (h : a ≠ 0) :
    (a.norm⁻¹ • a).x * (a.norm⁻¹ • a).x + (a.norm⁻¹ • a).y * (a.norm⁻¹ • a).y = 1 := by
  have := norm_pos h
  have e := norm_mul_self a
  simp only [P2.smul_x, P2.smul_y]
  field_simp
  linear_combination -e

private theorem unit_dot_mem {a b : P2 ℝ} (ha : a.x * a.x + a.y * a.y = 1) (hb : b.x * b.x + b.y * b.y = 1) :
    -1 ≤ P2.dot a b ∧ P2.dot a b ≤ 1 := by
  unfold P2.dot
  have e : (a.x * b.x + a.y * b.y) ^ 2 + (a.x * b.y - a.y * b.x) ^ 2 = 1 := by
    linear_combination (b.x * b.x + b.y * b.y) * ha + hb
  constructor <;> nlinarith [sq_nonneg (a.x * b.y - a.y * b.x)]

private theorem clamp_of_mem {x : ℝ} (h : -1 ≤ x ∧ x ≤ 1) : clamp x (-1) 1 = x := by
  unfold clamp; rw [min_eq_left h.2, max_eq_right h.1]

end vectors

/-- The angle at a corner of a strictly convex polygon: between 0 and π, and the unit vector to the
next vertex is the clockwise rotation by this angle of the unit vector to the previous one. -/
theorem angle_spec {d : Domain ℝ} {n : ℕ} {v : ℕ → P2 ℝ} (h : ConvexDomain d n v) {i : ℕ} (hi : i < n) :
    ∃ (A : ℝ) (w1 w2 : P2 ℝ), d.angle i = .ok A ∧ 0 < A ∧ A < π ∧
      (v (prevIx n i) - v i).normalize = .ok w1 ∧ (v (nextIx n i) - v i).normalize = .ok w2 ∧
      w1 = (v (prevIx n i) - v i).norm⁻¹ • (v (prevIx n i) - v i) ∧
      w2 = (v (nextIx n i) - v i).norm⁻¹ • (v (nextIx n i) - v i) ∧
      w1.x * w1.x + w1.y * w1.y = 1 ∧
      w2.x = cos A * w1.x + sin A * w1.y ∧ w2.y = cos A * w1.y - sin A * w1.x := by
  have hn := h.hn
  have hp : prevIx n i < n := prevIx_lt (by omega)
  have hx : nextIx n i < n := nextIx_lt (by omega)
  have e1 : (v (prevIx n i) - v i) ≠ 0 := sub_ne_zero.mpr (h.side_ne hi).symm
  have e2 : (v (nextIx n i) - v i) ≠ 0 := by
    have := h.side_ne hx
    rw [prevIx_nextIx hi] at this
    exact sub_ne_zero.mpr this
  have hcorner := cornerArea_pos hn h.convex hi
  have hcross : 0 < (v (prevIx n i) - v i).y * (v (nextIx n i) - v i).x - (v (prevIx n i) - v i).x * (v (nextIx n i) - v i).y := by
    refine lt_of_lt_of_eq hcorner ?_
    simp only [cornerArea, leftOf, area2, prevIx, nextIx, P2.sub_x, P2.sub_y]; ring
  have u1 := unit_dot e1
  have u2 := unit_dot e2
  have n1 := norm_pos e1
  have n2 := norm_pos e2
  have o1 := normalize_ok e1
  have o2 := normalize_ok e2
  have hang : d.angle i = .ok (arccos (clamp (P2.dot ((v (prevIx n i) - v i).norm⁻¹ • (v (prevIx n i) - v i))
      ((v (nextIx n i) - v i).norm⁻¹ • (v (nextIx n i) - v i))) (-1) 1)) := by
    unfold Domain.angle
    rw [h.n_eq, h.vget_vertex hi, h.vget_vertex hp, h.vget_vertex hx]
    simp only [M_bind_ok, o1, o2]; rfl
  have hc : 0 < ((v (prevIx n i) - v i).norm⁻¹ • (v (prevIx n i) - v i)).y * ((v (nextIx n i) - v i).norm⁻¹ • (v (nextIx n i) - v i)).x -
      ((v (prevIx n i) - v i).norm⁻¹ • (v (prevIx n i) - v i)).x * ((v (nextIx n i) - v i).norm⁻¹ • (v (nextIx n i) - v i)).y := by
    have : 0 < (v (prevIx n i) - v i).norm⁻¹ * (v (nextIx n i) - v i).norm⁻¹ := by positivity
    refine lt_of_lt_of_eq (mul_pos this hcross) ?_
    simp only [P2.smul_x, P2.smul_y]; ring
  refine ⟨_, _, _, hang, ?_, ?_, o1, o2, rfl, rfl, u1, ?_⟩
  all_goals
    generalize (v (prevIx n i) - v i).norm⁻¹ • (v (prevIx n i) - v i) = w1 at *
    generalize (v (nextIx n i) - v i).norm⁻¹ • (v (nextIx n i) - v i) = w2 at *
    have hm := unit_dot_mem u1 u2
    rw [clamp_of_mem hm]
    have e : P2.dot w1 w2 ^ 2 + (w1.y * w2.x - w1.x * w2.y) ^ 2 = 1 := by
      unfold P2.dot
      linear_combination (w2.x * w2.x + w2.y * w2.y) * u1 + u2
  · apply arccos_pos.mpr
    nlinarith [pow_pos hc 2]
  · refine lt_of_le_of_ne (arccos_le_pi _) ?_
    intro hpi
    rw [arccos_eq_pi] at hpi
    nlinarith [pow_pos hc 2]
  · have hs : sin (arccos (P2.dot w1 w2)) = w1.y * w2.x - w1.x * w2.y := by
      rw [sin_arccos, ← e, add_sub_cancel_left, Real.sqrt_sq hc.le]
    rw [cos_arccos hm.1 hm.2, hs]
    unfold P2.dot
    constructor
    · linear_combination -w2.x * u1
    · linear_combination -w2.y * u1

/-- The polar map is defined for all points of a strictly convex domain. -/
theorem polarMap_ok {d : Domain ℝ} {n : ℕ} {v : ℕ → P2 ℝ} (h : ConvexDomain d n v) {ε : ℝ} (hε : 0 < ε)
    {i : ℕ} (hi : i < n) {uv : P2 ℝ} (hin : InsideClosed n v uv) : ∃ r, polarMap ε d i uv = .ok r := by
  have hn := h.hn
  have hp : prevIx n i < n := prevIx_lt (by omega)
  unfold polarMap
  rw [h.length_eq]
  dsimp only
  rw [h.vget_vertex hp, h.vget_vertex hi]
  simp only [M_bind_ok]
  split
  · exact ⟨_, rfl⟩
  · rename_i hc
    obtain ⟨A, w1, w2, hA, hA0, _, hw1, _⟩ := angle_spec h hi
    have hne : uv - v i ≠ 0 := by
      intro e
      apply hc
      rw [e]
      unfold P2.norm P2.dot
      simp only [P2.zero_x, P2.zero_y, mul_zero, add_zero]
      change Real.sqrt 0 < ε
      rw [Real.sqrt_zero]; exact hε
    rw [hw1, normalize_ok hne, hA]
    simp only [M_bind_ok]
    rw [fdiv_of_ne hA0.ne']
    obtain ⟨l, hl⟩ := C11_defined hε .meanValue hn h.vertices_eq h.convex hin
    rw [M_bind_ok, hl, M_bind_ok]
    have : ∃ c : ℕ → ℝ, l = tab n c := by
      unfold barycentric at hl
      rw [h.vertices_eq, length_tab] at hl
      by_cases hr : ∀ i < n, ε ≤ baryRadius .meanValue (uv - v i)
      · have := weights_sum_pos hn h.convex hin (r := baryRadius .meanValue) (fun i hi => lt_of_lt_of_le hε (hr i hi))
        rw [baryWith_eq (by omega) v uv hr this.ne'] at hl
        exact ⟨_, (Except.ok.inj hl).symm⟩
      · push Not at hr
        classical
        have hex : ∃ i, i < n ∧ baryRadius .meanValue (uv - v i) < ε := hr
        have hi := Nat.find_spec hex
        have hmin : ∀ j < Nat.find hex, ε ≤ baryRadius .meanValue (uv - v j) := by
          intro j hj
          have := Nat.find_min hex hj
          push Not at this
          exact this (by omega)
        rw [baryWith_hit (by omega) v uv hi.1 hmin hi.2] at hl
        exact ⟨_, (Except.ok.inj hl).symm⟩
    obtain ⟨c, rfl⟩ := this
    rw [vget_tab _ hi]
    exact ⟨_, rfl⟩

/-- C18: on the two sides of vertex `i` the map gives back the arguments of the inverse: the point at
distance parameter `t` of side `i` is mapped to `(0,t)`, and of the next side to `(1,t)` (away from
the vertices by the tolerance). -/
theorem C18_side_roundtrip {d : Domain ℝ} {n : ℕ} {v : ℕ → P2 ℝ} (h : ConvexDomain d n v) {ε : ℝ} (hε : 0 < ε)
    (hε1 : ε < 1) (q0 : P2 ℝ) {i : ℕ} (hi : i < n) {t : ℝ} (t0 : 0 ≤ t) (t1 : t < 1) :
    (∃ p, polarInverse ε q0 d i ⟨0, t⟩ = .ok p ∧ ((∀ j < n, ε ≤ vertexDistance .meanValue p (v j)) →
      polarMap ε d i p = .ok ⟨0, t⟩)) ∧
    (∃ p, polarInverse ε q0 d i ⟨1, t⟩ = .ok p ∧ ((∀ j < n, ε ≤ vertexDistance .meanValue p (v j)) →
      polarMap ε d i p = .ok ⟨1, t⟩)) := by
  have hn := h.hn
  have hp : prevIx n i < n := prevIx_lt (by omega)
  have hx : nextIx n i < n := nextIx_lt (by omega)
  obtain ⟨A, w1, w2, hA, hA0, hAp, hw1, hw2, ew1, ew2, u1, r1, r2⟩ := angle_spec h hi
  have ends := C18_ends hε hε1 q0 d i t
  rw [h.length_eq] at ends
  have scaled : ∀ (a : P2 ℝ), a ≠ 0 → ((1 - t) • a).normalize = .ok (a.norm⁻¹ • a) := by
    intro a ha
    have hs : ((1 - t) • a).norm = (1 - t) * a.norm := by
      have : P2.dot ((1 - t) • a) ((1 - t) • a) = (1 - t) ^ 2 * P2.dot a a := by
        simp only [P2.dot, P2.smul_x, P2.smul_y]; ring
      unfold P2.norm
      change Real.sqrt _ = _ * Real.sqrt _
      rw [this, Real.sqrt_mul (sq_nonneg _), Real.sqrt_sq (by linarith)]
    have hna := norm_pos ha
    unfold P2.normalize
    rw [hs, if_neg (mul_pos (by linarith) hna).ne', smul_smul]
    congr 2
    have : (1 - t) ≠ 0 := by linarith
    field_simp
  constructor
  · obtain ⟨p, e, k⟩ := C12_coordinates hε .meanValue hn h.n_eq h.vertices_eq h.convex hi t0 t1.le
    refine ⟨p, by rw [ends.1, e], ?_⟩
    intro hfar
    have hp' : p = sidePoint n v i t := by rw [h.edgePoint hi] at e; exact (Except.ok.inj e).symm
    have hd : p - v i = (1 - t) • (v (prevIx n i) - v i) := by
      rw [hp']; unfold sidePoint
      rw [show (i + n - 1) % n = prevIx n i from rfl]; module
    have hfi : ¬ (p - v i).norm < ε := not_lt.mpr (hfar i hi)
    unfold polarMap
    rw [h.length_eq]
    dsimp only
    rw [h.vget_vertex hp, h.vget_vertex hi]
    simp only [M_bind_ok]
    rw [if_neg hfi, hw1, hd, scaled _ (sub_ne_zero.mpr (h.side_ne hi).symm), hA, k hfar, ← ew1]
    simp only [M_bind_ok]
    have h1 : P2.dot w1 w1 = 1 := u1
    rw [h1, clamp_of_mem ⟨by norm_num, le_rfl⟩]
    change (fdiv (arccos 1) A >>= fun s => _) = _
    rw [arccos_one, fdiv_of_ne hA0.ne', zero_div, M_bind_ok, show ((List.range n).map fun j =>
        if j = i then t else if j = (i + n - 1) % n then 1 - t else 0) = tab n (fun j =>
        if j = i then t else if j = (i + n - 1) % n then 1 - t else 0) from rfl, vget_tab _ hi]
    simp
  · obtain ⟨p, e, k⟩ := C12_coordinates hε .meanValue hn h.n_eq h.vertices_eq h.convex hx (s := 1 - t) (by linarith) (by linarith)
    refine ⟨p, by rw [ends.2]; exact e, ?_⟩
    intro hfar
    have hp' : p = sidePoint n v (nextIx n i) (1 - t) := by rw [h.edgePoint hx] at e; exact (Except.ok.inj e).symm
    have hd : p - v i = (1 - t) • (v (nextIx n i) - v i) := by
      rw [hp']; unfold sidePoint
      rw [show (nextIx n i + n - 1) % n = i from prevIx_nextIx hi]; module
    have hne : v (nextIx n i) - v i ≠ 0 := by
      have := h.side_ne hx
      rw [prevIx_nextIx hi] at this
      exact sub_ne_zero.mpr this
    have hfi : ¬ (p - v i).norm < ε := not_lt.mpr (hfar i hi)
    unfold polarMap
    rw [h.length_eq]
    dsimp only
    rw [h.vget_vertex hp, h.vget_vertex hi]
    simp only [M_bind_ok]
    rw [if_neg hfi, hw1, hd, scaled _ hne, hA, k hfar, ← ew2]
    simp only [M_bind_ok]
    have h1 : P2.dot w1 w2 = cos A := by
      unfold P2.dot; rw [r1, r2]; linear_combination cos A * u1
    rw [h1, clamp_of_mem ⟨neg_one_le_cos _, cos_le_one _⟩]
    change (fdiv (arccos (cos A)) A >>= fun s => _) = _
    rw [arccos_cos hA0.le hAp.le, fdiv_of_ne hA0.ne', div_self hA0.ne', M_bind_ok, show ((List.range n).map fun j =>
        if j = nextIx n i then 1 - t else if j = (nextIx n i + n - 1) % n then 1 - (1 - t) else 0) = tab n (fun j =>
        if j = nextIx n i then 1 - t else if j = (nextIx n i + n - 1) % n then 1 - (1 - t) else 0) from rfl, vget_tab _ hi]
    have e1 : ¬ i = nextIx n i := (next_ne (by omega) hi).symm
    have e2 : i = (nextIx n i + n - 1) % n := (prevIx_nextIx hi).symm
    rw [if_neg e1, if_pos e2]
    simp

/-- Side `j` is crossed by the line from `p` in direction `dir`, from right to left. -/
def Crosses (n : ℕ) (v : ℕ → P2 ℝ) (p dir : P2 ℝ) (j : ℕ) : Prop :=
  P2.cross dir (v ((j + n - 1) % n) - p) < 0 ∧ 0 ≤ P2.cross dir (v j - p)

private theorem polarFar_found {d : Domain ℝ} {n : ℕ} {v : ℕ → P2 ℝ} (h : ConvexDomain d n v) {ε : ℝ} (hε : 0 < ε)
    (p dir q0 : P2 ℝ) {i : ℕ} (hi : i < n) :
    ∀ m, m + 2 ≤ n → (∃ k, k < m ∧ ∃ q, d.intersectEdgeWithRay ε ((i + n - m + k) % n) p dir = .ok (some q)) →
      ∃ j q, j < n ∧ (∃ k < m, j = (i + n - m + k) % n) ∧ d.intersectEdgeWithRay ε j p dir = .ok (some q) ∧
        ∀ fuel, m ≤ fuel → polarFar ε d n i p dir fuel ((i + n - m) % n) q0 = .ok q := by
  have hn := h.hn
  intro m
  induction m with
  | zero => rintro _ ⟨k, hk, _⟩; omega
  | succ m ih =>
    rintro hm ⟨k, hk, q, hq⟩
    have hj : (i + n - (m + 1)) % n < n := Nat.mod_lt _ (by omega)
    have hji : (i + n - (m + 1)) % n ≠ i := by
      intro e
      by_cases hlt : i < m + 1
      · rw [Nat.mod_eq_of_lt (by omega)] at e; omega
      · rw [show i + n - (m + 1) = (i - (m + 1)) + n by omega, Nat.add_mod_right, Nat.mod_eq_of_lt (by omega)] at e; omega
    have hnext : nextIx n ((i + n - (m + 1)) % n) = (i + n - m) % n := by
      unfold nextIx
      rw [Nat.mod_add_mod]; congr 1; omega
    have hdef : ∃ o, d.intersectEdgeWithRay ε ((i + n - (m + 1)) % n) p dir = .ok o := by
      unfold intersectEdgeWithRay
      rw [h.n_eq, h.vget_vertex hj, h.vget_vertex (prevIx_lt (by omega))]
      simp only [M_bind_ok]
      split
      · exact ⟨_, rfl⟩
      · rename_i hc
        rw [fdiv_of_ne (by intro e; rw [e, abs_zero] at hc; exact hc hε), M_bind_ok]
        split
        · exact ⟨_, rfl⟩
        · exact ⟨_, rfl⟩
    obtain ⟨o, ho⟩ := hdef
    cases o with
    | some q' =>
      refine ⟨_, q', hj, ⟨0, by omega, rfl⟩, ho, ?_⟩
      intro fuel hf
      obtain ⟨f, rfl⟩ : ∃ f, fuel = f + 1 := ⟨fuel - 1, by omega⟩
      unfold polarFar
      rw [if_neg hji, ho, M_bind_ok]
    | none =>
      have hk0 : k ≠ 0 := by
        rintro rfl
        rw [Nat.add_zero, ho] at hq
        simp at hq
      obtain ⟨j, q', a, ⟨k', hk', ek'⟩, b, c⟩ := ih (by omega) ⟨k - 1, by omega, q, by
        rw [show i + n - m + (k - 1) = i + n - (m + 1) + k by omega]; exact hq⟩
      refine ⟨j, q', a, ⟨k' + 1, by omega, by rw [ek']; congr 1; omega⟩, b, ?_⟩
      intro fuel hf
      obtain ⟨f, rfl⟩ : ∃ f, fuel = f + 1 := ⟨fuel - 1, by omega⟩
      unfold polarFar
      rw [if_neg hji, ho, M_bind_ok, hnext]
      exact c f (by omega)

/-- C18: for all other angles: the sweep direction is the unit vector at angle `s·angle(i)` (clockwise)
from side `i`, some far side is crossed by it, and if a far side is crossed at a sufficient
angle (relative to the tolerance), then the inverse is defined; it is a point of the polygon on the segment
from the vertex to a point `q` of a side, at a parameter `m` that is an end of a bracket of
width `2^-20` at whose ends the distance parameter of the polar map is above and not above the prescribed value
(or which is an end of the segment). -/
theorem C18_inverse {d : Domain ℝ} {n : ℕ} {v : ℕ → P2 ℝ} (h : ConvexDomain d n v) {ε : ℝ} (hε : 0 < ε)
    (q0 : P2 ℝ) {i : ℕ} (hi : i < n) {s t : ℝ} (hs0 : ε ≤ s) (hs1 : s ≤ 1 - ε) :
    ∃ (dir : P2 ℝ) (A : ℝ), polarDirection ε d i ⟨s, t⟩ = .ok dir ∧ d.angle i = .ok A ∧ 0 < A ∧ A < π ∧ P2.dot dir dir = 1 ∧
      (∃ r1 r2 : ℝ, 0 < r1 ∧ 0 < r2 ∧
        v ((i + n - 1) % n) - v i = r1 • ⟨cos (s * A) * dir.x - sin (s * A) * dir.y, cos (s * A) * dir.y + sin (s * A) * dir.x⟩ ∧
        v ((i + 1) % n) - v i = r2 • ⟨cos ((1 - s) * A) * dir.x + sin ((1 - s) * A) * dir.y, cos ((1 - s) * A) * dir.y - sin ((1 - s) * A) * dir.x⟩) ∧
      (∃ j < n, j ≠ i ∧ j ≠ (i + 1) % n ∧ Crosses n v (v i) dir j) ∧
      ((∃ j < n, j ≠ i ∧ j ≠ (i + 1) % n ∧ Crosses n v (v i) dir j ∧ ε ≤ P2.cross dir (v j - v ((j + n - 1) % n))) →
        ∃ (j : ℕ) (q r : P2 ℝ) (lo hi : ℝ), j < n ∧ j ≠ i ∧ j ≠ (i + 1) % n ∧ d.intersectEdgeWithRay ε j (v i) dir = .ok (some q) ∧
          (∃ u : ℝ, 0 ≤ u ∧ u ≤ 1 ∧ q = sidePoint n v j u) ∧
          polarInverse ε q0 d i ⟨s, t⟩ = .ok r ∧ InsideClosed n v r ∧
          0 ≤ lo ∧ hi ≤ 1 ∧ hi - lo = 1 / 2 ^ 20 ∧
          (r = (1 - lo) • v i + lo • q ∧ 0 < lo ∨ r = (1 - hi) • v i + hi • q ∧ hi < 1) ∧
          (lo = 0 ∨ ∃ y, polarMap ε d i ((1 - lo) • v i + lo • q) = .ok y ∧ t < y.y) ∧
          (hi = 1 ∨ ∃ y, polarMap ε d i ((1 - hi) • v i + hi • q) = .ok y ∧ y.y ≤ t)) := by
  have hn := h.hn
  have hp : prevIx n i < n := prevIx_lt (by omega)
  have hx : nextIx n i < n := nextIx_lt (by omega)
  obtain ⟨A, w1, w2, hA, hA0, hAp, hw1, hw2, ew1, ew2, u1, r1, r2⟩ := angle_spec h hi
  have hnorm1 : 0 < (v (prevIx n i) - v i).norm := norm_pos (sub_ne_zero.mpr (h.side_ne hi).symm)
  have hnorm2 : 0 < (v (nextIx n i) - v i).norm := by
    have := h.side_ne hx
    rw [prevIx_nextIx hi] at this
    exact norm_pos (sub_ne_zero.mpr this)
  have b1 : v (prevIx n i) - v i = (v (prevIx n i) - v i).norm • w1 := by
    rw [ew1, smul_smul, mul_inv_cancel₀ hnorm1.ne', one_smul]
  have b2 : v (nextIx n i) - v i = (v (nextIx n i) - v i).norm • w2 := by
    rw [ew2, smul_smul, mul_inv_cancel₀ hnorm2.ne', one_smul]
  have hsin : 0 < sin A := sin_pos_of_pos_of_lt_pi hA0 hAp
  set dir : P2 ℝ := cos (s * A) • w1 + sin (s * A) • (⟨w1.y, -w1.x⟩ : P2 ℝ) with hdir
  have hdx : dir.x = cos (s * A) * w1.x + sin (s * A) * w1.y := by simp [hdir]
  have hdy : dir.y = cos (s * A) * w1.y - sin (s * A) * w1.x := by simp [hdir]; ring
  have csA := sin_sq_add_cos_sq (s * A)
  have hunit : P2.dot dir dir = 1 := by
    unfold P2.dot; rw [hdx, hdy]; linear_combination (sin (s * A) ^ 2 + cos (s * A) ^ 2) * u1 + csA
  have epd : polarDirection ε d i ⟨s, t⟩ = .ok dir := by
    unfold polarDirection
    rw [h.length_eq]
    dsimp only
    rw [h.vget_vertex hp, h.vget_vertex hi, h.vget_vertex hx]
    simp only [M_bind_ok]
    rw [hw1, hw2, hA]
    simp only [M_bind_ok]
    have : P2.dot (⟨w1.y, -w1.x⟩ : P2 ℝ) w2 = sin A := by
      unfold P2.dot; rw [r1, r2]; linear_combination sin A * u1
    rw [this, if_neg (by linarith)]
    rfl
  have back1 : w1 = ⟨cos (s * A) * dir.x - sin (s * A) * dir.y, cos (s * A) * dir.y + sin (s * A) * dir.x⟩ := by
    ext
    · change w1.x = cos (s * A) * dir.x - sin (s * A) * dir.y
      rw [hdx, hdy]; linear_combination -w1.x * csA
    · change w1.y = cos (s * A) * dir.y + sin (s * A) * dir.x
      rw [hdx, hdy]; linear_combination -w1.y * csA
  have back2 : w2 = ⟨cos ((1 - s) * A) * dir.x + sin ((1 - s) * A) * dir.y, cos ((1 - s) * A) * dir.y - sin ((1 - s) * A) * dir.x⟩ := by
    have ec : cos A = cos ((1 - s) * A) * cos (s * A) - sin ((1 - s) * A) * sin (s * A) := by
      rw [← cos_add]; congr 1; ring
    have es : sin A = sin ((1 - s) * A) * cos (s * A) + cos ((1 - s) * A) * sin (s * A) := by
      rw [← sin_add]; congr 1; ring
    ext
    · change w2.x = cos ((1 - s) * A) * dir.x + sin ((1 - s) * A) * dir.y
      rw [r1, hdx, hdy, ec, es]; ring
    · change w2.y = cos ((1 - s) * A) * dir.y - sin ((1 - s) * A) * dir.x
      rw [r2, hdx, hdy, ec, es]; ring
  -- signs at the two ends of the far chain
  have s1 : 0 < sin (s * A) := by
    apply sin_pos_of_pos_of_lt_pi
    · have : 0 < s := by linarith
      positivity
    · nlinarith
  have s2 : 0 < sin ((1 - s) * A) := by
    apply sin_pos_of_pos_of_lt_pi
    · have : 0 < 1 - s := by linarith
      positivity
    · nlinarith
  have c1 : 0 < P2.cross dir (v (prevIx n i) - v i) := by
    rw [b1, back1]
    unfold P2.cross
    simp only [P2.smul_x, P2.smul_y]
    have : dir.x * ((v (prevIx n i) - v i).norm * (cos (s * A) * dir.y + sin (s * A) * dir.x)) -
        dir.y * ((v (prevIx n i) - v i).norm * (cos (s * A) * dir.x - sin (s * A) * dir.y)) =
        (v (prevIx n i) - v i).norm * sin (s * A) * P2.dot dir dir := by unfold P2.dot; ring
    rw [this, hunit]; positivity
  have c2 : P2.cross dir (v (nextIx n i) - v i) < 0 := by
    rw [b2, back2]
    unfold P2.cross
    simp only [P2.smul_x, P2.smul_y]
    have : dir.x * ((v (nextIx n i) - v i).norm * (cos ((1 - s) * A) * dir.y - sin ((1 - s) * A) * dir.x)) -
        dir.y * ((v (nextIx n i) - v i).norm * (cos ((1 - s) * A) * dir.x + sin ((1 - s) * A) * dir.y)) =
        -((v (nextIx n i) - v i).norm * sin ((1 - s) * A) * P2.dot dir dir) := by unfold P2.dot; ring
    rw [this, hunit]
    have : 0 < (v (nextIx n i) - v i).norm * sin ((1 - s) * A) * 1 := by positivity
    linarith
  -- the first vertex of the chain on the left
  have hcross : ∃ k, k < n - 2 ∧ Crosses n v (v i) dir ((i + n - (n - 2) + k) % n) := by
    classical
    have hex : ∃ k, 0 ≤ P2.cross dir (v ((i + n - (n - 2) + k) % n) - v i) := by
      refine ⟨n - 3, ?_⟩
      have : (i + n - (n - 2) + (n - 3)) % n = prevIx n i := by unfold prevIx; congr 1; omega
      rw [this]; exact c1.le
    have hf := Nat.find_spec hex
    have hle : Nat.find hex ≤ n - 3 := Nat.find_min' hex (by
      have : (i + n - (n - 2) + (n - 3)) % n = prevIx n i := by unfold prevIx; congr 1; omega
      rw [this]; exact c1.le)
    refine ⟨Nat.find hex, by omega, ?_, hf⟩
    have hpj : ((i + n - (n - 2) + Nat.find hex) % n + n - 1) % n = (i + n - (n - 2) + Nat.find hex - 1) % n := by
      rw [Nat.add_sub_assoc (by omega), Nat.mod_add_mod, show i + n - (n - 2) + Nat.find hex + (n - 1) = i + n - (n - 2) + Nat.find hex - 1 + n by omega,
        Nat.add_mod_right]
    rw [hpj]
    by_cases h0 : Nat.find hex = 0
    · rw [h0, show (i + n - (n - 2) + 0 - 1) % n = nextIx n i by unfold nextIx; congr 1; omega]
      exact c2
    · have := Nat.find_min hex (show Nat.find hex - 1 < Nat.find hex by omega)
      rw [show i + n - (n - 2) + Nat.find hex - 1 = i + n - (n - 2) + (Nat.find hex - 1) by omega]
      exact not_le.mp this
  have hfarj : ∀ (j kj : ℕ), kj < n - 2 → j = (i + n - (n - 2) + kj) % n → j ≠ i ∧ j ≠ (i + 1) % n := by
    intro j kj hkj ekj
    have h1 : (i + 1) % n = if i + 1 = n then 0 else i + 1 := nextIx_eq hi
    rw [h1, ekj]
    by_cases hlt : i + n - (n - 2) + kj < n
    · rw [Nat.mod_eq_of_lt hlt]
      constructor
      · omega
      · split <;> omega
    · rw [show i + n - (n - 2) + kj = (i + n - (n - 2) + kj - n) + n by omega, Nat.add_mod_right, Nat.mod_eq_of_lt (by omega)]
      constructor
      · omega
      · split <;> omega
  refine ⟨dir, A, epd, hA, hA0, hAp, hunit, ⟨(v (prevIx n i) - v i).norm, (v (nextIx n i) - v i).norm, hnorm1, hnorm2, by rw [← back1]; exact b1, by rw [← back2]; exact b2⟩, ?_, ?_⟩
  · obtain ⟨k, hk', hk⟩ := hcross
    exact ⟨_, Nat.mod_lt _ (by omega), (hfarj _ k hk' rfl).1, (hfarj _ k hk' rfl).2, hk⟩
  rintro ⟨j0, hj0, hj0i, hj0x, hkc, hd⟩
  obtain ⟨k, hk, rfl⟩ : ∃ k, k < n - 2 ∧ j0 = (i + n - (n - 2) + k) % n := by
    have h1 : (i + 1) % n = if i + 1 = n then 0 else i + 1 := nextIx_eq hi
    rw [h1] at hj0x
    rcases Nat.lt_or_ge j0 i with q | q
    · refine ⟨j0 + n - i - 2, by omega, ?_⟩
      split at hj0x
      · rw [show i + n - (n - 2) + (j0 + n - i - 2) = j0 + n by omega, Nat.add_mod_right, Nat.mod_eq_of_lt hj0]
      · rw [show i + n - (n - 2) + (j0 + n - i - 2) = j0 + n by omega, Nat.add_mod_right, Nat.mod_eq_of_lt hj0]
    · have : ¬ i + 1 = n := by omega
      rw [if_neg this] at hj0x
      exact ⟨j0 - i - 2, by omega, by rw [show i + n - (n - 2) + (j0 - i - 2) = j0 by omega, Nat.mod_eq_of_lt hj0]⟩
  have hjn : (i + n - (n - 2) + k) % n < n := Nat.mod_lt _ (by omega)
  have hhit : ∃ q, d.intersectEdgeWithRay ε ((i + n - (n - 2) + k) % n) (v i) dir = .ok (some q) := by
    obtain ⟨a, b⟩ := hkc
    generalize (i + n - (n - 2) + k) % n = j at *
    unfold intersectEdgeWithRay
    rw [h.n_eq, h.vget_vertex hjn, h.vget_vertex (prevIx_lt (by omega))]
    simp only [M_bind_ok]
    change 0 ≤ P2.cross dir (v j - v i) at b
    change P2.cross dir (v (prevIx n j) - v i) < 0 at a
    change ε ≤ P2.cross dir (v j - v (prevIx n j)) at hd
    have e1 : dir.x * ((v j).y - (v (prevIx n j)).y) - dir.y * ((v j).x - (v (prevIx n j)).x) = P2.cross dir (v j - v (prevIx n j)) := rfl
    have e2 : dir.x * ((v i).y - (v (prevIx n j)).y) - dir.y * ((v i).x - (v (prevIx n j)).x) = -P2.cross dir (v (prevIx n j) - v i) := by
      simp only [P2.cross, P2.sub_x, P2.sub_y]; ring
    rw [e1, e2]
    have hpos : 0 < P2.cross dir (v j - v (prevIx n j)) := by linarith
    rw [abs_of_pos hpos, if_neg (not_lt.mpr hd), fdiv_of_ne hpos.ne', M_bind_ok, if_neg]
    · exact ⟨_, rfl⟩
    · push Not
      constructor
      · have : 0 ≤ -P2.cross dir (v (prevIx n j) - v i) / P2.cross dir (v j - v (prevIx n j)) := div_nonneg (by linarith) hpos.le
        linarith
      · have e3 : P2.cross dir (v j - v (prevIx n j)) = P2.cross dir (v j - v i) - P2.cross dir (v (prevIx n j) - v i) := by
          simp only [P2.cross, P2.sub_x, P2.sub_y]; ring
        have : -P2.cross dir (v (prevIx n j) - v i) / P2.cross dir (v j - v (prevIx n j)) ≤ 1 := by
          rw [div_le_one hpos]; linarith
        linarith
  obtain ⟨q', hq'⟩ := hhit
  obtain ⟨j, q, hj, ⟨kj, hkj, ekj⟩, hq, hfar⟩ := polarFar_found h hε (v i) dir q0 hi (n - 2) (by omega) ⟨k, hk, q', hq'⟩
  have hqside : ∃ u, 0 ≤ u ∧ u ≤ 1 ∧ q = sidePoint n v j u := by
    unfold intersectEdgeWithRay at hq
    rw [h.n_eq, h.vget_vertex hj, h.vget_vertex (prevIx_lt (by omega))] at hq
    simp only [M_bind_ok] at hq
    split at hq
    · simp at hq
    · rename_i hc
      rw [fdiv_of_ne (by intro e; rw [e, abs_zero] at hc; exact hc hε), M_bind_ok] at hq
      split at hq
      · simp at hq
      · have hqq := Option.some.inj (Except.ok.inj hq)
        exact ⟨max 0 (min ((dir.x * ((v i).y - (v (prevIx n j)).y) - dir.y * ((v i).x - (v (prevIx n j)).x)) /
          (dir.x * ((v j).y - (v (prevIx n j)).y) - dir.y * ((v j).x - (v (prevIx n j)).x))) 1),
          le_max_left _ _, max_le zero_le_one (min_le_right _ _), hqq.symm⟩
  have hqin : InsideClosed n v q := by
    obtain ⟨u, u0, u1, rfl⟩ := hqside
    exact h.insideClosed_side hj u0 u1
  have hvin : InsideClosed n v (v i) := fun j hj => h.convex.nonneg hj hi
  have seg : ∀ m : ℝ, 0 ≤ m → m ≤ 1 → InsideClosed n v ((1 - m) • v i + m • q) := by
    intro m m0 m1 j hj
    rw [leftOf_comb2 n v j (by ring)]
    exact add_nonneg (mul_nonneg (by linarith) (hvin j hj)) (mul_nonneg m0 (hqin j hj))
  -- the bisection succeeds
  have hbis : ∃ st, polarBisect (fun x => do let sd ← polarMap ε d i x; .ok sd.y) 20 (v i) q t q0 = .ok st := by
    unfold polarBisect
    obtain ⟨st, e, _⟩ := forLoop_inv (n := 20) (s := ((0 : ℝ), (1 : ℝ), q0)) (body := fun _ (st : ℝ × ℝ × P2 ℝ) => do
      let mid := (st.1 + st.2.1) / 2
      let next := (1 - mid) • v i + mid • q
      let y ← (fun x => do let sd ← polarMap ε d i x; .ok sd.y) next
      if t < y then .ok (mid, st.2.1, next) else .ok (st.1, mid, next))
      (fun _ st => 0 ≤ st.1 ∧ st.1 ≤ 1 ∧ 0 ≤ st.2.1 ∧ st.2.1 ≤ 1) ⟨le_rfl, zero_le_one, zero_le_one, le_rfl⟩
      (by
        rintro k ⟨lo, hi', r⟩ _ ⟨a, b, c, d'⟩
        simp only at a b c d'
        obtain ⟨y, hy⟩ := polarMap_ok h hε hi (seg ((lo + hi') / 2) (by linarith) (by linarith))
        dsimp only
        rw [hy]
        simp only [M_bind_ok]
        split
        · exact ⟨_, rfl, by dsimp only; linarith, by dsimp only; linarith, c, d'⟩
        · exact ⟨_, rfl, a, b, by dsimp only; linarith, by dsimp only; linarith⟩)
    exact ⟨st, e⟩
  obtain ⟨⟨lo, hi', r⟩, hst⟩ := hbis
  obtain ⟨k1, k2, k3, k4, k5, k6, k7⟩ := C18_bisection _ _ _ _ _ hst
  have hr : r = (1 - lo) • v i + lo • q ∧ 0 < lo ∨ r = (1 - hi') • v i + hi' • q ∧ hi' < 1 := by
    rcases k7 with q | q | q
    · omega
    · exact Or.inl q
    · exact Or.inr q
  refine ⟨j, q, r, lo, hi', hj, (hfarj j kj hkj ekj).1, (hfarj j kj hkj ekj).2, hq, hqside, ?_, ?_, k1, k3, k4, hr, ?_, ?_⟩
  · unfold polarInverse
    rw [h.length_eq]
    dsimp only
    rw [if_neg (not_lt.mpr hs0), if_neg (not_lt.mpr hs1), epd, M_bind_ok, h.vget_vertex hi, M_bind_ok]
    have e : nextIx n (nextIx n i) = (i + n - (n - 2)) % n := by
      unfold nextIx
      rw [Nat.mod_add_mod]; congr 1; omega
    rw [e, hfar n (by omega), M_bind_ok, hst, M_bind_ok]
  · rcases hr with ⟨rfl, _⟩ | ⟨rfl, _⟩
    · exact seg lo k1 (by linarith)
    · exact seg hi' (by linarith) k3
  · rcases k5 with e | ⟨y, e, l⟩
    · exact Or.inl e
    · right
      cases hm : polarMap ε d i ((1 - lo) • v i + lo • q) with
      | error f => rw [hm] at e; simp at e
      | ok z =>
        rw [hm, M_bind_ok] at e
        exact ⟨z, rfl, by rw [Except.ok.inj e]; exact l⟩
  · rcases k6 with e | ⟨y, e, l⟩
    · exact Or.inl e
    · right
      cases hm : polarMap ε d i ((1 - hi') • v i + hi' • q) with
      | error f => rw [hm] at e; simp at e
      | ok z =>
        rw [hm, M_bind_ok] at e
        exact ⟨z, rfl, by rw [Except.ok.inj e]; exact l⟩

/-- The hypotheses are met, for example, in the middle of a triangle; the inverse is defined there. -/
example : ∃ (d : Domain ℝ) (v : ℕ → P2 ℝ) (r : P2 ℝ), ConvexDomain d 3 v ∧ InsideClosed 3 v r ∧
    polarInverse (1/100) 0 d 0 ⟨1/2, 1/2⟩ = .ok r := by
  let v : ℕ → P2 ℝ := fun i => if i = 0 then ⟨0, 0⟩ else if i = 1 then ⟨1, 0⟩ else ⟨0, 1⟩
  have hin : Inside 3 v ⟨1/4, 1/4⟩ := by
    intro i hi
    have hi' : i = 0 ∨ i = 1 ∨ i = 2 := by omega
    rcases hi' with rfl | rfl | rfl <;> simp [leftOf, area2, v]
    norm_num
  have h : ConvexDomain ⟨3, ⟨1/4, 1/4⟩, tab 3 v, tab 3 (duOf 3 v), tab 3 (dvOf 3 v ⟨1/4, 1/4⟩)⟩ 3 v := by
    refine ⟨le_refl _, ?_, hin, updateFrom_eq 3 v ⟨1/4, 1/4⟩⟩
    intro i hi j hj h1 h2
    have hi' : i = 0 ∨ i = 1 ∨ i = 2 := by omega
    have hj' : j = 0 ∨ j = 1 ∨ j = 2 := by omega
    rcases hi' with rfl | rfl | rfl <;> rcases hj' with rfl | rfl | rfl <;>
      simp_all [leftOf, area2, v]
  obtain ⟨dir, A, _, _, A0, A1, hu, ⟨r1, r2, hr1, hr2, e1, e2⟩, _, k⟩ :=
    C18_inverse h (ε := 1/100) (by norm_num) 0 (i := 0) (by norm_num) (s := 1/2) (t := 1/2) (by norm_num) (by norm_num)
  have s0 : 0 < sin (1 / 2 * A) := sin_pos_of_pos_of_lt_pi (by linarith) (by linarith)
  have c0 : 0 < cos (1 / 2 * A) := cos_pos_of_mem_Ioo ⟨by linarith, by linarith⟩
  rw [show (1 - 1 / 2 : ℝ) * A = 1 / 2 * A by ring] at e2
  generalize sin (1 / 2 * A) = S at *
  generalize cos (1 / 2 * A) = C at *
  have a1 := congrArg P2.x e1
  have a2 := congrArg P2.y e1
  have a3 := congrArg P2.x e2
  have a4 := congrArg P2.y e2
  simp [v] at a1 a2 a3 a4
  unfold P2.dot at hu
  have b1 : C * dir.x - S * dir.y = 0 := by rcases a1 with q | q <;> [linarith; exact q]
  have b2 : C * dir.y - S * dir.x = 0 := by rcases a4 with q | q <;> [linarith; exact q]
  have hx : 0 < dir.x := by
    by_contra hc
    have hy : dir.y ≤ 0 := by nlinarith
    have : r2 * (C * dir.x + S * dir.y) ≤ 0 := by
      apply mul_nonpos_of_nonneg_of_nonpos hr2.le; nlinarith
    linarith
  have hy : 0 < dir.y := by nlinarith
  have hsum : 1 ≤ dir.x + dir.y := by nlinarith
  obtain ⟨j, q, r, lo, hi, _, _, _, _, _, hr, hr', _⟩ := k ⟨2, by norm_num, by norm_num, by norm_num, by
    unfold Crosses P2.cross
    simp [v]
    exact ⟨hy, hx.le⟩, by
    unfold P2.cross
    simp [v]; linarith⟩
  exact ⟨_, v, r, h, hr', hr⟩

end Transfinite
