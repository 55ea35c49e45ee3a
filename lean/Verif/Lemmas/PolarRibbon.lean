import Verif.Lemmas.Polar

/-! # The polar ribbons -/

namespace Transfinite

open Spec Param Domain

namespace Polar

theorem norm2_smul {t : ℝ} (ht : 0 ≤ t) (a : P2 ℝ) : (t • a).norm = t * a.norm := by
  have : P2.dot (t • a) (t • a) = t ^ 2 * P2.dot a a := by
    simp only [P2.dot, P2.smul_x, P2.smul_y]; ring
  unfold P2.norm
  change Real.sqrt _ = _ * Real.sqrt _
  rw [this, Real.sqrt_mul (sq_nonneg _), Real.sqrt_sq ht]

theorem norm2_sub_comm (a b : P2 ℝ) : (a - b).norm = (b - a).norm := by
  have : P2.dot (a - b) (a - b) = P2.dot (b - a) (b - a) := by
    simp only [P2.dot, P2.sub_x, P2.sub_y]; ring
  unfold P2.norm
  rw [this]

theorem norm2_pos {a : P2 ℝ} (h : a ≠ 0) : 0 < a.norm := by
  apply Real.sqrt_pos.mpr
  unfold P2.dot
  by_contra hc
  have hx : a.x = 0 := by nlinarith [mul_self_nonneg a.x, mul_self_nonneg a.y]
  have hy : a.y = 0 := by nlinarith [mul_self_nonneg a.x, mul_self_nonneg a.y]
  exact h (P2.ext hx hy)

theorem norm2_sub_pos {a b : P2 ℝ} (h : a ≠ b) : 0 < (a - b).norm := norm2_pos (sub_ne_zero.mpr h)

variable {d : Domain ℝ} {n : ℕ} {v : ℕ → P2 ℝ}

theorem edgeLength_eq (h : ConvexDomain d n v) {i : ℕ} (hi : i < n) : d.edgeLength i = .ok (v i - v (prevIx n i)).norm := by
  have hn := h.hn
  unfold edgeLength
  rw [h.vget_vertex hi, M_bind_ok, h.n_eq, h.vget_vertex (prevIx_lt (by omega)), M_bind_ok]

theorem base_ok (h : ConvexDomain d n v) {i : ℕ} (hi : i < n) (psi : ℝ) (p q : P2 ℝ) {P P1 P2 : P3 ℝ} (h1 : P1 ≠ P) (h2 : P2 ≠ P) :
    ∃ Q, base d i (nextIx n i) psi p q P P1 P2 = .ok (Q, (q - p).norm) ∧
      (psi = 0 → (q - p).norm = (v i - v (prevIx n i)).norm → Q = P1) ∧
      (psi = 1 → (q - p).norm = (v (nextIx n i) - v i).norm → Q - P2 = cornerGap P P1 P2) := by
  have hn := h.hn
  have hx : nextIx n i < n := nextIx_lt (by omega)
  have n1 := P3.norm_pos (sub_ne_zero.mpr h1)
  have n2 := P3.norm_pos (sub_ne_zero.mpr h2)
  have l1 := norm2_sub_pos (h.side_ne hi)
  have l2 := norm2_sub_pos (h.side_ne hx)
  rw [prevIx_nextIx hi] at l2
  obtain ⟨_, _, D1u⟩ := P3.normalize_unit (P3.normalize_ok (sub_ne_zero.mpr h1))
  obtain ⟨_, _, D2u⟩ := P3.normalize_unit (P3.normalize_ok (sub_ne_zero.mpr h2))
  unfold base
  rw [edgeLength_eq h hi, M_bind_ok, edgeLength_eq h hx, M_bind_ok, prevIx_nextIx hi, P3.normalize_ok (sub_ne_zero.mpr h1), M_bind_ok,
    P3.normalize_ok (sub_ne_zero.mpr h2), M_bind_ok]
  dsimp only
  rw [fdiv_of_ne l1.ne', M_bind_ok, fdiv_of_ne l2.ne', M_bind_ok]
  refine ⟨_, rfl, ?_, ?_⟩
  · rintro rfl hl
    rw [hl, zero_mul, zero_mul]
    change P + _ • (Real.cos 0 • _ + Real.sin 0 • _) = _
    rw [Real.cos_zero, Real.sin_zero, one_smul, zero_smul, add_zero, sub_zero, one_mul, zero_div, add_zero, mul_div_cancel₀ _ l1.ne',
      smul_smul, mul_inv_cancel₀ n1.ne', one_smul]
    abel
  · rintro rfl hl
    unfold cornerGap
    dsimp only
    set D1 := (P1 - P).norm⁻¹ • (P1 - P) with hD1
    set D2 := (P2 - P).norm⁻¹ • (P2 - P) with hD2
    have hP2 : P2 = P + (P2 - P).norm • D2 := by
      rw [hD2, smul_smul, mul_inv_cancel₀ n2.ne', one_smul]; abel
    have hc : -1 ≤ P3.dot D1 D2 ∧ P3.dot D1 D2 ≤ 1 := by
      have e1 := P3.dot_self_nonneg (D1 - D2)
      have e2 := P3.dot_self_nonneg (D1 + D2)
      have x1 : P3.dot (D1 - D2) (D1 - D2) = P3.dot D1 D1 - 2 * P3.dot D1 D2 + P3.dot D2 D2 := by simp only [P3.dot, P3.sub_x, P3.sub_y, P3.sub_z]; ring
      have x2 : P3.dot (D1 + D2) (D1 + D2) = P3.dot D1 D1 + 2 * P3.dot D1 D2 + P3.dot D2 D2 := by simp only [P3.dot, P3.add_x, P3.add_y, P3.add_z]; ring
      rw [x1, D1u, D2u] at e1
      rw [x2, D1u, D2u] at e2
      constructor <;> linarith
    have hcl : clamp (P3.dot D1 D2) (-1) 1 = P3.dot D1 D2 := by
      unfold clamp; rw [min_eq_left hc.2, max_eq_right hc.1]
    have hcr : P3.cross (P3.cross D1 D2) D1 = D2 - P3.dot D1 D2 • D1 := by
      have := D1u
      unfold P3.dot at this
      ext
      · simp only [P3.cross, P3.dot, P3.sub_x, P3.smul_x]; linear_combination D2.x * this
      · simp only [P3.cross, P3.dot, P3.sub_y, P3.smul_y]; linear_combination D2.y * this
      · simp only [P3.cross, P3.dot, P3.sub_z, P3.smul_z]; linear_combination D2.z * this
    rw [hcl, hcr, hl, one_mul, one_mul, sub_self, zero_mul, zero_div, zero_add, mul_div_cancel₀ _ l2.ne']
    change P + (P2 - P).norm • (Real.cos (Real.arccos _) • D1 + Real.sin (Real.arccos _) • _) - P2 = _
    rw [Real.cos_arccos hc.1 hc.2, Real.sin_arccos]
    nth_rewrite 2 [hP2]
    module

/-- Any ribbon, if the inverse of the parameterization is defined on its parameter line. -/
theorem ribbon_ok (h : ConvexDomain d n v) {ε : ℝ} {q0 : P2 ℝ} {solve : List (List ℝ) → List (P3 ℝ) → List (P3 ℝ)} (hs : Solver solve)
    (m : ℕ) {c : ℕ → Curve ℝ} {i : ℕ} (hi : i < n) (h1 : (c i).pt 0 ≠ (c i).pt 1) (h2 : (c (nextIx n i)).pt 1 ≠ (c i).pt 1)
    (pd : P2 ℝ) (hinv : ∀ t, ∃ q, polarInverse ε q0 d i ⟨pd.x, t⟩ = .ok q) (hne : polarInverse ε q0 d i ⟨pd.x, 0⟩ ≠ .ok (v i)) :
    ∃ r, ribbon ε q0 solve m d (tab n c) i pd = .ok r := by
  have hn := h.hn
  obtain ⟨q, hq⟩ := hinv 0
  have hqv : q ≠ v i := by rintro rfl; exact hne hq
  obtain ⟨Q, eQ, _⟩ := base_ok h hi pd.x (v i) q h1 h2
  obtain ⟨c', a', b', e, _⟩ := rounds_ok hs (fun t => polarInverse ε q0 d i ⟨pd.x, t⟩) (c i).pt (c (nextIx n i)).pt (v i)
    (norm2_sub_pos hqv).ne' pd.x hinv ((c i).pt 1) Q ((c i).pt 0) ((c (nextIx n i)).pt 1) (m - 1)
  unfold ribbon
  dsimp only
  rw [length_tab, vget_tab _ hi, M_bind_ok, vget_tab _ (nextIx_lt (by omega)), M_bind_ok, h.vget_vertex hi, M_bind_ok, hq, M_bind_ok, eQ, M_bind_ok]
  dsimp only
  rw [e, M_bind_ok]
  exact ⟨_, Ribbon.bezierPt_eq _ _ _⟩

theorem max_eq_sub (m : ℕ) : max 1 m = m - 1 + 1 := by omega

/-- The ribbon at angle 0: the interpolant of the curve of side `i`. -/
theorem ribbon_left (h : ConvexDomain d n v) {ε : ℝ} (hε : 0 < ε) (hε1 : ε < 1) {q0 : P2 ℝ} {solve : List (List ℝ) → List (P3 ℝ) → List (P3 ℝ)}
    (hs : Solver solve) (m : ℕ) {c : ℕ → Curve ℝ} {i : ℕ} (hi : i < n) (h1 : (c i).pt 0 ≠ (c i).pt 1)
    (h2 : (c (nextIx n i)).pt 1 ≠ (c i).pt 1) {F : ℝ → P3 ℝ} (hF : Interpolates (max 1 m) (c i).pt F) (y : ℝ) :
    ribbon ε q0 solve m d (tab n c) i ⟨0, y⟩ = .ok (F (clamp y 0 1)) := by
  have hn := h.hn
  have hinv : ∀ t, polarInverse ε q0 d i ⟨0, t⟩ = .ok (sidePoint n v i t) := by
    intro t
    rw [(C18_ends hε hε1 q0 d i t).1, h.edgePoint hi]
  have hd : ∀ t, sidePoint n v i (1 - t) - v i = t • (v (prevIx n i) - v i) := by
    intro t
    unfold sidePoint
    rw [show (i + n - 1) % n = prevIx n i from rfl]; module
  have hl : (sidePoint n v i 0 - v i).norm = (v i - v (prevIx n i)).norm := by
    have := hd 1
    rw [sub_self, one_smul] at this
    rw [this, norm2_sub_comm]
  have hpos := norm2_sub_pos (h.side_ne hi)
  obtain ⟨Q, eQ, hQ, _⟩ := base_ok h hi 0 (v i) (sidePoint n v i 0) h1 h2
  obtain ⟨c', a', b', e, c0, c1, a0, a1, b0, b1, sa, sb, hc⟩ := rounds_ok hs (fun t => polarInverse ε q0 d i ⟨0, t⟩) (c i).pt (c (nextIx n i)).pt (v i)
    (l := (sidePoint n v i 0 - v i).norm) (by rw [hl]; exact hpos.ne') 0 (fun t => ⟨_, hinv t⟩) ((c i).pt 1) Q ((c i).pt 0) ((c (nextIx n i)).pt 1) (m - 1)
  unfold ribbon
  dsimp only
  rw [length_tab, vget_tab _ hi, M_bind_ok, vget_tab _ (nextIx_lt (by omega)), M_bind_ok, h.vget_vertex hi, M_bind_ok, hinv, M_bind_ok, eQ, M_bind_ok]
  dsimp only
  rw [e, M_bind_ok]
  dsimp only
  rw [Ribbon.bezierPt_eq]
  congr 1
  rw [(hc (by
    intro t t0 t1 q hq
    rw [hinv] at hq
    obtain rfl := Except.ok.inj hq
    rw [hd, norm2_smul t0.le, hl, norm2_sub_comm, mul_div_assoc, div_self hpos.ne', mul_one])).1 rfl (hQ rfl hl)]
  have hI : Interpolates (max 1 m) (c i).pt fun u => bezier (m - 1 + 1) a' (1 - u) := by
    rw [max_eq_sub]
    apply interpolates_of (isPoly_rev (isPoly_bezier _ _))
    · show bezier (m - 1 + 1) a' (1 - 0) = _
      rw [sub_zero, Ribbon.bezier_one, a1]
    · show bezier (m - 1 + 1) a' (1 - 1) = _
      rw [sub_self, Ribbon.bezier_zero, a0]
    · intro j hj
      have hsym : 1 - unif (m - 1) j = unif (m - 1) (m - 1 - 1 - j) := by
        unfold unif
        have hk : ((m - 1 + 1 : ℕ) : ℝ) ≠ 0 := by exact_mod_cast Nat.succ_ne_zero (m - 1)
        rw [eq_div_iff hk, sub_mul, div_mul_cancel₀ _ hk, one_mul, sub_eq_iff_eq_add]
        exact_mod_cast (by omega : m - 1 + 1 = m - 1 - 1 - j + 1 + (j + 1))
      show bezier (m - 1 + 1) a' (1 - unif (m - 1) j) = _
      rw [hsym, sa _ (by omega), ← hsym, sub_sub_cancel]
  exact interpolates_unique (by omega) hI hF _

/-- The ribbon at angle 1: the interpolant of the curve of the next side, and an error. -/
theorem ribbon_right (h : ConvexDomain d n v) {ε : ℝ} (hε : 0 < ε) (hε1 : ε < 1) {q0 : P2 ℝ} {solve : List (List ℝ) → List (P3 ℝ) → List (P3 ℝ)}
    (hs : Solver solve) (m : ℕ) {c : ℕ → Curve ℝ} {i : ℕ} (hi : i < n) (h1 : (c i).pt 0 ≠ (c i).pt 1)
    (h2 : (c (nextIx n i)).pt 1 ≠ (c i).pt 1) (h3 : (c (nextIx n i)).pt 0 = (c i).pt 1) {F : ℝ → P3 ℝ}
    (hF : Interpolates (max 1 m) (c (nextIx n i)).pt F) (y : ℝ) :
    ribbon ε q0 solve m d (tab n c) i ⟨1, y⟩ =
      .ok (F (1 - clamp y 0 1) + (1 - clamp y 0 1) • cornerGap ((c i).pt 1) ((c i).pt 0) ((c (nextIx n i)).pt 1)) := by
  have hn := h.hn
  have hx : nextIx n i < n := nextIx_lt (by omega)
  have hinv : ∀ t, polarInverse ε q0 d i ⟨1, t⟩ = .ok (sidePoint n v (nextIx n i) (1 - t)) := by
    intro t
    rw [(C18_ends hε hε1 q0 d i t).2, h.length_eq]
    exact h.edgePoint hx _
  have hd : ∀ t, sidePoint n v (nextIx n i) (1 - (1 - t)) - v i = t • (v (nextIx n i) - v i) := by
    intro t
    unfold sidePoint
    rw [show (nextIx n i + n - 1) % n = i from prevIx_nextIx hi]; module
  have hl : (sidePoint n v (nextIx n i) (1 - 0) - v i).norm = (v (nextIx n i) - v i).norm := by
    have := hd 1
    rw [sub_self, one_smul] at this
    rw [this]
  have hpos := norm2_sub_pos (h.side_ne hx)
  rw [prevIx_nextIx hi] at hpos
  obtain ⟨Q, eQ, _, hQ⟩ := base_ok h hi 1 (v i) (sidePoint n v (nextIx n i) (1 - 0)) h1 h2
  obtain ⟨c', a', b', e, c0, c1, a0, a1, b0, b1, sa, sb, hc⟩ := rounds_ok hs (fun t => polarInverse ε q0 d i ⟨1, t⟩) (c i).pt (c (nextIx n i)).pt (v i)
    (l := (sidePoint n v (nextIx n i) (1 - 0) - v i).norm) (by rw [hl]; exact hpos.ne') 1 (fun t => ⟨_, hinv t⟩) ((c i).pt 1) Q ((c i).pt 0)
    ((c (nextIx n i)).pt 1) (m - 1)
  unfold ribbon
  dsimp only
  rw [length_tab, vget_tab _ hi, M_bind_ok, vget_tab _ hx, M_bind_ok, h.vget_vertex hi, M_bind_ok, hinv, M_bind_ok, eQ, M_bind_ok]
  dsimp only
  rw [e, M_bind_ok]
  dsimp only
  rw [Ribbon.bezierPt_eq]
  congr 1
  rw [(hc (by
    intro t t0 t1 q hq
    rw [hinv] at hq
    obtain rfl := Except.ok.inj hq
    rw [hd, norm2_smul t0.le, hl, mul_div_assoc, div_self hpos.ne', mul_one])).2 rfl, hQ rfl hl]
  have hI : Interpolates (max 1 m) (c (nextIx n i)).pt (bezier (m - 1 + 1) b') := by
    rw [max_eq_sub]
    apply interpolates_of (isPoly_bezier _ _)
    · rw [Ribbon.bezier_zero, b0, h3]
    · rw [Ribbon.bezier_one, b1]
    · exact sb
  rw [interpolates_unique (by omega) hI hF]

end Polar

end Transfinite
