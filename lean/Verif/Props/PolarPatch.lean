import Verif.Lemmas.PolarRibbon
import Verif.Props.Total
import Mathlib.LinearAlgebra.Lagrange
import Mathlib.LinearAlgebra.Matrix.ToLin
import Mathlib.LinearAlgebra.FiniteDimensional.Basic
import Mathlib.Tactic.ComputeDegree

/-! # Property C72: polar patches -/

namespace Transfinite

open Spec Param Domain Real

namespace Polar

variable {d : Domain ℝ} {n : ℕ} {v : ℕ → P2 ℝ}

/-- The polar map of a point away from the vertex, given its coordinates. -/
theorem polarMap_eq (h : ConvexDomain d n v) {ε : ℝ} {j : ℕ} (hj : j < n) {p : P2 ℝ} (hε : 0 < ε) (hfar : ε ≤ (p - v j).norm)
    {y : ℕ → ℝ} (hy : barycentric ε .meanValue d p = .ok (tab n y)) :
    ∃ A, d.angle j = .ok A ∧ 0 < A ∧ polarMap ε d j p = .ok ⟨arccos (P2.dot ((v (prevIx n j) - v j).norm⁻¹ • (v (prevIx n j) - v j))
      ((p - v j).norm⁻¹ • (p - v j))) / A, y j⟩ := by
  have hn := h.hn
  have hp : prevIx n j < n := prevIx_lt (by omega)
  obtain ⟨A, w1, w2, hA, hA0, -, hw1, -, ew1, -, u1, -, -⟩ := angle_spec h hj
  refine ⟨A, hA, hA0, ?_⟩
  have hne : p - v j ≠ 0 := by
    intro e
    rw [e] at hfar
    have : (0 : P2 ℝ).norm = 0 := by
      unfold P2.norm P2.dot
      simp only [P2.zero_x, P2.zero_y, mul_zero, add_zero]
      exact Real.sqrt_zero
    linarith
  have hnorm : (p - v j).normalize = .ok ((p - v j).norm⁻¹ • (p - v j)) := by
    unfold P2.normalize; rw [if_neg (norm2_pos hne).ne']
  have u2 : P2.dot ((p - v j).norm⁻¹ • (p - v j)) ((p - v j).norm⁻¹ • (p - v j)) = 1 := by
    have a := norm2_pos hne
    have b : (p - v j).norm * (p - v j).norm = P2.dot (p - v j) (p - v j) :=
      Real.mul_self_sqrt (by unfold P2.dot; nlinarith [mul_self_nonneg (p - v j).x, mul_self_nonneg (p - v j).y])
    have : P2.dot ((p - v j).norm⁻¹ • (p - v j)) ((p - v j).norm⁻¹ • (p - v j)) = (p - v j).norm⁻¹ ^ 2 * P2.dot (p - v j) (p - v j) := by
      simp only [P2.dot, P2.smul_x, P2.smul_y]; ring
    rw [this, ← b]; field_simp
  unfold polarMap
  rw [h.length_eq]
  dsimp only
  rw [h.vget_vertex hp, h.vget_vertex hj]
  simp only [M_bind_ok]
  rw [if_neg (not_lt.mpr hfar), hw1, M_bind_ok, hnorm, M_bind_ok, hA, M_bind_ok, fdiv_of_ne hA0.ne', M_bind_ok, hy, M_bind_ok, vget_tab _ hj, M_bind_ok, ew1]
  rw [ew1] at u1
  generalize (p - v j).norm⁻¹ • (p - v j) = b at *
  generalize (v (prevIx n j) - v j).norm⁻¹ • (v (prevIx n j) - v j) = a at *
  have hc : -1 ≤ P2.dot a b ∧ P2.dot a b ≤ 1 := by
    unfold P2.dot at *
    have e : (a.x * b.x + a.y * b.y) ^ 2 + (a.x * b.y - a.y * b.x) ^ 2 = 1 := by
      linear_combination (b.x * b.x + b.y * b.y) * u1 + u2
    constructor <;> nlinarith [sq_nonneg (a.x * b.y - a.y * b.x)]
  have : clamp (P2.dot a b) (-1) 1 = P2.dot a b := by
    unfold clamp; rw [min_eq_left hc.2, max_eq_right hc.1]
  rw [this]
  rfl

/-- The parameter line of a point of side `i`, seen from a vertex `j` not on this side. -/
theorem far_line (h : ConvexDomain d n v) {ε : ℝ} (hε : 0 < ε) (q0 : P2 ℝ) {i j : ℕ} (hi : i < n) (hj : j < n) (hji : j ≠ i)
    (hjp : j ≠ prevIx n i) {s : ℝ} (s0 : 0 < s) (s1 : s ≤ 1) (hfar : ε ≤ (sidePoint n v i s - v j).norm)
    (htr : ε * (sidePoint n v i s - v j).norm ≤ P2.cross (sidePoint n v i s - v j) (v i - v (prevIx n i)))
    {y : ℕ → ℝ} (hy : barycentric ε .meanValue d (sidePoint n v i s) = .ok (tab n y)) :
    ∃ psi, polarMap ε d j (sidePoint n v i s) = .ok ⟨psi, y j⟩ ∧ (∀ t, ∃ q, polarInverse ε q0 d j ⟨psi, t⟩ = .ok q) ∧
      polarInverse ε q0 d j ⟨psi, 0⟩ ≠ .ok (v j) := by
  have hn := h.hn
  have hx : nextIx n j < n := nextIx_lt (by omega)
  obtain ⟨A, hA, hA0, hm⟩ := polarMap_eq h hj hε hfar hy
  refine ⟨_, hm, ?_⟩
  set p := sidePoint n v i s with hp
  set a := (v (prevIx n j) - v j).norm⁻¹ • (v (prevIx n j) - v j) with ha
  set b := (p - v j).norm⁻¹ • (p - v j) with hb
  set psi := arccos (P2.dot a b) / A with hpsi
  have N : 0 < (p - v j).norm := lt_of_lt_of_le hε hfar
  have key : (∀ t, ∃ q, polarInverse ε q0 d j ⟨psi, t⟩ = .ok q ∧ (t = 0 → q ≠ v j)) := by
    intro t
    by_cases c1 : psi < ε
    · unfold polarInverse
      dsimp only
      rw [if_pos c1, h.edgePoint hj]
      refine ⟨_, rfl, ?_⟩
      rintro rfl e
      unfold sidePoint at e
      rw [sub_zero, one_smul, zero_smul, add_zero] at e
      exact h.side_ne hj e.symm
    by_cases c2 : psi > 1 - ε
    · unfold polarInverse
      dsimp only
      rw [if_neg c1, if_pos c2, h.length_eq, h.edgePoint hx]
      refine ⟨_, rfl, ?_⟩
      rintro rfl e
      unfold sidePoint at e
      rw [sub_zero, sub_self, one_smul, zero_smul, zero_add] at e
      have := h.side_ne hx
      rw [prevIx_nextIx hj] at this
      exact this e
    push Not at c1 c2
    obtain ⟨dir, A', epd, hA', A0, Ap, hu, ⟨r1, r2, hr1, hr2, e1, e2⟩, -, fin⟩ := C18_inverse h hε q0 hj (s := psi) (t := t) c1 c2
    obtain rfl : A' = A := by rw [hA] at hA'; exact (Except.ok.inj hA').symm
    -- the direction points to the given point
    have hpA : psi * A' = arccos (P2.dot a b) := by rw [hpsi]; field_simp
    rw [hpA] at e1
    have hdir : dir = b := by
      have hna := norm2_sub_pos (h.side_ne hj).symm
      have naa : (v (prevIx n j) - v j).norm * (v (prevIx n j) - v j).norm = P2.dot (v (prevIx n j) - v j) (v (prevIx n j) - v j) :=
        Real.mul_self_sqrt (by unfold P2.dot; nlinarith [mul_self_nonneg (v (prevIx n j) - v j).x, mul_self_nonneg (v (prevIx n j) - v j).y])
      have nbb : (p - v j).norm * (p - v j).norm = P2.dot (p - v j) (p - v j) :=
        Real.mul_self_sqrt (by unfold P2.dot; nlinarith [mul_self_nonneg (p - v j).x, mul_self_nonneg (p - v j).y])
      have ub : P2.dot b b = 1 := by
        have : P2.dot b b = (p - v j).norm⁻¹ ^ 2 * P2.dot (p - v j) (p - v j) := by
          rw [hb]; simp only [P2.dot, P2.smul_x, P2.smul_y]; ring
        rw [this, ← nbb]; field_simp
      have ua : P2.dot a a = 1 := by
        have : P2.dot a a = (v (prevIx n j) - v j).norm⁻¹ ^ 2 * P2.dot (v (prevIx n j) - v j) (v (prevIx n j) - v j) := by
          rw [ha]; simp only [P2.dot, P2.smul_x, P2.smul_y]; ring
        rw [this, ← naa]; field_simp
      have cnn : 0 ≤ P2.cross b a := by
        have hin := h.insideClosed_side hi s0.le s1 j hj
        have : P2.cross b a = (p - v j).norm⁻¹ * (v (prevIx n j) - v j).norm⁻¹ * leftOf n v j p := by
          rw [ha, hb]
          unfold leftOf area2
          rw [show (j + n - 1) % n = prevIx n j from rfl]
          simp only [P2.cross, P2.smul_x, P2.smul_y, P2.sub_x, P2.sub_y]; ring
        rw [this]
        positivity
      have e : P2.dot a b ^ 2 + P2.cross b a ^ 2 = 1 := by
        unfold P2.dot P2.cross at *
        linear_combination (b.x * b.x + b.y * b.y) * ua + ub
      have hc : -1 ≤ P2.dot a b ∧ P2.dot a b ≤ 1 := by
        constructor <;> nlinarith [sq_nonneg (P2.cross b a)]
      have hsin : sin (arccos (P2.dot a b)) = P2.cross b a := by
        rw [sin_arccos, show 1 - P2.dot a b ^ 2 = P2.cross b a ^ 2 by linarith, Real.sqrt_sq cnn]
      rw [hsin, cos_arccos hc.1 hc.2] at e1
      change v (prevIx n j) - v j = _ at e1
      -- r1 is the norm
      have er : r1 = (v (prevIx n j) - v j).norm := by
        have : P2.dot (v (prevIx n j) - v j) (v (prevIx n j) - v j) = r1 ^ 2 := by
          rw [e1]
          unfold P2.dot at hu e ⊢
          simp only [P2.smul_x, P2.smul_y]
          linear_combination (r1 ^ 2 * (dir.x * dir.x + dir.y * dir.y)) * e + r1 ^ 2 * hu
        unfold P2.norm
        rw [this]
        exact (Real.sqrt_sq hr1.le).symm
      have ea : a = ⟨P2.dot a b * dir.x - P2.cross b a * dir.y, P2.dot a b * dir.y + P2.cross b a * dir.x⟩ := by
        have := congrArg (fun w => (v (prevIx n j) - v j).norm⁻¹ • w) e1
        rw [← ha, smul_smul, er, inv_mul_cancel₀ hna.ne', one_smul] at this
        exact this
      have ex := congrArg P2.x ea
      have ey := congrArg P2.y ea
      simp only at ex ey
      have d1 : b.x = P2.dot a b * a.x + P2.cross b a * a.y := by
        unfold P2.dot at ua
        unfold P2.dot P2.cross; linear_combination -b.x * ua
      have d2 : b.y = P2.dot a b * a.y - P2.cross b a * a.x := by
        unfold P2.dot at ua
        unfold P2.dot P2.cross; linear_combination -b.y * ua
      generalize P2.dot a b = C at *
      generalize P2.cross b a = S at *
      ext
      · rw [d1, ex, ey]; linear_combination -dir.x * e
      · rw [d2, ex, ey]; linear_combination -dir.y * e
    have hpp : p - v j = (v (prevIx n i) - v j) + s • (v i - v (prevIx n i)) := by
      rw [hp]; unfold sidePoint
      rw [show (i + n - 1) % n = prevIx n i from rfl]; module
    have cpos : 0 < P2.cross (p - v j) (v i - v (prevIx n i)) := lt_of_lt_of_le (mul_pos hε N) htr
    have cb : ∀ w, P2.cross b w = (p - v j).norm⁻¹ * P2.cross (p - v j) w := by
      intro w; rw [hb]; simp only [P2.cross, P2.smul_x, P2.smul_y]; ring
    have c1' : P2.cross (p - v j) (v (prevIx n i) - v j) = -(s * P2.cross (p - v j) (v i - v (prevIx n i))) := by
      have : v (prevIx n i) - v j = (p - v j) - s • (v i - v (prevIx n i)) := by rw [hpp]; abel
      rw [this]
      simp only [P2.cross, P2.sub_x, P2.sub_y, P2.smul_x, P2.smul_y]; ring
    have c2' : P2.cross (p - v j) (v i - v j) = (1 - s) * P2.cross (p - v j) (v i - v (prevIx n i)) := by
      have : v i - v j = (v (prevIx n i) - v j) + (v i - v (prevIx n i)) := by abel
      have e : P2.cross (p - v j) ((v (prevIx n i) - v j) + (v i - v (prevIx n i))) =
          P2.cross (p - v j) (v (prevIx n i) - v j) + P2.cross (p - v j) (v i - v (prevIx n i)) := by
        simp only [P2.cross, P2.add_x, P2.add_y]; ring
      rw [this, e, c1']; ring
    have Ninv : 0 < (p - v j).norm⁻¹ := inv_pos.mpr N
    obtain ⟨k, q, r, lo, hi', hk, hkj, hkx, -, ⟨u, u0, u1, hq⟩, hinv, -, lo0, -, hw, hr, -⟩ := fin ⟨i, hi, Ne.symm hji, by
      intro e
      apply hjp
      rw [e]; exact (prevIx_nextIx hj).symm, by
      rw [hdir]
      refine ⟨?_, ?_⟩
      · change P2.cross b (v (prevIx n i) - v j) < 0
        rw [cb, c1']
        have := mul_pos Ninv (mul_pos s0 cpos)
        linarith
      · rw [cb, c2']
        exact mul_nonneg Ninv.le (mul_nonneg (by linarith) cpos.le), by
      rw [hdir]
      change ε ≤ P2.cross b (v i - v (prevIx n i))
      rw [cb, inv_mul_eq_div, le_div_iff₀ N]
      exact htr⟩
    have hqv : q ≠ v j := by
      rintro rfl
      have hpos := h.convex k hk j hj (Ne.symm hkj) (by
        intro e
        apply hkx
        rw [e]
        exact (nextIx_prevIx hk).symm)
      rw [hq] at hpos
      unfold sidePoint at hpos
      rw [leftOf_comb2 n v k (by ring), leftOf_self, leftOf_prev] at hpos
      simp at hpos
    refine ⟨r, hinv, fun _ e => ?_⟩
    have hz : ∀ x : ℝ, 0 < x → (1 - x) • v j + x • q ≠ v j := by
      intro x hx e
      have : x • (q - v j) = 0 := by
        have : x • (q - v j) = ((1 - x) • v j + x • q) - v j := by module
        rw [this, e, sub_self]
      rcases smul_eq_zero.mp this with h0 | h0
      · exact hx.ne' h0
      · exact hqv (sub_eq_zero.mp h0)
    rcases hr with ⟨hr, hlo⟩ | ⟨hr, -⟩
    · exact hz lo hlo (hr ▸ e)
    · refine hz hi' ?_ (hr ▸ e)
      have : (0 : ℝ) < 1 / 2 ^ 20 := by positivity
      linarith
  refine ⟨fun t => ?_, ?_⟩
  · obtain ⟨q, hq, -⟩ := key t
    exact ⟨q, hq⟩
  · obtain ⟨q, hq, hne⟩ := key 0
    intro e
    rw [hq] at e
    exact hne rfl (Except.ok.inj e)

/-- The sum over the corners. -/
theorem evalWith_eq {ε : ℝ} {q0 : P2 ℝ} {solve : List (List ℝ) → List (P3 ℝ) → List (P3 ℝ)} {m : ℕ} {c : ℕ → Curve ℝ} {pd : ℕ → P2 ℝ}
    {r : ℕ → P3 ℝ} (hr : ∀ i < n, ribbon ε q0 solve m d (tab n c) i (pd i) = .ok (r i)) (hs : ∑ i ∈ Finset.range n, (pd i).y ^ 2 ≠ 0) :
    evalWith ε q0 solve m d (tab n c) (tab n pd) =
      .ok ((∑ i ∈ Finset.range n, (pd i).y ^ 2)⁻¹ • ∑ i ∈ Finset.range n, (pd i).y ^ 2 • r i) := by
  unfold evalWith
  rw [length_tab, forLoop_sum n _ (fun i => ((pd i).y ^ 2 • r i, (pd i).y ^ 2)), M_bind_ok, show ((0, 0) : P3 ℝ × ℝ) = 0 from rfl, zero_add]
  · rw [Prod.fst_sum, Prod.snd_sum]
    unfold Ribbon.vdiv
    rw [fdiv_of_ne hs, M_bind_ok, one_div]
  · intro k st hk
    rw [vget_tab _ hk, M_bind_ok, hr k hk, M_bind_ok]
    rfl

theorem eval_eq (h : ConvexDomain d n v) {ε : ℝ} {q0 : P2 ℝ} {solve : List (List ℝ) → List (P3 ℝ) → List (P3 ℝ)} {m : ℕ} {c : ℕ → Curve ℝ} {uv : P2 ℝ}
    {pd : ℕ → P2 ℝ} {r : ℕ → P3 ℝ} (hpd : ∀ i < n, polarMap ε d i uv = .ok (pd i))
    (hr : ∀ i < n, ribbon ε q0 solve m d (tab n c) i (pd i) = .ok (r i)) (hs : ∑ i ∈ Finset.range n, (pd i).y ^ 2 ≠ 0) :
    eval ε q0 solve m d (tab n c) uv =
      .ok ((∑ i ∈ Finset.range n, (pd i).y ^ 2)⁻¹ • ∑ i ∈ Finset.range n, (pd i).y ^ 2 • r i) := by
  unfold eval
  rw [h.length_eq, forLoop_push n _ pd, M_bind_ok, List.nil_append]
  · exact evalWith_eq hr hs
  · intro k l hk
    rw [hpd k hk]; rfl

/-- A closed loop of `n` curves with different ends. -/
structure Closed (n : ℕ) (c : ℕ → Curve ℝ) : Prop where
  ends : ∀ i < n, (c i).pt 0 ≠ (c i).pt 1
  closed : ∀ i < n, (c ((i + 1) % n)).pt 0 = (c i).pt 1

/-- Interpolants exist. -/
theorem exists_interpolates {m : ℕ} (hm : 1 ≤ m) (c : ℝ → P3 ℝ) : ∃ F, Interpolates m c F := by
  have hk : (m : ℝ) ≠ 0 := by exact_mod_cast (by omega : m ≠ 0)
  have inj : Set.InjOn (fun k : ℕ => (k : ℝ) / m) (Finset.range (m + 1) : Set ℕ) := by
    intro i _ j _ e
    simp only at e
    rw [div_left_inj' hk] at e
    exact_mod_cast e
  have key : ∀ f : ℝ → ℝ, ∃ P : Polynomial ℝ, P.natDegree ≤ m ∧ ∀ k ≤ m, P.eval ((k : ℝ) / m) = f ((k : ℝ) / m) := by
    intro f
    refine ⟨Lagrange.interpolate (Finset.range (m + 1)) (fun k : ℕ => (k : ℝ) / m) (fun k => f ((k : ℝ) / m)), ?_, ?_⟩
    · have := Lagrange.degree_interpolate_lt (r := fun k : ℕ => f ((k : ℝ) / m)) inj
      rw [Finset.card_range] at this
      exact Polynomial.natDegree_le_of_degree_le (Order.le_of_lt_succ (by exact_mod_cast this))
    · intro k hk
      exact Lagrange.eval_interpolate_at_node (r := fun k : ℕ => f ((k : ℝ) / m)) inj (Finset.mem_range.mpr (by omega))
  obtain ⟨X, hX, eX⟩ := key fun u => (c u).x
  obtain ⟨Y, hY, eY⟩ := key fun u => (c u).y
  obtain ⟨Z, hZ, eZ⟩ := key fun u => (c u).z
  exact ⟨fun u => ⟨X.eval u, Y.eval u, Z.eval u⟩, ⟨X, Y, Z, hX, hY, hZ, fun _ => rfl⟩, fun k hk => by
    change (⟨X.eval _, Y.eval _, Z.eval _⟩ : P3 ℝ) = _
    rw [eX k hk, eY k hk, eZ k hk]⟩

end Polar

open Polar

variable {d : Domain ℝ} {n : ℕ} {v : ℕ → P2 ℝ}

/-- C72: the value of a polar patch at a side point is the value of the polynomial curve interpolating the boundary curve at
`0, 1/m, ..., 1` (`m` is the maximal degree, at least 1), plus a term that depends only on the corner at the start of the side. -/
theorem C72_side (h : ConvexDomain d n v) {ε : ℝ} (hε : 0 < ε) (hε1 : ε < 1) (q0 : P2 ℝ)
    {solve : List (List ℝ) → List (P3 ℝ) → List (P3 ℝ)} (hs : Solver solve) (m : ℕ) {c : ℕ → Curve ℝ} (hc : Closed n c) {i : ℕ} (hi : i < n)
    {s : ℝ} (s0 : 0 < s) (s1 : s < 1) (hfar : ∀ j < n, ε ≤ (sidePoint n v i s - v j).norm)
    (htr : ∀ j < n, j ≠ i → j ≠ (i + n - 1) % n →
      ε * (sidePoint n v i s - v j).norm ≤ P2.cross (sidePoint n v i s - v j) (v i - v ((i + n - 1) % n)))
    {F : ℝ → P3 ℝ} (hF : Interpolates (max 1 m) (c i).pt F) :
    ∃ uv, d.edgePoint i s = .ok uv ∧ Polar.eval ε q0 solve m d (tab n c) uv = .ok (F s + (s * (1 - s) ^ 2 / (s ^ 2 + (1 - s) ^ 2)) •
      cornerGap ((c i).pt 0) ((c ((i + n - 1) % n)).pt 0) ((c i).pt 1)) := by
  have hn := h.hn
  have hp : prevIx n i < n := prevIx_lt (by omega)
  refine ⟨_, h.edgePoint hi s, ?_⟩
  obtain ⟨p, e, hb⟩ := C12_coordinates hε .meanValue hn h.n_eq h.vertices_eq h.convex hi s0.le s1.le
  obtain rfl : p = sidePoint n v i s := by rw [h.edgePoint hi] at e; exact (Except.ok.inj e).symm
  have hb := hb hfar
  change barycentric ε .meanValue d (sidePoint n v i s) = .ok (tab n _) at hb
  have hnp : nextIx n (prevIx n i) = i := nextIx_prevIx hi
  have hpi : prevIx n i ≠ i := prev_ne (by omega) hi
  have he2 : ∀ j < n, (c (nextIx n j)).pt 1 ≠ (c j).pt 1 := by
    intro j hj
    have := hc.ends (nextIx n j) (nextIx_lt (by omega))
    rw [show (c (nextIx n j)).pt 0 = (c j).pt 1 from hc.closed j hj] at this
    exact this.symm
  -- the parameters
  have m1 : polarMap ε d i (sidePoint n v i s) = .ok ⟨0, s⟩ := by
    obtain ⟨⟨p, e1, e2⟩, -⟩ := C18_side_roundtrip h hε hε1 q0 hi s0.le s1
    rw [(C18_ends hε hε1 q0 d i s).1, h.edgePoint hi] at e1
    obtain rfl := Except.ok.inj e1
    exact e2 hfar
  have m2 : polarMap ε d (prevIx n i) (sidePoint n v i s) = .ok ⟨1, 1 - s⟩ := by
    obtain ⟨-, p, e1, e2⟩ := C18_side_roundtrip h hε hε1 q0 hp (t := 1 - s) (by linarith) (by linarith)
    rw [(C18_ends hε hε1 q0 d (prevIx n i) (1 - s)).2, h.length_eq] at e1
    change d.edgePoint (nextIx n (prevIx n i)) (1 - (1 - s)) = .ok p at e1
    rw [hnp, h.edgePoint hi, sub_sub_cancel] at e1
    obtain rfl := Except.ok.inj e1
    exact e2 hfar
  have m3 : ∀ j < n, j ≠ i → j ≠ prevIx n i → ∃ psi r, polarMap ε d j (sidePoint n v i s) = .ok ⟨psi, 0⟩ ∧
      ribbon ε q0 solve m d (tab n c) j ⟨psi, 0⟩ = .ok r := by
    intro j hj h1 h2
    obtain ⟨psi, e1, e2, e3⟩ := far_line h hε q0 hi hj h1 h2 s0 s1.le (hfar j hj) (htr j hj h1 h2) hb
    rw [if_neg h1, if_neg (show ¬ j = (i + n - 1) % n from h2)] at e1
    obtain ⟨r, hr⟩ := ribbon_ok h hs m hj (hc.ends j hj) (he2 j hj) ⟨psi, 0⟩ e2 e3
    exact ⟨psi, r, e1, hr⟩
  have cl : ∀ x : ℝ, 0 < x → x < 1 → clamp x 0 1 = x := by
    intro x x0 x1
    unfold clamp; rw [min_eq_left x1.le, max_eq_right x0.le]
  have r1 : ribbon ε q0 solve m d (tab n c) i ⟨0, s⟩ = .ok (F s) := by
    rw [ribbon_left h hε hε1 hs m hi (hc.ends i hi) (he2 i hi) hF, cl s s0 s1]
  have r2 : ribbon ε q0 solve m d (tab n c) (prevIx n i) ⟨1, 1 - s⟩ =
      .ok (F s + s • cornerGap ((c i).pt 0) ((c (prevIx n i)).pt 0) ((c i).pt 1)) := by
    have hcl : (c i).pt 0 = (c (prevIx n i)).pt 1 := by
      have := hc.closed (prevIx n i) hp
      rwa [show (prevIx n i + 1) % n = i from hnp] at this
    have := ribbon_right (q0 := q0) h hε hε1 hs m hp (hc.ends _ hp) (he2 _ hp) (by rw [hnp]; exact hcl) (F := F) (by rw [hnp]; exact hF) (1 - s)
    rw [this, cl _ (by linarith) (by linarith), sub_sub_cancel, hnp, hcl]
  -- collect
  have hall : ∀ j, ∃ (pd : P2 ℝ) (r : P3 ℝ), j < n → polarMap ε d j (sidePoint n v i s) = .ok pd ∧ ribbon ε q0 solve m d (tab n c) j pd = .ok r ∧
      (j = i → pd = ⟨0, s⟩ ∧ r = F s) ∧
      (j = prevIx n i → pd = ⟨1, 1 - s⟩ ∧ r = F s + s • cornerGap ((c i).pt 0) ((c (prevIx n i)).pt 0) ((c i).pt 1)) ∧
      (j ≠ i → j ≠ prevIx n i → pd.y = 0) := by
    intro j
    by_cases h1 : j = i
    · subst h1
      exact ⟨_, _, fun _ => ⟨m1, r1, fun _ => ⟨rfl, rfl⟩, fun e => absurd e.symm hpi, fun e => absurd rfl e⟩⟩
    · by_cases h2 : j = prevIx n i
      · subst h2
        exact ⟨_, _, fun _ => ⟨m2, r2, fun e => absurd e h1, fun _ => ⟨rfl, rfl⟩, fun _ e => absurd rfl e⟩⟩
      · by_cases hj : j < n
        · obtain ⟨psi, r, e1, e2⟩ := m3 j hj h1 h2
          exact ⟨_, r, fun _ => ⟨e1, e2, fun e => absurd e h1, fun e => absurd e h2, fun _ _ => rfl⟩⟩
        · exact ⟨0, 0, fun e => absurd e hj⟩
  choose pd r hpr using hall
  obtain ⟨-, -, ai, -⟩ := hpr i hi
  obtain ⟨-, -, -, ap, -⟩ := hpr (prevIx n i) hp
  have sum1 : ∑ j ∈ Finset.range n, (pd j).y ^ 2 = s ^ 2 + (1 - s) ^ 2 := by
    rw [Finset.sum_eq_add _ _ hpi.symm]
    · rw [(ai rfl).1, (ap rfl).1]
    · intro j hj hne
      obtain ⟨-, -, -, -, q⟩ := hpr j (Finset.mem_range.mp hj)
      rw [q hne.1 hne.2]; norm_num
    · intro q; exact absurd (Finset.mem_range.mpr hi) q
    · intro q; exact absurd (Finset.mem_range.mpr hp) q
  have sum2 : ∑ j ∈ Finset.range n, (pd j).y ^ 2 • r j = s ^ 2 • F s +
      (1 - s) ^ 2 • (F s + s • cornerGap ((c i).pt 0) ((c (prevIx n i)).pt 0) ((c i).pt 1)) := by
    rw [Finset.sum_eq_add _ _ hpi.symm]
    · rw [(ai rfl).1, (ai rfl).2, (ap rfl).1, (ap rfl).2]
    · intro j hj hne
      obtain ⟨-, -, -, -, q⟩ := hpr j (Finset.mem_range.mp hj)
      rw [q hne.1 hne.2]; norm_num
    · intro q; exact absurd (Finset.mem_range.mpr hi) q
    · intro q; exact absurd (Finset.mem_range.mpr hp) q
  have hD : s ^ 2 + (1 - s) ^ 2 ≠ 0 := by positivity
  rw [Polar.eval_eq h (fun j hj => (hpr j hj).1) (fun j hj => (hpr j hj).2.1) (by rw [sum1]; exact hD), sum1, sum2]
  congr 1
  change _ = F s + _ • cornerGap ((c i).pt 0) ((c (prevIx n i)).pt 0) ((c i).pt 1)
  generalize cornerGap ((c i).pt 0) ((c (prevIx n i)).pt 0) ((c i).pt 1) = G
  have : s ^ 2 • F s + (1 - s) ^ 2 • (F s + s • G) = (s ^ 2 + (1 - s) ^ 2) • (F s + (s * (1 - s) ^ 2 / (s ^ 2 + (1 - s) ^ 2)) • G) := by
    rw [smul_add (s ^ 2 + (1 - s) ^ 2), smul_smul, mul_div_cancel₀ _ hD]
    module
  rw [this, smul_smul, inv_mul_cancel₀ hD, one_smul]

/-- C72: at the corners the patch interpolates the curves, for every maximal degree. -/
theorem C72_corner (h : ConvexDomain d n v) {ε : ℝ} (hε : 0 < ε) (hε1 : ε < 1) (q0 : P2 ℝ)
    {solve : List (List ℝ) → List (P3 ℝ) → List (P3 ℝ)} (hs : Solver solve) (m : ℕ) {c : ℕ → Curve ℝ} (hc : Closed n c) {i : ℕ} (hi : i < n)
    (hfar : ∀ j < n, j ≠ i → ε ≤ (v i - v j).norm)
    (htr : ∀ j < n, j ≠ i → j ≠ (i + n - 1) % n → ε * (v i - v j).norm ≤ P2.cross (v i - v j) (v i - v ((i + n - 1) % n))) :
    ∃ uv, vget d.vertices i = .ok uv ∧ Polar.eval ε q0 solve m d (tab n c) uv = .ok ((c i).pt 1) := by
  have hn := h.hn
  have hp : prevIx n i < n := prevIx_lt (by omega)
  refine ⟨_, h.vget_vertex hi, ?_⟩
  have hnp : nextIx n (prevIx n i) = i := nextIx_prevIx hi
  have hpi : prevIx n i ≠ i := prev_ne (by omega) hi
  have hz : (v i - v i).norm < ε := by
    rw [sub_self]
    have : (0 : P2 ℝ).norm = 0 := by
      unfold P2.norm P2.dot
      simp only [P2.zero_x, P2.zero_y, mul_zero, add_zero]
      exact Real.sqrt_zero
    rw [this]; exact hε
  have hb : barycentric ε .meanValue d (v i) = .ok (tab n fun j => if j = i then 1 else 0) := by
    unfold barycentric
    rw [h.vertices_eq, length_tab]
    exact baryWith_hit (by omega) v _ hi (fun j hj => hfar j (by omega) (by omega)) hz
  have he2 : ∀ j < n, (c (nextIx n j)).pt 1 ≠ (c j).pt 1 := by
    intro j hj
    have := hc.ends (nextIx n j) (nextIx_lt (by omega))
    rw [show (c (nextIx n j)).pt 0 = (c j).pt 1 from hc.closed j hj] at this
    exact this.symm
  have m1 : polarMap ε d i (v i) = .ok ⟨0, 1⟩ := by
    unfold polarMap
    rw [h.length_eq]
    dsimp only
    rw [h.vget_vertex hp, h.vget_vertex hi]
    simp only [M_bind_ok]
    rw [if_pos hz]
  have m2 : polarMap ε d (prevIx n i) (v i) = .ok ⟨1, 0⟩ := by
    obtain ⟨A, hA, hA0, e⟩ := polarMap_eq h hp hε (hfar _ hp hpi) hb
    obtain ⟨A', w1, w2, hA', -, hAp, -, -, ew1, ew2, u1, x1, x2⟩ := angle_spec h hp
    obtain rfl : A' = A := by rw [hA] at hA'; exact (Except.ok.inj hA').symm
    rw [hnp] at ew2
    rw [e, ← ew1, ← ew2, if_neg hpi]
    have : P2.dot w1 w2 = cos A' := by
      unfold P2.dot
      rw [x1, x2]
      linear_combination cos A' * u1
    rw [this, arccos_cos hA0.le hAp.le, div_self hA0.ne']
  have hsp : sidePoint n v i 1 = v i := by
    unfold sidePoint
    rw [sub_self, zero_smul, one_smul, zero_add]
  have m3 : ∀ j < n, j ≠ i → j ≠ prevIx n i → ∃ psi r, polarMap ε d j (v i) = .ok ⟨psi, 0⟩ ∧
      ribbon ε q0 solve m d (tab n c) j ⟨psi, 0⟩ = .ok r := by
    intro j hj h1 h2
    obtain ⟨psi, e1, e2, e3⟩ := far_line h hε q0 hi hj h1 h2 (s := 1) one_pos le_rfl (by rw [hsp]; exact hfar j hj h1)
      (by rw [hsp]; exact htr j hj h1 h2) (by rw [hsp]; exact hb)
    rw [hsp, if_neg h1] at e1
    obtain ⟨r, hr⟩ := ribbon_ok h hs m hj (hc.ends j hj) (he2 j hj) ⟨psi, 0⟩ e2 e3
    exact ⟨psi, r, e1, hr⟩
  have mm : 1 ≤ max 1 m := le_max_left _ _
  have r1 : ribbon ε q0 solve m d (tab n c) i ⟨0, 1⟩ = .ok ((c i).pt 1) := by
    obtain ⟨F, hF⟩ := exists_interpolates mm (c i).pt
    rw [ribbon_left h hε hε1 hs m hi (hc.ends i hi) (he2 i hi) hF]
    have e : clamp (1 : ℝ) 0 1 = 1 := by unfold clamp; simp
    have := hF.2 (max 1 m) le_rfl
    rw [div_self (by exact_mod_cast (by omega : max 1 m ≠ 0))] at this
    rw [e, this]
  have r2 : ∃ r, ribbon ε q0 solve m d (tab n c) (prevIx n i) ⟨1, 0⟩ = .ok r := by
    obtain ⟨F, hF⟩ := exists_interpolates mm (c i).pt
    have hcl : (c i).pt 0 = (c (prevIx n i)).pt 1 := by
      have := hc.closed (prevIx n i) hp
      rwa [show (prevIx n i + 1) % n = i from hnp] at this
    exact ⟨_, ribbon_right (q0 := q0) h hε hε1 hs m hp (hc.ends _ hp) (he2 _ hp) (by rw [hnp]; exact hcl) (F := F) (by rw [hnp]; exact hF) 0⟩
  obtain ⟨r2, hr2⟩ := r2
  have hall : ∀ j, ∃ (pd : P2 ℝ) (r : P3 ℝ), j < n → polarMap ε d j (v i) = .ok pd ∧ ribbon ε q0 solve m d (tab n c) j pd = .ok r ∧
      (j = i → pd = ⟨0, 1⟩ ∧ r = (c i).pt 1) ∧ (j ≠ i → pd.y = 0) := by
    intro j
    by_cases h1 : j = i
    · subst h1
      exact ⟨_, _, fun _ => ⟨m1, r1, fun _ => ⟨rfl, rfl⟩, fun e => absurd rfl e⟩⟩
    · by_cases h2 : j = prevIx n i
      · subst h2
        exact ⟨_, _, fun _ => ⟨m2, hr2, fun e => absurd e h1, fun _ => rfl⟩⟩
      · by_cases hj : j < n
        · obtain ⟨psi, r, e1, e2⟩ := m3 j hj h1 h2
          exact ⟨_, r, fun _ => ⟨e1, e2, fun e => absurd e h1, fun _ => rfl⟩⟩
        · exact ⟨0, 0, fun e => absurd e hj⟩
  choose pd r hpr using hall
  obtain ⟨-, -, ai, -⟩ := hpr i hi
  have sum1 : ∑ j ∈ Finset.range n, (pd j).y ^ 2 = 1 := by
    rw [Finset.sum_eq_single i]
    · rw [(ai rfl).1]; norm_num
    · intro j hj hne
      rw [(hpr j (Finset.mem_range.mp hj)).2.2.2 hne]; norm_num
    · intro q; exact absurd (Finset.mem_range.mpr hi) q
  have sum2 : ∑ j ∈ Finset.range n, (pd j).y ^ 2 • r j = (c i).pt 1 := by
    rw [Finset.sum_eq_single i]
    · rw [(ai rfl).1, (ai rfl).2]; norm_num
    · intro j hj hne
      rw [(hpr j (Finset.mem_range.mp hj)).2.2.2 hne]; norm_num
    · intro q; exact absurd (Finset.mem_range.mpr hi) q
  rw [Polar.eval_eq h (fun j hj => (hpr j hj).1) (fun j hj => (hpr j hj).2.1) (by rw [sum1]; exact one_ne_zero), sum1, sum2, inv_one, one_smul]

/-- The additional term vanishes only at right (or degenerate) angles. -/
theorem cornerGap_eq_zero_iff {P P1 P2 : P3 ℝ} (h1 : P1 ≠ P) (h2 : P2 ≠ P) :
    cornerGap P P1 P2 = 0 ↔ P3.dot (P1 - P) (P2 - P) = 0 ∨ P3.cross (P1 - P) (P2 - P) = 0 := by
  have n1 := P3.norm_pos (sub_ne_zero.mpr h1)
  have n2 := P3.norm_pos (sub_ne_zero.mpr h2)
  have m1 := P3.norm_mul_self (P1 - P)
  have m2 := P3.norm_mul_self (P2 - P)
  unfold cornerGap
  dsimp only
  generalize (P1 - P).norm = a at *
  generalize (P2 - P).norm = b at *
  generalize P1 - P = x at *
  generalize P2 - P = y at *
  have hd : P3.dot (a⁻¹ • x) (b⁻¹ • y) = (a * b)⁻¹ * P3.dot x y := by
    simp only [P3.dot, P3.smul_x, P3.smul_y, P3.smul_z, mul_inv]; ring
  rw [hd]
  set t := (a * b)⁻¹ * P3.dot x y with ht
  have hxy : P3.dot x y = a * b * t := by rw [ht]; field_simp
  have lag : P3.dot (P3.cross x y) (P3.cross x y) = (a * b) ^ 2 * (1 - t ^ 2) := by
    have : P3.dot (P3.cross x y) (P3.cross x y) = P3.dot x x * P3.dot y y - P3.dot x y ^ 2 := by
      simp only [P3.dot, P3.cross]; ring
    rw [this, ← m1, ← m2, hxy]; ring
  have hab : 0 < a * b := mul_pos n1 n2
  have gap2 : P3.dot (t • (a⁻¹ • x) - b⁻¹ • y) (t • (a⁻¹ • x) - b⁻¹ • y) = 1 - t ^ 2 := by
    have : P3.dot (t • (a⁻¹ • x) - b⁻¹ • y) (t • (a⁻¹ • x) - b⁻¹ • y) =
        t ^ 2 * a⁻¹ ^ 2 * P3.dot x x - 2 * t * a⁻¹ * b⁻¹ * P3.dot x y + b⁻¹ ^ 2 * P3.dot y y := by
      simp only [P3.dot, P3.smul_x, P3.smul_y, P3.smul_z, P3.sub_x, P3.sub_y, P3.sub_z]; ring
    rw [this, ← m1, ← m2, hxy]; field_simp; ring
  have z : ∀ w : P3 ℝ, P3.dot w w = 0 → w = 0 := by
    intro w hw
    by_contra hne
    have := P3.norm_pos hne
    have e := P3.norm_mul_self w
    rw [hw] at e
    nlinarith
  rw [smul_eq_zero, mul_eq_zero]
  constructor
  · rintro ((e | e) | e)
    · exact absurd e n2.ne'
    · left
      have e' : √(1 - t ^ 2) = 1 := by linarith
      rw [Real.sqrt_eq_one] at e'
      have : t ^ 2 = 0 := by linarith
      rw [hxy, pow_eq_zero_iff two_ne_zero |>.mp this, mul_zero]
    · right
      rw [e] at gap2
      have : 1 - t ^ 2 = 0 := by rw [← gap2]; simp [P3.dot]
      apply z
      rw [lag, this, mul_zero]
  · rintro (e | e)
    · left; right
      have : t = 0 := by rw [ht, e, mul_zero]
      rw [this]; norm_num
    · right
      apply z
      rw [gap2]
      rw [e] at lag
      have : (a * b) ^ 2 * (1 - t ^ 2) = 0 := by rw [← lag]; simp [P3.dot]
      rcases mul_eq_zero.mp this with q | q
      · exact absurd q (by positivity)
      · exact q

/-- C72: the patch interpolates a boundary curve that is polynomial of at most the maximal degree exactly when the chords of the curves
at the starting corner of the side are orthogonal (or parallel). -/
theorem C72_interpolation (h : ConvexDomain d n v) {ε : ℝ} (hε : 0 < ε) (hε1 : ε < 1) (q0 : P2 ℝ)
    {solve : List (List ℝ) → List (P3 ℝ) → List (P3 ℝ)} (hs : Solver solve) (m : ℕ) {c : ℕ → Curve ℝ} (hc : Closed n c) {i : ℕ} (hi : i < n)
    (hpoly : IsPoly (max 1 m) (c i).pt)
    {s : ℝ} (s0 : 0 < s) (s1 : s < 1) (hfar : ∀ j < n, ε ≤ (sidePoint n v i s - v j).norm)
    (htr : ∀ j < n, j ≠ i → j ≠ (i + n - 1) % n →
      ε * (sidePoint n v i s - v j).norm ≤ P2.cross (sidePoint n v i s - v j) (v i - v ((i + n - 1) % n))) :
    ∃ uv x, d.edgePoint i s = .ok uv ∧ Polar.eval ε q0 solve m d (tab n c) uv = .ok x ∧ (x = (c i).pt s ↔
      P3.dot ((c ((i + n - 1) % n)).pt 0 - (c i).pt 0) ((c i).pt 1 - (c i).pt 0) = 0 ∨
      P3.cross ((c ((i + n - 1) % n)).pt 0 - (c i).pt 0) ((c i).pt 1 - (c i).pt 0) = 0) := by
  have hn := h.hn
  have hp : prevIx n i < n := prevIx_lt (by omega)
  obtain ⟨uv, e1, e2⟩ := C72_side h hε hε1 q0 hs m hc hi s0 s1 hfar htr ⟨hpoly, fun _ _ => rfl⟩
  refine ⟨uv, _, e1, e2, ?_⟩
  have a1 : (c ((i + n - 1) % n)).pt 0 ≠ (c i).pt 0 := by
    have h1 := hc.ends _ hp
    have h2 := hc.closed _ hp
    rw [show (prevIx n i + 1) % n = i from nextIx_prevIx hi] at h2
    rw [h2]; exact h1
  rw [← cornerGap_eq_zero_iff a1 (hc.ends i hi).symm, add_eq_left, smul_eq_zero]
  have : s * (1 - s) ^ 2 / (s ^ 2 + (1 - s) ^ 2) ≠ 0 := by
    have : 0 < 1 - s := by linarith
    positivity
  constructor
  · rintro (e | e)
    · exact absurd e this
    · exact e
  · exact Or.inr

/-! ### Non-vacuity -/

/-- A solver of linear systems exists. -/
theorem exists_solver : ∃ solve, Solver solve := by
  classical
  have key : ∀ (A : List (List ℝ)) (B : List (P3 ℝ)), ∃ X : List (P3 ℝ), ∀ (m : ℕ) (a : ℕ → ℕ → ℝ) (b : ℕ → P3 ℝ),
      A = ((List.range m).map fun i => (List.range m).map (a i)) → B = (List.range m).map b →
      X.length = m ∧ ((∀ x : ℕ → ℝ, (∀ i < m, ∑ j ∈ Finset.range m, a i j * x j = 0) → ∀ j < m, x j = 0) →
        ∃ x : ℕ → P3 ℝ, X = (List.range m).map x ∧ ∀ i < m, ∑ j ∈ Finset.range m, a i j • x j = b i) := by
    intro A B
    by_cases hreg : ∃ x : ℕ → P3 ℝ, ∀ i < B.length, ∑ j ∈ Finset.range B.length, ((A.getD i []).getD j 0) • x j = B.getD i 0
    · obtain ⟨x, hx⟩ := hreg
      refine ⟨(List.range B.length).map x, ?_⟩
      rintro m a b rfl rfl
      have hl : ((List.range m).map b).length = m := by simp
      rw [hl] at hx ⊢
      refine ⟨by simp, fun _ => ⟨x, rfl, fun i hi => ?_⟩⟩
      have := hx i hi
      rw [show ((List.range m).map b).getD i 0 = b i by simp [hi]] at this
      rw [← this]
      refine Finset.sum_congr rfl fun j hj => ?_
      have hj := Finset.mem_range.mp hj
      congr 1
      simp [hi, hj]
    · refine ⟨List.replicate B.length 0, ?_⟩
      rintro m a b rfl rfl
      refine ⟨by simp, fun hinj => absurd ?_ hreg⟩
      have hl : ((List.range m).map b).length = m := by simp
      rw [hl]
      -- the map is injective, hence surjective
      let L : (Fin m → ℝ) →ₗ[ℝ] (Fin m → ℝ) := Matrix.toLin' (Matrix.of fun i j : Fin m => a i j)
      have Lap : ∀ (z : Fin m → ℝ) (i : Fin m), L z i = ∑ j : Fin m, a i j * z j := fun z i => by
        simp [L, Matrix.toLin'_apply, Matrix.mulVec, dotProduct]
      have inj : Function.Injective L := by
        rw [← LinearMap.ker_eq_bot, LinearMap.ker_eq_bot']
        intro z hz
        have := hinj (fun j => if hj : j < m then z ⟨j, hj⟩ else 0) (by
          intro i hi
          rw [Finset.sum_range]
          have e := congrFun hz ⟨i, hi⟩
          rw [Lap] at e
          simpa using e)
        funext j
        have e := this j j.2
        simpa using e
      have surj : Function.Surjective L := LinearMap.surjective_of_injective inj
      have ex : ∀ f : ℕ → ℝ, ∃ x : ℕ → ℝ, ∀ i < m, ∑ j ∈ Finset.range m, a i j * x j = f i := by
        intro f
        obtain ⟨z, hz⟩ := surj fun i => f i
        refine ⟨fun j => if hj : j < m then z ⟨j, hj⟩ else 0, fun i hi => ?_⟩
        rw [Finset.sum_range]
        have e := congrFun hz ⟨i, hi⟩
        rw [Lap] at e
        simpa using e
      obtain ⟨X, hX⟩ := ex fun i => (b i).x
      obtain ⟨Y, hY⟩ := ex fun i => (b i).y
      obtain ⟨Z, hZ⟩ := ex fun i => (b i).z
      refine ⟨fun j => ⟨X j, Y j, Z j⟩, fun i hi => ?_⟩
      rw [show ((List.range m).map b).getD i 0 = b i by simp [hi]]
      have : ∀ k : ℕ, k ≤ m → ∑ j ∈ Finset.range k, ((((List.range m).map fun i => (List.range m).map (a i)).getD i []).getD j 0) • (⟨X j, Y j, Z j⟩ : P3 ℝ) =
          ⟨∑ j ∈ Finset.range k, a i j * X j, ∑ j ∈ Finset.range k, a i j * Y j, ∑ j ∈ Finset.range k, a i j * Z j⟩ := by
        intro k
        induction k with
        | zero => intro _; rfl
        | succ k ih =>
          intro hk
          have e : (((List.range m).map fun i => (List.range m).map (a i)).getD i []).getD k 0 = a i k := by
            simp [hi, show k < m by omega]
          rw [Finset.sum_range_succ, ih (by omega), Finset.sum_range_succ, Finset.sum_range_succ, Finset.sum_range_succ, e]
          rfl
      rw [this m le_rfl, hX i hi, hY i hi, hZ i hi]
  choose f hf using key
  exact ⟨f, fun m a b => hf _ _ m a b rfl rfl⟩

theorem segment_poly (m : ℕ) (p q : P3 ℝ) : IsPoly (max 1 m) (segment p q).pt := by
  have hm : 1 ≤ max 1 m := le_max_left _ _
  refine ⟨Polynomial.C p.x + Polynomial.C (q.x - p.x) * Polynomial.X, Polynomial.C p.y + Polynomial.C (q.y - p.y) * Polynomial.X,
    Polynomial.C p.z + Polynomial.C (q.z - p.z) * Polynomial.X, ?_, ?_, ?_, fun u => ?_⟩
  · compute_degree; omega
  · compute_degree; omega
  · compute_degree; omega
  · simp only [segment, Polynomial.eval_add, Polynomial.eval_C, Polynomial.eval_mul, Polynomial.eval_X]
    ext <;> simp <;> ring

/-- The conditions at the middle of side 1 of the square domain. -/
theorem square_middle : (∀ j < 4, (1 / 10000 : ℝ) ≤ (sidePoint 4 squareVertex 1 (1 / 2) - squareVertex j).norm) ∧
    ∀ j < 4, j ≠ 1 → j ≠ (1 + 4 - 1) % 4 → 1 / 10000 * (sidePoint 4 squareVertex 1 (1 / 2) - squareVertex j).norm ≤
      P2.cross (sidePoint 4 squareVertex 1 (1 / 2) - squareVertex j) (squareVertex 1 - squareVertex ((1 + 4 - 1) % 4)) := by
  constructor
  · intro j hj
    apply Real.le_sqrt_of_sq_le
    interval_cases j <;> norm_num [sidePoint, squareVertex, P2.dot]
  · intro j hj h1 h2
    have : (sidePoint 4 squareVertex 1 (1 / 2) - squareVertex j).norm ≤ 3 := by
      apply Real.sqrt_le_iff.mpr
      refine ⟨by norm_num, ?_⟩
      interval_cases j <;> norm_num [sidePoint, squareVertex, P2.dot]
    have : 4 ≤ P2.cross (sidePoint 4 squareVertex 1 (1 / 2) - squareVertex j) (squareVertex 1 - squareVertex ((1 + 4 - 1) % 4)) := by
      interval_cases j <;> first | exact absurd rfl h1 | exact absurd rfl h2 | norm_num [sidePoint, squareVertex, P2.cross]
    linarith

/-- C72 applies to the square, where the patch does interpolate the boundary: the middle of side 1. -/
example (q0 : P2 ℝ) (m : ℕ) : ∃ solve d uv, Domain.angularUpdate (tab 4 squareLoop) = .ok d ∧ d.edgePoint 1 (1 / 2) = .ok uv ∧
    Polar.eval (1 / 10000) q0 solve m d (tab 4 squareLoop) uv = .ok ((squareLoop 1).pt (1 / 2)) := by
  obtain ⟨solve, hs⟩ := exists_solver
  obtain ⟨d, hd, hcd⟩ := square_angular
  have hc : Closed 4 squareLoop := by
    refine ⟨fun i hi e => ?_, fun i hi => ?_⟩
    · have h1 := congrArg P3.x e
      have h2 := congrArg P3.y e
      interval_cases i <;> first | (norm_num [squareLoop, segment] at h1; done) | norm_num [squareLoop, segment] at h2
    · interval_cases i <;> (ext <;> norm_num [squareLoop, segment])
  obtain ⟨uv, x, e1, e2, e3⟩ := C72_interpolation hcd (by norm_num) (by norm_num) q0 hs m hc (i := 1) (by norm_num) (segment_poly m _ _)
    (by norm_num) (by norm_num) square_middle.1 square_middle.2
  refine ⟨solve, d, uv, hd, e1, ?_⟩
  rw [e2, e3.mpr (Or.inl (by norm_num [squareLoop, segment, P3.dot]))]

/-- A quadrilateral with straight sides of length 10 that is not planar. All its angles are equal, and their cosines are 1/9. -/
noncomputable def skewLoop : ℕ → Curve ℝ
  | 0 => segment ⟨20 / 3, 0, 5 / 3⟩ ⟨0, 20 / 3, -5 / 3⟩
  | 1 => segment ⟨0, 20 / 3, -5 / 3⟩ ⟨-20 / 3, 0, 5 / 3⟩
  | 2 => segment ⟨-20 / 3, 0, 5 / 3⟩ ⟨0, -20 / 3, -5 / 3⟩
  | _ => segment ⟨0, -20 / 3, -5 / 3⟩ ⟨20 / 3, 0, 5 / 3⟩

theorem skew_closed : Closed 4 skewLoop := by
  refine ⟨fun i hi e => ?_, fun i hi => ?_⟩
  · have h1 := congrArg P3.x e
    interval_cases i <;> norm_num [skewLoop, segment] at h1
  · interval_cases i <;> (ext <;> norm_num [skewLoop, segment])

theorem skew_angular : ∃ d, Domain.angularUpdate (tab 4 skewLoop) = .ok d ∧ ConvexDomain d 4 squareVertex := by
  have hlen : Domain.curveLengths (tab 4 skewLoop) = [10, 10, 10, 10] := by
    have h : ∀ j < 4, (skewLoop j).arc 0 1 = 10 := by
      intro j hj
      interval_cases j <;>
      · change (1 - 0) * _ = (10 : ℝ)
        rw [norm_ten (by norm_num [P3.dot])]
        norm_num
    unfold Domain.curveLengths
    simp [tab, List.range_succ, h]
  have hang : Domain.curveAngles (tab 4 skewLoop) = .ok [arccos (1 / 9), arccos (1 / 9), arccos (1 / 9), arccos (1 / 9)] := by
    have h : ∀ j < 4, ∃ a b : P3 ℝ, ((skewLoop j).der 1).normalize = .ok a ∧ ((skewLoop ((j + 1) % 4)).der 0).normalize = .ok b ∧
        P3.dot (-a) b = 1 / 9 := by
      intro j hj
      have hne : ∀ k < 4, ∀ s, (skewLoop k).der s ≠ 0 := by
        intro k hk s h
        have h1 := congrArg P3.x h
        interval_cases k <;> norm_num [skewLoop, segment] at h1
      have hten : ∀ k < 4, ∀ s, ((skewLoop k).der s).norm = 10 := by
        intro k hk s
        apply norm_ten
        interval_cases k <;> norm_num [skewLoop, segment, P3.dot]
      refine ⟨_, _, P3.normalize_ok (hne j hj 1), P3.normalize_ok (hne _ (Nat.mod_lt _ (by norm_num)) 0), ?_⟩
      rw [hten _ hj, hten _ (Nat.mod_lt _ (by norm_num))]
      interval_cases j <;> norm_num [skewLoop, segment, P3.dot]
    have acos0 : Libm.acos (Domain.clamp (1 / 9 : ℝ) (-1) 1) = arccos (1 / 9) := by
      have : Domain.clamp (1 / 9 : ℝ) (-1) 1 = 1 / 9 := by norm_num [Domain.clamp]
      rw [this]
      rfl
    unfold Domain.curveAngles
    rw [length_tab, forLoop_push 4 _ (fun _ => arccos (1 / 9))]
    · simp [tab, List.range_succ]
    · intro k l hk
      obtain ⟨a, b, h1, h2, h3⟩ := h k hk
      rw [vget_tab _ hk, M_bind_ok, h1, M_bind_ok, vget_tab _ (nextIx_lt (by norm_num)), M_bind_ok]
      change (((skewLoop ((k + 1) % 4)).der 0).normalize >>= _) = _
      rw [h2, M_bind_ok, h3, acos0]
  have hpos : 0 < arccos (1 / 9) := arccos_pos.mpr (by norm_num)
  have hturn : Domain.turningAngles [arccos (1 / 9), arccos (1 / 9), arccos (1 / 9), arccos (1 / 9)] = .ok [π / 2, π / 2, π / 2, π / 2] := by
    generalize arccos (1 / 9) = α at *
    have hs : [α, α, α, α].sum = 4 * α := by simp; ring
    unfold Domain.turningAngles
    rw [hs, fdiv_of_ne (by positivity), M_bind_ok]
    have : Libm.pi - α * ((([α, α, α, α].length - 2 : ℕ) : ℝ) * Libm.pi / (4 * α)) = π / 2 := by
      change π - α * (((4 - 2 : ℕ) : ℝ) * π / (4 * α)) = π / 2
      field_simp; norm_num
    simp only [List.map_cons, List.map_nil, this]
  unfold Domain.angularUpdate
  rw [hang, M_bind_ok, hlen]
  exact square_angular_of hturn

/-- C72: the polar patch of a quadrilateral with straight sides, with its own domain, does not interpolate the middle of a side,
whatever the maximal degree is. -/
theorem C72_not_interpolating (q0 : P2 ℝ) (m : ℕ) {solve : List (List ℝ) → List (P3 ℝ) → List (P3 ℝ)} (hs : Solver solve) :
    ∃ d uv x, Domain.angularUpdate (tab 4 skewLoop) = .ok d ∧ d.edgePoint 1 (1 / 2) = .ok uv ∧
      Polar.eval (1 / 10000) q0 solve m d (tab 4 skewLoop) uv = .ok x ∧ x ≠ (skewLoop 1).pt (1 / 2) := by
  obtain ⟨d, hd, hcd⟩ := skew_angular
  obtain ⟨uv, x, e1, e2, e3⟩ := C72_interpolation hcd (by norm_num) (by norm_num) q0 hs m skew_closed (i := 1) (by norm_num) (segment_poly m _ _)
    (by norm_num) (by norm_num) square_middle.1 square_middle.2
  refine ⟨d, uv, x, hd, e1, e2, fun e => ?_⟩
  rcases e3.mp e with h | h
  · norm_num [skewLoop, segment, P3.dot] at h
  · have := congrArg P3.z h
    norm_num [skewLoop, segment, P3.cross] at this

/-- C72_corner applies to the skew quadrilateral. -/
example (q0 : P2 ℝ) (m : ℕ) : ∃ solve d uv, Domain.angularUpdate (tab 4 skewLoop) = .ok d ∧ vget d.vertices 1 = .ok uv ∧
    Polar.eval (1 / 10000) q0 solve m d (tab 4 skewLoop) uv = .ok ⟨-20 / 3, 0, 5 / 3⟩ := by
  obtain ⟨solve, hs⟩ := exists_solver
  obtain ⟨d, hd, hcd⟩ := skew_angular
  obtain ⟨uv, e1, e2⟩ := C72_corner (ε := 1 / 10000) hcd (by norm_num) (by norm_num) q0 hs m skew_closed (i := 1) (by norm_num) (by
      intro j hj hne
      apply Real.le_sqrt_of_sq_le
      interval_cases j <;> first | exact absurd rfl hne | norm_num [squareVertex, P2.dot]) (by
      intro j hj h1 h2
      have : (squareVertex 1 - squareVertex j).norm ≤ 3 := by
        apply Real.sqrt_le_iff.mpr
        refine ⟨by norm_num, ?_⟩
        interval_cases j <;> norm_num [squareVertex, P2.dot]
      have : 4 ≤ P2.cross (squareVertex 1 - squareVertex j) (squareVertex 1 - squareVertex ((1 + 4 - 1) % 4)) := by
        interval_cases j <;> first | exact absurd rfl h1 | exact absurd rfl h2 | norm_num [squareVertex, P2.cross]
      linarith)
  refine ⟨solve, d, uv, hd, e1, ?_⟩
  rw [e2]
  congr 1
  ext <;> norm_num [skewLoop, segment]

end Transfinite
