import Verif.Spec.SideRatio
import Verif.Lemmas.Smooth
import Verif.Lemmas.SideParams

/-! The two formulas of the first barycentric parameter. -/

namespace Transfinite

open Spec Real Param

namespace Branch

variable {n : ℕ} {d : Domain ℝ} {ε : ℝ} {uv : P2 ℝ} {v : ℕ → P2 ℝ}

theorem sideLen_eq (v : ℕ → P2 ℝ) (i : ℕ) : sideLen n v i = √(P2.dot (duOf n v i) (duOf n v i)) := by
  unfold sideLen P2.dot duOf prevIx
  congr 1
  simp only [P2.sub_x, P2.sub_y]
  ring

theorem sideLen_pos (h : ConvexDomain d n v) {i : ℕ} (hi : i < n) : 0 < sideLen n v i := by
  rw [sideLen_eq]; exact Real.sqrt_pos.mpr (h.du_pos hi)

theorem sideLen_sq (h : ConvexDomain d n v) {i : ℕ} (hi : i < n) : P2.dot (duOf n v i) (duOf n v i) = sideLen n v i ^ 2 := by
  rw [sideLen_eq, Real.sq_sqrt (h.du_pos hi).le]

theorem corner_pos (h : ConvexDomain d n v) {i : ℕ} (hi : i < n) : 0 < cornerTriangle n v i := by
  have hn := h.hn
  have hx : nextIx n i < n := nextIx_lt (by omega)
  exact h.convex i hi (nextIx n i) hx (by rw [nextIx_eq hi]; split_ifs <;> omega) (next_ne_prev hn hi)

theorem angle_sin (h : ConvexDomain d n v) {i : ℕ} (hi : i < n) :
    ∃ a, d.angle i = .ok a ∧ sin a = cornerTriangle n v i / (sideLen n v i * sideLen n v (nextIx n i)) := by
  have hn := h.hn
  have hp : prevIx n i < n := prevIx_lt (by omega)
  have hx : nextIx n i < n := nextIx_lt (by omega)
  have p1 := sideLen_pos h hi
  have p2 := sideLen_pos h hx
  have q1 := sideLen_sq h hi
  have q2 := sideLen_sq h hx
  have n1 : P2.norm (v (prevIx n i) - v i) = sideLen n v i := by
    rw [sideLen_eq]
    change √(P2.dot _ _) = _
    congr 1
    simp only [P2.dot, duOf, P2.sub_x, P2.sub_y]; ring
  have n2 : P2.norm (v (nextIx n i) - v i) = sideLen n v (nextIx n i) := by
    rw [sideLen_eq]
    change √(P2.dot _ _) = _
    unfold duOf
    rw [prevIx_nextIx hi]
  have c0 := corner_pos h hi
  unfold Domain.angle
  rw [h.n_eq, h.vget_vertex hi, h.vget_vertex hp, h.vget_vertex hx]
  simp only [M_bind_ok]
  unfold P2.normalize
  rw [n1, n2, if_neg p1.ne', if_neg p2.ne']
  refine ⟨_, rfl, ?_⟩
  have key : (P2.dot ((sideLen n v i)⁻¹ • (v (prevIx n i) - v i)) ((sideLen n v (nextIx n i))⁻¹ • (v (nextIx n i) - v i))) ^ 2 +
      (cornerTriangle n v i / (sideLen n v i * sideLen n v (nextIx n i))) ^ 2 = 1 := by
    unfold duOf at q1 q2
    rw [prevIx_nextIx hi] at q2
    change _ + (area2 (v (prevIx n i)) (v i) (v (nextIx n i)) / _) ^ 2 = 1
    generalize sideLen n v i = L at *
    generalize sideLen n v (nextIx n i) = R at *
    simp only [P2.dot, P2.smul_x, P2.smul_y, P2.sub_x, P2.sub_y, area2] at *
    field_simp
    rw [← q1, ← q2]
    ring
  generalize P2.dot ((sideLen n v i)⁻¹ • (v (prevIx n i) - v i)) ((sideLen n v (nextIx n i))⁻¹ • (v (nextIx n i) - v i)) = c at *
  have hs : 0 < cornerTriangle n v i / (sideLen n v i * sideLen n v (nextIx n i)) := by positivity
  generalize cornerTriangle n v i / (sideLen n v i * sideLen n v (nextIx n i)) = s at *
  have hlow : -1 ≤ c := by nlinarith
  have hup : c ≤ 1 := by nlinarith
  unfold Domain.clamp
  rw [min_eq_left hup, max_eq_right hlow]
  change sin (arccos c) = _
  rw [sin_arccos, show 1 - c ^ 2 = s ^ 2 by linarith, Real.sqrt_sq hs.le]

/-- The second formula, in any convex domain. -/
theorem second (h : ConvexDomain d n v) (hε : 0 < ε) {c : ℕ → ℝ} {j : ℕ} (hj : j < n) (hc : c (prevIx n j) + c j < ε)
    (hd : ε ≤ neighbourDist n v j uv) :
    baryMapWith ε d (tab n c) j uv = .ok ⟨sideRatio n v j uv, 1 - c j - c (prevIx n j)⟩ := by
  have hn := h.hn
  have hx : nextIx n j < n := nextIx_lt (by omega)
  have hp : prevIx n j < n := prevIx_lt (by omega)
  unfold baryMapWith
  simp only [h.length_eq]
  rw [vget_tab _ hp, vget_tab _ hj]
  simp only [M_bind_ok]
  rw [if_pos hc]
  obtain ⟨a, ea, ha⟩ := angle_sin h hj
  obtain ⟨b, eb, hb⟩ := angle_sin h hp
  rw [nextIx_prevIx hj] at hb
  obtain ⟨tp, etp⟩ := h.toLocal_self hp uv
  have etn := h.toLocal_prev hx uv
  rw [prevIx_nextIx hj] at etn
  have len : ∀ k < n, d.edgeLength k = .ok (sideLen n v k) := by
    intro k hk
    unfold Domain.edgeLength
    rw [h.n_eq, h.vget_vertex hk, h.vget_vertex (prevIx_lt (by omega)), sideLen_eq]
    rfl
  rw [ea, eb, h.vget_vertex hp, h.vget_vertex hj]
  simp only [M_bind_ok]
  rw [etp, len _ hp, etn, len _ hx]
  simp only [M_bind_ok]
  rw [sideLen_sq h hp, sideLen_sq h hx]
  have p1 := sideLen_pos h hp
  have p2 := sideLen_pos h hj
  have p3 := sideLen_pos h hx
  change ε ≤ (cornerTriangle n v j * leftOf n v (prevIx n j) uv + cornerTriangle n v (prevIx n j) * leftOf n v (nextIx n j) uv) /
    (sideLen n v (prevIx n j) * sideLen n v j * sideLen n v (nextIx n j)) at hd
  change _ = Except.ok (⟨cornerTriangle n v j * leftOf n v (prevIx n j) uv / (cornerTriangle n v j * leftOf n v (prevIx n j) uv +
    cornerTriangle n v (prevIx n j) * leftOf n v (nextIx n j) uv), _⟩ : P2 ℝ)
  generalize leftOf n v (prevIx n j) uv = A at *
  generalize leftOf n v (nextIx n j) uv = B at *
  generalize cornerTriangle n v j = C at *
  generalize cornerTriangle n v (prevIx n j) = E at *
  generalize sideLen n v j = L at *
  generalize sideLen n v (prevIx n j) = P at *
  generalize sideLen n v (nextIx n j) = X at *
  change (if sin a * (A / P ^ 2 * P) + sin b * (B / X ^ 2 * X) < ε then (.ok ⟨0, 1 - c j - c (prevIx n j)⟩ : M (P2 ℝ)) else
      fdiv (sin a * (A / P ^ 2 * P)) (sin a * (A / P ^ 2 * P) + sin b * (B / X ^ 2 * X)) >>=
      fun s => (.ok ⟨s, 1 - c j - c (prevIx n j)⟩ : M (P2 ℝ))) = _
  rw [ha, hb]
  have e1 : C / (L * X) * (A / P ^ 2 * P) = C * A / (P * L * X) := by field_simp
  have e2 : E / (P * L) * (B / X ^ 2 * X) = E * B / (P * L * X) := by field_simp
  rw [e1, e2, ← add_div, if_neg (not_lt.mpr hd), fdiv_of_ne (by linarith), M_bind_ok]
  congr 2
  exact div_div_div_cancel_right₀ (by positivity) _ _

/-- The first formula gives the same ratio for Wachspress coordinates. -/
theorem first (h : ConvexDomain d n v) {j : ℕ} (hj : j < n) (hp : Surf.lam n v uv (prevIx n j) + Surf.lam n v uv j ≠ 0) :
    Surf.lam n v uv j / (Surf.lam n v uv (prevIx n j) + Surf.lam n v uv j) = sideRatio n v j uv := by
  have hn := h.hn
  have hpj : prevIx n j < n := prevIx_lt (by omega)
  have hppj : prevIx n (prevIx n j) < n := prevIx_lt (by omega)
  have n1 : prevIx n (prevIx n j) ≠ prevIx n j := prev_ne (by omega) hpj
  have n2 : prevIx n j ≠ j := prev_ne (by omega) hj
  have n3 : prevIx n (prevIx n j) ≠ j := by
    intro q
    have := next_ne_prev hn hpj
    rw [q, nextIx_prevIx hj] at this
    exact this rfl
  obtain ⟨Q, q1, q2⟩ : ∃ Q, prodBut n (areaOf n v uv) (fun x => x = j ∨ x = prevIx n j) = leftOf n v (prevIx n j) uv / 2 * Q ∧
      prodBut n (areaOf n v uv) (fun x => x = prevIx n j ∨ x = prevIx n (prevIx n j)) = leftOf n v (nextIx n j) uv / 2 * Q := by
    refine ⟨prodBut n (areaOf n v uv) (fun x => (x = j ∨ x = prevIx n j) ∨ x = prevIx n (prevIx n j)), ?_, ?_⟩
    · rw [Surf.prodBut_or (p := prevIx n (prevIx n j)) hppj (by simp [n1, n3]), areaOf_eq_leftOf n v uv hppj, nextIx_prevIx hpj]
    · rw [Surf.prodBut_or (p := j) hj (by simp [n2.symm, n3.symm]), areaOf_eq_leftOf n v uv hj]
      congr 1
      unfold prodBut
      refine Finset.prod_congr rfl fun x _ => if_congr ?_ rfl rfl
      tauto
  have c1 : cornerArea n v j = cornerTriangle n v j := rfl
  have c2 : cornerArea n v (prevIx n j) = cornerTriangle n v (prevIx n j) := rfl
  change _ = cornerTriangle n v j * leftOf n v (prevIx n j) uv / (cornerTriangle n v j * leftOf n v (prevIx n j) uv +
    cornerTriangle n v (prevIx n j) * leftOf n v (nextIx n j) uv)
  unfold Surf.lam at hp ⊢
  rw [weightOf_wachspress hn v uv hj, weightOf_wachspress hn v uv hpj, c1, c2, q1, q2] at hp ⊢
  generalize cornerTriangle n v j = C at hp ⊢
  generalize cornerTriangle n v (prevIx n j) = E at hp ⊢
  generalize leftOf n v (prevIx n j) uv = a at hp ⊢
  generalize leftOf n v (nextIx n j) uv = b at hp ⊢
  generalize (∑ k ∈ Finset.range n, weightOf (fun _ => 1) n v uv k) = W at hp ⊢
  have e : E / 2 * (b / 2 * Q) / W + C / 2 * (a / 2 * Q) / W = (Q / (4 * W)) * (C * a + E * b) := by ring
  have e2 : C / 2 * (a / 2 * Q) / W = (Q / (4 * W)) * (C * a) := by ring
  rw [e] at hp ⊢
  rw [e2]
  exact mul_div_mul_left _ _ (left_ne_zero_of_mul hp)

/-- Both formulas. -/
theorem both (h : ConvexDomain d n v) (hε : 0 < ε) (hε1 : ε ≤ 1) (hin : InsideClosed n v uv) {j : ℕ} (hj : j < n)
    (hd : ε ≤ neighbourDist n v j uv) :
    baryMap ε .wachspress d j uv = .ok ⟨sideRatio n v j uv, 1 - Surf.lam n v uv j - Surf.lam n v uv (prevIx n j)⟩ := by
  unfold baryMap
  rw [Surf.lam_eq h hε1 hin, M_bind_ok]
  by_cases hc : ε ≤ Surf.lam n v uv (prevIx n j) + Surf.lam n v uv j
  · obtain ⟨s, e, k, _⟩ := baryMapWith_spec h hε (Surf.lam n v uv) hj hin
    rw [e, k hc, first h hj (by linarith)]
  · exact second h hε hj (not_le.mp hc) hd

theorem leftOf_vertex (h : ConvexDomain d n v) {i k : ℕ} (hi : i < n) (hk : k < n) : 0 ≤ leftOf n v i (v k) := by
  by_cases a : k = i
  · rw [a]
    unfold leftOf area2
    apply le_of_eq; ring
  · by_cases b : k = prevIx n i
    · rw [b]
      unfold leftOf area2 prevIx
      apply le_of_eq; ring
    · exact (h.convex i hi k hk a b).le

/-- The neighbours of a side are not both near. -/
theorem far (h : ConvexDomain d n v) (hn : 4 ≤ n) {j : ℕ} (hj : j < n) : ∃ δ, 0 < δ ∧ ∀ uv, InsideClosed n v uv → δ ≤ neighbourSum n v j uv := by
  have hpj : prevIx n j < n := prevIx_lt (by omega)
  have hnj : nextIx n j < n := nextIx_lt (by omega)
  have c1 := corner_pos h hj
  have c2 := corner_pos h hpj
  have key : ∀ k < n, 0 < neighbourSum n v j (v k) := by
    intro k hk
    change 0 < cornerTriangle n v j * leftOf n v (prevIx n j) (v k) + cornerTriangle n v (prevIx n j) * leftOf n v (nextIx n j) (v k)
    have a1 := leftOf_vertex h hpj hk
    have a2 := leftOf_vertex h hnj hk
    have c : k ≠ prevIx n j ∧ k ≠ prevIx n (prevIx n j) ∨ k ≠ nextIx n j ∧ k ≠ j := by
      rw [prevIx_eq hpj, prevIx_eq hj, nextIx_eq hj]
      split_ifs <;> omega
    rcases c with ⟨b, c⟩ | ⟨b, c⟩
    · have : 0 < leftOf n v (prevIx n j) (v k) := h.convex _ hpj k hk b c
      positivity
    · have : 0 < leftOf n v (nextIx n j) (v k) := h.convex _ hnj k hk b (by
        change k ≠ prevIx n (nextIx n j); rw [prevIx_nextIx hj]; exact c)
      positivity
  obtain ⟨m, hm, hmin⟩ := Finset.exists_min_image (Finset.range n) (fun k => neighbourSum n v j (v k)) ⟨j, Finset.mem_range.mpr hj⟩
  refine ⟨_, key m (Finset.mem_range.mp hm), fun uv hin => ?_⟩
  obtain ⟨l0, l1⟩ := Surf.lam_range h hin
  have e := Surf.lam_precision h hin
  have e1 := Surf.leftOf_sum v (prevIx n j) l1 v
  have e2 := Surf.leftOf_sum v (nextIx n j) l1 v
  rw [e] at e1 e2
  have g : ∑ k ∈ Finset.range n, Surf.lam n v uv k * neighbourSum n v j (v m) ≤ ∑ k ∈ Finset.range n, Surf.lam n v uv k * neighbourSum n v j (v k) :=
    Finset.sum_le_sum fun k hk => mul_le_mul_of_nonneg_left (hmin k hk) (l0 k (Finset.mem_range.mp hk))
  rw [← Finset.sum_mul, l1, one_mul] at g
  refine g.trans (le_of_eq ?_)
  change _ = cornerTriangle n v j * leftOf n v (prevIx n j) uv + cornerTriangle n v (prevIx n j) * leftOf n v (nextIx n j) uv
  rw [e1, e2, Finset.mul_sum, Finset.mul_sum, ← Finset.sum_add_distrib]
  refine Finset.sum_congr rfl fun k _ => ?_
  change _ * (cornerTriangle n v j * leftOf n v (prevIx n j) (v k) + cornerTriangle n v (prevIx n j) * leftOf n v (nextIx n j) (v k)) = _
  ring

end Branch

end Transfinite
