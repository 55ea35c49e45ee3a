import Verif.Lemmas.DomainUpdate
import Verif.Lemmas.Barycentric

/-! A domain object in its normal state: after `update()`, strictly convex, centre inside. -/

namespace Transfinite

open Spec

variable {K : Type} [Field K] [LinearOrder K] [IsStrictOrderedRing K]

/-- `d` is the state of a domain object after `Domain::update()` for a strictly convex
counterclockwise polygon `v` with the centre strictly inside. Regular and circular domains always
are (C08). -/
structure ConvexDomain (d : Domain K) (n : ℕ) (v : ℕ → P2 K) : Prop where
  hn : 3 ≤ n
  convex : StrictConvex n v
  inside : Inside n v d.center
  updated : Domain.updateFrom (tab n v) d.center = .ok d

namespace ConvexDomain

variable {d : Domain K} {n : ℕ} {v : ℕ → P2 K} (h : ConvexDomain d n v)
include h

theorem eq : d = ⟨n, d.center, tab n v, tab n (duOf n v), tab n (dvOf n v d.center)⟩ := by
  have := h.updated
  rw [updateFrom_eq] at this
  exact (Except.ok.inj this).symm

theorem n_eq : d.n = n := by rw [h.eq]

theorem vertices_eq : d.vertices = tab n v := by rw [h.eq]

theorem length_eq : d.vertices.length = n := by rw [h.vertices_eq, length_tab]

theorem vget_vertex {i : ℕ} (hi : i < n) : vget d.vertices i = .ok (v i) := by
  rw [h.vertices_eq, vget_tab v hi]

theorem side_ne {i : ℕ} (hi : i < n) : v i ≠ v (prevIx n i) := by
  intro e
  have := h.inside i hi
  unfold leftOf area2 at this
  rw [show (i + n - 1) % n = prevIx n i from rfl, ← e] at this
  simp at this

theorem du_pos {i : ℕ} (hi : i < n) : 0 < P2.dot (duOf n v i) (duOf n v i) := by
  have hne : duOf n v i ≠ 0 := sub_ne_zero.mpr (h.side_ne hi)
  generalize duOf n v i = a at hne
  unfold P2.dot
  by_contra hc
  have hx : a.x = 0 := by nlinarith [mul_self_nonneg a.x, mul_self_nonneg a.y]
  have hy : a.y = 0 := by nlinarith [mul_self_nonneg a.x, mul_self_nonneg a.y]
  exact hne (P2.ext hx hy)

theorem toLocal_prev {i : ℕ} (hi : i < n) (p : P2 K) :
    d.toLocal i (p - v (prevIx n i)) = .ok ⟨P2.dot (p - v (prevIx n i)) (duOf n v i) / P2.dot (duOf n v i) (duOf n v i),
      leftOf n v i p / P2.dot (duOf n v i) (duOf n v i)⟩ := by
  have hpos := h.du_pos hi
  rw [h.eq]
  unfold Domain.toLocal
  simp only [vget_tab _ hi, M_bind_ok, fdiv_of_ne hpos.ne', dvOf_dot (h.inside i hi)]

theorem toLocal_self {i : ℕ} (hi : i < n) (p : P2 K) :
    ∃ x, d.toLocal i (p - v i) = .ok ⟨x, leftOf n v i p / P2.dot (duOf n v i) (duOf n v i)⟩ := by
  have hpos := h.du_pos hi
  rw [h.eq]
  unfold Domain.toLocal
  simp only [vget_tab _ hi, M_bind_ok, fdiv_of_ne hpos.ne']
  refine ⟨P2.dot (p - v i) (duOf n v i) / P2.dot (duOf n v i) (duOf n v i), ?_⟩
  have e : P2.dot (p - v i) (dvOf n v d.center i) = leftOf n v i p := by
    have h1 := dvOf_dot (h.inside i hi) p
    have h2 := dvOf_dot (h.inside i hi) (v i)
    rw [leftOf_self] at h2
    rw [← h1, ← sub_zero (P2.dot (p - v (prevIx n i)) _), ← h2]
    simp only [P2.dot, P2.sub_x, P2.sub_y]; ring
  rw [e]

theorem edgePoint {i : ℕ} (hi : i < n) (s : K) : d.edgePoint i s = .ok (sidePoint n v i s) := by
  have := edgePoint_eq (d := d) (v := v) (by rw [h.n_eq]; exact h.vertices_eq) (i := i) (by rw [h.n_eq]; exact hi) s
  rwa [h.n_eq] at this

theorem insideClosed_side {i : ℕ} (hi : i < n) {s : K} (h0 : 0 ≤ s) (h1 : s ≤ 1) :
    InsideClosed n v (sidePoint n v i s) := by
  intro j hj
  unfold sidePoint
  rw [leftOf_comb2 n v _ (by ring)]
  have := h.hn
  have g1 := h.convex.nonneg hj (prevIx_lt (n := n) (i := i) (j := 1) (by omega))
  have g2 := h.convex.nonneg hj hi
  exact add_nonneg (mul_nonneg (by linarith) g1) (mul_nonneg h0 g2)

end ConvexDomain

namespace Param

theorem weightOf_side_zero {n : ℕ} (hn : 3 ≤ n) (v : ℕ → P2 K) (r : P2 K → K) {i j : ℕ} (hi : i < n) (hj : j < n)
    (h1 : j ≠ i) (h2 : j ≠ prevIx n i) (s : K) : weightOf r n v (sidePoint n v i s) j = 0 := by
  have hp : prevIx n i < n := prevIx_lt (by omega)
  have hz : areaOf n v (sidePoint n v i s) (prevIx n i) = 0 := by
    rw [areaOf_prev n v _ hi, leftOf_sidePoint, zero_div]
  have hpp : prevIx n i ≠ prevIx n j := by
    intro h; apply h1; rw [← nextIx_prevIx hj, ← h, nextIx_prevIx hi]
  unfold weightOf
  rw [prodBut_zero hp hpp hz, prodBut_zero hp h2.symm hz,
    prodBut_zero hp (by rintro (h | h); exacts [h2.symm h, hpp h]) hz]
  ring

/-- All kinds of coordinates on the sides of a strictly convex polygon. -/
theorem baryWith_side {n : ℕ} (hn : 3 ≤ n) {v : ℕ → P2 K} (hc : StrictConvex n v) {ε : K} (hε : 0 < ε)
    {r : P2 K → K} {i : ℕ} (hi : i < n) {s : K} (h0 : 0 ≤ s) (h1 : s ≤ 1)
    (hr : ∀ j < n, ε ≤ r (sidePoint n v i s - v j)) :
    baryWith ε r n (tab n v) (sidePoint n v i s) =
      .ok (tab n fun j => if j = i then s else if j = prevIx n i then 1 - s else 0) := by
  have hin : InsideClosed n v (sidePoint n v i s) := by
    intro j hj
    unfold sidePoint
    rw [leftOf_comb2 n v _ (by ring)]
    have g1 := hc.nonneg hj (prevIx_lt (n := n) (i := i) (j := 1) (by omega))
    have g2 := hc.nonneg hj hi
    exact add_nonneg (mul_nonneg (by linarith) g1) (mul_nonneg h0 g2)
  have hpos := weights_sum_pos hn hc hin (r := r) (fun j hj => lt_of_lt_of_le hε (hr j hj))
  have hcomb := weights_combination hn two_ne_zero r v (sidePoint n v i s)
  rw [baryWith_eq (by omega) v _ hr hpos.ne']
  set w := weightOf r n v (sidePoint n v i s) with hw
  have hp : prevIx n i < n := prevIx_lt (by omega)
  have hpi := prev_ne (by omega) hi
  have two : ∀ {β : Type} [AddCommMonoid β] (f : ℕ → β), (∀ j < n, j ≠ i → j ≠ prevIx n i → f j = 0) →
      ∑ j ∈ Finset.range n, f j = f (prevIx n i) + f i := by
    intro β _ f hf
    have hsub : {prevIx n i, i} ⊆ Finset.range n := by
      intro j hj
      simp only [Finset.mem_insert, Finset.mem_singleton] at hj
      rcases hj with rfl | rfl <;> simpa
    rw [← Finset.sum_subset hsub, Finset.sum_pair hpi]
    intro j hj hj'
    simp only [Finset.mem_insert, Finset.mem_singleton, not_or] at hj'
    exact hf j (Finset.mem_range.mp hj) hj'.2 hj'.1
  have hz : ∀ j < n, j ≠ i → j ≠ prevIx n i → w j = 0 := fun j hj a b =>
    weightOf_side_zero hn v r hi hj a b s
  rw [two w hz] at hpos ⊢
  rw [two (fun j => w j • (sidePoint n v i s - v j)) (fun j hj a b => by rw [hz j hj a b, zero_smul])] at hcomb
  -- w_p (uv - v_p) + w_i (uv - v_i) = (w_p s - w_i (1-s)) (v_i - v_p)
  have e : (w (prevIx n i) * s - w i * (1 - s)) • (v i - v (prevIx n i)) = 0 := by
    rw [← hcomb]
    unfold sidePoint
    rw [show (i + n - 1) % n = prevIx n i from rfl]
    module
  have hne : v i - v (prevIx n i) ≠ 0 := by
    intro he
    have := cornerArea_pos hn hc hi
    unfold cornerArea leftOf area2 at this
    rw [show (i + n - 1) % n = prevIx n i from rfl, sub_eq_zero.mp he] at this
    simp at this
  have e0 : w (prevIx n i) * s - w i * (1 - s) = 0 := by
    by_contra hcon
    apply hne
    ext
    · have := congrArg P2.x e
      simpa [hcon] using this
    · have := congrArg P2.y e
      simpa [hcon] using this
  congr 1
  apply tab_congr
  intro j hj
  by_cases hji : j = i
  · rw [if_pos hji, hji, div_eq_iff hpos.ne']; linear_combination -e0
  · by_cases hjp : j = prevIx n i
    · rw [if_neg hji, if_pos hjp, hjp, div_eq_iff hpos.ne']; linear_combination e0
    · rw [if_neg hji, if_neg hjp, hz j hj hji hjp, zero_div]

end Param

end Transfinite
