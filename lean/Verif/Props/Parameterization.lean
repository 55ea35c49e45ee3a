import Verif.Props.Bilinear
import Verif.Props.Barycentric

/-! # Properties C15, C16, C17: parallel, interconnected, constrained and overlap parameterizations -/

namespace Transfinite

open Spec Param Domain

/-! ## C15 -/

section convex
variable {K : Type} [Field K] [LinearOrder K] [IsStrictOrderedRing K]

/-- Every point of a strictly convex polygon is a convex combination of its vertices. -/
theorem exists_convex_combination {n : ℕ} (hn : 3 ≤ n) {v : ℕ → P2 K} (hc : StrictConvex n v) {p : P2 K}
    (hp : InsideClosed n v p) :
    ∃ c : ℕ → K, (∀ i < n, 0 ≤ c i) ∧ ∑ i ∈ Finset.range n, c i = 1 ∧ ∑ i ∈ Finset.range n, c i • v i = p := by
  have hpos := weights_sum_pos hn hc hp (r := fun _ => 1) (fun _ _ => one_pos)
  set W := ∑ i ∈ Finset.range n, weightOf (fun _ => 1) n v p i with hW
  have h1 : ∑ i ∈ Finset.range n, weightOf (fun _ => 1) n v p i / W = 1 := by
    rw [← Finset.sum_div, div_self hpos.ne']
  refine ⟨fun i => weightOf (fun _ => 1) n v p i / W, fun i hi => div_nonneg (weightOf_nonneg hn hc hp hi) hpos.le, h1, ?_⟩
  have hcomb := weights_combination hn two_ne_zero (fun _ => 1) v p
  have e : ∑ i ∈ Finset.range n, (weightOf (fun _ => 1) n v p i / W) • (p - v i) = 0 := by
    have : ∀ i ∈ Finset.range n, (weightOf (fun _ => 1) n v p i / W) • (p - v i) =
        W⁻¹ • (weightOf (fun _ => 1) n v p i • (p - v i)) := by
      intro i _; rw [smul_smul, div_eq_inv_mul]
    rw [Finset.sum_congr rfl this, ← Finset.smul_sum, hcomb, smul_zero]
  simp only [smul_sub] at e
  rw [Finset.sum_sub_distrib, ← Finset.sum_smul, h1, one_smul, sub_eq_zero] at e
  exact e.symm

private theorem maxDistance_spec {d : Domain K} {n : ℕ} {v : ℕ → P2 K} (h : ConvexDomain d n v) {i : ℕ} (hi : i < n) :
    ∃ m, maxDistance d i = .ok m ∧ 0 < m ∧
      (∀ j < n, leftOf n v i (v j) / P2.dot (duOf n v i) (duOf n v i) ≤ m) ∧
      ∃ j < n, m = leftOf n v i (v j) / P2.dot (duOf n v i) (duOf n v i) := by
  have hn := h.hn
  unfold maxDistance
  rw [h.vget_vertex hi, M_bind_ok, h.length_eq]
  set y : ℕ → K := fun j => leftOf n v i (v j) / P2.dot (duOf n v i) (duOf n v i) with hy
  obtain ⟨m, e, h0, h1, h2⟩ := forLoop_inv (n := n) (s := (0 : K)) (body := fun j (m : K) => do
      let p ← vget d.vertices j
      let l ← d.toLocal i (p - v i)
      .ok (if l.y > m then l.y else m))
    (fun k m => 0 ≤ m ∧ (∀ j < k, y j ≤ m) ∧ (m = 0 ∨ ∃ j < k, m = y j)) ⟨le_rfl, by simp, Or.inl rfl⟩
    (by
      rintro k m hk ⟨a, b, c⟩
      rw [h.vget_vertex hk, M_bind_ok]
      obtain ⟨x, e⟩ := h.toLocal_self hi (v k)
      rw [e, M_bind_ok]
      refine ⟨_, rfl, ?_⟩
      change 0 ≤ (if y k > m then y k else m) ∧ _
      dsimp only
      change 0 ≤ (if y k > m then y k else m) ∧ (∀ j < k + 1, y j ≤ (if y k > m then y k else m)) ∧
        ((if y k > m then y k else m) = 0 ∨ ∃ j < k + 1, (if y k > m then y k else m) = y j)
      split_ifs with hc
      · refine ⟨by linarith, ?_, Or.inr ⟨k, by omega, rfl⟩⟩
        intro j hj
        rcases Nat.lt_succ_iff_lt_or_eq.mp hj with q | q
        · exact (b j q).trans hc.le
        · rw [q]
      · refine ⟨a, ?_, ?_⟩
        · intro j hj
          rcases Nat.lt_succ_iff_lt_or_eq.mp hj with q | q
          · exact b j q
          · rw [q]; exact not_lt.mp hc
        · rcases c with c | ⟨j, hj, c⟩
          · exact Or.inl c
          · exact Or.inr ⟨j, by omega, c⟩)
  have hx : nextIx n i < n := nextIx_lt (by omega)
  have hpos : 0 < y (nextIx n i) := div_pos (h.convex i hi _ hx (next_ne (by omega) hi) (next_ne_prev hn hi)) (h.du_pos hi)
  have hm : 0 < m := lt_of_lt_of_le hpos (h1 _ hx)
  refine ⟨m, e, hm, h1, ?_⟩
  rcases h2 with q | q
  · rw [q] at hm; exact absurd hm (lt_irrefl _)
  · exact q

/-- C15: `update()` of the parallel parameterization succeeds on strictly convex domains, and the
parameters of side `i` are the bilinear side parameter (which is always defined) and the (signed)
distance from the side divided by the distance of the farthest vertex; distances enter through twice the signed triangle areas, which have the same ratio. -/
theorem C15_parallel [Libm K] {d : Domain K} {n : ℕ} {v : ℕ → P2 K} (h : ConvexDomain d n v) (ε : K) :
    ∃ (mult : List K) (far : ℕ → K), parallelMultipliers d = .ok mult ∧
      (∀ i < n, 0 < far i ∧ (∃ j < n, far i = leftOf n v i (v j)) ∧ ∀ j < n, leftOf n v i (v j) ≤ far i) ∧
      (∀ i < n, ∀ uv s, bilinearSide ε d i uv = .ok s → parallelMap ε mult d i uv = .ok ⟨s, leftOf n v i uv / far i⟩) ∧
      (∀ i < n, ∀ uv s t, bilinearMap ε d i uv = .ok ⟨s, t⟩ → bilinearSide ε d i uv = .ok s) ∧
      (0 < ε → ∀ i < n, ∀ uv, ∃ s, bilinearSide ε d i uv = .ok s) := by
  have hex : ∀ i, ∃ m, i < n → maxDistance d i = .ok m ∧ 0 < m ∧
      (∀ j < n, leftOf n v i (v j) / P2.dot (duOf n v i) (duOf n v i) ≤ m) ∧
      ∃ j < n, m = leftOf n v i (v j) / P2.dot (duOf n v i) (duOf n v i) := by
    intro i
    by_cases hi : i < n
    · obtain ⟨m, hm⟩ := maxDistance_spec h hi; exact ⟨m, fun _ => hm⟩
    · exact ⟨0, fun h => absurd h hi⟩
  choose m hm using hex
  refine ⟨tab n fun i => 1 / m i, fun i => m i * P2.dot (duOf n v i) (duOf n v i), ?_, ?_, ?_,
    fun i _ uv s t hb => bilinearSide_of_map hb, ?_⟩
  · unfold parallelMultipliers
    rw [h.length_eq, forLoop_push n _ (fun i => 1 / m i)]
    · simp [tab]
    · intro k s hk
      rw [(hm k hk).1, M_bind_ok, fdiv_of_ne (hm k hk).2.1.ne']; rfl
  · intro i hi
    have hN := h.du_pos hi
    obtain ⟨_, h0, h1, j, hj, h2⟩ := hm i hi
    refine ⟨mul_pos h0 hN, ⟨j, hj, ?_⟩, ?_⟩
    · dsimp only; rw [h2]; field_simp
    · intro j hj
      exact (div_le_iff₀ hN).mp (h1 j hj)
  · intro i hi uv s hb
    unfold parallelMap
    rw [hb, M_bind_ok, h.vget_vertex hi, M_bind_ok]
    obtain ⟨x, e⟩ := h.toLocal_self hi uv
    rw [e, M_bind_ok, vget_tab _ hi, M_bind_ok]
    congr 2
    have hN := h.du_pos hi
    have h0 := (hm i hi).2.1
    field_simp
  · intro hε i hi uv
    have hn := h.hn
    unfold bilinearSide
    have h1 := h.toLocal_prev hi uv
    obtain ⟨x, e⟩ := h.toLocal_self hi (v (nextIx n i))
    rw [h.length_eq]
    dsimp only
    rw [h.vget_vertex (prevIx_lt (by omega)), M_bind_ok, h.vget_vertex (prevIx_lt (by omega)), M_bind_ok,
      h.vget_vertex hi, M_bind_ok, h.vget_vertex (nextIx_lt (by omega)), M_bind_ok, h.toLocal_prev hi, M_bind_ok, e, M_bind_ok,
      h1, M_bind_ok]
    exact bilinearSolve_ok hε _ _ _

/-- C15: consequences: with `far` as above the distance parameter is zero exactly on the line of the
side, is an affine function, is in [0,1] on the polygon and attains 1 at a vertex. -/
theorem C15_range {n : ℕ} (hn : 3 ≤ n) {v : ℕ → P2 K} (hc : StrictConvex n v) {i : ℕ} (hi : i < n) {far : K}
    (h0 : 0 < far) (h1 : ∃ j < n, far = leftOf n v i (v j)) (h2 : ∀ j < n, leftOf n v i (v j) ≤ far) :
    (∀ uv, leftOf n v i uv / far = 0 ↔ area2 (v ((i + n - 1) % n)) (v i) uv = 0) ∧
    (∀ a b p q, a + b = 1 → leftOf n v i (a • p + b • q) / far = a * (leftOf n v i p / far) + b * (leftOf n v i q / far)) ∧
    (∀ uv, InsideClosed n v uv → 0 ≤ leftOf n v i uv / far ∧ leftOf n v i uv / far ≤ 1) ∧
    ∃ j < n, leftOf n v i (v j) / far = 1 := by
  refine ⟨?_, ?_, ?_, ?_⟩
  · intro uv
    rw [div_eq_zero_iff]
    exact ⟨fun h => h.resolve_right h0.ne', fun h => Or.inl h⟩
  · intro a b p q hab
    rw [leftOf_comb2 n v i hab]; ring
  · intro uv hin
    refine ⟨div_nonneg (hin i hi) h0.le, (div_le_one h0).mpr ?_⟩
    obtain ⟨c, c0, c1, rfl⟩ := exists_convex_combination hn hc hin
    rw [leftOf_sum n v i _ c v c1]
    calc ∑ j ∈ Finset.range n, c j * leftOf n v i (v j) ≤ ∑ j ∈ Finset.range n, c j * far :=
          Finset.sum_le_sum fun j hj => mul_le_mul_of_nonneg_left (h2 j (Finset.mem_range.mp hj)) (c0 j (Finset.mem_range.mp hj))
      _ = far := by rw [← Finset.sum_mul, c1, one_mul]
  · obtain ⟨j, hj, e⟩ := h1
    exact ⟨j, hj, by rw [← e, div_self h0.ne']⟩

end convex

/-- The hypotheses of C15 are satisfiable with a defined bilinear parameter: every regular domain. -/
example : ∃ (d : Domain ℝ) (v : ℕ → P2 ℝ) (mult : List ℝ) (far : ℝ), ConvexDomain d 4 v ∧ parallelMultipliers d = .ok mult ∧
    parallelMap (1 / 10 ^ 8) mult d 2 (bilinear (v 0) (v 1) (v 2) (v 3) (1/3) (1/4)) =
      .ok ⟨1/3, leftOf 4 v 2 (bilinear (v 0) (v 1) (v 2) (v 3) (1/3) (1/4)) / far⟩ := by
  obtain ⟨d, v, _, h2, h3⟩ := C14_regular (n := 4) (by norm_num) (d0 := ⟨0, 0, [], [], []⟩) (by decide)
  have := h3 (1 / 10 ^ 8) (by norm_num) 2 (by norm_num) (1/3) (1/4) (by norm_num) (by norm_num) (by norm_num) (by norm_num)
    (by
      rw [show 2 * Real.pi / ((4 : ℕ) : ℝ) = Real.pi / 2 by push_cast; ring, Real.sin_pi_div_two]; norm_num)
  obtain ⟨mult, far, e1, _, e3, e4, _⟩ := C15_parallel h2 (1 / 10 ^ 8)
  exact ⟨d, v, mult, far 2, h2, e1, e3 2 (by norm_num) _ _ (e4 2 (by norm_num) _ _ _ this)⟩

/-! ## C16 -/

/-- C16 (interconnected): the distance parameter is `1 - s` of the previous side where the side
parameter is 0, and `s` of the next side where it is 1; the side parameter is the bilinear one. -/
theorem C16_interconnected {ε : ℝ} {d : Domain ℝ} {n i : ℕ} (hn : d.vertices.length = n) {uv sp sn sd : P2 ℝ}
    (h1 : bilinearMap ε d ((i + n - 1) % n) uv = .ok sp) (h2 : bilinearMap ε d ((i + 1) % n) uv = .ok sn)
    (h3 : bilinearMap ε d i uv = .ok sd) :
    ∃ t, interconnectedMap ε d i uv = .ok ⟨sd.x, t⟩ ∧ (sd.x = 0 → t = 1 - sp.x) ∧ (sd.x = 1 → t = sn.x) ∧
      (0 ≤ sd.x → sd.x ≤ 1 → min (1 - sp.x) sn.x ≤ t ∧ t ≤ max (1 - sp.x) sn.x) := by
  unfold interconnectedMap
  rw [hn]
  dsimp only
  rw [show prevIx n i = (i + n - 1) % n from rfl, show nextIx n i = (i + 1) % n from rfl]
  rw [h1, h2, h3]
  simp only [M_bind_ok]
  refine ⟨_, rfl, ?_, ?_, ?_⟩
  · intro e; rw [e]; simp [hermite]
  · intro e; rw [e]; simp [hermite]
  · intro a b
    have k0 : 0 ≤ hermite 0 sd.x := by
      simp only [hermite, if_true]
      have : 0 ≤ 1 - sd.x := by linarith
      positivity
    have k1 : hermite 0 sd.x ≤ 1 := by
      have e : 1 - hermite 0 sd.x = 3 * (1 - sd.x) * sd.x ^ 2 + sd.x ^ 3 := by
        simp only [hermite, if_true]; ring
      have : 0 ≤ 1 - sd.x := by linarith
      have : 0 ≤ 1 - hermite 0 sd.x := by rw [e]; positivity
      linarith
    generalize hermite 0 sd.x = H at *
    constructor
    · have a1 := min_le_left (1 - sp.x) sn.x
      have a2 := min_le_right (1 - sp.x) sn.x
      nlinarith
    · have a1 := le_max_left (1 - sp.x) sn.x
      have a2 := le_max_right (1 - sp.x) sn.x
      nlinarith

/-- C16 (interconnected): constraints at the points of side `i`, from the bilinear parameters given by
`C14_side`: `(s,0)` for side `i`; for the neighbours, whenever the parameters of their other
neighbours are defined, `(1,s)` and `(0,1-s)`. -/
theorem C16_interconnected_side {ε : ℝ} {d : Domain ℝ} {n i : ℕ} (hi : i < n) (hn : d.vertices.length = n)
    {uv : P2 ℝ} {s : ℝ}
    (h1 : bilinearMap ε d i uv = .ok ⟨s, 0⟩)
    (h2 : bilinearMap ε d ((i + n - 1) % n) uv = .ok ⟨1, s⟩)
    (h3 : bilinearMap ε d ((i + 1) % n) uv = .ok ⟨0, 1 - s⟩) :
    interconnectedMap ε d i uv = .ok ⟨s, 0⟩ ∧
    (∀ q, bilinearMap ε d (((i + n - 1) % n + n - 1) % n) uv = .ok q →
      interconnectedMap ε d ((i + n - 1) % n) uv = .ok ⟨1, s⟩) ∧
    (∀ q, bilinearMap ε d (((i + 1) % n + 1) % n) uv = .ok q →
      interconnectedMap ε d ((i + 1) % n) uv = .ok ⟨0, 1 - s⟩) := by
  refine ⟨?_, ?_, ?_⟩
  · unfold interconnectedMap
    rw [hn]
    dsimp only
    rw [show prevIx n i = (i + n - 1) % n from rfl, show nextIx n i = (i + 1) % n from rfl, h1, h2, h3]
    simp
  · intro q hq
    unfold interconnectedMap
    rw [hn]
    dsimp only
    have e : nextIx n ((i + n - 1) % n) = i := nextIx_prevIx hi
    rw [show prevIx n ((i + n - 1) % n) = ((i + n - 1) % n + n - 1) % n from rfl, hq, e, h1, h2]
    simp [hermite]
  · intro q hq
    unfold interconnectedMap
    rw [hn]
    dsimp only
    have e : prevIx n ((i + 1) % n) = i := prevIx_nextIx hi
    rw [show nextIx n ((i + 1) % n) = ((i + 1) % n + 1) % n from rfl, hq, e, h1, h3]
    simp [hermite]

/-- C16 (interconnected): in a regular domain with at least four sides all points of side `i` get
the parameters `(s,0)`. -/
theorem C16_interconnected_regular {n : ℕ} (hn : 4 ≤ n) {d0 : Domain ℝ} (hd0 : d0.n ≠ n) :
    ∃ d, d0.regularUpdate n = .ok (d, true) ∧ ∀ ε, 0 < ε → ε ≤ Real.sin (2 * Real.pi / n) → ∀ i < n, ∀ s, 0 ≤ s → s ≤ 1 →
      ∃ p, d.edgePoint i s = .ok p ∧ interconnectedMap ε d i p = .ok ⟨s, 0⟩ := by
  obtain ⟨d, v, h1, h2, h3⟩ := C14_regular (n := n) (by omega) hd0
  refine ⟨d, h1, ?_⟩
  intro ε hε hle i hi s s0 s1
  refine ⟨_, h2.edgePoint hi s, ?_⟩
  have hx : nextIx n i < n := nextIx_lt (by omega)
  have hp : prevIx n i < n := prevIx_lt (by omega)
  have hle' : ∀ t, ε ≤ Real.sin (2 * Real.pi / n) * (if n = 3 then 1 - t else 1) := by
    intro t; rw [if_neg (by omega), mul_one]; exact hle
  have k1 := h3 ε hε i hi s 0 s0 s1 le_rfl zero_le_one (hle' _)
  have k2 := h3 ε hε _ hp 1 s zero_le_one le_rfl s0 s1 (hle' _)
  have k3 := h3 ε hε _ hx 0 (1 - s) le_rfl zero_le_one (by linarith) (by linarith) (hle' _)
  have e1 : (nextIx n i + n - 1) % n = i := prevIx_nextIx hi
  have e2 : (nextIx n i + n - 2) % n = prevIx n i := by
    rw [nextIx_eq hi, prevIx_eq hi]
    split_ifs with a b b
    · omega
    · rw [Nat.zero_add, Nat.mod_eq_of_lt (by omega)]; omega
    · rw [b, show 0 + 1 + n - 2 = n - 1 by omega, Nat.mod_eq_of_lt (by omega)]
    · rw [show i + 1 + n - 2 = (i - 1) + n by omega, Nat.add_mod_right, Nat.mod_eq_of_lt (by omega)]
  rw [show (prevIx n i + 1) % n = i from nextIx_prevIx hi] at k2
  rw [e1, e2] at k3
  have q1 : sidePoint n v i s = bilinear (v ((i + n - 2) % n)) (v ((i + n - 1) % n)) (v i) (v ((i + 1) % n)) s 0 := by
    unfold sidePoint bilinear; module
  have q2 : sidePoint n v i s = bilinear (v ((prevIx n i + n - 2) % n)) (v ((prevIx n i + n - 1) % n)) (v (prevIx n i)) (v i) 1 s := by
    unfold sidePoint bilinear
    rw [show (i + n - 1) % n = prevIx n i from rfl]; module
  have q3 : sidePoint n v i s = bilinear (v (prevIx n i)) (v i) (v (nextIx n i)) (v ((nextIx n i + 1) % n)) 0 (1 - s) := by
    unfold sidePoint bilinear
    rw [show (i + n - 1) % n = prevIx n i from rfl]; module
  rw [← q1] at k1
  rw [← q2] at k2
  rw [← q3] at k3
  exact (C16_interconnected_side hi h2.length_eq k1 k2 k3).1

/-- C16 (constrained barycentric): all points of side `i` of a strictly convex domain get `(s,0)`, the
next side gets `(0,1-s)`, and the previous side gets `(1,s)` (except in the last `ε` part of the
side, where its own Wachspress parameter is only known to be in [0,1], see C12). -/
theorem C16_constrained {d : Domain ℝ} {n : ℕ} {v : ℕ → P2 ℝ} (h : ConvexDomain d n v) {ε : ℝ} (hε : 0 < ε)
    (hε1 : ε ≤ 1 / 2) {i : ℕ} (hi : i < n) {s : ℝ} (h0 : 0 ≤ s) (h1 : s ≤ 1) :
    ∃ p, d.edgePoint i s = .ok p ∧ constrainedMap ε d i p = .ok ⟨s, 0⟩ ∧
      constrainedMap ε d ((i + 1) % n) p = .ok ⟨0, 1 - s⟩ ∧
      (ε ≤ 1 - s → constrainedMap ε d ((i + n - 1) % n) p = .ok ⟨1, s⟩) := by
  have hn := h.hn
  have hx : nextIx n i < n := nextIx_lt (by omega)
  have hp : prevIx n i < n := prevIx_lt (by omega)
  obtain ⟨p, e, k1, k2, ⟨x, k3, x0, x1, x2⟩, k4⟩ := C12_map_side h hε (by linarith) hi h0 h1
  have all : ∀ j < n, ∃ q : P2 ℝ, baryMap ε .wachspress d j p = .ok q := by
    intro j hj
    by_cases a : j = i
    · exact ⟨_, by rw [a]; exact k1⟩
    · by_cases b : j = (i + 1) % n
      · exact ⟨_, by rw [b]; exact k2⟩
      · by_cases c : j = (i + n - 1) % n
        · exact ⟨_, by rw [c]; exact k3⟩
        · obtain ⟨y, hy, _⟩ := k4 j hj a b c
          exact ⟨_, hy⟩
  refine ⟨p, e, ?_, ?_, ?_⟩
  · unfold constrainedMap constrainedMapWith constrainedBlend
    rw [h.length_eq]
    dsimp only
    rw [show prevIx n i = (i + n - 1) % n from rfl, show nextIx n i = (i + 1) % n from rfl, k1, k2, k3]
    simp only [M_bind_ok]
    have n2 : ¬ (1 : ℝ) < ε := by linarith
    by_cases a : s < ε
    · have b : ¬ 1 - s < ε := by linarith
      have := x2 (not_lt.mp b)
      simp [singularBlend, hε, a, b, n2, fdiv, vget, this]
    · by_cases b : 1 - s < ε
      · simp [singularBlend, hε, a, b, n2, fdiv, vget]
      · simp [singularBlend, hε, a, b, n2, fdiv, vget]
  · unfold constrainedMap constrainedMapWith constrainedBlend
    rw [h.length_eq]
    dsimp only
    have hxx : nextIx n ((i + 1) % n) < n := nextIx_lt (by omega)
    obtain ⟨q, hq⟩ := all _ hxx
    rw [show prevIx n ((i + 1) % n) = i from prevIx_nextIx hi, hq, k1, k2]
    simp only [M_bind_ok]
    have n2 : ¬ (1 : ℝ) < ε := by linarith
    by_cases a : s < ε
    · have b : ¬ 1 - s < ε := by linarith
      simp [singularBlend, hε, a, b, n2, fdiv, vget]; ring
    · by_cases b : 1 - s < ε
      · simp [singularBlend, hε, a, b, n2, fdiv, vget]; ring
      · simp [singularBlend, hε, a, b, n2, fdiv, vget]
  · intro hs
    unfold constrainedMap constrainedMapWith constrainedBlend
    rw [h.length_eq]
    dsimp only
    have hpp : prevIx n ((i + n - 1) % n) < n := prevIx_lt (by omega)
    obtain ⟨q, hq⟩ := all _ hpp
    rw [show nextIx n ((i + n - 1) % n) = i from nextIx_prevIx hi, hq, k1, k3, x2 hs]
    simp only [M_bind_ok]
    have n2 : ¬ (1 : ℝ) < ε := by linarith
    have b : ¬ 1 - s < ε := not_lt.mpr hs
    by_cases a : s < ε
    · simp [singularBlend, hε, a, b, n2, fdiv, vget]; ring
    · simp [singularBlend, hε, a, b, n2, fdiv, vget]

/-! ## C17 -/

/-- C17: for an even number of sides the overlap parameters of opposite sides sum to 1 and the second
parameter is always 0 (Wachspress, mean value or harmonic coordinates, wherever they are defined). -/
theorem C17_complementary {K : Type} [Field K] [LinearOrder K] [IsStrictOrderedRing K] [Libm K]
    {ε : K} (hε : ε ≤ 1) {t : BaryType} {d : Domain K} {n : ℕ} (hn : 3 ≤ n) (he : n % 2 = 0)
    (hd : d.vertices.length = n) {i : ℕ} (hi : i < n) {uv : P2 K} {l : List K} (hb : barycentric ε t d uv = .ok l) :
    ∃ a b, overlapMap ε t d i uv = .ok ⟨a, 0⟩ ∧ overlapMap ε t d ((i + n / 2) % n) uv = .ok ⟨b, 0⟩ ∧ a + b = 1 := by
  have : Inhabited (P2 K) := ⟨0⟩
  obtain ⟨v, hv⟩ := exists_tab d.vertices
  rw [hd] at hv
  obtain ⟨c, rfl, hsum, _⟩ := C11_partition_precision hn hv hε hb
  have key : ∀ k, overlapMap ε t d k uv = .ok ⟨∑ j ∈ Finset.range (n / 2), c ((k + j) % n), 0⟩ := by
    intro k
    unfold overlapMap
    rw [hd]
    dsimp only
    rw [if_neg (by omega), hb, M_bind_ok, forLoop_sum (n / 2) _ (fun j => c ((k + j) % n))]
    · simp
    · intro j s _
      rw [vget_tab _ (Nat.mod_lt _ (by omega))]; rfl
  refine ⟨_, _, key i, key _, ?_⟩
  have e : ∀ j, ((i + n / 2) % n + j) % n = (i + (n / 2 + j)) % n := by
    intro j; rw [Nat.mod_add_mod, add_assoc]
  simp only [e]
  rw [← Finset.sum_range_add (fun j => c ((i + j) % n)), show n / 2 + n / 2 = n by omega, ← hsum]
  -- rotation of the range
  clear key hb
  induction i with
  | zero =>
    apply Finset.sum_congr rfl
    intro j hj; rw [zero_add, Nat.mod_eq_of_lt (Finset.mem_range.mp hj)]
  | succ k ih =>
    rw [← ih (by omega) (fun j => by rw [Nat.mod_add_mod, add_assoc])]
    have := sum_range_next (show 0 < n by omega) (fun j => c ((k + j) % n))
    rw [← this]
    apply Finset.sum_congr rfl
    intro j _
    congr 1
    unfold nextIx
    rw [Nat.add_mod_mod]; congr 1; ring

/-- C17: for an odd number of sides the call fails with an assertion. -/
theorem C17_odd {K : Type} [Field K] [LinearOrder K] [Libm K] (ε : K) (t : BaryType) {d : Domain K}
    (hd : d.vertices.length % 2 = 1) (i : ℕ) (uv : P2 K) : overlapMap ε t d i uv = .error .assertion := by
  unfold overlapMap
  dsimp only
  rw [if_pos (by omega)]

section
attribute [local instance] libmQ

example : overlapMap (1/1000) .wachspress (⟨4, 0, [⟨1, 1⟩, ⟨-1, 1⟩, ⟨-1, -1⟩, ⟨1, -1⟩], [], []⟩ : Domain ℚ) 1 ⟨1/2, 0⟩ =
    .ok ⟨1/4, 0⟩ := by decide +kernel

end

end Transfinite
