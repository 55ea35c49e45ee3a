import Verif.Lemmas.DomainUpdate
import Verif.Lemmas.Circle
import Mathlib.Data.Real.Basic
import Mathlib.Algebra.BigOperators.Field

/-! # Properties C07, C08, C10: local coordinates, domain polygons, ray intersection -/

namespace Transfinite

open Domain Spec

/-! ## C07 -/

section C07
variable {K : Type} [Field K] [LinearOrder K] [IsStrictOrderedRing K]

private theorem dot_self_pos {a : P2 K} (h : a ≠ 0) : 0 < P2.dot a a := by
  unfold P2.dot
  by_contra hc
  have hx : a.x = 0 := by nlinarith [mul_self_nonneg a.x, mul_self_nonneg a.y]
  have hy : a.y = 0 := by nlinarith [mul_self_nonneg a.x, mul_self_nonneg a.y]
  exact h (P2.ext hx hy)

private theorem dv_props (n : ℕ) (v : ℕ → P2 K) (c : P2 K) (i : ℕ) :
    P2.dot (dvOf n v c i) (dvOf n v c i) = P2.dot (duOf n v i) (duOf n v i) ∧
    P2.dot (duOf n v i) (dvOf n v c i) = 0 := by
  unfold dvOf
  dsimp only
  split_ifs <;> constructor <;> simp only [P2.dot, P2.neg_x, P2.neg_y] <;> ring

/-- C07: `toLocal` and `fromLocal` of a non-degenerate side are inverses of each other. -/
theorem C07_local_inverse (vs : List (P2 K)) (c : P2 K) {i : ℕ} (hi : i < vs.length)
    (hne : vs[i]? ≠ vs[(i + vs.length - 1) % vs.length]?) :
    ∃ d, updateFrom vs c = .ok d ∧
      (∀ w, ∃ l, d.toLocal i w = .ok l ∧ d.fromLocal i l = .ok w) ∧
      (∀ l, ∃ w, d.fromLocal i l = .ok w ∧ d.toLocal i w = .ok l) := by
  have : Inhabited (P2 K) := ⟨0⟩
  obtain ⟨v, hv⟩ := exists_tab vs
  generalize hm : vs.length = m at *
  subst hv
  have hp : prevIx m i < m := prevIx_lt (by omega)
  have hdu : duOf m v i ≠ 0 := by
    intro h
    apply hne
    have h1 := vget_eq_ok.mp (vget_tab v hi)
    have h2 := vget_eq_ok.mp (vget_tab v hp)
    unfold prevIx at h2
    rw [h1, h2]
    unfold duOf prevIx at h
    rw [sub_eq_zero.mp h]
  have hpos := dot_self_pos hdu
  obtain ⟨k1, k2⟩ := dv_props m v c i
  refine ⟨_, updateFrom_eq m v c, ?_, ?_⟩
  · intro w
    unfold toLocal fromLocal
    simp only [vget_tab _ hi, M_bind_ok, fdiv_of_ne hpos.ne']
    refine ⟨_, rfl, ?_⟩
    congr 1
    generalize duOf m v i = a at *
    generalize dvOf m v c i = b at *
    -- b is a rotated by ±90 degrees
    simp only [P2.dot] at *
    have hb : (b.x = a.y ∧ b.y = -a.x) ∨ (b.x = -a.y ∧ b.y = a.x) := by
      by_cases h : a.x * b.y - a.y * b.x = a.x * a.x + a.y * a.y
      · right
        constructor
        · have : (a.x * a.x + a.y * a.y) * (b.x + a.y) = 0 := by linear_combination a.x * k2 - a.y * h
          rcases mul_eq_zero.mp this with h' | h'
          · exact absurd h' hpos.ne'
          · linarith
        · have : (a.x * a.x + a.y * a.y) * (b.y - a.x) = 0 := by linear_combination a.x * h + a.y * k2
          rcases mul_eq_zero.mp this with h' | h'
          · exact absurd h' hpos.ne'
          · linarith
      · left
        have h2 : a.x * b.y - a.y * b.x = -(a.x * a.x + a.y * a.y) := by
          have : (a.x * b.y - a.y * b.x - (a.x * a.x + a.y * a.y)) * (a.x * b.y - a.y * b.x + (a.x * a.x + a.y * a.y)) = 0 := by
            linear_combination (a.x * a.x + a.y * a.y) * k1 - (a.x * b.x + a.y * b.y) * k2
          rcases mul_eq_zero.mp this with h' | h'
          · exact absurd (by linarith) h
          · linarith
        constructor
        · have : (a.x * a.x + a.y * a.y) * (b.x - a.y) = 0 := by linear_combination a.x * k2 - a.y * h2
          rcases mul_eq_zero.mp this with h' | h'
          · exact absurd h' hpos.ne'
          · linarith
        · have : (a.x * a.x + a.y * a.y) * (b.y + a.x) = 0 := by linear_combination a.x * h2 + a.y * k2
          rcases mul_eq_zero.mp this with h' | h'
          · exact absurd h' hpos.ne'
          · linarith
    rcases hb with ⟨h1, h2⟩ | ⟨h1, h2⟩
    · have h0 := hpos.ne'
      ext
      · simp only [h1, h2, P2.add_x, P2.smul_x]
        rw [div_mul_eq_mul_div, div_mul_eq_mul_div, ← add_div, div_eq_iff h0]; ring
      · simp only [h1, h2, P2.add_y, P2.smul_y]
        rw [div_mul_eq_mul_div, div_mul_eq_mul_div, ← add_div, div_eq_iff h0]; ring
    · have h0 := hpos.ne'
      ext
      · simp only [h1, h2, P2.add_x, P2.smul_x]
        rw [div_mul_eq_mul_div, div_mul_eq_mul_div, ← add_div, div_eq_iff h0]; ring
      · simp only [h1, h2, P2.add_y, P2.smul_y]
        rw [div_mul_eq_mul_div, div_mul_eq_mul_div, ← add_div, div_eq_iff h0]; ring
  · intro l
    unfold toLocal fromLocal
    simp only [vget_tab _ hi, M_bind_ok, fdiv_of_ne hpos.ne']
    refine ⟨_, rfl, ?_⟩
    congr 1
    generalize duOf m v i = a at *
    generalize dvOf m v c i = b at *
    simp only [P2.dot] at *
    ext
    · simp only [P2.add_x, P2.add_y, P2.smul_x, P2.smul_y]
      rw [div_eq_iff hpos.ne']; linear_combination l.y * k2
    · simp only [P2.add_x, P2.add_y, P2.smul_x, P2.smul_y]
      rw [div_eq_iff hpos.ne']; linear_combination l.x * k2 + l.y * k1

/-- C07: coordinates of the endpoints of a side, relative to its first endpoint. -/
theorem C07_local_endpoints (n : ℕ) (v : ℕ → P2 K) (c : P2 K) {i : ℕ} (hi : i < n)
    (hne : v i ≠ v ((i + n - 1) % n)) :
    ∃ d, updateFrom (tab n v) c = .ok d ∧ d.toLocal i 0 = .ok ⟨0, 0⟩ ∧
      d.toLocal i (v i - v ((i + n - 1) % n)) = .ok ⟨1, 0⟩ := by
  have hdu : duOf n v i ≠ 0 := sub_ne_zero.mpr hne
  have hpos := dot_self_pos hdu
  obtain ⟨_, k2⟩ := dv_props n v c i
  refine ⟨_, updateFrom_eq n v c, ?_, ?_⟩
  · unfold toLocal
    simp only [vget_tab _ hi, M_bind_ok, fdiv_of_ne hpos.ne']
    simp [P2.dot]
  · unfold toLocal
    simp only [vget_tab _ hi, M_bind_ok, fdiv_of_ne hpos.ne']
    change Except.ok (⟨P2.dot (duOf n v i) (duOf n v i) / _, P2.dot (duOf n v i) (dvOf n v c i) / _⟩ : P2 K) = _
    rw [k2, div_self hpos.ne', zero_div]

/-- C07: in a strictly convex polygon with the centre inside, the second local coordinate is positive
for all inner points and for all vertices that are not on the side, and zero on the line of the side. -/
theorem C07_local_positive {n : ℕ} (hn : 3 ≤ n) {v : ℕ → P2 K} {c : P2 K} (hconv : StrictConvex n v)
    (hc : Inside n v c) {i : ℕ} (hi : i < n) :
    ∃ d, updateFrom (tab n v) c = .ok d ∧
      ∀ p : P2 K, ∃ x y, d.toLocal i (p - v ((i + n - 1) % n)) = .ok ⟨x, y⟩ ∧
        (Inside n v p → 0 < y) ∧ (∀ j < n, j ≠ i → j ≠ (i + n - 1) % n → p = v j → 0 < y) ∧
        (∀ s, p = sidePoint n v i s → y = 0 ∧ x = s) := by
  have hdu : duOf n v i ≠ 0 := by
    intro h
    have := hc i hi
    unfold leftOf area2 at this
    have e : v i = v ((i + n - 1) % n) := sub_eq_zero.mp h
    rw [e] at this; simp at this
  have hpos := dot_self_pos hdu
  refine ⟨_, updateFrom_eq n v c, ?_⟩
  intro p
  have hdot := dvOf_dot (hc i hi) p
  unfold toLocal
  simp only [vget_tab _ hi, M_bind_ok, fdiv_of_ne hpos.ne']
  refine ⟨_, _, rfl, ?_, ?_, ?_⟩
  · intro hp
    have := hp i hi
    change 0 < P2.dot (p - v (prevIx n i)) (dvOf n v c i) / _
    rw [hdot]; positivity
  · intro j hj h1 h2 hpj
    have := hconv i hi j hj h1 h2
    change 0 < P2.dot (p - v (prevIx n i)) (dvOf n v c i) / _
    rw [hdot, hpj]; positivity
  · intro s hs
    change P2.dot (p - v (prevIx n i)) (dvOf n v c i) / _ = 0 ∧ _
    rw [hdot, hs, leftOf_sidePoint]
    constructor
    · simp
    · have : sidePoint n v i s - v ((i + n - 1) % n) = s • duOf n v i := by
        unfold sidePoint duOf prevIx; module
      rw [this, div_eq_iff hpos.ne']; simp only [P2.dot, P2.smul_x, P2.smul_y]; ring

example : ∃ (v : ℕ → P2 ℚ) (c : P2 ℚ), StrictConvex 5 v ∧ Inside 5 v c := by
  refine ⟨fun i => [⟨2, -1⟩, ⟨2, 1⟩, ⟨0, 2⟩, ⟨-2, 1⟩, ⟨-1, -2⟩].getD i 0, ⟨0, 0⟩, ?_⟩
  unfold Spec.StrictConvex Inside; decide +kernel

end C07

/-! ## C08 -/

section C08
open Real

/-- C08: the regular domain is strictly convex and its centre (the origin) is inside. -/
theorem C08_regular {n : ℕ} (hn : 3 ≤ n) :
    ∃ v : ℕ → P2 ℝ, regularVertices n = .ok (tab n v) ∧ StrictConvex n v ∧ Inside n v 0 := by
  unfold regularVertices
  by_cases h4 : n = 4
  · subst h4
    refine ⟨fun i => [⟨1, 1⟩, ⟨-1, 1⟩, ⟨-1, -1⟩, ⟨1, -1⟩].getD i 0, ?_, ?_, ?_⟩
    · rw [if_pos rfl]; rfl
    · intro i hi j hj h1 h2
      have hi' : i = 0 ∨ i = 1 ∨ i = 2 ∨ i = 3 := by omega
      have hj' : j = 0 ∨ j = 1 ∨ j = 2 ∨ j = 3 := by omega
      rcases hi' with rfl | rfl | rfl | rfl <;> rcases hj' with rfl | rfl | rfl | rfl <;>
        first
          | (exfalso; revert h1 h2; decide)
          | (simp [leftOf, area2]; try norm_num)
    · intro i hi
      have : i = 0 ∨ i = 1 ∨ i = 2 ∨ i = 3 := by omega
      rcases this with rfl | rfl | rfl | rfl <;> simp [leftOf, area2] <;> norm_num
  · have hn0 : (0 : ℝ) < n := by exact_mod_cast (show 0 < n by omega)
    have hn3 : (3 : ℝ) ≤ n := by exact_mod_cast hn
    refine ⟨fun i => circ (2 * π / n * i), ?_, ?_, ?_⟩
    · rw [if_neg h4, fdiv_of_ne hn0.ne', M_bind_ok, forLoop_push n _ (fun i => circ (2 * π / n * i))]
      · rfl
      · intro k s _; rfl
    · apply strictConvex_circ (fun i => 2 * π / n * i)
      · intro i j hij _
        have : (i : ℝ) < j := by exact_mod_cast hij
        have h2 : 0 < 2 * π / n := by positivity
        exact mul_lt_mul_of_pos_left this h2
      · intro i j hi hj
        have h1 : (j : ℝ) < n := by exact_mod_cast hj
        have h2 : (0 : ℝ) ≤ i := by positivity
        have e : 2 * π / n * j - 2 * π / n * i = 2 * π * ((j - i) / n) := by field_simp
        rw [e]
        have : ((j : ℝ) - i) / n < 1 := by rw [div_lt_one hn0]; linarith
        have := mul_lt_mul_of_pos_left this (show 0 < 2 * π by positivity)
        linarith
    · have hs : 0 < 2 * π / n ∧ 2 * π / n < π := by
        constructor
        · positivity
        · rw [div_lt_iff₀ hn0]; nlinarith [pi_pos]
      apply inside_circ (fun i => 2 * π / n * i)
      · intro i _
        have e : 2 * π / n * ((i + 1 : ℕ) : ℝ) - 2 * π / n * i = 2 * π / n := by push_cast; ring
        simp only [e]; exact hs
      · have e : 2 * π / n * ((0 : ℕ) : ℝ) + 2 * π - 2 * π / n * ((n - 1 : ℕ) : ℝ) = 2 * π / n := by
          rw [Nat.cast_sub (by omega)]; push_cast; field_simp; ring
        simp only [e]; exact hs

/-- C08: updating a regular domain to `n` curves gives the regular polygon, whatever it was before,
unless it already has `n` sides, when it is left alone. -/
theorem C08_regular_update {n : ℕ} (hn : 3 ≤ n) (d : Domain ℝ) :
    (d.n = n → d.regularUpdate n = .ok (d, false)) ∧
    (d.n ≠ n → ∃ d' v, d.regularUpdate n = .ok (d', true) ∧ d'.n = n ∧ d'.center = 0 ∧
      d'.vertices = tab n v ∧ StrictConvex n v ∧ Inside n v d'.center) := by
  constructor
  · intro h; unfold regularUpdate; rw [if_pos h]
  · intro h
    obtain ⟨v, e, h1, h2⟩ := C08_regular hn
    unfold regularUpdate
    rw [if_neg h, e, M_bind_ok, updateFrom_eq]
    exact ⟨_, v, rfl, rfl, rfl, rfl, h1, h2⟩

/-- C08: vertices of the circular domain: on the unit circle, with arcs proportional to the lengths
and the last vertex at angle 2π. -/
theorem C08_circular_arcs {n : ℕ} (l : ℕ → ℝ) (hl : ∀ i < n, 0 < l i) (hn : 1 ≤ n) :
    ∃ θ : ℕ → ℝ, circularVertices (tab n l) = .ok (tab n fun i => ⟨cos (θ i), sin (θ i)⟩) ∧
      (∀ i, i + 1 < n → θ (i + 1) - θ i = 2 * π * (l (i + 1) / ∑ k ∈ Finset.range n, l k)) ∧
      θ 0 = 2 * π * (l 0 / ∑ k ∈ Finset.range n, l k) ∧ θ (n - 1) = 2 * π := by
  have hS : 0 < ∑ k ∈ Finset.range n, l k :=
    Finset.sum_pos (fun i hi => hl i (Finset.mem_range.mp hi)) ⟨0, by simp; omega⟩
  set S := ∑ k ∈ Finset.range n, l k with hSdef
  refine ⟨fun i => 2 * π / S * ∑ k ∈ Finset.range (i + 1), l k, ?_, ?_, ?_, ?_⟩
  · unfold circularVertices
    rw [sum_tab, fdiv_of_ne hS.ne', M_bind_ok]
    have hm : (tab n l).map (fun x => x * (Libm.pi (K := ℝ) * 2 / S)) = tab n fun i => l i * (2 * π / S) := by
      simp only [tab, List.map_map]
      apply List.map_congr_left
      intro i _
      change l i * (π * 2 / S) = _
      rw [mul_comm π]
    have hm' : (tab n l).map (fun x => x * (2 * Libm.pi (K := ℝ) / S)) = tab n fun i => l i * (2 * π / S) := by
      simp only [tab, List.map_map]; rfl
    dsimp only
    rw [hm', length_tab]
    rw [forLoop_eq (fun m => (tab m fun i => (⟨cos (2 * π / S * ∑ k ∈ Finset.range (i + 1), l k),
        sin (2 * π / S * ∑ k ∈ Finset.range (i + 1), l k)⟩ : P2 ℝ), 2 * π / S * ∑ k ∈ Finset.range m, l k))]
    · rfl
    · simp
    · intro k hk
      have e : 2 * π / S * ∑ k ∈ Finset.range k, l k + l k * (2 * π / S) = 2 * π / S * ∑ k ∈ Finset.range (k + 1), l k := by
        rw [Finset.sum_range_succ]; ring
      rw [vget_tab _ hk, M_bind_ok]
      simp only [e, tab_succ]
      rfl
  · intro i _
    simp only
    rw [Finset.sum_range_succ (n := i + 1)]; ring
  · simp; ring
  · simp only
    rw [Nat.sub_add_cancel hn, ← hSdef]; field_simp

/-- C08: the circular domain is strictly convex for all positive curve lengths. -/
theorem C08_circular_convex {n : ℕ} (hn : 3 ≤ n) (l : ℕ → ℝ) (hl : ∀ i < n, 0 < l i) :
    ∃ v, circularVertices (tab n l) = .ok (tab n v) ∧ StrictConvex n v := by
  obtain ⟨θ, e, h1, h0, hlast⟩ := C08_circular_arcs l hl (by omega)
  have hS : 0 < ∑ k ∈ Finset.range n, l k :=
    Finset.sum_pos (fun i hi => hl i (Finset.mem_range.mp hi)) ⟨0, by simp; omega⟩
  refine ⟨fun i => circ (θ i), e, ?_⟩
  have step : ∀ i, i + 1 < n → θ i < θ (i + 1) := by
    intro i hi
    have := h1 i hi
    have : 0 < l (i + 1) := hl _ hi
    have : 0 < 2 * π * (l (i + 1) / ∑ k ∈ Finset.range n, l k) := by positivity
    linarith
  have mono : ∀ i j, i < j → j < n → θ i < θ j := by
    intro i j hij hj
    induction j with
    | zero => omega
    | succ j ih =>
      rcases Nat.lt_or_ge i j with h | h
      · exact (ih h (by omega)).trans (step j hj)
      · have : i = j := by omega
        subst this; exact step i hj
  have h0' : 0 < θ 0 := by
    rw [h0]; have : 0 < l 0 := hl _ (by omega); positivity
  have lo : ∀ i < n, 0 < θ i := by
    intro i hi
    rcases Nat.eq_zero_or_pos i with h | h
    · rw [h]; exact h0'
    · exact h0'.trans (mono 0 i h hi)
  have hi : ∀ i < n, θ i ≤ 2 * π := by
    intro i hi
    rcases Nat.lt_or_ge i (n - 1) with h | h
    · rw [← hlast]; exact (mono i (n - 1) h (by omega)).le
    · have : i = n - 1 := by omega
      rw [this, hlast]
  apply strictConvex_circ θ mono
  intro i j h1 h2
  have := lo i h1
  have := hi j h2
  linarith

/-- C08: the default centre (edge-length weighted average) of a strictly convex polygon exists and is
strictly inside. -/
theorem C08_center_inside {n : ℕ} (hn : 3 ≤ n) {v : ℕ → P2 ℝ} (hc : StrictConvex n v) :
    ∃ d, update (tab n v) = .ok d ∧ d.n = n ∧ d.vertices = tab n v ∧ Inside n v d.center := by
  have hlen : ∀ i < n, 0 < (v i - v (prevIx n i)).norm := by
    intro i hi
    have hne : v i - v (prevIx n i) ≠ 0 := by
      intro h
      have hx : v (prevIx n i) = v i := (sub_eq_zero.mp h).symm
      have h2 := nextIx_eq hi
      have h3 := prevIx_eq hi
      have := hc i hi (nextIx n i) (nextIx_lt (by omega)) (by rw [h2]; split_ifs <;> omega)
        (by change _ ≠ prevIx n i; rw [h2, h3]; split_ifs <;> omega)
      unfold leftOf at this
      change 0 < area2 (v (prevIx n i)) (v i) _ at this
      rw [hx] at this
      simp [area2] at this
    have := dot_self_pos hne
    exact Real.sqrt_pos.mpr this
  set len : ℕ → ℝ := fun i => (v i - v (prevIx n i)).norm with hlendef
  have hS : 0 < ∑ i ∈ Finset.range n, len i :=
    Finset.sum_pos (fun i hi => hlen i (Finset.mem_range.mp hi)) ⟨0, by simp; omega⟩
  set S := ∑ i ∈ Finset.range n, len i with hSdef
  have ecenter : computeCenter (tab n v) = .ok (∑ i ∈ Finset.range n, ((len i + len (nextIx n i)) / (S * 2)) • v i) := by
    unfold computeCenter
    simp only [length_tab]
    rw [forLoop_push n _ len]
    · simp only [List.nil_append, M_bind_ok]
      rw [forLoop_sum n _ (fun i => (len i + len (nextIx n i)) • v i)]
      · rw [M_bind_ok, show (List.map len (List.range n)).sum = S from sum_tab n len,
          fdiv_of_ne (by positivity), fdiv_of_ne (by positivity)]
        simp only [M_bind_ok, zero_add]
        congr 1
        ext
        · simp only [P2.sum_x, P2.smul_x, Finset.sum_div]
          apply Finset.sum_congr rfl; intro i _; ring
        · simp only [P2.sum_y, P2.smul_y, Finset.sum_div]
          apply Finset.sum_congr rfl; intro i _; ring
      · intro k s hk
        rw [vget_tab v hk, vget_ofFn_range len hk, vget_ofFn_range len (nextIx_lt (by omega))]
        rfl
    · intro k s hk
      rw [vget_tab v hk, vget_tab v (prevIx_lt (by omega))]; rfl
  unfold update
  rw [ecenter, M_bind_ok, updateFrom_eq]
  refine ⟨_, rfl, rfl, rfl, ?_⟩
  apply inside_of_weights hn hc
  · intro i hi
    have := hlen i hi
    have := hlen (nextIx n i) (nextIx_lt (by omega))
    positivity
  · rw [← Finset.sum_div, Finset.sum_add_distrib, sum_range_next (by omega) len]
    field_simp
    ring

/-- C08: `DomainCircular::update` on curves of positive lengths. -/
theorem C08_circular_update (curves : List (Curve ℝ)) (hn : 3 ≤ curves.length)
    (hl : ∀ c ∈ curves, 0 < c.arc 0 1) :
    ∃ d v, circularUpdate curves = .ok d ∧ d.n = curves.length ∧ d.vertices = tab d.n v ∧
      StrictConvex d.n v ∧ Inside d.n v d.center := by
  obtain ⟨l, hl'⟩ := exists_tab (curveLengths curves)
  have hlen : (curveLengths curves).length = curves.length := by simp [curveLengths]
  rw [hlen] at hl'
  have hpos : ∀ i < curves.length, 0 < l i := by
    intro i hi
    have : l i ∈ curveLengths curves := by
      rw [hl']; exact List.mem_map.mpr ⟨i, List.mem_range.mpr hi, rfl⟩
    unfold curveLengths at this
    obtain ⟨c, hc, e⟩ := List.mem_map.mp this
    rw [← e]; exact hl c hc
  obtain ⟨v, e, hconv⟩ := C08_circular_convex hn l hpos
  obtain ⟨d, e2, h1, h2, h3⟩ := C08_center_inside hn hconv
  refine ⟨d, v, ?_, h1, ?_, ?_, ?_⟩
  · unfold circularUpdate; rw [hl', e, M_bind_ok, e2]
  · rw [h1]; exact h2
  · rw [h1]; exact hconv
  · rw [h1]; exact h3

example : (3 : ℕ) ≤ 5 ∧ ∀ i < 5, (0 : ℝ) < (fun i : ℕ => (i : ℝ) + 1) i := by
  constructor
  · norm_num
  · intro i _; positivity

end C08

/-! ## C10 -/

section C10
variable {K : Type} [Field K] [LinearOrder K] [IsStrictOrderedRing K]

/-- C10: a returned point is on the closed side `i`, at distance zero from the line if the unclamped
parameter is in [0,1], and in any case `|v × (r - p)| ≤ ε |v × (q2 - q1)|`. -/
theorem C10_hit {d : Domain K} {v : ℕ → P2 K} (hv : d.vertices = tab d.n v) {i : ℕ} (hi : i < d.n)
    {ε : K} (hε : 0 < ε) (p w r : P2 K) (h : d.intersectEdgeWithRay ε i p w = .ok (some r)) :
    ∃ t, 0 ≤ t ∧ t ≤ 1 ∧ r = sidePoint d.n v i t ∧
      |P2.cross w (r - p)| ≤ ε * |P2.cross w (v i - v ((i + d.n - 1) % d.n))| ∧
      (0 < t → t < 1 → P2.cross w (r - p) = 0) := by
  unfold intersectEdgeWithRay at h
  rw [hv, vget_tab v hi, vget_tab v (prevIx_lt (by omega))] at h
  simp only [M_bind_ok] at h
  set q1 := v (prevIx d.n i) with hq1
  set q2 := v i with hq2
  set D := w.x * (q2.y - q1.y) - w.y * (q2.x - q1.x) with hD
  have hD' : P2.cross w (v i - v ((i + d.n - 1) % d.n)) = D := rfl
  split_ifs at h with h1
  · simp at h
  have hD0 : D ≠ 0 := by
    intro h0; rw [h0, abs_zero] at h1; exact h1 hε
  rw [fdiv_of_ne hD0, M_bind_ok] at h
  set t := (w.x * (p.y - q1.y) - w.y * (p.x - q1.x)) / D with ht
  have htD : t * D = w.x * (p.y - q1.y) - w.y * (p.x - q1.x) := by rw [ht]; field_simp
  split_ifs at h with h2
  · simp at h
  push_neg at h2
  simp only [Except.ok.injEq, Option.some.injEq] at h
  have hc0 : 0 ≤ max 0 (min t 1) := le_max_left _ _
  have hc1 : max 0 (min t 1) ≤ 1 := max_le (by norm_num) (min_le_right _ _)
  have hcr : P2.cross w (r - p) = (max 0 (min t 1) - t) * D := by
    rw [← h, sub_mul, htD]
    simp only [P2.cross, P2.sub_x, P2.sub_y, P2.add_x, P2.add_y, P2.smul_x, P2.smul_y, hD]; ring
  refine ⟨max 0 (min t 1), hc0, hc1, ?_, ?_, ?_⟩
  · rw [← h]; rfl
  · rw [hD', hcr, abs_mul]
    apply mul_le_mul_of_nonneg_right _ (abs_nonneg _)
    rw [abs_le]
    rcases le_total t 0 with ha | ha
    · rw [min_eq_left (by linarith), max_eq_left ha]; constructor <;> linarith [h2.1]
    · rcases le_total t 1 with hb | hb
      · rw [min_eq_left hb, max_eq_right ha]; constructor <;> linarith
      · rw [min_eq_right hb, max_eq_right (by norm_num)]; constructor <;> linarith [h2.2]
  · intro a b
    have : max 0 (min t 1) = t := by
      rcases le_total t 0 with ha | ha
      · rw [min_eq_left (by linarith), max_eq_left ha] at a; exact absurd a (lt_irrefl _)
      · rcases le_total t 1 with hb | hb
        · rw [min_eq_left hb, max_eq_right ha]
        · rw [min_eq_right hb, max_eq_right (by norm_num)] at b; exact absurd b (lt_irrefl _)
    rw [hcr, this]; ring

/-- C10: if there is no result, the line is almost parallel to the side or misses it, even when
extended by the tolerance; and there is never a fault. -/
theorem C10_miss {d : Domain K} {v : ℕ → P2 K} (hv : d.vertices = tab d.n v) {i : ℕ} (hi : i < d.n)
    {ε : K} (hε : 0 < ε) (p w : P2 K) :
    (∃ o, d.intersectEdgeWithRay ε i p w = .ok o) ∧
    (d.intersectEdgeWithRay ε i p w = .ok none ↔
      |P2.cross w (v i - v ((i + d.n - 1) % d.n))| < ε ∨
      ∀ t, -ε ≤ t → t ≤ 1 + ε → P2.cross w (sidePoint d.n v i t - p) ≠ 0) := by
  unfold intersectEdgeWithRay
  rw [hv, vget_tab v hi, vget_tab v (prevIx_lt (by omega))]
  simp only [M_bind_ok]
  set q1 := v (prevIx d.n i) with hq1
  set q2 := v i with hq2
  set D := w.x * (q2.y - q1.y) - w.y * (q2.x - q1.x) with hD
  have hD' : P2.cross w (v i - v ((i + d.n - 1) % d.n)) = D := rfl
  rw [hD']
  by_cases h1 : |D| < ε
  · simp only [if_pos h1]; exact ⟨⟨_, rfl⟩, by simp [h1]⟩
  · have hD0 : D ≠ 0 := by
      intro h0; rw [h0, abs_zero] at h1; exact h1 hε
    simp only [if_neg h1, fdiv_of_ne hD0, M_bind_ok]
    set t := (w.x * (p.y - q1.y) - w.y * (p.x - q1.x)) / D with ht
    have htD : t * D = w.x * (p.y - q1.y) - w.y * (p.x - q1.x) := by rw [ht]; field_simp
    have hcr : ∀ s, P2.cross w (sidePoint d.n v i s - p) = (s - t) * D := by
      intro s
      rw [sub_mul, htD]
      change P2.cross w ((1 - s) • q1 + s • q2 - p) = _
      simp only [P2.cross, P2.sub_x, P2.sub_y, P2.add_x, P2.add_y, P2.smul_x, P2.smul_y, hD]; ring
    by_cases h2 : t < -ε ∨ 1 + ε < t
    · simp only [if_pos h2]
      refine ⟨⟨_, rfl⟩, ?_⟩
      simp only [h1, false_or, true_iff]
      intro s hs1 hs2
      rw [hcr]
      apply mul_ne_zero _ hD0
      rcases h2 with h2 | h2
      · exact (by linarith : (0 : K) < s - t).ne'
      · exact (by linarith : s - t < 0).ne
    · simp only [if_neg h2]
      refine ⟨⟨_, rfl⟩, ?_⟩
      simp only [h1, false_or]
      constructor
      · intro h; simp at h
      · intro h
        push_neg at h2
        exact absurd (by rw [hcr]; ring) (h t h2.1 h2.2)

/-- The intersection is with the line, not only with the ray: going backwards also hits. -/
example : (⟨3, 0, [⟨0, 0⟩, ⟨2, 0⟩, ⟨0, 2⟩], [], []⟩ : Domain ℚ).intersectEdgeWithRay (1/1000) 1 ⟨1, 1⟩ ⟨0, 1⟩ =
    .ok (some ⟨1, 0⟩) := by decide +kernel

end C10

end Transfinite
