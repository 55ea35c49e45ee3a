import Verif.Lemmas.GenBezierBuilt
import Verif.Props.Circular

/-! # C44: the corner-based Generalized Bézier patch -/

namespace Transfinite

open Spec Param

namespace GB

section eval

variable {K : Type} [Field K] [LinearOrder K] [Libm K] [IsStrictOrderedRing K] {G : GB K} {n d : ℕ} {F : ℕ → ℕ → ℕ → P3 K} {f : ℕ → P2 K}

/-- The weight of the `(j, k)`-th point of the corner at the end of side `i`. -/
def cwt (n d : ℕ) (f : ℕ → P2 K) (i j k : ℕ) : K := bern d j (f (nextIx n i)).y * bern d k (f i).y

theorem cornerStep_eq (h : HasNet G n d F) {i : ℕ} (hi : i < n) (st : P3 K × K) :
    G.cornerStep (tab n f) i st = .ok (st + ∑ j ∈ Finset.range ((d + 1) / 2), ∑ k ∈ Finset.range ((d + 1) / 2),
      (cwt n d f i j k • F i (d - j) k, cwt n d f i j k)) := by
  unfold cornerStep
  rw [h.n_eq, h.degree, h.layers, vget_tab _ hi, M_bind_ok, vget_tab _ (nextIx_lt (by omega)), M_bind_ok, bernsteinAll_eq, M_bind_ok, bernsteinAll_eq, M_bind_ok]
  apply forLoop_sum
  intro j s hj
  apply forLoop_sum
  intro k s hk
  rw [vget_tab _ (by omega), M_bind_ok, vget_tab _ (by omega), M_bind_ok, usub_of_le (by omega), h.cpt hi (by omega) hk, M_bind_ok]
  rfl

theorem cornerEval_eq (h : HasNet G n d F) :
    G.cornerEval (tab n f) = .ok ((∑ i ∈ Finset.range n, ∑ j ∈ Finset.range ((d + 1) / 2), ∑ k ∈ Finset.range ((d + 1) / 2), cwt n d f i j k • F i (d - j) k) +
      (1 - ∑ i ∈ Finset.range n, ∑ j ∈ Finset.range ((d + 1) / 2), ∑ k ∈ Finset.range ((d + 1) / 2), cwt n d f i j k) • G.central) := by
  unfold cornerEval
  rw [h.n_eq, forLoop_sum n _ (fun i => ∑ j ∈ Finset.range ((d + 1) / 2), ∑ k ∈ Finset.range ((d + 1) / 2),
      (cwt n d f i j k • F i (d - j) k, cwt n d f i j k)) (0, 0) (fun i s hi => cornerStep_eq h hi s), M_bind_ok]
  simp only [Prod.fst_sum, Prod.snd_sum, Prod.fst_add, Prod.snd_add, zero_add]

theorem cornerWeight_eq (h : HasNet G n d F) {i j k : ℕ} (hi : i < n) (hj : j ≤ d) (hk : k ≤ d) :
    G.cornerWeight i j k (tab n f) = .ok (cwt n d f i j k) := by
  unfold cornerWeight
  rw [h.n_eq, h.degree, vget_tab _ hi, M_bind_ok, vget_tab _ (nextIx_lt (by omega)), M_bind_ok, bernsteinAll_eq, M_bind_ok, bernsteinAll_eq, M_bind_ok,
    vget_tab _ (by omega), M_bind_ok, vget_tab _ (by omega), M_bind_ok]
  rfl

/-- The weight of a name. -/
def nameWt (n d : ℕ) (f : ℕ → P2 K) (i j k : ℕ) : K := if j < (d + 1) / 2 then cwt n d f (prevIx n i) k j else cwt n d f i (d - j) k

theorem cornerWeightOf_eq (h : HasNet G n d F) {i j k : ℕ} (hi : i < n) (hj : j ≤ d) (hk : k < (d + 1) / 2) :
    G.cornerWeightOf i j k (tab n f) = .ok (nameWt n d f i j k) := by
  unfold cornerWeightOf nameWt
  rw [h.n_eq, h.layers, h.degree]
  split_ifs
  · exact cornerWeight_eq h (prevIx_lt (by omega)) (by omega) (by omega)
  · rw [usub_of_le (by omega)]
    exact cornerWeight_eq h hi (by omega) (by omega)

/-- The local parameters on side `i` for the circular parameterization. -/
structure OnCircle (n i : ℕ) (s : K) (f : ℕ → P2 K) : Prop where
  self : (f i).y = 0
  next : (f (nextIx n i)).y = 1 - s
  prev : (f (prevIx n i)).y = s
  far : ∀ j < n, j ≠ i → j ≠ nextIx n i → j ≠ prevIx n i → (f j).y = 1

/-- On a side: the Bézier curve and the effect of the corner at the end of the next side. -/
theorem cornerEval_side (hn : 3 ≤ n) (h : HasNet G n d F) (hodd : d % 2 = 1)
    (hcons : ∀ a b : Name, a.InRange n d → b.InRange n d → SamePoint n d a b → F a.side a.col a.row = F b.side b.col b.row) {i : ℕ} (hi : i < n) {s : K}
    (hs : OnCircle n i s f) : G.cornerEval (tab n f) = .ok (bezier d (fun j => F i j 0) s + ∑ j ∈ Finset.range ((d + 1) / 2), ∑ k ∈ Finset.range ((d + 1) / 2),
      (bern d j (f (nextIx n (nextIx n i))).y * bern d k (1 - s)) • (F (nextIx n i) (d - j) k - G.central)) := by
  have hl : 0 < (d + 1) / 2 := by omega
  have hp : prevIx n i < n := prevIx_lt (by omega)
  have hx : nextIx n i < n := nextIx_lt (by omega)
  have hpi : prevIx n i ≠ i := prev_ne (by omega) hi
  have hxi : nextIx n i ≠ i := next_ne (by omega) hi
  have hxp : nextIx n i ≠ prevIx n i := next_ne_prev hn hi
  rw [cornerEval_eq h]
  have key : ∀ {V : Type} [AddCommGroup V] [Module K V] (P : ℕ → ℕ → ℕ → V) (Q : ℕ → V), (∀ k < (d + 1) / 2, P (prevIx n i) d k = Q k) →
      (∀ j, (d + 1) / 2 ≤ j → j ≤ d → P i j 0 = Q j) →
      (∑ i' ∈ Finset.range n, ∑ j ∈ Finset.range ((d + 1) / 2), ∑ k ∈ Finset.range ((d + 1) / 2), cwt n d f i' j k • P i' (d - j) k) =
      (∑ j ∈ Finset.range (d + 1), bern d j s • Q j) + ∑ j ∈ Finset.range ((d + 1) / 2), ∑ k ∈ Finset.range ((d + 1) / 2),
        (bern d j (f (nextIx n (nextIx n i))).y * bern d k (1 - s)) • P (nextIx n i) (d - j) k := by
    intro V _ _ P Q hQ1 hQ2
    rw [← Finset.sum_erase_add _ _ (Finset.mem_range.mpr hi), ← Finset.sum_erase_add _ _ (Finset.mem_erase.mpr ⟨hpi, Finset.mem_range.mpr hp⟩),
      ← Finset.sum_erase_add _ _ (Finset.mem_erase.mpr ⟨hxp, Finset.mem_erase.mpr ⟨hxi, Finset.mem_range.mpr hx⟩⟩), Finset.sum_eq_zero, zero_add]
    · have c1 : (∑ j ∈ Finset.range ((d + 1) / 2), ∑ k ∈ Finset.range ((d + 1) / 2), cwt n d f (prevIx n i) j k • P (prevIx n i) (d - j) k) =
          ∑ k ∈ Finset.range ((d + 1) / 2), bern d k s • Q k := by
        rw [Finset.sum_eq_single 0]
        · apply Finset.sum_congr rfl
          intro k hk
          unfold cwt
          rw [nextIx_prevIx hi, hs.self, hs.prev, bern_at_zero, if_pos rfl, one_mul, Nat.sub_zero, hQ1 k (Finset.mem_range.mp hk)]
        · intro j _ hj
          apply Finset.sum_eq_zero
          intro k _
          unfold cwt
          rw [nextIx_prevIx hi, hs.self, bern_at_zero, if_neg hj, zero_mul, zero_smul]
        · intro q; exact absurd (Finset.mem_range.mpr hl) q
      have c2 : (∑ j ∈ Finset.range ((d + 1) / 2), ∑ k ∈ Finset.range ((d + 1) / 2), cwt n d f i j k • P i (d - j) k) =
          ∑ j ∈ Finset.range ((d + 1) / 2), bern d (d - j) s • Q (d - j) := by
        apply Finset.sum_congr rfl
        intro j hj
        rw [Finset.mem_range] at hj
        rw [Finset.sum_eq_single 0]
        · unfold cwt
          rw [hs.self, hs.next, bern_at_zero, if_pos rfl, mul_one, bern_symm (by omega), hQ2 (d - j) (by omega) (by omega)]
        · intro k _ hk
          unfold cwt
          rw [hs.self, bern_at_zero, if_neg hk, mul_zero, zero_smul]
        · intro q; exact absurd (Finset.mem_range.mpr hl) q
      have c3 : (∑ j ∈ Finset.range (d + 1), bern d j s • Q j) = (∑ k ∈ Finset.range ((d + 1) / 2), bern d k s • Q k) +
          ∑ j ∈ Finset.range ((d + 1) / 2), bern d (d - j) s • Q (d - j) := by
        rw [show d + 1 = (d + 1) / 2 + (d + 1) / 2 by omega, Finset.sum_range_add]
        congr 1
        · rw [show ((d + 1) / 2 + (d + 1) / 2) / 2 = (d + 1) / 2 by omega]
        · rw [show ((d + 1) / 2 + (d + 1) / 2) / 2 = (d + 1) / 2 by omega, ← Finset.sum_range_reflect]
          apply Finset.sum_congr rfl
          intro j hj
          rw [Finset.mem_range] at hj
          rw [show (d + 1) / 2 + ((d + 1) / 2 - 1 - j) = d - j by omega]
      rw [c1, c2, c3]
      have c4 : (∑ j ∈ Finset.range ((d + 1) / 2), ∑ k ∈ Finset.range ((d + 1) / 2), cwt n d f (nextIx n i) j k • P (nextIx n i) (d - j) k) =
          ∑ j ∈ Finset.range ((d + 1) / 2), ∑ k ∈ Finset.range ((d + 1) / 2), (bern d j (f (nextIx n (nextIx n i))).y * bern d k (1 - s)) • P (nextIx n i) (d - j) k := by
        unfold cwt
        rw [hs.next]
      rw [c4]
      abel
    · intro i' hi'
      rw [Finset.mem_erase, Finset.mem_erase, Finset.mem_erase, Finset.mem_range] at hi'
      obtain ⟨a1, a2, a3, a4⟩ := hi'
      apply Finset.sum_eq_zero
      intro j _
      apply Finset.sum_eq_zero
      intro k hk
      rw [Finset.mem_range] at hk
      unfold cwt
      rw [hs.far i' a4 a3 a1 a2, bern_at_one (show k ≤ d by omega), if_neg (by omega), mul_zero, zero_smul]
  have e1 := key F (fun j => F i j 0) (by
    intro k hk
    refine hcons ⟨prevIx n i, d, k⟩ ⟨i, k, 0⟩ ⟨hp, le_rfl, hk⟩ ⟨hi, by dsimp only; omega, hl⟩ (Or.inr (Or.inr ⟨hk, hl, ?_⟩))
    dsimp only
    rw [Name.mk.injEq]
    exact ⟨rfl, by omega, rfl⟩) (fun _ _ _ => rfl)
  have e2 := key (V := K) (fun _ _ _ => 1) (fun _ => 1) (fun _ _ => rfl) (fun _ _ _ => rfl)
  simp only [smul_eq_mul, mul_one] at e2
  rw [e1, e2, bern_sum]
  congr 1
  simp only [smul_sub, Finset.sum_sub_distrib, ← Finset.sum_smul]
  unfold bezier
  module

end eval

section real

variable {ε : ℝ} {arc : List (P3 ℝ) → ℝ → ℝ → ℝ} {n d : ℕ} {calls : List (Call ℝ)} {G : GB ℝ} {fmod : ℝ → ℝ → ℝ}

theorem Usable.mapsCorner (h : Usable ε arc (.corner fmod) n d calls G) (hn : 3 ≤ n) {uv : P2 ℝ} {f : ℕ → P2 ℝ}
    (hf : ∀ j < n, circularMap ε fmod n j uv = .ok (f j)) : ∃ o, mapToRibbons ε G.kind.param uv G.param = .ok (tab n f, o) := by
  obtain ⟨hi, hk, hdn, _, _⟩ := h.state (by omega)
  refine (hi.param.resolve_left (by omega)).maps_of_raw (by rw [hi.len, hdn]) fun o _ j hj => ?_
  rw [hk]
  change circularMap ε fmod G.dom.dom.vertices.length j uv = _
  rw [hi.len, hdn]
  exact hf j hj

theorem Usable.onCircle (h : Usable ε arc (.corner fmod) n d calls G) (hf : IsFmod fmod) (hn : 3 ≤ n) (hε : 0 < ε) {i : ℕ} (hi : i < n) {s : ℝ} (h0 : 0 ≤ s)
    (h1 : s ≤ 1) : ∃ uv f o, Domain.circleEdgePoint G.dom.dom.n i s = .ok uv ∧ mapToRibbons ε G.kind.param uv G.param = .ok (tab n f, o) ∧ OnCircle n i s f := by
  obtain ⟨_, _, hdn, _, _⟩ := h.state (by omega)
  obtain ⟨uv, g, e1, e2, g1, g2, g3, g4⟩ := C65_side hε hf hn hi h0 h1
  obtain ⟨o, e3⟩ := h.mapsCorner hn e2
  exact ⟨uv, fun j => ⟨g j, g j⟩, o, by rw [hdn, e1], e3, g1, g2, g3, g4⟩

theorem eval_corner {K : Type} [Field K] [LinearOrder K] [Libm K] {ε : K} {G : GB K} {fmod : K → K → K} (hk : G.kind = .corner fmod) {uv : P2 K} {l : List (P2 K)}
    {o : Param.Obj K} {p : P3 K} (h1 : mapToRibbons ε G.kind.param uv G.param = .ok (l, o)) (h2 : G.cornerEval l = .ok p) : ∃ G', G.eval ε uv = .ok (p, G') := by
  unfold eval
  rw [h1, M_bind_ok]
  unfold evalWith
  rw [hk]
  dsimp only
  rw [h2, M_bind_ok]
  exact ⟨_, rfl⟩

/-- C44: with at least four sides the patch interpolates the Bézier curve of the boundary control points on the whole side. -/
theorem C44_side (hε : 0 < ε) (hf : IsFmod fmod) (hn : 4 ≤ n) (hodd : d % 2 = 1) (h : Usable ε arc (.corner fmod) n d calls G)
    (hc : ∀ c ∈ calls, c.regular = true) {i : ℕ} (hi : i < n) {s : ℝ} (h0 : 0 ≤ s) (h1 : s ≤ 1) :
    ∃ uv cp G', Domain.circleEdgePoint G.dom.dom.n i s = .ok uv ∧ (∀ j ≤ d, G.controlPoint i j 0 = .ok (cp j)) ∧ G.eval ε uv = .ok (bezier d cp s, G') := by
  obtain ⟨uv, f, o, e1, e2, hs⟩ := h.onCircle hf (by omega) hε hi h0 h1
  obtain ⟨_, hk, _, _, _⟩ := h.state (by omega)
  obtain ⟨F, hF, hcons⟩ := h.consistent (by omega) hc
  obtain ⟨G', e3⟩ := eval_corner hk e2 (cornerEval_side (by omega) hF hodd hcons hi hs)
  refine ⟨uv, fun j => F i j 0, G', e1, fun j hj => hF.cpt hi hj (by omega), ?_⟩
  rw [e3]
  congr 2
  have y : (f (nextIx n (nextIx n i))).y = 1 := by
    have hx : nextIx n i < n := nextIx_lt (by omega)
    apply hs.far _ (nextIx_lt (by omega))
    all_goals
      rw [nextIx_eq hx, nextIx_eq hi]
      try rw [prevIx_eq hi]
      split_ifs <;> omega
  rw [y, Finset.sum_eq_zero, add_zero]
  intro j hj
  rw [Finset.mem_range] at hj
  apply Finset.sum_eq_zero
  intro k _
  rw [bern_at_one (by omega), if_neg (by omega), zero_mul, zero_smul]

/-- C44 in terms of the curves that `setupLoop` gives to the ribbons: on side `i` the patch interpolates the curve of ribbon `i`. -/
theorem C44_curve (hε : 0 < ε) (hf : IsFmod fmod) (hn : 4 ≤ n) (hodd : d % 2 = 1) {g l : ℕ} {before later : List (Call ℝ)}
    (h : (GB.new (.corner fmod) g l).run ε arc (before ++ .loop :: later) = .ok G) (hb : ∀ c ∈ before, c.regular = true) (hl : ∀ c ∈ later, c.query = true)
    (hGn : G.n = n) (hGd : G.degree = d) {i : ℕ} (hi : i < n) {s : ℝ} (h0 : 0 ≤ s) (h1 : s ≤ 1) :
    ∃ c uv G', vget G.curves i = .ok c ∧ Domain.circleEdgePoint G.dom.dom.n i s = .ok uv ∧ G.eval ε uv = .ok (c.pt s, G') := by
  have hreg : ∀ c ∈ before ++ .loop :: later, c.regular = true := by
    intro c hc
    rcases List.mem_append.mp hc with q | q
    · exact hb c q
    · rcases List.mem_cons.mp q with rfl | q
      · rfl
      · have := hl c q
        cases c <;> first | rfl | cases this
  have hu : Usable ε arc (.corner fmod) n d (before ++ .loop :: later) G := by
    refine ⟨g, l, before, later, rfl, h, fun c hc => ?_, fun c hc => ?_, hGn, hGd⟩
    · have := hb c hc
      cases c <;> first | rfl | cases this
    · have := hl c hc
      cases c <;> first | rfl | cases this
  obtain ⟨G0, e0, e1⟩ := run_split h
  unfold run at e1
  obtain ⟨G1, e1, e2⟩ := bind_ok e1
  have e1 : G0.setupLoop arc = .ok G1 := e1
  have k1 := setupLoop_keeps e1
  obtain ⟨k2, k3, k4, k5⟩ := run_query hl e2
  have n0 : G0.n = n := by rw [← k1.n_eq, ← k4, hGn]
  have d0 : G0.degree = d := by rw [← k1.degree, ← k5, hGd]
  rcases run_netOk hb (new_netOk _ g l) e0 with ⟨h0, _⟩ | ⟨F, hF, hcons⟩
  · omega
  rw [n0, d0] at hF hcons
  have hcur := loop_curves hF (by omega) hcons e1
  rw [← k2] at hcur
  obtain ⟨uv, cp, G', u1, u2, u3⟩ := C44_side hε hf hn hodd hu hreg hi h0 h1
  refine ⟨bezierCurve arc (tab (d + 1) fun j => F i j 0), uv, G', by rw [hcur, vget_tab _ hi], u1, ?_⟩
  rw [u3, bezierCurve_pt]
  congr 2
  unfold bezier
  apply Finset.sum_congr rfl
  intro j hj
  rw [Finset.mem_range] at hj
  have e : G.controlPoint i j 0 = .ok (F i j 0) := by
    unfold controlPoint
    rw [k3, k1.nets]
    exact hF.cpt hi (by omega) (by omega)
  rw [u2 j (by omega)] at e
  rw [Except.ok.inj e]

/-- C44 does not hold for triangles: the corner opposite to the side has an effect there. -/
theorem C44_triangle (hε : 0 < ε) (hf : IsFmod fmod) (hodd : d % 2 = 1) (h : Usable ε arc (.corner fmod) 3 d calls G)
    (hc : ∀ c ∈ calls, c.regular = true) {i : ℕ} (hi : i < 3) {s : ℝ} (h0 : 0 ≤ s) (h1 : s ≤ 1) :
    ∃ uv cp, ∃ q : ℕ → ℕ → P3 ℝ, ∃ G', Domain.circleEdgePoint G.dom.dom.n i s = .ok uv ∧ (∀ j ≤ d, G.controlPoint i j 0 = .ok (cp j)) ∧
      (∀ j ≤ d, ∀ k < (d + 1) / 2, G.controlPoint ((i + 1) % 3) j k = .ok (q j k)) ∧
      G.eval ε uv = .ok (bezier d cp s + ∑ j ∈ Finset.range ((d + 1) / 2), ∑ k ∈ Finset.range ((d + 1) / 2),
        (bern d j s * bern d k (1 - s)) • (q (d - j) k - G.central), G') := by
  obtain ⟨uv, f, o, e1, e2, hs⟩ := h.onCircle hf (by omega) hε hi h0 h1
  obtain ⟨_, hk, _, _, _⟩ := h.state (by omega)
  obtain ⟨F, hF, hcons⟩ := h.consistent (by omega) hc
  obtain ⟨G', e3⟩ := eval_corner hk e2 (cornerEval_side (by omega) hF hodd hcons hi hs)
  refine ⟨uv, fun j => F i j 0, fun j k => F (nextIx 3 i) j k, G', e1, fun j hj => hF.cpt hi hj (by omega), fun j hj k hk => hF.cpt (nextIx_lt (by omega)) hj hk, ?_⟩
  have y : (f (nextIx 3 (nextIx 3 i))).y = s := by
    have : nextIx 3 (nextIx 3 i) = prevIx 3 i := by
      rw [nextIx_eq (nextIx_lt (by omega)), nextIx_eq hi, prevIx_eq hi]
      split_ifs <;> omega
    rw [this, hs.prev]
  rw [e3, y]

/-- A concrete triangular patch that does not interpolate its (constant) boundary: all points are 0 except the central control point. -/
theorem C44_triangle_fails (hf : IsFmod fmod) : ∃ (calls : List (Call ℝ)) (G : GB ℝ), Usable (1 / 10000) (fun _ _ _ => 0) (.corner fmod) 3 3 calls G ∧
    (∀ c ∈ calls, c.regular = true) ∧ ∃ uv p G', Domain.circleEdgePoint G.dom.dom.n 0 (1 / 2) = .ok uv ∧ (∀ j ≤ 3, G.controlPoint 0 j 0 = .ok 0) ∧
      G.eval (1 / 10000) uv = .ok (p, G') ∧ p ≠ bezier 3 (fun _ => (0 : P3 ℝ)) (1 / 2 : ℝ) := by
  obtain ⟨G, hu, hr, hcen, _, hcp⟩ := built (ε := 1 / 10000) (arc := fun _ _ _ => 0) (n := 3) (d := 3) (.corner fmod) (by norm_num) (by norm_num) (Or.inr rfl)
    (w := []) (by simp) ⟨0, 0, 1⟩ false
  refine ⟨_, G, hu, hr, ?_⟩
  obtain ⟨uv, cp, q, G', e1, e2, e3, e4⟩ := C44_triangle (by norm_num) hf rfl hu hr (i := 0) (by norm_num) (s := 1 / 2) (by norm_num) (by norm_num)
  have z : ∀ j ≤ 3, G.controlPoint 0 j 0 = .ok 0 := fun j hj => hcp ⟨0, j, 0⟩ ⟨by norm_num, hj, by norm_num⟩
  have z2 : ∀ j ≤ 3, ∀ k < 2, q j k = 0 := fun j hj k hk => Except.ok.inj ((e3 j hj k hk).symm.trans (hcp ⟨1, j, k⟩ ⟨by norm_num, hj, by simpa using hk⟩))
  have cp0 : ∀ j ≤ 3, cp j = 0 := fun j hj => Except.ok.inj ((e2 j hj).symm.trans (z j hj))
  refine ⟨uv, _, G', e1, z, e4, fun w => ?_⟩
  have hb : bezier 3 cp (1 / 2 : ℝ) = bezier 3 (fun _ => (0 : P3 ℝ)) (1 / 2 : ℝ) := by
    unfold bezier
    apply Finset.sum_congr rfl
    intro j hj
    rw [Finset.mem_range] at hj
    rw [cp0 j (by omega)]
  rw [hb, hcen] at w
  have w := congrArg P3.z (add_eq_left.mp w)
  simp only [show (3 + 1) / 2 = 2 from rfl, Finset.sum_range_succ, Finset.sum_range_zero, zero_add] at w
  rw [z2 _ (by omega) _ (by omega), z2 _ (by omega) _ (by omega), z2 _ (by omega) _ (by omega), z2 _ (by omega) _ (by omega)] at w
  simp [bern] at w
  norm_num [Nat.choose] at w

/-- C44: `weight` explains `eval`, for every number of sides, in every point of the plane: both succeed, the two names of a control point have the same weight,
the weights are not negative, and the value is the sum of the points, each taken once, with the central point having the remaining weight. -/
theorem C44_weights (hε : 0 < ε) (hn : 3 ≤ n) (hodd : d % 2 = 1) (h : Usable ε arc (.corner fmod) n d calls G) (uv : P2 ℝ) :
    ∃ W cp p G', G.eval ε uv = .ok (p, G') ∧
      (∀ i < n, ∀ j ≤ d, ∀ k < (d + 1) / 2, Prod.fst <$> G.weight ε i j k uv = .ok (W i j k) ∧ G.controlPoint i j k = .ok (cp i j k) ∧ 0 ≤ W i j k) ∧
      (∀ a b : Name, a.InRange n d → b.InRange n d → SamePoint n d a b → W a.side a.col a.row = W b.side b.col b.row) ∧ p = halfSum n d W cp G.central := by
  have hex : ∀ j, ∃ x : ℝ, circularMap ε fmod n j uv = .ok ⟨x, x⟩ ∧ 0 ≤ x ∧ x ≤ 1 := fun j => C65_range hε fmod (by omega) j uv
  choose x hx using hex
  obtain ⟨o, e2⟩ := h.mapsCorner hn (fun j _ => (hx j).1)
  obtain ⟨_, hk, _, ⟨F, hF⟩, _⟩ := h.state (by omega)
  obtain ⟨G', e3⟩ := eval_corner hk e2 (cornerEval_eq hF)
  set f : ℕ → P2 ℝ := fun j => ⟨x j, x j⟩ with hfdef
  have cw0 : ∀ i j k, 0 ≤ cwt n d f i j k := fun i j k => mul_nonneg (bern_nonneg d j (hx _).2.1 (hx _).2.2) (bern_nonneg d k (hx _).2.1 (hx _).2.2)
  have corner : ∀ a b : Name, a.InRange n d → AtCorner n d a b → nameWt n d f a.side a.col a.row = nameWt n d f b.side b.col b.row := by
    rintro a b ha ⟨h1, h2, rfl⟩
    unfold nameWt
    dsimp only
    rw [if_pos h1, if_neg (by omega), show d - (d - a.row) = a.row by omega]
    rfl
  refine ⟨nameWt n d f, F, _, G', e3, fun i hi j hj k hk' => ⟨?_, hF.cpt hi hj hk', ?_⟩, ?_, ?_⟩
  · unfold weight
    rw [hk] at e2 ⊢
    dsimp only
    rw [e2, M_bind_ok, cornerWeightOf_eq hF hi hj hk', M_bind_ok]
    rfl
  · unfold nameWt
    split_ifs <;> exact cw0 _ _ _
  · rintro a b ha hb (rfl | hab | hab)
    · rfl
    · exact corner a b ha hab
    · exact (corner b a hb hab).symm
  · unfold halfSum
    have key : ∀ {V : Type} [AddCommGroup V] [Module ℝ V] (P : ℕ → ℕ → ℕ → V),
        (∑ i ∈ Finset.range n, ∑ j ∈ Finset.range ((d + 1) / 2), ∑ k ∈ Finset.range ((d + 1) / 2), cwt n d f i j k • P i (d - j) k) =
        ∑ i ∈ Finset.range n, ∑ k ∈ Finset.range ((d + 1) / 2), ∑ j ∈ Finset.Ico ((d + 1) / 2) (d + 1), nameWt n d f i j k • P i j k := by
      intro V _ _ P
      apply Finset.sum_congr rfl
      intro i _
      rw [Finset.sum_comm]
      apply Finset.sum_congr rfl
      intro k _
      rw [Finset.sum_Ico_eq_sum_range, show d + 1 - (d + 1) / 2 = (d + 1) / 2 by omega, ← Finset.sum_range_reflect]
      apply Finset.sum_congr rfl
      intro j hj
      rw [Finset.mem_range] at hj
      unfold nameWt
      rw [if_neg (by omega), show d - ((d + 1) / 2 + j) = (d + 1) / 2 - 1 - j by omega, show d - ((d + 1) / 2 - 1 - j) = (d + 1) / 2 + j by omega]
    have e4 := key (V := ℝ) (fun _ _ _ => 1)
    simp only [smul_eq_mul, mul_one] at e4
    rw [key, e4]

/-- The hypotheses of C44 hold for example for a five-sided cubic patch with some points set. -/
example (hf : IsFmod fmod) : ∃ (calls : List (Call ℝ)) (G : GB ℝ), Usable (1 / 10000) (fun _ _ _ => 0) (.corner fmod) 5 3 calls G ∧
    (∀ c ∈ calls, c.regular = true) ∧ G.controlPoint 2 1 0 = .ok ⟨1, 2, 3⟩ := by
  obtain ⟨G, hu, hr, _, hsq, hcp⟩ := built (ε := 1 / 10000) (arc := fun _ _ _ => 0) (n := 5) (d := 3) (.corner fmod) (by norm_num) (by norm_num) (Or.inr rfl)
    (w := [(⟨2, 1, 0⟩, ⟨1, 2, 3⟩), (⟨2, 1, 1⟩, ⟨1, 2, 4⟩)]) (by
      intro x hx
      simp only [List.mem_cons, List.not_mem_nil, or_false] at hx
      rcases hx with rfl | rfl <;> simp [Name.InRange]) ⟨0, 0, 1⟩ true
  refine ⟨_, G, hu, hr, ?_⟩
  refine (hcp ⟨2, 1, 0⟩ (by simp [Name.InRange])).trans ?_
  simp [netValue, SamePoint, AtCorner]

end real

end GB

end Transfinite
