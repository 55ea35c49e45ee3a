import Verif.Lemmas.GenBezierBuilt

/-! # C42 for degree 1, and examples for C42 and C43 -/

namespace Transfinite

open Spec Param

namespace GB

variable {ε : ℝ} {arc : List (P3 ℝ) → ℝ → ℝ → ℝ} {n d : ℕ} {calls : List (Call ℝ)} {G : GB ℝ}

theorem wt_one (hn : 4 ≤ n) {i : ℕ} (hi : i < n) {s : ℝ} {f : ℕ → P2 ℝ} (hs : OnSide ε n i s f) (s0 : s ≠ 0) (h1 : ε ≤ 1 - s) (sq : Bool) {i' j : ℕ} (hi' : i' < n)
    (hj : j ≤ 1) : wt sq n 1 f i' j 0 = if i' = i then bern 1 j s else if i' = prevIx n i then (if j = 1 then (1 - s) * ratVal sq 1 s else 0) else 0 := by
  have hfac : ∀ a b x : ℝ, factor 1 j 0 a b x = x * a := by
    intro a b x
    unfold factor
    rw [if_pos ⟨by omega, Or.inl (by omega)⟩, if_pos (by omega)]
  have hb0 : ∀ y : ℝ, bern 1 0 y = 1 - y := by intro y; simp [bern]
  unfold wt
  rw [hfac, hb0]
  by_cases a : i' = i
  · subst a
    rw [if_pos rfl, hs.self, hs.prevY]
    dsimp only
    rw [ratVal_one s0, sub_zero, mul_one, mul_one]
  · rw [if_neg a]
    by_cases c : i' = prevIx n i
    · have y2 : (f (prevIx n (prevIx n i))).y = 1 := by
        have hp : prevIx n i < n := prevIx_lt (by omega)
        have hpp : prevIx n (prevIx n i) < n := prevIx_lt (by omega)
        have key : prevIx n (prevIx n i) ≠ i ∧ prevIx n (prevIx n i) ≠ nextIx n i ∧ prevIx n (prevIx n i) ≠ prevIx n i := by
          rw [prevIx_eq hp, prevIx_eq hi, nextIx_eq hi]
          split_ifs <;> omega
        exact hs.far _ hpp key.1 key.2.1 key.2.2
      rw [if_pos c, c, hs.prevY, hs.prevX h1, y2, bern_at_one hj]
      split_ifs <;> ring
    · rw [if_neg c]
      by_cases b : i' = nextIx n i
      · rw [b, prevIx_nextIx hi, hs.self, ratVal_zero, mul_zero]
      · rw [hs.far i' hi' a b c, sub_self, mul_zero, zero_mul]

/-- C42 does not hold for degree 1: the value on side `i` differs from the curve by a positive multiple of the difference of the first corner point and the central
control point. (The expression `degree - 2` wraps around in line 92, so the weights of both columns are multiplied by `alpha`.) -/
theorem C42_degree_one (hε : 0 < ε) (hε1 : ε ≤ 1 / 2) (hn : 4 ≤ n) (h : Usable ε arc .side n 1 calls G) (hc : ∀ c ∈ calls, c.regular = true) {i : ℕ} (hi : i < n)
    {s : ℝ} (h0 : ε ≤ s) (h1 : s ≤ 1 - ε) : ∃ uv cp G', ∃ w : ℝ, G.dom.dom.edgePoint i s = .ok uv ∧ (∀ j ≤ 1, G.controlPoint i j 0 = .ok (cp j)) ∧
      G.eval ε uv = .ok (bezier 1 cp s + w • (cp 0 - G.central), G') ∧ 0 < w := by
  obtain ⟨uv, f, o, e1, e2, hs⟩ := h.onSide (by omega) hε (by linarith) hi (by linarith : 0 ≤ s) (by linarith)
  obtain ⟨_, hk, _, _, _⟩ := h.state (by omega)
  obtain ⟨F, hF, hcons⟩ := h.consistent (by omega) hc
  have s0 : 0 < s := by linarith
  have hp : prevIx n i < n := prevIx_lt (by omega)
  have hpi : prevIx n i ≠ i := prev_ne (by omega) hi
  have hw : 0 < ratVal G.squared 1 s := by
    unfold ratVal
    split_ifs <;> positivity
  have hcor : ∀ j < n, ε ≤ (f j).y + (f (nextIx n j)).y := by
    intro j hj
    rcases onSide_corners hε hε1 (by omega) hi hs (by linarith) (by linarith) hj with q | ⟨_, q⟩ | ⟨_, q⟩
    · exact q
    · linarith
    · linarith
  obtain ⟨G', e3⟩ := eval_side hk e2 (sideEval_eq hε hF hcor)
  refine ⟨uv, fun j => F i j 0, G', (1 - s) * ratVal G.squared 1 s, e1, fun j hj => hF.cpt hi hj (by omega), ?_, mul_pos (by linarith) hw⟩
  rw [e3]
  congr 2
  have key : ∀ {V : Type} [AddCommGroup V] [Module ℝ V] (P : ℕ → ℕ → ℕ → V), (∑ i' ∈ Finset.range n, ∑ k ∈ Finset.range ((1 + 1) / 2),
      ∑ j ∈ Finset.range (1 + 1), wt G.squared n 1 f i' j k • P i' j k) =
      (∑ j ∈ Finset.range (1 + 1), bern 1 j s • P i j 0) + ((1 - s) * ratVal G.squared 1 s) • P (prevIx n i) 1 0 := by
    intro V _ _ P
    rw [← Finset.sum_erase_add _ _ (Finset.mem_range.mpr hi), ← Finset.sum_erase_add _ _ (Finset.mem_erase.mpr ⟨hpi, Finset.mem_range.mpr hp⟩),
      Finset.sum_eq_zero, zero_add, add_comm]
    · congr 1
      · simp only [Nat.reduceAdd, Nat.reduceDiv, Finset.sum_range_one]
        apply Finset.sum_congr rfl
        intro j hj
        rw [Finset.mem_range] at hj
        rw [wt_one hn hi hs s0.ne' (by linarith) _ hi (by omega), if_pos rfl]
      · simp only [Nat.reduceAdd, Nat.reduceDiv, Finset.sum_range_one]
        rw [Finset.sum_range_succ, Finset.sum_range_one, wt_one hn hi hs s0.ne' (by linarith) _ hp (by omega), wt_one hn hi hs s0.ne' (by linarith) _ hp le_rfl,
          if_neg hpi, if_pos rfl, if_neg (by omega), zero_smul, zero_add, if_neg hpi, if_pos rfl, if_pos rfl]
    · intro i' hi'
      rw [Finset.mem_erase, Finset.mem_erase, Finset.mem_range] at hi'
      simp only [Nat.reduceAdd, Nat.reduceDiv, Finset.sum_range_one]
      apply Finset.sum_eq_zero
      intro j hj
      rw [Finset.mem_range] at hj
      rw [wt_one hn hi hs s0.ne' (by linarith) _ hi'.2.2 (by omega), if_neg hi'.2.1, if_neg hi'.1, zero_smul]
  have e4 := key (V := ℝ) (fun _ _ _ => 1)
  simp only [smul_eq_mul, mul_one] at e4
  have ec : F (prevIx n i) 1 0 = F i 0 0 := by
    have := hcons ⟨prevIx n i, 1, 0⟩ ⟨nextIx n (prevIx n i), 0, 0⟩ ⟨hp, le_rfl, by norm_num⟩ ⟨nextIx_lt (by omega), Nat.zero_le _, by norm_num⟩
      (samePoint_corner le_rfl hp)
    dsimp only at this
    rwa [nextIx_prevIx hi] at this
  rw [key, e4, bern_sum, ec]
  unfold bezier
  module

/-- A concrete patch of degree 1 that does not interpolate its (constant) boundary: a square with all points 0 except the central control point. -/
theorem C42_degree_one_fails : ∃ (calls : List (Call ℝ)) (G : GB ℝ), Usable (1 / 10000) (fun _ _ _ => 0) .side 4 1 calls G ∧ (∀ c ∈ calls, c.regular = true) ∧
    ∃ uv p G', G.dom.dom.edgePoint 0 (1 / 2) = .ok uv ∧ (∀ j ≤ 1, G.controlPoint 0 j 0 = .ok 0) ∧ G.eval (1 / 10000) uv = .ok (p, G') ∧
      p ≠ bezier 1 (fun _ => (0 : P3 ℝ)) (1 / 2 : ℝ) := by
  obtain ⟨G, hu, hr, hcen, _, hcp⟩ := built (ε := 1 / 10000) (arc := fun _ _ _ => 0) (n := 4) (d := 1) .side (by norm_num) le_rfl (Or.inl rfl) (w := []) (by simp)
    ⟨0, 0, 1⟩ false
  refine ⟨_, G, hu, hr, ?_⟩
  obtain ⟨uv, cp, G', w, e1, e2, e3, hw⟩ := C42_degree_one (by norm_num) (by norm_num) (by norm_num) hu hr (i := 0) (by norm_num) (s := 1 / 2) (by norm_num)
    (by norm_num)
  have z : ∀ j ≤ 1, G.controlPoint 0 j 0 = .ok 0 := fun j hj => hcp ⟨0, j, 0⟩ ⟨by norm_num, hj, by norm_num⟩
  have cp0 : ∀ j ≤ 1, cp j = 0 := fun j hj => Except.ok.inj ((e2 j hj).symm.trans (z j hj))
  refine ⟨uv, _, G', e1, z, e3, fun q => ?_⟩
  have hb : bezier 1 cp (1 / 2 : ℝ) = bezier 1 (fun _ => (0 : P3 ℝ)) (1 / 2 : ℝ) := by
    unfold bezier
    apply Finset.sum_congr rfl
    intro j hj
    rw [Finset.mem_range] at hj
    rw [cp0 j (by omega)]
  rw [hb, cp0 0 (by omega), hcen] at q
  have q := add_eq_left.mp q
  have qz := congrArg P3.z q
  change w * ((0 : ℝ) - 1) = 0 at qz
  linarith

/-! ### Examples -/

/-- C42_side, C42_corner, C43_sum, C43_corner: a cubic five-sided patch with some points set. -/
example : ∃ (calls : List (Call ℝ)) (G : GB ℝ), Usable (1 / 10000) (fun _ _ _ => 0) .side 5 3 calls G ∧ (∀ c ∈ calls, c.regular = true) ∧
    G.controlPoint 2 1 0 = .ok ⟨1, 2, 3⟩ ∧ G.squared = true := by
  obtain ⟨G, hu, hr, _, hsq, hcp⟩ := built (ε := 1 / 10000) (arc := fun _ _ _ => 0) (n := 5) (d := 3) .side (by norm_num) (by norm_num) (Or.inl rfl)
    (w := [(⟨2, 1, 0⟩, ⟨1, 2, 3⟩), (⟨2, 1, 1⟩, ⟨1, 2, 4⟩)]) (by
      intro x hx
      simp only [List.mem_cons, List.not_mem_nil, or_false] at hx
      rcases hx with rfl | rfl <;> simp [Name.InRange]) ⟨0, 0, 1⟩ true
  refine ⟨_, G, hu, hr, ?_, hsq⟩
  refine (hcp ⟨2, 1, 0⟩ (by simp [Name.InRange])).trans ?_
  simp [netValue, SamePoint, AtCorner]

/-- The condition of C43_sum on the distances holds for example at the points of a side away from its corners; so at these the sum over the weights is the Bézier
curve of C42. -/
example (hε : 0 < ε) (hε1 : ε ≤ 1 / 2) (hn : 3 ≤ n) (hd : 2 ≤ d) (h : Usable ε arc .side n d calls G) {i : ℕ} (hi : i < n) {s : ℝ} (h0 : ε ≤ s) (h1 : s ≤ 1 - ε) :
    ∃ uv W cp, G.dom.dom.edgePoint i s = .ok uv ∧
      (∀ i < n, ∀ j ≤ d, ∀ k < (d + 1) / 2, Prod.fst <$> G.weight ε i j k uv = .ok (W i j k) ∧ G.controlPoint i j k = .ok (cp i j k) ∧ 0 ≤ W i j k) ∧
      weightedSum n d W cp G.central = bezier d (fun j => cp i j 0) s := by
  obtain ⟨v, hdom⟩ := h.domain hn
  obtain ⟨uv, f, o, e1, e2, hs⟩ := h.onSide hn hε (by linarith) hi (by linarith : 0 ≤ s) (by linarith)
  have hin : InsideClosed n v uv := by
    rw [hdom.edgePoint hi] at e1
    cases e1
    exact hdom.insideClosed_side hi (by linarith) (by linarith)
  obtain ⟨f', o', e2', key⟩ := C43_sum hε (by linarith) hn h hdom.vertices_eq hin
  rw [e2] at e2'
  have ef : tab n f = tab n f' := congrArg Prod.fst (Except.ok.inj e2')
  obtain ⟨W, cp, p, G', q1, q2, q3⟩ := key (by
    intro j hj
    rw [← tab_inj ef hj, ← tab_inj ef (Nat.mod_lt _ (by omega))]
    rcases onSide_corners hε hε1 hn hi hs (by linarith) (by linarith) hj with q | ⟨_, q⟩ | ⟨_, q⟩
    · exact q
    · linarith
    · linarith)
  refine ⟨uv, W, cp, e1, q2, ?_⟩
  obtain ⟨uv', cp', G'', u1, u2, u3⟩ := C42_side hε hε1 hn hd h hi h0 h1
  rw [e1] at u1
  cases u1
  rw [q1] at u3
  have u4 : p = bezier d cp' s := congrArg Prod.fst (Except.ok.inj u3)
  rw [← q3, u4]
  unfold bezier
  apply Finset.sum_congr rfl
  intro j hj
  rw [Finset.mem_range] at hj
  have := (q2 i hi j (by omega) 0 (by omega)).2.1
  rw [u2 j (by omega)] at this
  rw [Except.ok.inj this]

/-- C42_curve: the hypotheses hold after building any patch. -/
example : ∃ G : GB ℝ, ∃ before later, (GB.new .side 0 0).run (1 / 10000) (fun _ _ _ => 0) (before ++ .loop :: later) = .ok G ∧ (∀ c ∈ before, c.regular = true) ∧
    (∀ c ∈ later, c.query = true) ∧ G.n = 6 ∧ G.degree = 5 := by
  obtain ⟨G1, e1, _, h1⟩ := writes_run (ε := 1 / 10000) (arc := fun _ _ _ => 0) (n := 6) (d := 5) (w := []) (by simp)
    (initBase_net (G := GB.new (K := ℝ) .side 0 0) (n := 6) (d := 5) (by rintro ⟨h, -⟩; change 6 = 0 at h; omega))
  obtain ⟨G2, e2⟩ := setupLoop_total (arc := fun _ _ _ => 0) h1 (by norm_num) (by norm_num)
  have k := (setupLoop_keeps e2).hasNet h1
  refine ⟨G2, [.init 6 5], [], ?_, by simp [Call.regular], by simp, k.n_eq, k.degree⟩
  have e1 : Except.ok ((GB.new (K := ℝ) .side 0 0).initBase 6 5) = Except.ok (ε := Fault) G1 := e1
  cases e1
  change (((GB.new (K := ℝ) .side 0 0).initBase 6 5).setupLoop (fun _ _ _ => 0) >>= fun G' => run (1 / 10000) (fun _ _ _ => 0) G' []) = _
  rw [e2]
  rfl

end GB

end Transfinite
