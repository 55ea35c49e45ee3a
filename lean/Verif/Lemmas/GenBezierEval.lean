import Verif.Lemmas.GenBezier
import Verif.Lemmas.Bernstein
import Verif.Spec.Patch

/-! Evaluation of Generalized Bézier patches as sums. -/

namespace Transfinite

namespace GB

open Spec

variable {K : Type} [Field K] [LinearOrder K] [Libm K]

/-- The value of `alpha` or `beta`. -/
def ratVal (squared : Bool) (x di : K) : K := if squared then x * x / (x * x + di * di) else x / (x + di)

variable [IsStrictOrderedRing K]

theorem rat_den {ε x di : K} (hε : 0 < ε) (h : ε ≤ x + di) : x + di ≠ 0 ∧ x * x + di * di ≠ 0 := by
  have h0 : 0 < x + di := lt_of_lt_of_le hε h
  refine ⟨h0.ne', fun h2 => ?_⟩
  have hx : x = 0 := by nlinarith [mul_self_nonneg x, mul_self_nonneg di, mul_self_eq_zero.mp (le_antisymm (by nlinarith [mul_self_nonneg di]) (mul_self_nonneg x) : x * x = 0)]
  have hd : di = 0 := mul_self_eq_zero.mp (le_antisymm (by nlinarith [mul_self_nonneg x]) (mul_self_nonneg di) : di * di = 0)
  rw [hx, hd] at h0
  simp at h0

theorem rational_eq {ε x di : K} (hε : 0 < ε) (h : ε ≤ x + di) (sq : Bool) : rational sq x di = .ok (ratVal sq x di) := by
  obtain ⟨h1, h2⟩ := rat_den hε h
  unfold rational ratVal
  cases sq
  · exact fdiv_of_ne h1
  · exact fdiv_of_ne h2

theorem rationalWeight_eq {ε x di : K} (hε : 0 < ε) (h : ε ≤ x + di) (sq : Bool) (b : K) : rationalWeight sq b x di = .ok (b * ratVal sq x di) := by
  obtain ⟨h1, h2⟩ := rat_den hε h
  unfold rationalWeight ratVal
  cases sq
  · refine (fdiv_of_ne h1).trans ?_
    simp only [Bool.false_eq_true, if_false, mul_div_assoc]
  · refine (fdiv_of_ne h2).trans ?_
    simp only [if_true, mul_div_assoc]

/-- The weight of `(i, j, k)` for the local parameters `f`, in a patch of `n` sides and degree `d`. -/
def wt (sq : Bool) (n d : ℕ) (f : ℕ → P2 K) (i j k : ℕ) : K :=
  factor d j k (ratVal sq (f (prevIx n i)).y (f i).y) (ratVal sq (f (nextIx n i)).y (f i).y) (bern d j (f i).x * bern d k (f i).y)

variable {ε : K} {G : GB K} {n d : ℕ} {F : ℕ → ℕ → ℕ → P3 K} {f : ℕ → P2 K}

theorem sideSum_eq (h : HasNet G n d F) {i : ℕ} (hi : i < n) (a b : K) (x y : ℕ → K) (st : P3 K × K) :
    G.sideSum i a b (tab (d + 1) x) (tab (d + 1) y) st = .ok (st + ∑ k ∈ Finset.range ((d + 1) / 2), ∑ j ∈ Finset.range (d + 1),
      (factor d j k a b (x j * y k) • F i j k, factor d j k a b (x j * y k))) := by
  unfold sideSum
  rw [h.layers, h.degree]
  apply forLoop_sum
  intro k s hk
  apply forLoop_sum
  intro j s hj
  rw [vget_tab _ hj, M_bind_ok, vget_tab _ (by omega), M_bind_ok, h.cpt hi (by omega) hk, M_bind_ok]
  rfl

theorem evalSide_eq (hε : 0 < ε) (h : HasNet G n d F) {i : ℕ} (hi : i < n) (c1 : ε ≤ (f i).y + (f (nextIx n i)).y)
    (c2 : ε ≤ (f (prevIx n i)).y + (f i).y) (st : P3 K × K) :
    G.evalSide ε (tab n f) i (.inr st) = .ok (.inr (st + ∑ k ∈ Finset.range ((d + 1) / 2), ∑ j ∈ Finset.range (d + 1),
      (wt G.squared n d f i j k • F i j k, wt G.squared n d f i j k))) := by
  unfold evalSide
  dsimp only
  rw [h.n_eq, h.degree, vget_tab _ hi, M_bind_ok, vget_tab _ (prevIx_lt (by omega)), M_bind_ok, vget_tab _ (nextIx_lt (by omega)), M_bind_ok,
    if_neg (not_lt.mpr c1), if_neg (not_lt.mpr c2), rational_eq hε c2, M_bind_ok, rational_eq hε (by rwa [add_comm]), M_bind_ok,
    bernsteinAll_eq, M_bind_ok, bernsteinAll_eq, M_bind_ok, sideSum_eq h hi, M_bind_ok]
  rfl

/-- Away from the corners. -/
theorem sideEval_eq (hε : 0 < ε) (h : HasNet G n d F) (hc : ∀ i < n, ε ≤ (f i).y + (f (nextIx n i)).y) :
    G.sideEval ε (tab n f) = .ok ((∑ i ∈ Finset.range n, ∑ k ∈ Finset.range ((d + 1) / 2), ∑ j ∈ Finset.range (d + 1), wt G.squared n d f i j k • F i j k) +
      (1 - ∑ i ∈ Finset.range n, ∑ k ∈ Finset.range ((d + 1) / 2), ∑ j ∈ Finset.range (d + 1), wt G.squared n d f i j k) • G.central) := by
  unfold sideEval
  have e := forLoop_eq (n := n) (body := G.evalSide ε (tab n f)) (s := .inr (0, 0))
    (fun m => .inr (∑ i ∈ Finset.range m, ∑ k ∈ Finset.range ((d + 1) / 2), ∑ j ∈ Finset.range (d + 1),
      (wt G.squared n d f i j k • F i j k, wt G.squared n d f i j k))) rfl (by
    intro i hi
    have hp := hc (prevIx n i) (prevIx_lt (by omega))
    rw [nextIx_prevIx hi] at hp
    rw [evalSide_eq hε h hi (hc i hi) hp, Finset.sum_range_succ])
  rw [h.n_eq, e, M_bind_ok]
  unfold evalEnd
  dsimp only
  simp only [Prod.fst_sum, Prod.snd_sum]

/-- Near exactly one corner, the end of side `c`. -/
theorem sideEval_corner (hε : 0 < ε) (h : HasNet G n d F) (hd : 1 ≤ d) {c : ℕ} (hcn : c < n) (hc : (f c).y + (f (nextIx n c)).y < ε)
    (hu : ∀ i < n, i ≠ c → ε ≤ (f i).y + (f (nextIx n i)).y) {p : P3 K} (p1 : F c d 0 = p) (p2 : F (nextIx n c) 0 0 = p) :
    G.sideEval ε (tab n f) = .ok p := by
  have hx : nextIx n c < n := nextIx_lt (by omega)
  have hpx : prevIx n (nextIx n c) = c := prevIx_nextIx hcn
  unfold sideEval
  obtain ⟨s, e, hs⟩ := forLoop_inv (n := n) (body := G.evalSide ε (tab n f)) (s := .inr (0, 0))
    (fun m st => (c < m ∨ nextIx n c < m → st = .inl p) ∧ (st = .inl p ∨ ∃ r, st = .inr r))
    ⟨fun q => by omega, Or.inr ⟨_, rfl⟩⟩ (by
    rintro i st hi ⟨q1, q2⟩
    rcases q2 with rfl | ⟨st, rfl⟩
    · exact ⟨.inl p, rfl, fun _ => rfl, Or.inl rfl⟩
    · have hic : ¬(c < i ∨ nextIx n c < i) := fun q => by simpa using q1 q
      by_cases a : i = c
      · refine ⟨.inl p, ?_, fun _ => rfl, Or.inl rfl⟩
        unfold evalSide
        dsimp only
        rw [h.n_eq, h.degree, vget_tab _ hi, M_bind_ok, vget_tab _ (prevIx_lt (by omega)), M_bind_ok, vget_tab _ (nextIx_lt (by omega)), M_bind_ok,
          a, if_pos hc, h.cpt hcn le_rfl (by omega), M_bind_ok, p1]
      · by_cases b : i = nextIx n c
        · refine ⟨.inl p, ?_, fun _ => rfl, Or.inl rfl⟩
          unfold evalSide
          dsimp only
          rw [h.n_eq, h.degree, vget_tab _ hi, M_bind_ok, vget_tab _ (prevIx_lt (by omega)), M_bind_ok, vget_tab _ (nextIx_lt (by omega)), M_bind_ok,
            if_neg (not_lt.mpr (hu i hi a)), b, hpx, if_pos hc, h.cpt hx (by omega) (by omega), M_bind_ok, p2]
        · have hp : prevIx n i ≠ c := fun q => b (by rw [← q, nextIx_prevIx hi])
          have c2 := hu (prevIx n i) (prevIx_lt (by omega)) hp
          rw [nextIx_prevIx hi] at c2
          refine ⟨_, evalSide_eq hε h hi (hu i hi a) c2 st, fun q => ?_, Or.inr ⟨_, rfl⟩⟩
          omega)
  rw [h.n_eq, e, M_bind_ok, hs.1 (Or.inl hcn)]
  rfl

theorem sideWeight_eq (hε : 0 < ε) (h : HasNet G n d F) {i j k : ℕ} (hi : i < n) (hj : j ≤ d) (hk : k < (d + 1) / 2)
    (hz : ¬(2 ≤ k ∧ (j < k ∨ usub d k < j)))
    (c1 : ε ≤ (f i).y + (f (nextIx n i)).y) (c2 : ε ≤ (f (prevIx n i)).y + (f i).y) :
    G.sideWeight ε i j k (tab n f) = .ok (wt G.squared n d f i j k) := by
  unfold sideWeight
  rw [h.n_eq, h.degree, vget_tab _ hi, M_bind_ok, vget_tab _ (prevIx_lt (by omega)), M_bind_ok, vget_tab _ (nextIx_lt (by omega)), M_bind_ok,
    if_neg (not_lt.mpr c1), if_neg (not_lt.mpr c2), bernsteinOne_eq hj, M_bind_ok, bernsteinOne_eq (by omega), M_bind_ok]
  unfold wt factor
  dsimp only
  split_ifs with q1 q2 q3 q4
  · exact rationalWeight_eq hε c2 _ _
  · exact rationalWeight_eq hε (by rwa [add_comm]) _ _
  · rfl
  · exfalso
    have hkd : usub d k = d - k := usub_of_le (by omega)
    rw [hkd] at hz q3 q4
    have h2 := usub_two_lt (d := d) (j := j) hj
    rw [h2] at q1
    omega
  · rfl

theorem weight_eq (hε : 0 < ε) (h : HasNet G n d F) (hk0 : G.kind = .side) {uv : P2 K} {o : Param.Obj K}
    (hm : Param.mapToRibbons ε G.kind.param uv G.param = .ok (tab n f, o)) {i j k : ℕ} (hi : i < n) (hj : j ≤ d) (hk : k < (d + 1) / 2)
    (c1 : ε ≤ (f i).y + (f (nextIx n i)).y) (c2 : ε ≤ (f (prevIx n i)).y + (f i).y) :
    Prod.fst <$> G.weight ε i j k uv = .ok (wt G.squared n d f i j k) := by
  unfold weight
  rw [hk0] at hm ⊢
  dsimp only
  rw [h.degree]
  by_cases hz : 2 ≤ k ∧ (j < k ∨ usub d k < j)
  · rw [if_pos hz]
    change Except.ok (0 : K) = _
    congr 1
    unfold wt factor
    rw [usub_of_le (show k ≤ d by omega)] at hz
    rw [if_neg (by omega), if_neg (by rw [usub_of_le (show k ≤ d by omega)]; omega), if_pos (by rw [usub_of_le (show k ≤ d by omega)]; exact hz.2)]
  · rw [if_neg hz, hm, M_bind_ok, sideWeight_eq hε h hi hj hk hz c1 c2, M_bind_ok]
    rfl

/-! ### On a side -/

theorem factor_zero (d j k : ℕ) (a b : K) : factor d j k a b 0 = 0 := by
  unfold factor
  simp

theorem factor_row (hd : 2 ≤ d) {j : ℕ} (hj : j ≤ d) (x : K) : factor d j 0 1 1 x = x := by
  unfold factor
  rw [usub_of_le hd, usub_of_le (Nat.zero_le d)]
  simp only [mul_one, ite_self, Nat.not_lt_zero, false_or]
  split_ifs
  · rfl
  · omega
  · omega
  · rfl

theorem ratVal_one {sq : Bool} {x : K} (hx : x ≠ 0) : ratVal sq x 0 = 1 := by
  unfold ratVal
  cases sq <;> simp [hx]

theorem ratVal_zero (sq : Bool) (x : K) : ratVal sq 0 x = 0 := by
  unfold ratVal
  cases sq <;> simp

/-- The local parameters on side `i` for Wachspress coordinates. -/
structure OnSide (ε : K) (n i : ℕ) (s : K) (f : ℕ → P2 K) : Prop where
  self : f i = ⟨s, 0⟩
  next : f (nextIx n i) = ⟨0, 1 - s⟩
  prevY : (f (prevIx n i)).y = s
  prevX : ε ≤ 1 - s → (f (prevIx n i)).x = 1
  far : ∀ j < n, j ≠ i → j ≠ nextIx n i → j ≠ prevIx n i → (f j).y = 1

theorem wt_side (hε : 0 < ε) (hn : 3 ≤ n) (hd : 2 ≤ d) {i : ℕ} (hi : i < n) {s : K} (h : OnSide ε n i s f) (h0 : ε ≤ s) (h1 : ε ≤ 1 - s) (sq : Bool)
    {i' j k : ℕ} (hi' : i' < n) (hj : j ≤ d) (hk : k < (d + 1) / 2) :
    wt sq n d f i' j k = if i' = i then (if k = 0 then bern d j s else 0) else 0 := by
  have s0 : s ≠ 0 := (lt_of_lt_of_le hε h0).ne'
  have s1 : 1 - s ≠ 0 := (lt_of_lt_of_le hε h1).ne'
  unfold wt
  by_cases a : i' = i
  · subst a
    rw [if_pos rfl, h.self, h.next, h.prevY]
    dsimp only
    rw [ratVal_one s0, ratVal_one s1, bern_at_zero]
    by_cases k0 : k = 0
    · rw [if_pos k0, if_pos k0, k0, mul_one, factor_row hd hj]
    · rw [if_neg k0, if_neg k0, mul_zero, factor_zero]
  · rw [if_neg a]
    by_cases b : i' = nextIx n i
    · subst b
      rw [prevIx_nextIx hi, h.self, h.next]
      dsimp only
      rw [ratVal_zero, bern_at_zero]
      by_cases j0 : j = 0
      · unfold factor
        rw [usub_of_le hd, usub_of_le (show k ≤ d by omega)]
        split_ifs with q1 q2 q3 q4
        · simp
        · omega
        · omega
        · rfl
        · omega
      · rw [if_neg j0, zero_mul, factor_zero]
    · by_cases c : i' = prevIx n i
      · subst c
        rw [nextIx_prevIx hi, h.self, h.prevX h1]
        dsimp only
        rw [ratVal_zero, bern_at_one hj]
        by_cases j0 : j = d
        · unfold factor
          rw [usub_of_le hd, usub_of_le (show k ≤ d by omega)]
          split_ifs with q1 q2 q3 q4
          · omega
          · simp
          · omega
          · rfl
          · omega
        · rw [if_neg j0, zero_mul, factor_zero]
      · rw [h.far i' hi' a b c, bern_at_one (show k ≤ d by omega), if_neg (by omega), mul_zero, factor_zero]

theorem onSide_y {i : ℕ} {s : K} (h : OnSide ε n i s f) {j : ℕ} (hj : j < n) :
    (f j).y = 0 ∧ j = i ∨ (f j).y = 1 - s ∧ j = nextIx n i ∨ (f j).y = s ∧ j = prevIx n i ∨ (f j).y = 1 ∧ j ≠ i ∧ j ≠ nextIx n i ∧ j ≠ prevIx n i := by
  by_cases a : j = i
  · exact Or.inl ⟨by rw [a, h.self], a⟩
  · by_cases b : j = nextIx n i
    · exact Or.inr (Or.inl ⟨by rw [b, h.next], b⟩)
    · by_cases c : j = prevIx n i
      · exact Or.inr (Or.inr (Or.inl ⟨by rw [c, h.prevY], c⟩))
      · exact Or.inr (Or.inr (Or.inr ⟨h.far j hj a b c, a, b, c⟩))

theorem onSide_corners (hε : 0 < ε) (hε1 : ε ≤ 1 / 2) (hn : 3 ≤ n) {i : ℕ} (hi : i < n) {s : K} (h : OnSide ε n i s f) (h0 : 0 ≤ s) (h1 : s ≤ 1)
    {j : ℕ} (hj : j < n) : ε ≤ (f j).y + (f (nextIx n j)).y ∨ j = i ∧ 1 - s < ε ∨ j = prevIx n i ∧ s < ε := by
  have hy : ∀ j < n, 0 ≤ (f j).y := by
    intro j hj
    rcases onSide_y h hj with ⟨e, _⟩ | ⟨e, _⟩ | ⟨e, _⟩ | ⟨e, _⟩ <;> rw [e] <;> linarith
  have hx := hy (nextIx n j) (nextIx_lt (by omega))
  rcases onSide_y h hj with ⟨e, rfl⟩ | ⟨e, e'⟩ | ⟨e, rfl⟩ | ⟨e, _⟩
  · rw [e, h.next, zero_add]
    rcases le_or_gt ε (1 - s) with q | q
    · exact Or.inl q
    · exact Or.inr (Or.inl ⟨rfl, q⟩)
  · left
    have hjj : nextIx n j ≠ i ∧ nextIx n j ≠ nextIx n i := by
      subst e'
      refine ⟨fun q => ?_, fun q => ?_⟩
      · unfold nextIx at q
        have := Nat.mod_add_div (i + 1) n
        rcases Nat.lt_or_ge (i + 1) n with w | w
        · rw [Nat.mod_eq_of_lt w] at q
          rcases Nat.lt_or_ge (i + 1 + 1) n with w' | w'
          · rw [Nat.mod_eq_of_lt w'] at q; omega
          · rw [show i + 1 + 1 = n by omega, Nat.mod_self] at q; omega
        · rw [show i + 1 = n by omega, Nat.mod_self, Nat.mod_eq_of_lt (by omega)] at q; omega
      · have := congrArg (prevIx n) q
        rw [prevIx_nextIx (nextIx_lt (by omega)), prevIx_nextIx hi] at this
        unfold nextIx at this
        rcases Nat.lt_or_ge (i + 1) n with w | w
        · rw [Nat.mod_eq_of_lt w] at this; omega
        · rw [show i + 1 = n by omega, Nat.mod_self] at this; omega
    rcases onSide_y h (nextIx_lt (by omega) : nextIx n j < n) with ⟨_, q⟩ | ⟨_, q⟩ | ⟨q, _⟩ | ⟨q, _⟩
    · exact absurd q hjj.1
    · exact absurd q hjj.2
    · rw [e, q]; linarith
    · rw [e, q]; linarith
  · rw [nextIx_prevIx hi, h.self, h.prevY, add_zero]
    rcases le_or_gt ε s with q | q
    · exact Or.inl q
    · exact Or.inr (Or.inr ⟨rfl, q⟩)
  · left; rw [e]; linarith

theorem sideEval_side (hε : 0 < ε) (hε1 : ε ≤ 1 / 2) (hn : 3 ≤ n) (h : HasNet G n d F) (hd : 2 ≤ d) {i : ℕ} (hi : i < n) {s : K} (hs : OnSide ε n i s f)
    (h0 : ε ≤ s) (h1 : ε ≤ 1 - s) : G.sideEval ε (tab n f) = .ok (bezier d (fun j => F i j 0) s) := by
  have hc : ∀ j < n, ε ≤ (f j).y + (f (nextIx n j)).y := by
    intro j hj
    rcases onSide_corners hε hε1 hn hi hs (by linarith) (by linarith) hj with q | ⟨_, q⟩ | ⟨_, q⟩
    · exact q
    · exact absurd q (not_lt.mpr h1)
    · exact absurd q (not_lt.mpr h0)
  have hl : 0 < (d + 1) / 2 := by omega
  rw [sideEval_eq hε h hc]
  have e1 : ∀ {V : Type} [AddCommGroup V] [Module K V] (P : ℕ → ℕ → ℕ → V), (∑ i' ∈ Finset.range n, ∑ k ∈ Finset.range ((d + 1) / 2), ∑ j ∈ Finset.range (d + 1),
      wt G.squared n d f i' j k • P i' j k) = ∑ j ∈ Finset.range (d + 1), bern d j s • P i j 0 := by
    intro V _ _ P
    rw [Finset.sum_eq_single i, Finset.sum_eq_single 0]
    · apply Finset.sum_congr rfl
      intro j hj
      rw [Finset.mem_range] at hj
      rw [wt_side hε hn hd hi hs h0 h1 G.squared hi (by omega) hl, if_pos rfl, if_pos rfl]
    · intro k hk hk0
      rw [Finset.mem_range] at hk
      apply Finset.sum_eq_zero
      intro j hj
      rw [Finset.mem_range] at hj
      rw [wt_side hε hn hd hi hs h0 h1 G.squared hi (by omega) hk, if_pos rfl, if_neg hk0, zero_smul]
    · intro q; exact absurd (Finset.mem_range.mpr hl) q
    · intro i' hi' hne
      rw [Finset.mem_range] at hi'
      apply Finset.sum_eq_zero
      intro k hk
      apply Finset.sum_eq_zero
      intro j hj
      rw [Finset.mem_range] at hj hk
      rw [wt_side hε hn hd hi hs h0 h1 G.squared hi' (by omega) hk, if_neg hne, zero_smul]
    · intro q; exact absurd (Finset.mem_range.mpr hi) q
  have e2 := e1 (V := K) (fun _ _ _ => 1)
  simp only [smul_eq_mul, mul_one] at e2
  rw [e1, e2, bern_sum, sub_self, zero_smul, add_zero]
  rfl

end GB

end Transfinite
