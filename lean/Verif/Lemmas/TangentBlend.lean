import Verif.Lemmas.TangentSurf

/-! # Derivatives of the surfaces with singular blends, at a side -/

namespace Transfinite

namespace Surf

open Spec Set Filter Topology

/-- Local parameters `f t` along a path that starts at the point `s` of side `i`, with derivatives `x'` and `y'` for this side and its neighbours. -/
structure SidePath (ε : ℝ) (n i : ℕ) (s : ℝ) (f : ℝ → ℕ → P2 ℝ) (x' y' : ℕ → ℝ) : Prop where
  self : f 0 i = ⟨s, 0⟩
  next : f 0 (nextIx n i) = ⟨0, 1 - s⟩
  prev : f 0 (prevIx n i) = ⟨1, s⟩
  dx : ∀ j, j = i ∨ j = nextIx n i ∨ j = prevIx n i → RightDer (fun t => (f t j).x) (x' j)
  dy : ∀ j, j = i ∨ j = nextIx n i ∨ j = prevIx n i → RightDer (fun t => (f t j).y) (y' j)
  range : ∀ᶠ t in near0, ∀ j < n, (0 ≤ (f t j).x ∧ (f t j).x ≤ 1) ∧ 0 ≤ (f t j).y
  far : ∀ᶠ t in near0, ∀ j < n, j ≠ i → ε ≤ (f t j).y

/-- The weight of the corner at the end of the side. -/
noncomputable def endWeight (s : ℝ) : ℝ := s ^ 2 / ((1 - s) ^ 2 + s ^ 2)

/-! ### Bounded and negligible functions -/

/-- A bound of the coordinates. -/
def Bd (C : ℝ) (p : P3 ℝ) : Prop := |p.x| ≤ C ∧ |p.y| ≤ C ∧ |p.z| ≤ C

theorem Bd.add {C D : ℝ} {p q : P3 ℝ} (h : Bd C p) (k : Bd D q) : Bd (C + D) (p + q) :=
  ⟨(abs_add_le _ _).trans (add_le_add h.1 k.1), (abs_add_le _ _).trans (add_le_add h.2.1 k.2.1), (abs_add_le _ _).trans (add_le_add h.2.2 k.2.2)⟩

theorem Bd.neg {C : ℝ} {p : P3 ℝ} (h : Bd C p) : Bd C (-p) :=
  ⟨(abs_neg _).trans_le h.1, (abs_neg _).trans_le h.2.1, (abs_neg _).trans_le h.2.2⟩

theorem Bd.sub {C D : ℝ} {p q : P3 ℝ} (h : Bd C p) (k : Bd D q) : Bd (C + D) (p - q) := by rw [sub_eq_add_neg]; exact h.add k.neg

theorem Bd.smul {C a : ℝ} {p : P3 ℝ} (ha : |a| ≤ 1) (h : Bd C p) : Bd C (a • p) := by
  have one : ∀ x : ℝ, |x| ≤ C → |a * x| ≤ C := fun x hx => by
    rw [abs_mul]
    exact (mul_le_of_le_one_left (abs_nonneg _) ha).trans hx
  exact ⟨one _ h.1, one _ h.2.1, one _ h.2.2⟩

theorem Bd.self (p : P3 ℝ) : Bd (|p.x| + |p.y| + |p.z|) p := by
  have := abs_nonneg p.x
  have := abs_nonneg p.y
  have := abs_nonneg p.z
  exact ⟨by linarith, by linarith, by linarith⟩

/-- A differentiable curve on the unit interval is bounded. -/
theorem unit_bd {F F' : ℝ → P3 ℝ} (h : ∀ s, 0 ≤ s → s ≤ 1 → UnitDer F (F' s) s) : ∃ C, ∀ s, 0 ≤ s → s ≤ 1 → Bd C (F s) := by
  have one : ∀ g g' : ℝ → ℝ, (∀ s, 0 ≤ s → s ≤ 1 → HasDerivWithinAt g (g' s) (Icc 0 1) s) → ∃ C, ∀ s, 0 ≤ s → s ≤ 1 → |g s| ≤ C := by
    intro g g' hg
    obtain ⟨C, hC⟩ := isCompact_Icc.exists_bound_of_continuousOn (f := g) (s := Icc 0 1) fun s hs => (hg s hs.1 hs.2).continuousWithinAt
    exact ⟨C, fun s h0 h1 => hC s ⟨h0, h1⟩⟩
  obtain ⟨C1, h1⟩ := one (fun t => (F t).x) (fun t => (F' t).x) fun s a b => (h s a b).1
  obtain ⟨C2, h2⟩ := one (fun t => (F t).y) (fun t => (F' t).y) fun s a b => (h s a b).2.1
  obtain ⟨C3, h3⟩ := one (fun t => (F t).z) (fun t => (F' t).z) fun s a b => (h s a b).2.2
  exact ⟨max C1 (max C2 C3), fun s a b => ⟨(h1 s a b).trans (le_max_left _ _), (h2 s a b).trans ((le_max_left _ _).trans (le_max_right _ _)),
    (h3 s a b).trans ((le_max_right _ _).trans (le_max_right _ _))⟩⟩

/-- A function that vanishes with its derivative, even when multiplied by a bounded function. -/
def Small (u : ℝ → ℝ) : Prop := u 0 = 0 ∧ ∀ (v : ℝ → ℝ) (C : ℝ), (∀ᶠ t in near0, |v t| ≤ C) → RightDer (fun t => u t * v t) 0

theorem Small.zero {u : ℝ → ℝ} (h : ∀ᶠ t in near0, u t = 0) : Small u :=
  ⟨h.self_of_nhdsWithin (by simp), fun _ _ _ => (RightDer.const 0).congr (h.mono fun t q => by rw [q, zero_mul])⟩

theorem Small.der {u : ℝ → ℝ} (h : Small u) : RightDer u 0 :=
  (h.2 (fun _ => 1) 1 (Eventually.of_forall fun _ => by norm_num)).congr (Eventually.of_forall fun t => by rw [mul_one])

theorem Small.sq {g : ℝ → ℝ} {g' : ℝ} (h : RightDer g g') (h0 : g 0 = 0) : Small fun t => g t ^ 2 := by
  refine ⟨by simp [h0], fun v C hv => RightDer.of_sq (C := C) h h0 (hv.mono fun t q => ?_)⟩
  rw [abs_mul, abs_of_nonneg (sq_nonneg _), mul_comm]
  exact mul_le_mul_of_nonneg_right q (sq_nonneg _)

theorem Small.add {u v : ℝ → ℝ} (h : Small u) (k : Small v) : Small fun t => u t + v t :=
  ⟨by simp [h.1, k.1], fun w C hw => (((h.2 w C hw).add (k.2 w C hw)).congr (Eventually.of_forall fun t => by rw [add_mul])).congr_der (add_zero 0)⟩

theorem Small.mul {u v : ℝ → ℝ} {C : ℝ} (h : Small u) (hv : ∀ᶠ t in near0, |v t| ≤ C) : Small fun t => u t * v t := by
  refine ⟨by simp [h.1], fun w D hw => (h.2 (fun t => v t * w t) (C * D) ?_).congr (Eventually.of_forall fun t => by rw [mul_assoc])⟩
  filter_upwards [hv, hw] with t a b
  rw [abs_mul]
  exact mul_le_mul a b (abs_nonneg _) ((abs_nonneg _).trans a)

theorem Small.congr {u v : ℝ → ℝ} (h : Small u) (e : ∀ᶠ t in near0, v t = u t) : Small v :=
  ⟨(e.self_of_nhdsWithin (by simp)).trans h.1, fun w C hw => (h.2 w C hw).congr (e.mono fun t q => by rw [q])⟩

theorem Small.mono {u v : ℝ → ℝ} (h : Small v) (e : ∀ᶠ t in near0, |u t| ≤ |v t|) (h0 : u 0 = 0) : Small u := by
  refine ⟨h0, fun w C hw => ?_⟩
  have k := h.2 (fun t => u t / v t * w t) C (by
    filter_upwards [e, hw] with t a b
    rw [abs_mul, abs_div]
    exact (mul_le_of_le_one_left (abs_nonneg _) (div_le_one_of_le₀ a (abs_nonneg _))).trans b)
  refine k.congr ?_
  filter_upwards [e] with t a
  by_cases z : v t = 0
  · rw [z, abs_zero] at a
    rw [z, abs_eq_zero.mp (le_antisymm a (abs_nonneg _))]
    ring
  · field_simp

theorem Small.smul {u : ℝ → ℝ} {F : ℝ → P3 ℝ} {C : ℝ} (h : Small u) (hF : ∀ᶠ t in near0, Bd C (F t)) : RightDer3 (fun t => u t • F t) 0 :=
  ⟨h.2 _ C (hF.mono fun _ q => q.1), h.2 _ C (hF.mono fun _ q => q.2.1), h.2 _ C (hF.mono fun _ q => q.2.2)⟩

/-! ### Blends -/

/-- Blend functions along a path from a point of side `i`: two of them count, with sum 1 up to the first order. -/
structure BlendPath (n i : ℕ) (B : ℝ → ℕ → ℝ) (b0 β : ℝ) : Prop where
  self : RightDer (fun t => B t i) β
  prev : RightDer (fun t => B t (prevIx n i)) (-β)
  self0 : B 0 i = b0
  prev0 : B 0 (prevIx n i) = 1 - b0
  small : ∀ j < n, j ≠ i → j ≠ prevIx n i → Small fun t => B t j

/-- A sum over the sides with two terms that count. -/
theorem sum_two {α : Type} [AddCommMonoid α] {n i : ℕ} (hn : 3 ≤ n) (hi : i < n) {q : ℕ → α} (h0 : ∀ j < n, j ≠ i → j ≠ prevIx n i → q j = 0) :
    ∑ j ∈ Finset.range n, q j = q i + q (prevIx n i) := by
  have hp : prevIx n i < n := prevIx_lt (by omega)
  exact Finset.sum_eq_add_of_mem i (prevIx n i) (Finset.mem_range.mpr hi) (Finset.mem_range.mpr hp) (Param.prev_ne (by omega) hi).symm
    fun j hj hne => h0 j (Finset.mem_range.mp hj) hne.1 hne.2

/-- The sum of the blends. -/
theorem BlendPath.total {n i : ℕ} {B : ℝ → ℕ → ℝ} {b0 β : ℝ} (h : BlendPath n i B b0 β) (hn : 3 ≤ n) (hi : i < n) :
    ∑ j ∈ Finset.range n, B 0 j = 1 ∧ RightDer (fun t => ∑ j ∈ Finset.range n, B t j) 0 := by
  have hpi : prevIx n i ≠ i := Param.prev_ne (by omega) hi
  constructor
  · rw [sum_two (q := B 0) hn hi fun j hj a b => (h.small j hj a b).1, h.self0, h.prev0]
    ring
  · have one : ∀ j < n, RightDer (fun t => B t j) (if j = i then β else if j = prevIx n i then -β else 0) := by
      intro j hj
      by_cases h1 : j = i
      · rw [if_pos h1, h1]; exact h.self
      · rw [if_neg h1]
        by_cases h2 : j = prevIx n i
        · rw [if_pos h2, h2]; exact h.prev
        · rw [if_neg h2]; exact (h.small j hj h1 h2).der
    refine (RightDer.sum one).congr_der ?_
    rw [sum_two hn hi fun j hj a b => by simp [a, b], if_pos rfl, if_neg hpi, if_pos rfl, add_neg_cancel]

/-- A blend of curves: those of the two corners start at the same point. -/
theorem BlendPath.der {n i : ℕ} {B : ℝ → ℕ → ℝ} {b0 β : ℝ} (h : BlendPath n i B b0 β) (hn : 3 ≤ n) (hi : i < n) {Q : ℝ → ℕ → P3 ℝ} {p q' r' : P3 ℝ}
    (h1 : Q 0 i = p) (h2 : Q 0 (prevIx n i) = p) (d1 : RightDer3 (fun t => Q t i) q') (d2 : RightDer3 (fun t => Q t (prevIx n i)) r')
    (hb : ∀ j < n, ∃ C, ∀ᶠ t in near0, Bd C (Q t j)) :
    ∑ j ∈ Finset.range n, B 0 j • Q 0 j = p ∧ RightDer3 (fun t => ∑ j ∈ Finset.range n, B t j • Q t j) (b0 • q' + (1 - b0) • r') := by
  have hpi : prevIx n i ≠ i := Param.prev_ne (by omega) hi
  constructor
  · rw [sum_two hn hi fun j hj a b => by rw [show B 0 j = 0 from (h.small j hj a b).1, zero_smul], h.self0, h.prev0, h1, h2]
    module
  · have one : ∀ j < n, RightDer3 (fun t => B t j • Q t j) (if j = i then β • p + b0 • q' else if j = prevIx n i then -β • p + (1 - b0) • r' else 0) := by
      intro j hj
      by_cases e1 : j = i
      · rw [if_pos e1, e1]
        refine (RightDer3.smul h.self d1).congr_der ?_
        rw [h1, h.self0]
      · rw [if_neg e1]
        by_cases e2 : j = prevIx n i
        · rw [if_pos e2, e2]
          refine (RightDer3.smul h.prev d2).congr_der ?_
          rw [h2, h.prev0]
        · rw [if_neg e2]
          obtain ⟨C, hC⟩ := hb j hj
          exact (h.small j hj e1 e2).smul hC
    refine (RightDer3.sum one).congr_der ?_
    rw [sum_two hn hi fun j hj a b => by simp [a, b], if_pos rfl, if_neg hpi, if_pos rfl]
    module

section

variable {ε : ℝ} {S : Surf ℝ} {n i : ℕ} {c : ℕ → Curve ℝ} {T T' : ℕ → ℝ → P3 ℝ} {w1 w2 : ℕ → P3 ℝ} {s : ℝ} {f : ℝ → ℕ → P2 ℝ} {x' y' : ℕ → ℝ}

theorem SidePath.close (hf : SidePath ε n i s f x' y') (hε : 0 < ε) : ∀ᶠ t in near0, (f t i).y < ε :=
  (hf.dy i (Or.inl rfl)).lt (by rw [hf.self]; exact hε)

theorem SidePath.rangeX (hf : SidePath ε n i s f x' y') {j : ℕ} (hj : j < n) : ∀ᶠ t in near0, 0 ≤ (f t j).x ∧ (f t j).x ≤ 1 :=
  hf.range.mono fun _ h => (h j hj).1

theorem SidePath.nextX (hf : SidePath ε n i s f x' y') : (f 0 (nextIx n i)).x = 0 := by rw [hf.next]
theorem SidePath.nextY (hf : SidePath ε n i s f x' y') : (f 0 (nextIx n i)).y = 1 - s := by rw [hf.next]
theorem SidePath.prevX (hf : SidePath ε n i s f x' y') : (f 0 (prevIx n i)).x = 1 := by rw [hf.prev]
theorem SidePath.prevY (hf : SidePath ε n i s f x' y') : (f 0 (prevIx n i)).y = s := by rw [hf.prev]
theorem SidePath.selfX (hf : SidePath ε n i s f x' y') : (f 0 i).x = s := by rw [hf.self]
theorem SidePath.selfY (hf : SidePath ε n i s f x' y') : (f 0 i).y = 0 := by rw [hf.self]

/-- The singular corner blends near a side. -/
theorem blend_path (hf : SidePath ε n i s f x' y') (hε : 0 < ε) (hn : 3 ≤ n) (hi : i < n) (s0 : 0 < s) (s1 : s < 1) :
    ∃ (B : ℝ → ℕ → ℝ) (β : ℝ), (∀ᶠ t in near0, blendCorner ε n (tab n (f t)) = .ok (tab n (B t))) ∧ BlendPath n i B (endWeight s) β := by
  have hp : prevIx n i < n := prevIx_lt (by omega)
  have hx : nextIx n i < n := nextIx_lt (by omega)
  have hpi : prevIx n i ≠ i := Param.prev_ne (by omega) hi
  have hxi : nextIx n i ≠ i := Param.next_ne (by omega) hi
  have hev : ∀ᶠ t in near0, (f t i).y < ε ∧ ∀ j < n, j ≠ i → ε ≤ (f t j).y := (hf.close hε).and hf.far
  have key : ∀ t, ∃ b : ℕ → ℝ, (f t i).y < ε ∧ (∀ j < n, j ≠ i → ε ≤ (f t j).y) → blendCorner ε n (tab n (f t)) = .ok (tab n b) ∧ b (prevIx n i) = 1 - b i ∧
      (∀ j < n, j ≠ i → j ≠ prevIx n i → b j = 0) ∧ b i = (f t (prevIx n i)).y ^ 2 / ((f t (nextIx n i)).y ^ 2 + (f t (prevIx n i)).y ^ 2) := by
    intro t
    by_cases h : (f t i).y < ε ∧ ∀ j < n, j ≠ i → ε ≤ (f t j).y
    · obtain ⟨b, e, _, _, h1, h0, h2⟩ := C28_corner_side hε hn hi h.1 h.2
      refine ⟨b, fun _ => ⟨e, by linarith [h1, show b (prevIx n i) = b ((i + n - 1) % n) from rfl], h0, ?_⟩⟩
      have q1 : 0 < (f t (nextIx n i)).y := hε.trans_le (h.2 _ hx hxi)
      have q2 : 0 < (f t (prevIx n i)).y := hε.trans_le (h.2 _ hp hpi)
      rw [eq_div_iff (by positivity)]
      change b i * (f t (nextIx n i)).y ^ 2 = b (prevIx n i) * (f t (prevIx n i)).y ^ 2 at h2
      change b i + b (prevIx n i) = 1 at h1
      rw [show b (prevIx n i) = 1 - b i by linarith] at h2
      linarith
    · exact ⟨0, fun q => absurd q h⟩
  choose B hB using key
  have d1 := hf.dy _ (Or.inr (Or.inl rfl))
  have d2 := hf.dy _ (Or.inr (Or.inr rfl))
  have e0 := hB 0 (hev.self_of_nhdsWithin (by simp))
  have hq : (f 0 (nextIx n i)).y * (f 0 (nextIx n i)).y + (f 0 (prevIx n i)).y * (f 0 (prevIx n i)).y ≠ 0 := by
    rw [hf.nextY, hf.prevY]
    have : 0 < 1 - s := by linarith
    positivity
  have dB := ((d2.mul d2).div ((d1.mul d1).add (d2.mul d2)) hq).congr (g := fun t => B t i) (hev.mono fun t ht => by rw [(hB t ht).2.2.2, sq, sq])
  have hB0 : B 0 i = endWeight s := by
    rw [e0.2.2.2, hf.nextY, hf.prevY]
    rfl
  refine ⟨B, _, hev.mono fun t ht => (hB t ht).1, dB, (((RightDer.const 1).sub dB).congr (hev.mono fun t ht => (hB t ht).2.1)).congr_der (by ring), hB0,
    by rw [e0.2.1, hB0], fun j hj a b => Small.zero (hev.mono fun t ht => (hB t ht).2.2.1 j hj a b)⟩

/-- Side-based surfaces. -/
theorem sideBased_der (h : Smooth ε S n c T T' w1 w2) (hε : 0 < ε) (hi : i < n) {x y : ℝ → ℝ} {x1 y1 : ℝ} (hx : RightDer x x1) (hy : RightDer y y1) (hx0 : x 0 = s) (hy0 : y 0 = 0)
    (hr : ∀ᶠ t in near0, (0 ≤ x t ∧ x t ≤ 1) ∧ 0 ≤ y t) (hf : ∀ᶠ t in near0, f t i = ⟨x t, y t⟩ ∧ ∀ j < n, j ≠ i → ε ≤ (f t j).y) :
    ∃ X : ℝ → P3 ℝ, (∀ᶠ t in near0, S.sideBased ε (tab n (f t)) = .ok (X t)) ∧ X 0 = (c i).pt s ∧ RightDer3 X (x1 • (c i).der s + y1 • T i s) := by
  have hn := h.hn
  refine ⟨fun t => S.sideF c T i (x t) (y t), ?_, ?_, ?_⟩
  · filter_upwards [hr, hf, hy.lt (c := ε) (by rw [hy0]; exact hε)] with t ht hft hc
    obtain ⟨⟨x0, x1⟩, y0⟩ := ht
    obtain ⟨hfi, hfar⟩ := hft
    obtain ⟨b, e, _, hsum, _, hz, _⟩ := C28_side hε (n := n) (by omega) (f t)
    have hb0 : ∀ j < n, j ≠ i → b j = 0 := fun j hj hne => hz i hi j hj (by rw [hfi]; exact hc) (hfar j hj hne)
    have hb1 : b i = 1 := by
      rw [← hsum, Finset.sum_eq_single i]
      · intro j hj hne; exact hb0 j (Finset.mem_range.mp hj) hne
      · intro hni; exact absurd (Finset.mem_range.mpr hi) hni
    have hs : ∀ j < n, ∃ q, S.sideInterpolant ε j (f t j).x (f t j).y = .ok q := by
      intro j hj
      refine h.compatible.side_ok hj _ ?_
      by_cases hji : j = i
      · rw [hji, hfi]; exact y0
      · exact hε.le.trans (hfar j hj hji)
    choose! q hq using hs
    unfold sideBased
    rw [h.len, e, M_bind_ok, forLoop_sum n _ (fun j => b j • q j), zero_add]
    · congr 1
      rw [Finset.sum_eq_single i, hb1, one_smul]
      · have e := hq i hi
        rw [hfi] at e
        dsimp only at e
        rw [h.side_eq hi x0 x1 y0] at e
        exact (Except.ok.inj e).symm
      · intro j hj hne; rw [hb0 j (Finset.mem_range.mp hj) hne, zero_smul]
      · intro hni; exact absurd (Finset.mem_range.mpr hi) hni
    · intro j p hj
      rw [vget_tab _ hj, M_bind_ok, hq j hj, M_bind_ok, vget_tab _ hj, M_bind_ok]
  · dsimp only
    unfold sideF
    rw [hx0, hy0, gam_zero, zero_smul, add_zero]
  · refine (h.side_der hi hx hy (hr.mono fun t q => q.1) hy0.ge).congr_der ?_
    rw [hx0, hy0, gam'_zero, gam_zero, one_mul, zero_smul, add_zero]

/-- The sum in the conditions of the corner corrections. -/
theorem gam_sum {a b : ℝ} (hε : 0 < ε) (a0 : 3 * ε ≤ a) (a1 : a ≤ 1) (b0 : 0 ≤ b) : ε ≤ S.gam a + S.gam b := by
  have := S.gam_third (d := a) (by linarith) a1
  have := S.gam_nonneg b0
  linarith

/-- The twist errors of the corners of side `i`, with the factors of the side parameters `a` and `b`. -/
noncomputable def twistError (S : Surf ℝ) (n : ℕ) (T' : ℕ → ℝ → P3 ℝ) (w1 w2 : ℕ → P3 ℝ) (i : ℕ) (s a b : ℝ) : P3 ℝ :=
  (S.gam (1 - s) * a) • (T' (nextIx n i) 0 - w2 i) + (S.gam s * b) • (-T' (prevIx n i) 1 - w1 (prevIx n i))

end

end Surf

end Transfinite
