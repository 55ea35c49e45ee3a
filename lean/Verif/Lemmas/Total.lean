import Verif.Lemmas.PatchSide
import Verif.Lemmas.RegularBilinear

/-! Evaluation of the surfaces is defined. -/

namespace Transfinite

open Spec

namespace Surf

variable {K : Type} [Field K] [LinearOrder K] [IsStrictOrderedRing K] [Libm K]

theorem blendCorner_total {ε : K} (hε : 0 < ε) {n : ℕ} (hn : 3 ≤ n) (f : ℕ → P2 K) :
    ∃ b : ℕ → K, blendCorner ε n (tab n f) = .ok (tab n b) := by
  by_cases h0 : ∀ j < n, ε ≤ (f j).y
  · obtain ⟨b, h, _⟩ := C28_corner_inside hε (by omega) h0
    exact ⟨b, h⟩
  · push Not at h0
    obtain ⟨i, hi, h0⟩ := h0
    by_cases h1 : ∀ j < n, j ≠ i → ε ≤ (f j).y
    · obtain ⟨b, h, _⟩ := C28_corner_side hε hn hi h0 h1
      exact ⟨b, h⟩
    · push Not at h1
      obtain ⟨k, hk, hki, h1⟩ := h1
      obtain ⟨b, h, _⟩ := C28_corner_several (by omega) hi hk hki.symm h0 h1
      exact ⟨b, h⟩

/-- A sum over the sides is defined when its terms are. -/
theorem forLoop_add_total {n : ℕ} {g : ℕ → P3 K → M (P3 K)} (h : ∀ i < n, ∃ q, ∀ p, g i p = .ok (p + q)) (p0 : P3 K) :
    ∃ p, forLoop n g p0 = .ok p := by
  induction n with
  | zero => exact ⟨p0, by simp⟩
  | succ n ih =>
    obtain ⟨p, hp⟩ := ih (fun i hi => h i (by omega))
    obtain ⟨q, hq⟩ := h n (by omega)
    rw [forLoop_succ, hp, M_bind_ok, hq]
    exact ⟨_, rfl⟩

/-- The local parameters are in the unit square. -/
def InSquare (n : ℕ) (f : ℕ → P2 K) : Prop := ∀ j < n, 0 ≤ (f j).x ∧ (f j).x ≤ 1 ∧ 0 ≤ (f j).y ∧ (f j).y ≤ 1

namespace Compatible

variable {ε : K} {S : Surf K} {n : ℕ} {c : ℕ → Curve K}

theorem sideBased_total (h : Compatible ε S n c) (hε : 0 < ε) {f : ℕ → P2 K} (hf : ∀ j < n, 0 ≤ (f j).y) :
    ∃ p, S.sideBased ε (tab n f) = .ok p := by
  have hn := h.hn
  obtain ⟨b, hb, _⟩ := C28_side hε (n := n) (by omega) f
  unfold sideBased
  rw [hb, M_bind_ok, h.len]
  apply forLoop_add_total
  intro i hi
  obtain ⟨q, hq⟩ := h.side_ok hi (f i).x (hf i hi)
  refine ⟨b i • q, fun p => ?_⟩
  rw [vget_tab _ hi, M_bind_ok, hq, M_bind_ok, vget_tab _ hi, M_bind_ok]

theorem corner_total (h : Compatible ε S n c) (hε : 0 < ε) {f : ℕ → P2 K} (hf : ∀ j < n, 0 ≤ (f j).x ∧ (f j).x ≤ 1) {i : ℕ} (hi : i < n) :
    ∃ p, S.cornerInterpolant ε i (tab n f) = .ok p := by
  have hn := h.hn
  have hx : nextIx n i < n := nextIx_lt (by omega)
  obtain ⟨a, ha⟩ := h.side_ok hi (f i).x (hf _ hx).1
  obtain ⟨b, hb⟩ := h.side_ok hx (f (nextIx n i)).x (d := 1 - (f i).x) (by linarith [(hf i hi).2])
  obtain ⟨q, hq⟩ := h.corr_ok hε hi (s1 := 1 - (f i).x) (by linarith [(hf i hi).2]) (hf _ hx).1
  unfold cornerInterpolant
  rw [h.len, vget_tab _ hi, M_bind_ok, vget_tab _ hx, M_bind_ok, ha, M_bind_ok, hb, M_bind_ok, hq, M_bind_ok]
  exact ⟨_, rfl⟩

theorem cornerBased_total (h : Compatible ε S n c) (hε : 0 < ε) {f : ℕ → P2 K} (hf : ∀ j < n, 0 ≤ (f j).x ∧ (f j).x ≤ 1) :
    ∃ p, S.cornerBased ε (tab n f) = .ok p := by
  obtain ⟨b, hb⟩ := blendCorner_total hε h.hn f
  unfold cornerBased
  rw [h.len, hb, M_bind_ok]
  apply forLoop_add_total
  intro i hi
  obtain ⟨q, hq⟩ := h.corner_total hε hf hi
  refine ⟨b i • q, fun p => ?_⟩
  rw [hq, M_bind_ok, vget_tab _ hi, M_bind_ok]

theorem coonsSum_total (h : Compatible ε S n c) (hε : 0 < ε) {f : ℕ → P2 K} (hf : InSquare n f) (b : ℕ → K) :
    ∃ p, S.coonsSum ε (tab n f) (tab n b) = .ok p := by
  have hn := h.hn
  unfold coonsSum
  rw [h.len]
  apply forLoop_add_total
  intro i hi
  have hx : nextIx n i < n := nextIx_lt (by omega)
  have hp : prevIx n i < n := prevIx_lt (by omega)
  obtain ⟨q, hq⟩ := h.side_ok hi (f i).x (hf i hi).2.2.1
  obtain ⟨r, hr⟩ := h.corr_ok hε hi (s1 := 1 - (f i).x) (by linarith [(hf i hi).2.1]) (hf _ hx).1
  refine ⟨(b i + b (prevIx n i)) • q - b i • r, fun p => ?_⟩
  rw [vget_tab _ hi, M_bind_ok, vget_tab _ hx, M_bind_ok, vget_tab _ hi, M_bind_ok, vget_tab _ hp, M_bind_ok, hq, M_bind_ok, hr, M_bind_ok,
    add_sub_assoc]

theorem generalizedCoons_total (h : Compatible ε S n c) (hε : 0 < ε) {f : ℕ → P2 K} (hf : InSquare n f) :
    ∃ p, S.generalizedCoons ε (tab n f) = .ok p := by
  obtain ⟨b, hb⟩ := blendCorner_total hε h.hn f
  unfold generalizedCoons
  rw [h.len, hb, M_bind_ok]
  exact h.coonsSum_total hε hf b

theorem composite_total (h : Compatible ε S n c) (hε : 0 < ε) {f : ℕ → P2 K} (hf : InSquare n f) :
    ∃ p, S.composite ε (tab n f) = .ok p := by
  have hn := h.hn
  obtain ⟨b, hb⟩ := blendCorner_total hε h.hn f
  unfold composite
  rw [h.len, hb, M_bind_ok]
  have := forLoop_add_total (n := n) (g := fun i p => do
    let sd ← vget (tab n f) i
    let q ← S.compositeRibbon ε i sd
    let x ← vget (tab n b) i
    let x' ← vget (tab n b) (prevIx n i)
    .ok (p + (x + x') • q)) (fun i hi => by
      have hx : nextIx n i < n := nextIx_lt (by omega)
      have hp : prevIx n i < n := prevIx_lt (by omega)
      obtain ⟨f1, f2, f3, f4⟩ := hf i hi
      obtain ⟨q1, h1⟩ := h.side_ok hi (f i).x f3
      obtain ⟨q2, h2⟩ := h.side_ok hp (1 - (f i).y) f1
      obtain ⟨q3, h3⟩ := h.side_ok hx (f i).y (d := 1 - (f i).x) (by linarith)
      obtain ⟨q4, h4⟩ := h.corr_ok hε hp f3 f1
      obtain ⟨q5, h5⟩ := h.corr_ok hε hi (s1 := 1 - (f i).x) (by linarith) f3
      have hq : ∃ q, S.compositeRibbon ε i (f i) = .ok q := by
        unfold compositeRibbon
        dsimp only
        rw [h.len, h1, M_bind_ok, h2, M_bind_ok, h3, M_bind_ok, h4, M_bind_ok, h5, M_bind_ok]
        exact ⟨_, rfl⟩
      obtain ⟨q, hq⟩ := hq
      refine ⟨(b i + b (prevIx n i)) • q, fun p => ?_⟩
      rw [vget_tab _ hi, M_bind_ok, hq, M_bind_ok, vget_tab _ hi, M_bind_ok, vget_tab _ hp, M_bind_ok]) 0
  obtain ⟨p, hp⟩ := this
  rw [hp, M_bind_ok]
  exact ⟨_, rfl⟩

theorem midpoint_total (h : Compatible ε S n c) (hε : 0 < ε) {f : ℕ → P2 K} (hf : InSquare n f) (m : P3 K) :
    ∃ p, S.midpoint ε m (tab n f) = .ok p := by
  have hn := h.hn
  obtain ⟨b, hb, _⟩ := C29_range hε (by omega) hf
  unfold midpoint
  rw [h.len, hb, M_bind_ok]
  obtain ⟨p, hp⟩ := forLoop_add_total (n := n) (g := fun i p => do
    let q ← S.cornerInterpolant ε i (tab n f)
    let x ← vget (tab n b) i
    .ok (p + x • q)) (fun i hi => by
      obtain ⟨q, hq⟩ := h.corner_total hε (fun j hj => ⟨(hf j hj).1, (hf j hj).2.1⟩) hi
      refine ⟨b i • q, fun p => ?_⟩
      rw [hq, M_bind_ok, vget_tab _ hi, M_bind_ok]) 0
  rw [hp, M_bind_ok]
  exact ⟨_, rfl⟩

theorem midpointCoons_total (h : Compatible ε S n c) (hε : 0 < ε) {f : ℕ → P2 K} (hf : InSquare n f) (m : P3 K) :
    ∃ p, S.midpointCoons ε m (tab n f) = .ok p := by
  have hn := h.hn
  obtain ⟨b, hb, _⟩ := C29_range hε (by omega) hf
  obtain ⟨p, hp⟩ := h.coonsSum_total hε hf b
  unfold midpointCoons
  rw [h.len, hb, M_bind_ok, hp, M_bind_ok]
  exact ⟨_, rfl⟩

end Compatible

theorem c0Coons_total {ε : K} {S : Surf K} {n : ℕ} (hl : S.n = n)
    (h : ∀ j < n, ∃ r, vget S.ribbons j = .ok r ∧ ∀ sd, ∃ q, r.eval ε sd = .ok q) (f : ℕ → P2 K) :
    ∃ p, S.c0Coons ε (tab n f) = .ok p := by
  unfold c0Coons
  rw [hl]
  apply forLoop_add_total
  intro i hi
  obtain ⟨r, hr, hq⟩ := h i hi
  obtain ⟨q, hq⟩ := hq (f i)
  refine ⟨((1 - (f i).y) / 2) • q, fun p => ?_⟩
  rw [vget_tab _ hi, M_bind_ok, hr, M_bind_ok, hq, M_bind_ok]

end Surf

namespace Param

variable {ε : ℝ} {d : Domain ℝ} {n : ℕ} {v : ℕ → P2 ℝ} {uv : P2 ℝ}

theorem choose_sides {g : ℕ → M (P2 ℝ)} {Q : ℕ → P2 ℝ → Prop} (h : ∀ i < n, ∃ p, g i = .ok p ∧ Q i p) :
    ∃ f : ℕ → P2 ℝ, ∀ i < n, g i = .ok (f i) ∧ Q i (f i) := by
  have h' : ∀ i, ∃ p, i < n → g i = .ok p ∧ Q i p := by
    intro i
    by_cases hi : i < n
    · obtain ⟨p, hp⟩ := h i hi
      exact ⟨p, fun _ => hp⟩
    · exact ⟨0, fun q => absurd q hi⟩
  choose f hf using h'
  exact ⟨f, hf⟩

theorem bary_total (h : ConvexDomain d n v) (hε : 0 < ε) (hε1 : ε ≤ 1) (hin : InsideClosed n v uv) :
    ∃ f : ℕ → P2 ℝ, (∀ j < n, baryMap ε .wachspress d j uv = .ok (f j)) ∧ Surf.InSquare n f := by
  obtain ⟨f, hf⟩ := choose_sides (n := n) (g := fun i => baryMap ε .wachspress d i uv)
    (Q := fun _ p => 0 ≤ p.x ∧ p.x ≤ 1 ∧ 0 ≤ p.y ∧ p.y ≤ 1) (by
    intro i hi
    obtain ⟨s, t, e, k⟩ := (C13_unit_square h hε hε1 hin).2 i hi
    exact ⟨_, e, k⟩)
  exact ⟨f, fun j hj => (hf j hj).1, fun j hj => (hf j hj).2⟩

theorem singular_eq (ε : ℝ) (w : List ℝ) : singularBlend ε w = Surf.blendSideSingular ε (w.map fun y => ⟨0, y⟩) := by
  unfold singularBlend Surf.blendSideSingular
  rw [List.countP_map]
  simp only [List.map_map, Function.comp_def, List.mapM_map]
  rfl

/-- The constrained parameters are in the unit square. -/
theorem constrainedBlend_total (hε : 0 < ε) {sd : P2 ℝ} {a b : ℝ} (h1 : 0 ≤ sd.x ∧ sd.x ≤ 1 ∧ 0 ≤ sd.y ∧ sd.y ≤ 1) (ha : 0 ≤ a ∧ a ≤ 1)
    (hb : 0 ≤ b ∧ b ≤ 1) : ∃ p, constrainedBlend ε sd a b = .ok p ∧ 0 ≤ p.x ∧ p.x ≤ 1 ∧ 0 ≤ p.y ∧ p.y ≤ 1 := by
  obtain ⟨w, hw, hw0, hws, _⟩ := C28_side hε (n := 4) (by norm_num)
    (fun j => (⟨0, if j = 0 then sd.y else if j = 1 then 1 - sd.x else if j = 2 then 1 - sd.y else sd.x⟩ : P2 ℝ))
  have e : singularBlend ε [sd.y, 1 - sd.x, 1 - sd.y, sd.x] = .ok (tab 4 w) := by
    rw [singular_eq, ← hw]
    congr 1
  refine ⟨⟨sd.x, sd.y * (w 0 + w 2) + b * w 1 + (1 - a) * w 3⟩, ?_, h1.1, h1.2.1, ?_, ?_⟩
  · unfold constrainedBlend
    rw [e, M_bind_ok, vget_tab _ (by norm_num), M_bind_ok, vget_tab _ (by norm_num), M_bind_ok, vget_tab _ (by norm_num), M_bind_ok,
      vget_tab _ (by norm_num), M_bind_ok]
  · have := hw0 0 (by norm_num)
    have := hw0 1 (by norm_num)
    have := hw0 2 (by norm_num)
    have := hw0 3 (by norm_num)
    have h3 : 0 ≤ 1 - a := by linarith
    have := h1.2.2.1
    have := hb.1
    positivity
  · have w0 := hw0 0 (by norm_num)
    have w1 := hw0 1 (by norm_num)
    have w2 := hw0 2 (by norm_num)
    have w3 := hw0 3 (by norm_num)
    simp only [Finset.sum_range_succ, Finset.sum_range_zero, zero_add] at hws
    have t1 : sd.y * (w 0 + w 2) ≤ w 0 + w 2 := mul_le_of_le_one_left (by linarith) h1.2.2.2
    have t2 : b * w 1 ≤ w 1 := mul_le_of_le_one_left w1 hb.2
    have t3 : (1 - a) * w 3 ≤ w 3 := mul_le_of_le_one_left w3 (by linarith)
    dsimp only
    linarith

theorem constrained_total (h : ConvexDomain d n v) (hε : 0 < ε) (hε1 : ε ≤ 1) (hin : InsideClosed n v uv) :
    ∃ f : ℕ → P2 ℝ, (∀ j < n, constrainedMap ε d j uv = .ok (f j)) ∧ Surf.InSquare n f := by
  have hn := h.hn
  obtain ⟨g, hg, hs⟩ := bary_total h hε hε1 hin
  obtain ⟨f, hf⟩ := choose_sides (n := n) (g := fun i => constrainedMap ε d i uv)
    (Q := fun _ p => 0 ≤ p.x ∧ p.x ≤ 1 ∧ 0 ≤ p.y ∧ p.y ≤ 1) (by
    intro i hi
    have hx : nextIx n i < n := nextIx_lt (by omega)
    have hp : prevIx n i < n := prevIx_lt (by omega)
    obtain ⟨p, e, k⟩ := constrainedBlend_total hε (hs i hi) ⟨(hs _ hp).1, (hs _ hp).2.1⟩ ⟨(hs _ hx).1, (hs _ hx).2.1⟩
    refine ⟨p, ?_, k⟩
    unfold constrainedMap constrainedMapWith
    dsimp only
    rw [h.length_eq, hg i hi, M_bind_ok, hg _ hp, M_bind_ok, hg _ hx, M_bind_ok]
    exact e)
  exact ⟨f, fun j hj => (hf j hj).1, fun j hj => (hf j hj).2⟩

theorem bilinear_total {r φ : ℝ} (h : ConvexDomain d n (regularVertex n r φ)) (hε : 0 < ε) (hin : InsideClosed n (regularVertex n r φ) uv) :
    ∃ f : ℕ → P2 ℝ, (∀ j < n, bilinearMap ε d j uv = .ok (f j)) ∧ ∀ j < n, 0 ≤ (f j).x ∧ (f j).x ≤ 1 ∧ 0 ≤ (f j).y := by
  have hn := h.hn
  obtain ⟨f, hf⟩ := choose_sides (n := n) (g := fun i => bilinearMap ε d i uv)
    (Q := fun _ p => 0 ≤ p.x ∧ p.x ≤ 1 ∧ 0 ≤ p.y) (by
    intro i hi
    have hx : nextIx n i < n := nextIx_lt (by omega)
    have hp : prevIx n i < n := prevIx_lt (by omega)
    have hxp := h.convex i hi _ hx (next_ne (by omega) hi) (next_ne_prev hn hi)
    have h1 := hin _ hp
    have h2 := hin _ hx
    refine ⟨_, bilinearMap_ratio h hε hi ?_ h1 h2, ?_, ?_, div_nonneg (hin i hi) hxp.le⟩
    · rw [regular_leftOf_prev hn hi, regular_leftOf_next hn hi]
    · dsimp only
      split_ifs
      · exact le_rfl
      · exact div_nonneg h1 (add_nonneg h1 h2)
    · dsimp only
      split_ifs
      · exact zero_le_one
      · exact div_le_one_of_le₀ (le_add_of_nonneg_right h2) (add_nonneg h1 h2))
  exact ⟨f, fun j hj => (hf j hj).1, fun j hj => (hf j hj).2⟩

theorem interconnected_total {r φ : ℝ} (h : ConvexDomain d n (regularVertex n r φ)) (hε : 0 < ε)
    (hin : InsideClosed n (regularVertex n r φ) uv) :
    ∃ f : ℕ → P2 ℝ, (∀ j < n, interconnectedMap ε d j uv = .ok (f j)) ∧ Surf.InSquare n f := by
  have hn := h.hn
  obtain ⟨g, hg, hs⟩ := bilinear_total h hε hin
  obtain ⟨f, hf⟩ := choose_sides (n := n) (g := fun i => interconnectedMap ε d i uv)
    (Q := fun _ p => 0 ≤ p.x ∧ p.x ≤ 1 ∧ 0 ≤ p.y ∧ p.y ≤ 1) (by
    intro i hi
    have hx : nextIx n i < n := nextIx_lt (by omega)
    have hp : prevIx n i < n := prevIx_lt (by omega)
    obtain ⟨t, e, _, _, k⟩ := C16_interconnected h.length_eq (hg _ hp) (hg _ hx) (hg i hi)
    obtain ⟨k1, k2⟩ := k (hs i hi).1 (hs i hi).2.1
    refine ⟨_, e, (hs i hi).1, (hs i hi).2.1, le_trans (le_min ?_ (hs _ hx).1) k1, le_trans k2 (max_le ?_ (hs _ hx).2.1)⟩
    · change 0 ≤ 1 - (g (prevIx n i)).x
      linarith [(hs _ hp).2.1]
    · change 1 - (g (prevIx n i)).x ≤ 1
      linarith [(hs _ hp).1])
  exact ⟨f, fun j hj => (hf j hj).1, fun j hj => (hf j hj).2⟩

end Param

end Transfinite
