import Verif.Lemmas.SuperDState
import Verif.Lemmas.PatchTotal
import Verif.Lemmas.SideParams
import Verif.Props.Blend

/-! # C51: SuperD patches -/

namespace Transfinite

open Spec Real

namespace SuperD

variable {n : ℕ} {ε : ℝ} {arc : List (P3 ℝ) → ℝ → ℝ → ℝ} {S S' : SuperD ℝ} {calls : List (Call ℝ)} {F E : ℕ → P3 ℝ}

/-- `F` and `E` are the face and edge control points of the patch. -/
def Points (n : ℕ) (S : SuperD ℝ) (F E : ℕ → P3 ℝ) : Prop := ∀ i < n, S.faceControlPoint i = .ok (F i) ∧ S.edgeControlPoint i = .ok (E i)

theorem tab_of_vget {α : Type} {l : List α} {f : ℕ → α} (hl : l.length = n) (h : ∀ i < n, vget l i = .ok (f i)) : l = tab n f := by
  refine eq_tab_of_get hl fun i hi => ?_
  have := h i (by omega)
  rw [vget_of_lt hi] at this
  exact Except.ok.inj this

theorem Points.lists (h : Points n S F E) (hs : Shape n S) : S.cpF = tab n F ∧ S.cpE = tab n E :=
  ⟨tab_of_vget hs.lenF fun i hi => (h i hi).1, tab_of_vget hs.lenE fun i hi => (h i hi).2⟩

/-- The quartic curve of the face, edge and face control points of side `i`. -/
noncomputable def sideCurve (n : ℕ) (f : ℝ) (F E : ℕ → P3 ℝ) (i : ℕ) (s : ℝ) : P3 ℝ := bezier 4 (quarticPoint f (F ((i + n - 1) % n)) (E i) (F i)) s

theorem bezier_congr {d : ℕ} {p q : ℕ → P3 ℝ} (h : ∀ j ≤ d, p j = q j) (u : ℝ) : bezier d p u = bezier d q u := by
  unfold bezier
  exact Finset.sum_congr rfl fun j hj => by rw [h j (by have := Finset.mem_range.mp hj; omega)]

theorem bezier_reverse (d : ℕ) (p : ℕ → P3 ℝ) (u : ℝ) : bezier d (fun j => p (d - j)) u = bezier d p (1 - u) := by
  unfold bezier
  rw [← Finset.sum_range_reflect]
  refine Finset.sum_congr rfl fun j hj => ?_
  have := Finset.mem_range.mp hj
  rw [show d + 1 - 1 - j = d - j by omega, ← bern_symm (by omega)]
  dsimp only
  rw [show d - (d - j) = j by omega]

/-- The ribbons of a patch: their values on three sides of the unit square. -/
theorem ribbons_eq (hn : 3 ≤ n) (hs : Shape n S) (hc : Current S) (hF : S.cpF = tab n F) (hE : S.cpE = tab n E) :
    ∃ G : ℕ → ℕ → ℕ → P3 ℝ, S.quartic = tab n (fun i => tab 5 fun j => tab 5 (G i j)) ∧
      (∀ i < n, S.generateRibbon i = .ok (tab 5 fun j => tab 5 (G i j))) ∧
      ∀ i < n, (∀ x, bezier 4 (fun k => bezier 4 (G i k) (0 : ℝ)) x = sideCurve n S.fullness F E i x) ∧
        (∀ y, bezier 4 (fun k => bezier 4 (G i k) y) (0 : ℝ) = sideCurve n S.fullness F E (prevIx n i) (1 - y)) ∧
        (∀ y, bezier 4 (fun k => bezier 4 (G i k) y) (1 : ℝ) = sideCurve n S.fullness F E (nextIx n i) y) := by
  have h : ∀ i, ∃ g : ℕ → ℕ → P3 ℝ, i < n → S.generateRibbon i = .ok (tab 5 fun j => tab 5 (g j)) ∧
      (∀ j ≤ 4, g j 0 = basePoint S.fullness n F E i j) ∧
      (∀ k ≤ 4, g 0 k = basePoint S.fullness n F E (prevIx n i) (4 - k)) ∧
      (∀ k ≤ 4, g 4 k = basePoint S.fullness n F E (nextIx n i) k) := by
    intro i
    by_cases hi : i < n
    · obtain ⟨g, hg⟩ := generateRibbon_eq hF hE hs.n_eq hn hi
      exact ⟨g, fun _ => ⟨hg.1, hg.2.1, hg.2.2.1, hg.2.2.2.1⟩⟩
    · exact ⟨fun _ _ => 0, fun q => absurd q hi⟩
  choose G hG using h
  refine ⟨G, ?_, fun i hi => (hG i hi).1, fun i hi => ?_⟩
  · rw [current_iff, hs.n_eq] at hc
    have := (forLoop_push n (fun i (l : List (List (List (P3 ℝ)))) => do
      let r ← S.generateRibbon i
      .ok (l ++ [r])) (fun i => tab 5 fun j => tab 5 (G i j)) [] (fun i l hi => by rw [(hG i hi).1, M_bind_ok]))
    rw [hc] at this
    exact (Except.ok.inj this).trans (by rw [List.nil_append, tab])
  · obtain ⟨_, g1, g2, g3⟩ := hG i hi
    refine ⟨fun x => bezier_congr (fun k hk => ?_) x, fun y => ?_, fun y => ?_⟩
    · rw [Ribbon.bezier_zero, g1 k hk]; rfl
    · rw [Ribbon.bezier_zero, bezier_congr g2, bezier_reverse]; rfl
    · rw [Ribbon.bezier_one, bezier_congr g3]; rfl

theorem sumRibbons_eq (G : ℕ → ℕ → ℕ → P3 ℝ) (f : ℕ → P2 ℝ) (b : ℕ → ℝ) :
    sumRibbons n (tab n fun i => tab 5 fun j => tab 5 (G i j)) (tab n f) (tab n b) =
      .ok (∑ i ∈ Finset.range n, b i • bezier 4 (fun k => bezier 4 (G i k) (f i).y) (f i).x) := by
  unfold sumRibbons
  rw [forLoop_sum n _ (fun i => b i • bezier 4 (fun k => bezier 4 (G i k) (f i).y) (f i).x) 0, zero_add]
  intro i p hi
  rw [vget_tab _ hi, M_bind_ok, vget_tab _ hi, M_bind_ok, bezierEvaluate_eq, M_bind_ok, vget_tab _ hi, M_bind_ok]

/-- The parameters used for the evaluation. -/
theorem params_eq {r φ : ℝ} (hr : 0 < r) (hd : ConvexDomain S.dom.dom n (regularVertex n r φ)) (hi : Inv ε S) {uv : P2 ℝ} {s : ℕ → ℝ}
    (hs : ∀ j < n, Param.bilinearSide ε S.dom.dom j uv = .ok (s j)) : ∃ o', Param.mapToRibbons ε .superD uv S.param =
      .ok (tab n fun j => ⟨s j, superDScale n * (leftOf n (regularVertex n r φ) j uv / (r ^ 2 * (4 * sin (π / n) ^ 2) * sin (2 * π / n)))⟩, o') := by
  have hf := (hi.resolve_left (by rw [hd.n_eq]; have := hd.hn; omega)).1
  obtain ⟨m, hm, hp⟩ := superD_mult hr hd
  refine hf.maps_of_raw hd.length_eq fun o ho j hj => ?_
  unfold Param.update at ho
  dsimp only at ho
  rw [hm, M_bind_ok] at ho
  cases ho
  exact hp ε uv (s j) j hj (hs j hj)

theorem eval_eq (hε : 0 < ε) (hn : 3 ≤ n) {r φ : ℝ} (hr : 0 < r) (hd : ConvexDomain S.dom.dom n (regularVertex n r φ)) (hs : Shape n S) (hi : Inv ε S) (hc : Current S)
    (hF : S.cpF = tab n F) (hE : S.cpE = tab n E) : ∃ G : ℕ → ℕ → ℕ → P3 ℝ, (∀ i < n, S.generateRibbon i = .ok (tab 5 fun j => tab 5 (G i j))) ∧
      (∀ i < n, (∀ x, bezier 4 (fun k => bezier 4 (G i k) (0 : ℝ)) x = sideCurve n S.fullness F E i x) ∧
        (∀ y, bezier 4 (fun k => bezier 4 (G i k) y) (0 : ℝ) = sideCurve n S.fullness F E (prevIx n i) (1 - y)) ∧
        (∀ y, bezier 4 (fun k => bezier 4 (G i k) y) (1 : ℝ) = sideCurve n S.fullness F E (nextIx n i) y)) ∧
      ∀ (uv : P2 ℝ) (s : ℕ → ℝ), (∀ j < n, Param.bilinearSide ε S.dom.dom j uv = .ok (s j)) →
        ∃ (b : ℕ → ℝ) (S' : SuperD ℝ), let y := fun j => superDScale n * (leftOf n (regularVertex n r φ) j uv / (r ^ 2 * (4 * sin (π / n) ^ 2) * sin (2 * π / n)))
          S.eval ε uv = .ok (∑ i ∈ Finset.range n, b i • bezier 4 (fun k => bezier 4 (G i k) (y i)) (s i), S') ∧
          (∀ j < n, 0 ≤ b j) ∧ ∑ j ∈ Finset.range n, b j = 1 ∧ (∀ j < n, ∀ k < n, y j < ε → y k < ε → b j = b k) ∧ (∀ j < n, ∀ k < n, y j < ε → ε ≤ y k → b k = 0) := by
  obtain ⟨G, g1, g2, g3⟩ := ribbons_eq hn hs hc hF hE
  refine ⟨G, g2, g3, fun uv s hb => ?_⟩
  obtain ⟨o, e⟩ := params_eq hr hd hi hb
  obtain ⟨b, e1, b1, b2, b3, b4, _⟩ := C28_side hε (n := n) (by omega)
    (fun j => (⟨s j, superDScale n * (leftOf n (regularVertex n r φ) j uv / (r ^ 2 * (4 * sin (π / n) ^ 2) * sin (2 * π / n)))⟩ : P2 ℝ))
  refine ⟨b, { S with param := o }, ?_, b1, b2, b3, b4⟩
  unfold eval
  rw [e, M_bind_ok]
  dsimp only
  rw [e1, M_bind_ok, hs.n_eq, g1, sumRibbons_eq, M_bind_ok]

theorem side_params {r φ : ℝ} (hε : 0 < ε) (hle : ε ≤ sin (2 * π / n)) (hr : 0 < r) (hd : ConvexDomain S.dom.dom n (regularVertex n r φ)) {i : ℕ} (hi : i < n) {s : ℝ} (h0 : 0 ≤ s) (h1 : s ≤ 1) :
    ∃ x : ℕ → ℝ, (∀ j < n, Param.bilinearSide ε S.dom.dom j (sidePoint n (regularVertex n r φ) i s) = .ok (x j)) ∧ x i = s ∧ x (nextIx n i) = 0 ∧
      ((4 ≤ n ∨ ε ≤ sin (2 * π / n) * (1 - s)) → x (prevIx n i) = 1) := by
  obtain ⟨f, h, e1, e2, _, e3, _⟩ := regular_bilinear_side hr hd hε hle hi h0 h1
  refine ⟨fun j => (f j).x, fun j hj => Param.bilinearSide_of_map (h j hj), by dsimp only; rw [e1], by dsimp only; rw [e2], e3⟩

/-- C51: the values of the patch on side `i`. Away from the corners it is the quartic curve of the side; within the tolerance of a corner (in terms of the distance parameter of the
adjacent side) it is the mean of two points of this curve, which are the same for at most 6 sides. -/
theorem C51_side (hε : 0 < ε) (hε1 : ε ≤ 1 / 4) (hε2 : ε ≤ sin (2 * π / n)) (hε3 : 2 * ε ≤ superDScale n) (hn : 3 ≤ n) (h : Usable ε arc n calls S) (hP : Points n S F E) {i : ℕ} (hi : i < n)
    {s : ℝ} (h0 : 0 ≤ s) (h1 : s ≤ 1) : ∃ uv p S', S.dom.dom.edgePoint i s = .ok uv ∧ S.eval ε uv = .ok (p, S') ∧
      (ε ≤ superDScale n * s → ε ≤ superDScale n * (1 - s) → p = sideCurve n S.fullness F E i s) ∧
      (superDScale n * s < ε → p = (1 / 2 : ℝ) • (sideCurve n S.fullness F E i s + sideCurve n S.fullness F E i (superDScale n * s))) ∧
      (superDScale n * (1 - s) < ε → p = (1 / 2 : ℝ) • (sideCurve n S.fullness F E i s + sideCurve n S.fullness F E i (1 - superDScale n * (1 - s)))) := by
  obtain ⟨hs, hiv, hcur, r, φ, hr, hd⟩ := h.state hn
  have hr : 0 < r := by linarith
  obtain ⟨hF, hE⟩ := hP.lists hs
  obtain ⟨G, _, g1, g2⟩ := eval_eq hε hn hr hd hs hiv hcur hF hE
  obtain ⟨x, x1, x2, x3, x4⟩ := side_params hε hε2 hr hd hi h0 h1
  obtain ⟨b, S', e, b0, b1, b2, b3⟩ := g2 _ x x1
  obtain ⟨l0, l1, l2, l3⟩ := regular_side hn (r := r) (φ := φ) hi h0 h1
  obtain ⟨k, _, _, _, hρ, _, _⟩ := superD_height hn (φ := φ) hr
  obtain ⟨sp1, sp2⟩ := sin_pi_div_pos hn
  have hH : 0 < r ^ 2 * (4 * sin (π / n) ^ 2) * sin (2 * π / n) := by positivity
  set H := r ^ 2 * (4 * sin (π / n) ^ 2) * sin (2 * π / n) with hHd
  set ρ := superDScale n with hρd
  have hx : nextIx n i < n := nextIx_lt (by omega)
  have hp : prevIx n i < n := prevIx_lt (by omega)
  have nx : nextIx n i ≠ i := Param.next_ne (by omega) hi
  have np : prevIx n i ≠ i := fun q => by
    have := nextIx_prevIx hi
    rw [q] at this
    exact nx this
  have nxp : nextIx n i ≠ prevIx n i := Param.next_ne_prev hn hi
  have y0 : ρ * (leftOf n (regularVertex n r φ) i (sidePoint n (regularVertex n r φ) i s) / H) = 0 := by rw [l0]; simp
  have y1 : ρ * (leftOf n (regularVertex n r φ) (nextIx n i) (sidePoint n (regularVertex n r φ) i s) / H) = ρ * (1 - s) := by
    rw [l1, mul_div_assoc, div_self hH.ne', mul_one]
  have y2 : ρ * (leftOf n (regularVertex n r φ) (prevIx n i) (sidePoint n (regularVertex n r φ) i s) / H) = ρ * s := by
    rw [l2, mul_div_assoc, div_self hH.ne', mul_one]
  have y3 : ∀ j < n, j ≠ i → j ≠ nextIx n i → j ≠ prevIx n i → ε ≤ ρ * (leftOf n (regularVertex n r φ) j (sidePoint n (regularVertex n r φ) i s) / H) := by
    intro j hj q1 q2 q3
    have := (l3 j hj q1 q2 q3).1
    have : 1 ≤ leftOf n (regularVertex n r φ) j (sidePoint n (regularVertex n r φ) i s) / H := by rwa [le_div_iff₀ hH, one_mul]
    have := mul_le_mul_of_nonneg_left this hρ.le
    linarith
  refine ⟨_, _, S', hd.edgePoint hi s, e, fun c1 c2 => ?_, fun c => ?_, fun c => ?_⟩
  · have hz : ∀ j < n, j ≠ i → b j = 0 := by
      intro j hj q1
      refine b3 i hi j hj (by dsimp only; rw [y0]; exact hε) ?_
      dsimp only
      by_cases q2 : j = nextIx n i
      · rw [q2, y1]; exact c2
      · by_cases q3 : j = prevIx n i
        · rw [q3, y2]; exact c1
        · exact y3 j hj q1 q2 q3
    have hbi : b i = 1 := by
      rw [← b1]
      exact (Finset.sum_eq_single i (fun j hj q => hz j (Finset.mem_range.mp hj) q) (fun q => absurd (Finset.mem_range.mpr hi) q)).symm
    rw [Finset.sum_eq_single i (fun j hj q => by rw [hz j (Finset.mem_range.mp hj) q, zero_smul]) (fun q => absurd (Finset.mem_range.mpr hi) q), hbi, one_smul]
    dsimp only
    rw [y0, (g1 i hi).1, x2]
  · have c2 : ε ≤ ρ * (1 - s) := by nlinarith
    have hz : ∀ j < n, j ≠ i → j ≠ prevIx n i → b j = 0 := by
      intro j hj q1 q3
      refine b3 i hi j hj (by dsimp only; rw [y0]; exact hε) ?_
      dsimp only
      by_cases q2 : j = nextIx n i
      · rw [q2, y1]; exact c2
      · exact y3 j hj q1 q2 q3
    have hee : b i = b (prevIx n i) := b2 i hi _ hp (by dsimp only; rw [y0]; exact hε) (by dsimp only; rw [y2]; exact c)
    have hxp : x (prevIx n i) = 1 := by
      refine x4 ?_
      by_cases h4 : 4 ≤ n
      · exact Or.inl h4
      · refine Or.inr ?_
        have h3 : n = 3 := by omega
        have hρ1 : ρ = 1 := by rw [hρd, h3]; unfold superDScale; rw [if_pos (by omega)]
        rw [hρ1, one_mul] at c
        have : sin (2 * π / n) = √3 / 2 := by
          rw [h3, show 2 * π / (3 : ℕ) = π - π / 3 by push_cast; ring, sin_pi_sub, sin_pi_div_three]
        rw [this]
        have h3' : (1.7 : ℝ) ≤ √3 := by
          apply Real.le_sqrt_of_sq_le
          norm_num
        nlinarith
    have hsum := b1
    rw [Finset.sum_eq_add i (prevIx n i) (Ne.symm np) (fun j hj q => hz j (Finset.mem_range.mp hj) q.1 q.2) (fun q => absurd (Finset.mem_range.mpr hi) q)
      (fun q => absurd (Finset.mem_range.mpr hp) q)] at hsum
    have hbi : b i = 1 / 2 := by linarith
    have hbp : b (prevIx n i) = 1 / 2 := by linarith
    rw [Finset.sum_eq_add i (prevIx n i) (Ne.symm np) (fun j hj q => by rw [hz j (Finset.mem_range.mp hj) q.1 q.2, zero_smul]) (fun q => absurd (Finset.mem_range.mpr hi) q)
      (fun q => absurd (Finset.mem_range.mpr hp) q), hbi, hbp]
    dsimp only
    rw [y0, y2, (g1 i hi).1, x2, hxp, (g1 _ hp).2.2, nextIx_prevIx hi, smul_add]
  · have c2 : ε ≤ ρ * s := by nlinarith
    have hz : ∀ j < n, j ≠ i → j ≠ nextIx n i → b j = 0 := by
      intro j hj q1 q3
      refine b3 i hi j hj (by dsimp only; rw [y0]; exact hε) ?_
      dsimp only
      by_cases q2 : j = prevIx n i
      · rw [q2, y2]; exact c2
      · exact y3 j hj q1 q3 q2
    have hee : b i = b (nextIx n i) := b2 i hi _ hx (by dsimp only; rw [y0]; exact hε) (by dsimp only; rw [y1]; exact c)
    have hsum := b1
    rw [Finset.sum_eq_add i (nextIx n i) (Ne.symm nx) (fun j hj q => hz j (Finset.mem_range.mp hj) q.1 q.2) (fun q => absurd (Finset.mem_range.mpr hi) q)
      (fun q => absurd (Finset.mem_range.mpr hx) q)] at hsum
    have hbi : b i = 1 / 2 := by linarith
    have hbp : b (nextIx n i) = 1 / 2 := by linarith
    rw [Finset.sum_eq_add i (nextIx n i) (Ne.symm nx) (fun j hj q => by rw [hz j (Finset.mem_range.mp hj) q.1 q.2, zero_smul]) (fun q => absurd (Finset.mem_range.mpr hi) q)
      (fun q => absurd (Finset.mem_range.mpr hx) q), hbi, hbp]
    dsimp only
    rw [y0, y1, (g1 i hi).1, x2, x3, (g1 _ hx).2.1, prevIx_nextIx hi, smul_add]

/-- C51: a patch with at most 6 sides interpolates its quartic curves everywhere; with more sides, it does so in the corners and where the distance parameters of the adjacent sides are
not within the tolerance. -/
theorem C51_interpolates (hε : 0 < ε) (hε1 : ε ≤ 1 / 4) (hε2 : ε ≤ sin (2 * π / n)) (hε3 : 2 * ε ≤ superDScale n) (hn : 3 ≤ n) (h : Usable ε arc n calls S) (hP : Points n S F E) {i : ℕ}
    (hi : i < n) {s : ℝ} (h0 : 0 ≤ s) (h1 : s ≤ 1) (hs : n ≤ 6 ∨ s = 0 ∨ s = 1 ∨ ε ≤ superDScale n * s ∧ ε ≤ superDScale n * (1 - s)) :
    ∃ uv S', S.dom.dom.edgePoint i s = .ok uv ∧ S.eval ε uv = .ok (sideCurve n S.fullness F E i s, S') := by
  obtain ⟨uv, p, S', e1, e2, a, b, c⟩ := C51_side hε hε1 hε2 hε3 hn h hP hi h0 h1
  refine ⟨uv, S', e1, e2.trans ?_⟩
  have half : ∀ q : P3 ℝ, (1 / 2 : ℝ) • (q + q) = q := fun q => by module
  have key : p = sideCurve n S.fullness F E i s := by
    by_cases h2 : superDScale n * s < ε
    · rw [b h2]
      have : superDScale n * s = s := by
        rcases hs with q | q | q | q
        · unfold superDScale; rw [if_pos q, one_mul]
        · rw [q, mul_zero]
        · rw [q, mul_one] at h2; linarith
        · linarith [q.1]
      rw [this, half]
    · by_cases h3 : superDScale n * (1 - s) < ε
      · rw [c h3]
        have : 1 - superDScale n * (1 - s) = s := by
          rcases hs with q | q | q | q
          · unfold superDScale; rw [if_pos q, one_mul]; ring
          · rw [q, sub_zero, mul_one] at h3; linarith
          · rw [q]; ring
          · linarith [q.2]
        rw [this, half]
      · exact a (not_lt.mp h2) (not_lt.mp h3)
  rw [key]

/-- The quartic curve in closed form. -/
theorem quartic_eval (f : ℝ) (a b c : P3 ℝ) (s : ℝ) : bezier 4 (quarticPoint f a b c) s =
    ((1 - s) ^ 4) • a + (4 * s * (1 - s) ^ 3) • (a + ((2 * f ^ 2 + 3 * f) / 5) • (b - a)) +
      (6 * s ^ 2 * (1 - s) ^ 2) • ((1 / 2 : ℝ) • (a + c) + ((9 * f - 2 * f ^ 2) / 7) • (b - (1 / 2 : ℝ) • (a + c))) +
      (4 * s ^ 3 * (1 - s)) • (c + ((2 * f ^ 2 + 3 * f) / 5) • (b - c)) + (s ^ 4) • c := by
  unfold bezier bern
  simp only [Finset.sum_range_succ, Finset.sum_range_zero, quarticPoint]
  norm_num [Nat.choose]

/-- C51: with fullness 0 the boundary curve is on the chord of the two face points. -/
theorem C51_fullness_zero (F E : ℕ → P3 ℝ) (i : ℕ) {s : ℝ} (h0 : 0 ≤ s) (h1 : s ≤ 1) : ∃ t : ℝ, 0 ≤ t ∧ t ≤ 1 ∧ t = s ^ 2 * (3 - 2 * s) ∧
    sideCurve n 0 F E i s = F ((i + n - 1) % n) + t • (F i - F ((i + n - 1) % n)) := by
  refine ⟨s ^ 2 * (3 - 2 * s), mul_nonneg (sq_nonneg s) (by linarith), by nlinarith [sq_nonneg (1 - s)], rfl, ?_⟩
  unfold sideCurve
  rw [quartic_eval]
  module

/-- C51: with fullness 1 the inner control points of the boundary curve are all at the edge point, and the curve differs from the edge point only in the share of the two ends. The curve
itself does not go through the edge point: in the middle, the edge point has 7/8 of the weight. -/
theorem C51_fullness_one (F E : ℕ → P3 ℝ) (i : ℕ) (s : ℝ) : (∀ j, 1 ≤ j → j ≤ 3 → quarticPoint 1 (F ((i + n - 1) % n)) (E i) (F i) j = E i) ∧
    sideCurve n 1 F E i s = E i + ((1 - s) ^ 4) • (F ((i + n - 1) % n) - E i) + (s ^ 4) • (F i - E i) ∧
    sideCurve n 1 F E i (1 / 2) = (7 / 8 : ℝ) • E i + (1 / 16 : ℝ) • (F ((i + n - 1) % n) + F i) := by
  have key : ∀ s, sideCurve n 1 F E i s = E i + ((1 - s) ^ 4) • (F ((i + n - 1) % n) - E i) + (s ^ 4) • (F i - E i) := by
    intro s
    unfold sideCurve
    rw [quartic_eval]
    module
  refine ⟨fun j h1 h3 => ?_, key s, ?_⟩
  · have : j = 1 ∨ j = 2 ∨ j = 3 := by omega
    rcases this with rfl | rfl | rfl <;> simp only [quarticPoint] <;> module
  · rw [key]
    module

/-- C51: evaluation never fails in the closed domain. -/
theorem C51_defined (hε : 0 < ε) (hn : 3 ≤ n) (h : Usable ε arc n calls S) {v : ℕ → P2 ℝ} (hv : S.dom.dom.vertices = tab n v) {uv : P2 ℝ} (hin : InsideClosed n v uv) :
    ∃ p S', S.eval ε uv = .ok (p, S') := by
  obtain ⟨hs, hiv, hcur, r, φ, hr, hd⟩ := h.state hn
  obtain ⟨F, E, hF, hE⟩ := hs.points
  have hw : ∀ i < n, v i = regularVertex n r φ i := fun i hi => tab_inj (hv.symm.trans hd.vertices_eq) hi
  obtain ⟨f, hf, _⟩ := Param.bilinear_total hd hε (Patch.insideClosed_congr (by omega) hw hin)
  obtain ⟨G, _, _, g2⟩ := eval_eq hε hn (by linarith) hd hs hiv hcur hF hE
  obtain ⟨b, S', e, _⟩ := g2 uv (fun j => (f j).x) fun j hj => Param.bilinearSide_of_map (hf j hj)
  exact ⟨_, S', e⟩

/-- C51: the control points and the fullness are what was set last, and other calls do not change them. -/
theorem C51_control (S : SuperD ℝ) (i j : ℕ) (p : P3 ℝ) (f : ℝ) :
    (∀ S', S.setFaceControlPoint i p = .ok S' → S'.faceControlPoint i = .ok p ∧ (j ≠ i → S'.faceControlPoint j = S.faceControlPoint j) ∧
      S'.edgeControlPoint j = S.edgeControlPoint j ∧ S'.vertexControlPoint = S.vertexControlPoint) ∧
    (∀ S', S.setEdgeControlPoint i p = .ok S' → S'.edgeControlPoint i = .ok p ∧ (j ≠ i → S'.edgeControlPoint j = S.edgeControlPoint j) ∧
      S'.faceControlPoint j = S.faceControlPoint j ∧ S'.vertexControlPoint = S.vertexControlPoint) ∧
    ((S.setVertexControlPoint p).vertexControlPoint = p ∧ (S.setVertexControlPoint p).faceControlPoint j = S.faceControlPoint j ∧
      (S.setVertexControlPoint p).edgeControlPoint j = S.edgeControlPoint j) ∧
    ((S.setFullness f).fullness = f ∧ (S.setFullness f).faceControlPoint j = S.faceControlPoint j ∧ (S.setFullness f).edgeControlPoint j = S.edgeControlPoint j) ∧
    (∀ ε uv r, S.eval ε uv = .ok r → r.2.faceControlPoint j = S.faceControlPoint j ∧ r.2.edgeControlPoint j = S.edgeControlPoint j ∧ r.2.fullness = S.fullness) := by
  have hset : ∀ (l l' : List (P3 ℝ)), vset l i p = .ok l' → vget l' i = .ok p ∧ (j ≠ i → vget l' j = vget l j) := by
    intro l l' h
    unfold vset at h
    split_ifs at h with hl
    cases h
    refine ⟨?_, fun q => ?_⟩
    · unfold vget; rw [List.getElem?_set_self hl]
    · unfold vget; rw [List.getElem?_set_ne (Ne.symm q)]
  refine ⟨fun S' h => ?_, fun S' h => ?_, ⟨rfl, rfl, rfl⟩, ⟨rfl, rfl, rfl⟩, fun ε uv r e => ?_⟩
  · obtain ⟨l, e, rfl⟩ := setF_keeps h
    exact ⟨(hset _ _ e).1, (hset _ _ e).2, rfl, rfl⟩
  · obtain ⟨l, e, rfl⟩ := setE_keeps h
    exact ⟨(hset _ _ e).1, (hset _ _ e).2, rfl, rfl⟩
  · rw [eval_keeps e]
    exact ⟨rfl, rfl, rfl⟩

/-- C51: `setupLoop` never fails for an object with `n ≥ 3` sides, and the curves of the patch are then its quartic curves. -/
theorem C51_setupLoop (hn : 3 ≤ n) (hs : Shape n S) (hP : Points n S F E) : ∃ S', S.setupLoop arc = .ok S' ∧ S'.curves.length = n ∧ S'.n = n ∧
    ∀ i < n, ∃ C, vget S'.curves i = .ok C ∧ ∀ s, C.pt s = sideCurve n S.fullness F E i s := by
  obtain ⟨hF, hE⟩ := hP.lists hs
  have e := setupLoop_eq (arc := arc) hF hE hs.n_eq
  obtain ⟨S', e'⟩ := updateDomain_total (n := n) (S := { S with n := n, curves := tab n fun i => bezierCurve arc (tab 5 (basePoint S.fullness n F E i)) }) hn (length_tab _ _)
  refine ⟨S', e.trans e', ?_⟩
  rw [updateDomain_keeps e']
  refine ⟨length_tab _ _, rfl, fun i hi => ⟨_, vget_tab _ hi, fun s => curve_pt _ _ _⟩⟩

section plane

variable {L : P3 ℝ →ₗ[ℝ] ℝ} {c : ℝ}

theorem affineCombine_plane {p q : P3 ℝ} (hp : L p = c) (hq : L q = c) (x : ℝ) : L (affineCombine3 p x q) = c := by
  have : affineCombine3 p x q = (1 - x) • p + x • q := rfl
  rw [this, map_add, map_smul, map_smul, hp, hq, smul_eq_mul, smul_eq_mul]
  ring

theorem generateQuartic_plane {f : ℝ} {p q r : P3 ℝ} (hp : L p = c) (hq : L q = c) (hr : L r = c) : ∀ x ∈ generateQuartic f p q r, L x = c := by
  intro x hx
  unfold generateQuartic at hx
  simp only [List.mem_cons, List.not_mem_nil, or_false] at hx
  rcases hx with rfl | rfl | rfl | rfl | rfl
  · exact hp
  · exact affineCombine_plane hp hq _
  · exact affineCombine_plane (affineCombine_plane hp hq _) (affineCombine_plane hr hq _) _
  · exact affineCombine_plane hr hq _
  · exact hr

theorem vget_mem {α : Type} {l : List α} {i : ℕ} {x : α} (h : vget l i = .ok x) : x ∈ l := by
  unfold vget at h
  cases e : l[i]? with
  | none => rw [e] at h; cases h
  | some y => rw [e] at h; cases h; exact List.mem_of_getElem? e

theorem generateBase_plane (hF : ∀ x ∈ S.cpF, L x = c) (hE : ∀ x ∈ S.cpE, L x = c) {i : ℕ} {l : List (P3 ℝ)} (h : S.generateBase i = .ok l) : ∀ x ∈ l, L x = c := by
  unfold generateBase at h
  obtain ⟨p, e1, h⟩ := bind_ok h
  obtain ⟨q, e2, h⟩ := bind_ok h
  obtain ⟨r, e3, h⟩ := bind_ok h
  cases h
  exact generateQuartic_plane (hF _ (vget_mem e1)) (hE _ (vget_mem e2)) (hF _ (vget_mem e3))

theorem ribbonMany_plane {base left right : List (P3 ℝ)} (h1 : ∀ x ∈ base, L x = c) (h2 : ∀ x ∈ left, L x = c) (h3 : ∀ x ∈ right, L x = c) {R : List (List (P3 ℝ))}
    (h : ribbonMany base left right = .ok R) : ∀ row ∈ R, ∀ x ∈ row, L x = c := by
  unfold ribbonMany at h
  refine Patch.forLoop_inv' (fun R : List (List (P3 ℝ)) => ∀ row ∈ R, ∀ x ∈ row, L x = c) (by simp) ?_ h
  intro j R R' hR e
  obtain ⟨row, e1, e⟩ := bind_ok e
  cases e
  have hrow : ∀ x ∈ row, L x = c := by
    refine Patch.forLoop_inv' (fun l : List (P3 ℝ) => ∀ x ∈ l, L x = c) (by simp) ?_ e1
    intro k l l' hl e
    obtain ⟨b, x1, e⟩ := bind_ok e
    obtain ⟨x, x2, e⟩ := bind_ok e
    obtain ⟨x4, x3, e⟩ := bind_ok e
    obtain ⟨y, x5, e⟩ := bind_ok e
    obtain ⟨y0, x6, e⟩ := bind_ok e
    cases e
    intro z hz
    rcases List.mem_append.mp hz with q | q
    · exact hl z q
    · rw [List.mem_singleton.mp q, map_add, map_add, map_smul, map_smul, map_sub, map_sub, h1 _ (vget_mem x1), h2 _ (vget_mem x2), h2 _ (vget_mem x3), h3 _ (vget_mem x5), h3 _ (vget_mem x6)]
      simp
  intro r hr
  rcases List.mem_append.mp hr with q | q
  · exact hR r q
  · rw [List.mem_singleton.mp q]; exact hrow

theorem generateRibbon_plane (hV : L S.cpV = c) (hF : ∀ x ∈ S.cpF, L x = c) (hE : ∀ x ∈ S.cpE, L x = c) {i : ℕ} {R : List (List (P3 ℝ))} (h : S.generateRibbon i = .ok R) :
    ∀ row ∈ R, ∀ x ∈ row, L x = c := by
  unfold generateRibbon at h
  obtain ⟨base, e1, h⟩ := bind_ok h
  have hb := generateBase_plane hF hE e1
  split_ifs at h
  · obtain ⟨l, e2, h⟩ := bind_ok h
    obtain ⟨r, e3, h⟩ := bind_ok h
    exact ribbonMany_plane hb (generateBase_plane hF hE e2) (generateBase_plane hF hE e3) h
  · obtain ⟨mid, e2, h⟩ := bind_ok h
    obtain ⟨opp, e3, h⟩ := bind_ok h
    have hm : ∀ x ∈ mid, L x = c := by
      unfold generateMid at e2
      obtain ⟨p, x1, e2⟩ := bind_ok e2
      obtain ⟨q, x2, e2⟩ := bind_ok e2
      cases e2
      exact generateQuartic_plane (hE _ (vget_mem x1)) hV (hE _ (vget_mem x2))
    have ho : ∀ x ∈ opp, L x = c := by
      unfold generateOpp at e3
      split_ifs at e3
      · obtain ⟨f, x1, e3⟩ := bind_ok e3
        cases e3
        intro x hx
        rw [List.eq_of_mem_replicate hx]
        exact hF _ (vget_mem x1)
      · obtain ⟨b, x1, e3⟩ := bind_ok e3
        cases e3
        intro x hx
        exact generateBase_plane hF hE x1 x (List.mem_reverse.mp hx)
    unfold ribbonFew at h
    refine Patch.forLoop_inv' (fun R : List (List (P3 ℝ)) => ∀ row ∈ R, ∀ x ∈ row, L x = c) (by simp) ?_ h
    intro j R R' hR e
    obtain ⟨b, x1, e⟩ := bind_ok e
    obtain ⟨m, x2, e⟩ := bind_ok e
    obtain ⟨o, x3, e⟩ := bind_ok e
    cases e
    intro r hr
    rcases List.mem_append.mp hr with q | q
    · exact hR r q
    · rw [List.mem_singleton.mp q]
      exact generateQuartic_plane (hb _ (vget_mem x1)) (hm _ (vget_mem x2)) (ho _ (vget_mem x3))

theorem bezier_plane {d : ℕ} {p : ℕ → P3 ℝ} (h : ∀ j ≤ d, L (p j) = c) (u : ℝ) : L (bezier d p u) = c := by
  unfold bezier
  rw [map_sum]
  have : ∀ j ∈ Finset.range (d + 1), L (bern d j u • p j) = bern d j u * c := fun j hj => by
    rw [map_smul, h j (by have := Finset.mem_range.mp hj; omega), smul_eq_mul]
  rw [Finset.sum_congr rfl this, ← Finset.sum_mul, bern_sum, one_mul]

/-- C51: the control points determine the patch in an affine way: when all of them are in a plane (or, in general, on a level set of a linear function), so is every point of the patch. -/
theorem C51_planar (hε : 0 < ε) (hn : 3 ≤ n) (h : Usable ε arc n calls S) (hP : Points n S F E) (hV : L S.vertexControlPoint = c) (hF : ∀ i < n, L (F i) = c) (hE : ∀ i < n, L (E i) = c)
    {uv : P2 ℝ} {v : ℕ → P2 ℝ} (hv : S.dom.dom.vertices = tab n v) (hin : InsideClosed n v uv) : ∃ p S', S.eval ε uv = .ok (p, S') ∧ L p = c := by
  obtain ⟨hs, hiv, hcur, r, φ, hr, hd⟩ := h.state hn
  obtain ⟨hF', hE'⟩ := hP.lists hs
  have hw : ∀ i < n, v i = regularVertex n r φ i := fun i hi => tab_inj (hv.symm.trans hd.vertices_eq) hi
  obtain ⟨f, hf, _⟩ := Param.bilinear_total hd hε (Patch.insideClosed_congr (by omega) hw hin)
  obtain ⟨G, g1, _, g2⟩ := eval_eq hε hn (by linarith) hd hs hiv hcur hF' hE'
  obtain ⟨b, S', e, _, b1, _⟩ := g2 uv (fun j => (f j).x) fun j hj => Param.bilinearSide_of_map (hf j hj)
  refine ⟨_, S', e, ?_⟩
  have hmem : ∀ {g : ℕ → P3 ℝ}, (∀ i < n, L (g i) = c) → ∀ x ∈ tab n g, L x = c := by
    intro g hg x hx
    obtain ⟨i, hi, rfl⟩ := List.mem_map.mp hx
    exact hg i (List.mem_range.mp hi)
  have hG : ∀ i < n, ∀ j ≤ 4, ∀ k ≤ 4, L (G i j k) = c := by
    intro i hi j hj k hk
    exact generateRibbon_plane hV (by rw [hF']; exact hmem hF) (by rw [hE']; exact hmem hE) (g1 i hi) _ (List.mem_map.mpr ⟨j, List.mem_range.mpr (by omega), rfl⟩) _
      (List.mem_map.mpr ⟨k, List.mem_range.mpr (by omega), rfl⟩)
  rw [map_sum]
  dsimp only
  rw [Finset.sum_congr rfl fun i hi => by
    rw [map_smul, bezier_plane (fun j hj => bezier_plane (fun k hk => hG i (Finset.mem_range.mp hi) j hj k hk) _), smul_eq_mul], ← Finset.sum_mul, b1, one_mul]

end plane

section examples

theorem run_append {S S1 S2 : SuperD ℝ} {a b : List (Call ℝ)} (h1 : S.run ε arc a = .ok S1) (h2 : S1.run ε arc b = .ok S2) : S.run ε arc (a ++ b) = .ok S2 := by
  induction a generalizing S with
  | nil => cases h1; exact h2
  | cons c a ih =>
    unfold run at h1
    obtain ⟨T, e, h1⟩ := bind_ok h1
    rw [List.cons_append]
    unfold run
    rw [e, M_bind_ok]
    exact ih h1

theorem run_sets (hs : Shape n S) (m : ℕ) (hm : m ≤ n) : ∃ S', S.run ε arc ((List.range m).flatMap fun i => [.setF i (F i), .setE i (E i)]) = .ok S' ∧ Shape n S' ∧
    S'.fullness = S.fullness ∧ S'.cpV = S.cpV ∧ ∀ i < m, S'.faceControlPoint i = .ok (F i) ∧ S'.edgeControlPoint i = .ok (E i) := by
  induction m with
  | zero => exact ⟨S, rfl, hs, rfl, rfl, fun i hi => absurd hi (Nat.not_lt_zero _)⟩
  | succ m ih =>
    obtain ⟨S1, e1, h1, h2, h3, h4⟩ := ih (by omega)
    have t1 : S1.setFaceControlPoint m (F m) = .ok { S1 with cpF := S1.cpF.set m (F m) } := by
      unfold setFaceControlPoint
      rw [vset_of_lt (by rw [h1.lenF]; omega), M_bind_ok]
    have t2 : ({ S1 with cpF := S1.cpF.set m (F m) } : SuperD ℝ).setEdgeControlPoint m (E m) = .ok { S1 with cpF := S1.cpF.set m (F m), cpE := S1.cpE.set m (E m) } := by
      unfold setEdgeControlPoint
      rw [vset_of_lt (by change m < S1.cpE.length; rw [h1.lenE]; omega), M_bind_ok]
    refine ⟨{ S1 with cpF := S1.cpF.set m (F m), cpE := S1.cpE.set m (E m) }, ?_, ⟨h1.n_eq, ?_, ?_⟩, h2, h3, fun i hi => ?_⟩
    · rw [List.range_succ, List.flatMap_append]
      refine run_append e1 ?_
      simp only [List.flatMap_cons, List.flatMap_nil, List.append_nil, run, step, t1, t2, M_bind_ok]
    · simp [h1.lenF]
    · simp [h1.lenE]
    · have c1 := (C51_control S1 m i (F m) 0).1 _ t1
      have c2 := (C51_control { S1 with cpF := S1.cpF.set m (F m) } m i (E m) 0).2.1 _ t2
      by_cases q : i = m
      · rw [q] at c2 ⊢
        exact ⟨c2.2.2.1.trans c1.1, c2.1⟩
      · have := h4 i (by omega)
        exact ⟨(c2.2.2.1.trans (c1.2.1 q)).trans this.1, ((c2.2.1 q).trans c1.2.2.1).trans this.2⟩

/-- Any control points can be set up by a history of calls; so the hypotheses of the theorems above are satisfiable for all `n ≥ 3`. -/
theorem C51_complete (hn : 3 ≤ n) (f : ℝ) (V : P3 ℝ) (F E : ℕ → P3 ℝ) : ∃ calls S, Usable ε arc n calls S ∧ Points n S F E ∧ S.fullness = f ∧ S.vertexControlPoint = V := by
  obtain ⟨S1, e1, h1, h2, h3, h4⟩ := run_sets (ε := ε) (arc := arc) (F := F) (E := E) (S := (((SuperD.new.setFullness f).setVertexControlPoint V).initNetwork n)) (n := n)
    ⟨rfl, resize_length _ _, resize_length _ _⟩ n (le_refl n)
  obtain ⟨S2, e2, h5, h6, _⟩ := C51_setupLoop (arc := arc) hn h1 (F := F) (E := E) h4
  obtain ⟨hF, hE⟩ := Points.lists (F := F) (E := E) h4 h1
  have k := setupLoop_eq (arc := arc) hF hE h1.n_eq
  have k2 := updateDomain_keeps (k.symm.trans e2)
  have s2 : Shape n S2 := ⟨h6, by rw [k2]; exact h1.lenF, by rw [k2]; exact h1.lenE⟩
  have hF2 : S2.cpF = tab n F := by rw [k2]; exact hF
  have hE2 : S2.cpE = tab n E := by rw [k2]; exact hE
  have e3 : ∃ q, S2.updateRibbons = .ok { S2 with quartic := q } := by
    unfold updateRibbons
    have : ∀ i, ∃ g, i < n → S2.generateRibbon i = .ok g := by
      intro i
      by_cases hi : i < n
      · obtain ⟨g, hg, _⟩ := generateRibbon_eq hF2 hE2 h6 hn hi
        exact ⟨_, fun _ => hg⟩
      · exact ⟨[], fun q => absurd q hi⟩
    choose g hg using this
    rw [h6, forLoop_push n _ g [] (fun i l hi => by rw [hg i hi, M_bind_ok]), M_bind_ok]
    exact ⟨_, rfl⟩
  obtain ⟨q, e3⟩ := e3
  refine ⟨[.setFull f, .setV V] ++ .init n :: (((List.range n).flatMap fun i => [.setF i (F i), .setE i (E i)]) ++ [.loop] ++ .ribbons :: []), { S2 with quartic := q },
    ⟨_, _, _, rfl, ?_, ?_, by simp, by simp⟩, fun i hi => ?_, ?_, ?_⟩
  · refine run_append (S1 := (SuperD.new.setFullness f).setVertexControlPoint V) (by simp only [run, step, M_bind_ok]) ?_
    unfold run step
    rw [M_bind_ok]
    refine run_append (run_append e1 (S2 := S2) ?_) ?_
    · simp only [run, step, e2, M_bind_ok]
    · simp only [run, step, e3, M_bind_ok]
  · intro c hc m hcm
    rw [hcm] at hc
    simp at hc
  · have := h4 i hi
    have a : S2.faceControlPoint i = .ok (F i) := by rw [← this.1, k2]; rfl
    have b : S2.edgeControlPoint i = .ok (E i) := by rw [← this.2, k2]; rfl
    exact ⟨a, b⟩
  · change S2.fullness = f
    rw [k2]; exact h2
  · change S2.cpV = V
    rw [k2]; exact h3

theorem scale_seven : (1 / 4 : ℝ) ≤ superDScale 7 := by
  unfold superDScale
  rw [if_neg (by omega)]
  have h7 : (0 : ℝ) < π / 7 := by positivity
  have e : (((7 - 3) / 2 : ℕ) : ℝ) = 2 := by norm_num
  rw [e]
  push_cast
  have p1 : 0 < sin (2 * π / 7) := sin_pos_of_pos_of_lt_pi (by positivity) (by linarith [pi_pos])
  have p2 : 0 < sin ((2 + 1) * π / 7) := sin_pos_of_pos_of_lt_pi (by positivity) (by linarith [pi_pos])
  rw [mul_comm (sin (π / 7)), mul_div_mul_left _ _ p1.ne', le_div_iff₀ p2]
  have h3 : sin ((2 + 1) * π / 7) = 3 * sin (π / 7) - 4 * sin (π / 7) ^ 3 := by
    rw [show (2 + 1) * π / 7 = 3 * (π / 7) by ring, sin_three_mul]
  have : 0 ≤ sin (π / 7) := (sin_pos_of_pos_of_lt_pi h7 (by linarith [pi_pos])).le
  rw [h3]
  nlinarith [pow_nonneg this 3]

/-- The hypotheses of `C51_side` hold for seven sides and a tolerance of 1/8. -/
example (arc : List (P3 ℝ) → ℝ → ℝ → ℝ) : ∃ (calls : List (Call ℝ)) (S : SuperD ℝ) (F E : ℕ → P3 ℝ), (1 / 8 : ℝ) ≤ sin (2 * π / (7 : ℕ)) ∧ 2 * (1 / 8 : ℝ) ≤ superDScale 7 ∧
    Usable (1 / 8) arc 7 calls S ∧ Points 7 S F E ∧ F 0 ≠ F 1 ∧ E 0 ≠ F 0 := by
  obtain ⟨calls, S, h, hP, _⟩ := C51_complete (ε := 1 / 8) (arc := arc) (n := 7) (by omega) 1 ⟨0, 0, 5⟩ (fun i => ⟨i, 0, 1⟩) (fun i => ⟨i, 1, 1⟩)
  refine ⟨calls, S, _, _, ?_, by have := scale_seven; linarith, h, hP, by simp, by simp⟩
  have := mul_le_sin (x := 2 * π / (7 : ℕ)) (by positivity) (by push_cast; linarith [pi_pos])
  refine le_trans ?_ this
  push_cast
  rw [show 2 / π * (2 * π / 7) = 4 / 7 by field_simp; norm_num]
  norm_num

/-- The value in the middle of a side, for five sides with fullness 1: not the edge point. -/
example (arc : List (P3 ℝ) → ℝ → ℝ → ℝ) : ∃ (S : SuperD ℝ) (uv : P2 ℝ) (S' : SuperD ℝ), S.edgeControlPoint 1 = .ok ⟨0, 16, 0⟩ ∧ S.dom.dom.edgePoint 1 (1 / 2) = .ok uv ∧
    S.eval (1 / 8) uv = .ok (⟨0, 14, 0⟩, S') := by
  obtain ⟨calls, S, h, hP, hf, _⟩ := C51_complete (ε := 1 / 8) (arc := arc) (n := 5) (by omega) 1 0 (fun i => 0) (fun i => ⟨0, 16, 0⟩)
  have hsin : (1 / 8 : ℝ) ≤ sin (2 * π / (5 : ℕ)) := by
    have := mul_le_sin (x := 2 * π / (5 : ℕ)) (by positivity) (by push_cast; linarith [pi_pos])
    refine le_trans ?_ this
    push_cast
    rw [show 2 / π * (2 * π / 5) = 4 / 5 by field_simp; norm_num]
    norm_num
  obtain ⟨uv, S', e1, e2⟩ := C51_interpolates (by norm_num) (by norm_num) hsin (by unfold superDScale; norm_num) (by omega) h hP (i := 1) (by omega) (s := 1 / 2) (by norm_num) (by norm_num) (Or.inl (by omega))
  refine ⟨S, uv, S', (hP 1 (by omega)).2, e1, ?_⟩
  rw [e2, hf, (C51_fullness_one _ _ 1 0).2.2]
  congr 2
  apply P3.ext
  · simp
  · simp; norm_num
  · simp

end examples

end SuperD

end Transfinite
