import Verif.Lemmas.Square
import Verif.Lemmas.GenBezierBuilt
import Verif.Props.SPatch
import Verif.Props.SuperD
import Verif.Props.GenBezier
import Verif.Props.Hull

/-! # C101: patches with three and four sides that are classical Bézier surfaces -/

namespace Transfinite

open Spec Real

/-! ### S-patches with three sides -/

namespace SPatch

variable {d : ℕ} {ε : ℝ} {arc : List (P3 ℝ) → ℝ → ℝ → ℝ} {S : SPatch ℝ} {calls : List (Call ℝ)}

/-- The labels of a triangular network. -/
theorem sum_labels_three {V : Type} [AddCommMonoid V] (g : (ℕ → ℕ) → V) :
    ∑ k ∈ labels 3 d, g k = ∑ i ∈ Finset.range (d + 1), ∑ j ∈ Finset.range (d + 1 - i), g (fun x => if x = 0 then i else if x = 1 then j else if x = 2 then d - i - j else 0) := by
  rw [Finset.sum_sigma']
  refine Finset.sum_bij' (fun k _ => ⟨k 0, k 1⟩) (fun x _ => fun y => if y = 0 then x.1 else if y = 1 then x.2 else if y = 2 then d - x.1 - x.2 else 0) ?_ ?_ ?_ ?_ ?_
  · intro k hk
    unfold labels at hk
    rw [Finset.mem_piAntidiag] at hk
    simp only [Finset.sum_range_succ, Finset.sum_range_zero] at hk
    simp only [Finset.mem_sigma, Finset.mem_range]
    omega
  · rintro ⟨i, j⟩ hx
    simp only [Finset.mem_sigma, Finset.mem_range] at hx
    unfold labels
    rw [Finset.mem_piAntidiag]
    refine ⟨?_, ?_⟩
    · simp only [Finset.sum_range_succ, Finset.sum_range_zero]
      norm_num
      omega
    · intro y hy
      rw [Finset.mem_range]
      by_contra q
      dsimp only at hy
      rw [if_neg (by omega), if_neg (by omega), if_neg (by omega)] at hy
      exact hy rfl
  · intro k hk
    unfold labels at hk
    rw [Finset.mem_piAntidiag] at hk
    obtain ⟨h1, h2⟩ := hk
    simp only [Finset.sum_range_succ, Finset.sum_range_zero] at h1
    funext y
    dsimp only
    split_ifs with a b c
    · rw [a]
    · rw [b]
    · rw [c]; omega
    · by_contra q
      have := Finset.mem_range.mp (h2 y (Ne.symm q))
      omega
  · rintro ⟨i, j⟩ _
    simp
  · intro k hk
    unfold labels at hk
    rw [Finset.mem_piAntidiag] at hk
    obtain ⟨h1, h2⟩ := hk
    simp only [Finset.sum_range_succ, Finset.sum_range_zero] at h1
    congr 1
    funext y
    dsimp only
    split_ifs with a b c
    · rw [a]
    · rw [b]
    · rw [c]; omega
    · by_contra q
      have := Finset.mem_range.mp (h2 y q)
      omega

/-- C101: an S-patch with three sides is the Bézier triangle of its control points: the value in the point of the domain with barycentric coordinates `a`, `b`, `c` with regard to the three
vertices is given by the Bernstein polynomials of three variables. -/
theorem C101_spatch (hε : 0 < ε) (hε1 : ε ≤ 1) (hd : d ≤ 20) (h : Usable ε arc 3 d calls S) {P : ℕ → ℕ → ℕ → P3 ℝ} (hP : ∀ i j k, i + j + k = d → S.controlPoint [i, j, k] = .ok (P i j k)) :
    ∃ v0 v1 v2 : P2 ℝ, S.dom.dom.vertices = [v0, v1, v2] ∧ ∀ a b c : ℝ, 0 ≤ a → 0 ≤ b → 0 ≤ c → a + b + c = 1 →
      ∃ S', S.eval ε (a • v0 + b • v1 + c • v2) = .ok (bezierTriangle d P a b c, S') := by
  obtain ⟨_, _, v, hcd⟩ := h.state le_rfl
  refine ⟨v 0, v 1, v 2, hcd.vertices_eq, fun a b c ha hb hc hs => ?_⟩
  have left : ∀ (x : ℕ → ℝ), ∑ i ∈ Finset.range 3, x i = 1 → ∀ j < 3, leftOf 3 v j (∑ i ∈ Finset.range 3, x i • v i) = x (nextIx 3 j) * leftOf 3 v j (v (nextIx 3 j)) := by
    intro x hx j hj
    rw [leftOf_sum _ _ _ _ _ _ hx]
    simp only [Finset.sum_range_succ, Finset.sum_range_zero]
    have a1 : leftOf 3 v j (v j) = 0 := by unfold leftOf area2; ring
    have a2 : leftOf 3 v j (v (prevIx 3 j)) = 0 := by unfold leftOf area2 prevIx; ring
    interval_cases j
    · rw [show prevIx 3 0 = 2 from rfl] at a2
      rw [show nextIx 3 0 = 1 from rfl, a1, a2]; ring
    · rw [show prevIx 3 1 = 0 from rfl] at a2
      rw [show nextIx 3 1 = 2 from rfl, a1, a2]; ring
    · rw [show prevIx 3 2 = 1 from rfl] at a2
      rw [show nextIx 3 2 = 0 from rfl, a1, a2]; ring
  have pos : ∀ j < 3, 0 < leftOf 3 v j (v (nextIx 3 j)) := by
    intro j hj
    refine hcd.convex j hj _ (nextIx_lt (by omega)) ?_ ?_
    · interval_cases j <;> decide
    · interval_cases j <;> decide
  set x : ℕ → ℝ := fun i => if i = 0 then a else if i = 1 then b else c with hx
  have x0 : ∀ i, 0 ≤ x i := fun i => by rw [hx]; dsimp only; split_ifs <;> assumption
  have xs : ∑ i ∈ Finset.range 3, x i = 1 := by simp only [Finset.sum_range_succ, Finset.sum_range_zero]; norm_num [hx]; linarith
  have xv : ∑ i ∈ Finset.range 3, x i • v i = a • v 0 + b • v 1 + c • v 2 := by simp only [Finset.sum_range_succ, Finset.sum_range_zero]; norm_num [hx]
  have hin : InsideClosed 3 v (a • v 0 + b • v 1 + c • v 2) := fun j hj => by
    rw [← xv, left x xs j hj]
    exact mul_nonneg (x0 _) (pos j hj).le
  obtain ⟨y, S', _, ys, yv, e, _, _⟩ := C50_weights hε hε1 le_rfl hd h (P := fun k => P (k 0) (k 1) (k 2)) (fun k hk => Or.inl (by
    unfold labels at hk
    rw [Finset.mem_piAntidiag] at hk
    have := hk.1
    simp only [Finset.sum_range_succ, Finset.sum_range_zero] at this
    exact hP (k 0) (k 1) (k 2) (by omega))) hcd.vertices_eq hin
  have hxy : ∀ i < 3, y i = x i := by
    have key : ∀ j < 3, y (nextIx 3 j) = x (nextIx 3 j) := fun j hj => by
      have := left y ys j hj
      rw [yv, ← xv, left x xs j hj] at this
      exact (mul_right_cancel₀ (pos j hj).ne' this).symm
    intro i hi
    have := key (prevIx 3 i) (prevIx_lt (by omega))
    rwa [nextIx_prevIx hi] at this
  refine ⟨S', ?_⟩
  rw [e, sum_labels_three]
  congr 2
  unfold bezierTriangle
  refine Finset.sum_congr rfl fun i hi => Finset.sum_congr rfl fun j hj => ?_
  rw [Finset.mem_range] at hi hj
  unfold multiBern
  simp only [Finset.sum_range_succ, Finset.sum_range_zero, Finset.prod_range_succ, Finset.prod_range_zero]
  rw [hxy 0 (by omega), hxy 1 (by omega), hxy 2 (by omega)]
  norm_num [hx]
  congr 3
  congr 1
  congr 1
  omega

end SPatch

/-! ### SuperD patches with four sides -/

namespace SuperD

variable {ε : ℝ} {arc : List (P3 ℝ) → ℝ → ℝ → ℝ} {S : SuperD ℝ} {calls : List (Call ℝ)} {F E : ℕ → P3 ℝ}

/-- The control points of a four-sided patch as a `3 × 3` grid: face control points in the corners, edge control points on the sides and the vertex control point in the middle. The first number
is the column, the second is the row; row 0 is side 0. -/
def superGrid (V : P3 ℝ) (F E : ℕ → P3 ℝ) (a b : ℕ) : P3 ℝ :=
  if b = 0 then (if a = 0 then F 3 else if a = 1 then E 0 else F 0)
  else if b = 1 then (if a = 0 then E 3 else if a = 1 then V else E 1)
  else (if a = 0 then F 2 else if a = 1 then E 2 else F 1)

theorem quarticPoint_linear (f : ℝ) (j : ℕ) : ∃ p q r : ℝ, ∀ a b c : P3 ℝ, quarticPoint f a b c j = p • a + q • b + r • c := by
  match j with
  | 0 => exact ⟨1, 0, 0, fun a b c => by change a = _; module⟩
  | 1 => exact ⟨1 - (2 * f ^ 2 + 3 * f) / 5, (2 * f ^ 2 + 3 * f) / 5, 0, fun a b c => by change a + _ • (b - a) = _; module⟩
  | 2 => exact ⟨1 / 2 * (1 - (9 * f - 2 * f ^ 2) / 7), (9 * f - 2 * f ^ 2) / 7, 1 / 2 * (1 - (9 * f - 2 * f ^ 2) / 7), fun a b c => by
      change (1 / 2 : ℝ) • (a + c) + _ • (b - (1 / 2 : ℝ) • (a + c)) = _; module⟩
  | 3 => exact ⟨0, (2 * f ^ 2 + 3 * f) / 5, 1 - (2 * f ^ 2 + 3 * f) / 5, fun a b c => by change c + _ • (b - c) = _; module⟩
  | j + 4 => exact ⟨0, 0, 1, fun a b c => by change c = _; module⟩

/-- Turning the grid turns the biquartic surface. -/
theorem biquartic_turn (f : ℝ) (g : ℕ → ℕ → P3 ℝ) {j k : ℕ} (hk : k ≤ 4) : biquartic f (fun a b => g (2 - b) a) j k = biquartic f g (4 - k) j := by
  unfold biquartic
  rw [quartic_reverse f _ _ _ hk, quartic_reverse f _ _ _ hk, quartic_reverse f _ _ _ hk]
  obtain ⟨p, q, r, h1⟩ := quarticPoint_linear f j
  obtain ⟨p', q', r', h2⟩ := quarticPoint_linear f k
  simp only [h1, h2]
  module

theorem tensor_turn {V : Type} [AddCommGroup V] [Module ℝ V] (d : ℕ) (P : ℕ → ℕ → V) (u w : ℝ) : tensor d (fun j k => P (d - k) j) w (1 - u) = tensor d P u w := by
  unfold tensor
  rw [Finset.sum_comm, ← Finset.sum_range_reflect]
  refine Finset.sum_congr rfl fun k hk => Finset.sum_congr rfl fun j hj => ?_
  rw [Finset.mem_range] at hk
  rw [show d + 1 - 1 - k = d - k by omega, bern_symm (by omega), show d - (d - k) = k by omega, mul_comm]
  beta_reduce
  rw [show d - (d - k) = k by omega]

theorem tensor_congr {V : Type} [AddCommGroup V] [Module ℝ V] {d : ℕ} {P Q : ℕ → ℕ → V} (h : ∀ j ≤ d, ∀ k ≤ d, P j k = Q j k) (u w : ℝ) : tensor d P u w = tensor d Q u w := by
  unfold tensor
  refine Finset.sum_congr rfl fun j hj => Finset.sum_congr rfl fun k hk => ?_
  rw [Finset.mem_range] at hj hk
  rw [h j (by omega) k (by omega)]

theorem tensor_bezier {V : Type} [AddCommGroup V] [Module ℝ V] (d : ℕ) (P : ℕ → ℕ → V) (u w : ℝ) : bezier d (fun j => bezier d (P j) w) u = tensor d P u w := by
  unfold bezier tensor
  refine Finset.sum_congr rfl fun j _ => ?_
  rw [Finset.smul_sum]
  exact Finset.sum_congr rfl fun k _ => (mul_smul _ _ _).symm

/-- The `3 × 3` grid seen from side `i`. -/
def turned (g : ℕ → ℕ → P3 ℝ) : ℕ → ℕ → ℕ → P3 ℝ
  | 0 => g
  | i + 1 => fun a b => turned g i (2 - b) a

theorem ribbonFew_value (hF : S.cpF = tab 4 F) (hE : S.cpE = tab 4 E) (hn : S.n = 4) {i : ℕ} (hi : i < 4) :
    S.generateRibbon i = .ok (tab 5 fun j => tab 5 (biquartic S.fullness (turned (superGrid S.cpV F E) i) j)) := by
  have hp : prevIx 4 i < 4 := prevIx_lt (by omega)
  have hx : nextIx 4 i < 4 := nextIx_lt (by omega)
  have hxx : nextIx 4 (nextIx 4 i) < 4 := nextIx_lt (by omega)
  have hm : S.generateMid i = .ok (tab 5 (quarticPoint S.fullness (E (prevIx 4 i)) S.cpV (E (nextIx 4 i)))) := by
    unfold generateMid
    rw [hE, hn, vget_tab _ hp, M_bind_ok, vget_tab _ hx, M_bind_ok, generateQuartic_eq]
  have ho : S.generateOpp i = .ok (tab 5 fun j => basePoint S.fullness 4 F E (nextIx 4 (nextIx 4 i)) (4 - j)) := by
    unfold generateOpp
    rw [hn, if_neg (by omega), if_pos (by omega), generateBase_eq hF hE hn hxx, M_bind_ok]
    rfl
  unfold generateRibbon
  rw [generateBase_eq hF hE hn hi, M_bind_ok, hn, if_neg (by omega), hm, M_bind_ok, ho, M_bind_ok]
  unfold ribbonFew
  refine (forLoop_push 5 _ (fun j => tab 5 (biquartic S.fullness (turned (superGrid S.cpV F E) i) j)) [] ?_).trans (by rw [List.nil_append, tab])
  intro j r hj
  rw [vget_tab _ hj, M_bind_ok, vget_tab _ hj, M_bind_ok, vget_tab _ hj, M_bind_ok, generateQuartic_eq]
  congr 3
  unfold basePoint biquartic
  rw [quartic_reverse _ _ _ _ (show j ≤ 4 by omega)]
  interval_cases i <;> rfl

/-- C101: a SuperD patch with four sides is the biquartic tensor product Bézier surface whose control points come from the `3 × 3` grid of the control points of the patch, in the whole domain: the
square with the corners (±1, ±1). -/
theorem C101_superd (hε : 0 < ε) (hε1 : ε ≤ 1) (h : Usable ε arc 4 calls S) (hP : Points 4 S F E) {u w : ℝ} (u0 : 0 ≤ u) (u1 : u ≤ 1) (w0 : 0 ≤ w) (w1 : w ≤ 1) :
    ∃ S', S.eval ε ⟨1 - 2 * w, 2 * u - 1⟩ = .ok (tensor 4 (biquartic S.fullness (superGrid S.vertexControlPoint F E)) u w, S') := by
  obtain ⟨hs, hiv, hcur, r', φ', _, hd'⟩ := h.state (by omega)
  obtain ⟨hF, hE⟩ := hP.lists hs
  obtain ⟨_, vs, e1, e2⟩ := hiv.resolve_left (by rw [hd'.n_eq]; omega)
  rw [hd'.n_eq] at e1
  obtain ⟨r, φ, hr, hr2, hd, hl⟩ := square_domain e1 e2
  obtain ⟨s1, s2⟩ := sq_sin
  obtain ⟨G, g1, _, g2⟩ := eval_eq hε (by omega) (by linarith) hd hs hiv hcur hF hE
  obtain ⟨b, S', e, _, bs, _⟩ := g2 ⟨1 - 2 * w, 2 * u - 1⟩ (fun j => sqDist u w (prevIx 4 j)) fun j hj => sq_bilinear hr hr2 hd hl u0 u1 w0 w1 hε hε1 hj
  refine ⟨S', e.trans ?_⟩
  congr 2
  have hsc : superDScale 4 = 1 := by unfold superDScale; rw [if_pos (by omega)]
  have hy : ∀ i < 4, superDScale 4 * (leftOf 4 (regularVertex 4 r φ) i ⟨1 - 2 * w, 2 * u - 1⟩ / (r ^ 2 * (4 * sin (π / (4 : ℕ)) ^ 2) * sin (2 * π / (4 : ℕ)))) = sqDist u w i := by
    intro i hi
    rw [hsc, hl _ _ _ hi, hr2, s1, s2]
    ring
  have hval : ∀ i < 4, bezier 4 (fun k => bezier 4 (G i k) (superDScale 4 * (leftOf 4 (regularVertex 4 r φ) i ⟨1 - 2 * w, 2 * u - 1⟩ / (r ^ 2 * (4 * sin (π / (4 : ℕ)) ^ 2) * sin (2 * π / (4 : ℕ))))))
      (sqDist u w (prevIx 4 i)) = tensor 4 (biquartic S.fullness (superGrid S.cpV F E)) u w := by
    intro i hi
    rw [hy i hi, tensor_bezier]
    have e2 : ∀ j ≤ 4, ∀ k ≤ 4, G i j k = biquartic S.fullness (turned (superGrid S.cpV F E) i) j k := fun j hj k hk =>
      tab_inj (tab_inj (Except.ok.inj ((g1 i hi).symm.trans (ribbonFew_value hF hE hs.n_eq hi))) (show j < 5 by omega)) (show k < 5 by omega)
    rw [tensor_congr e2]
    have t : ∀ (m : ℕ) (x y : ℝ), tensor 4 (biquartic S.fullness (turned (superGrid S.cpV F E) (m + 1))) y (1 - x) = tensor 4 (biquartic S.fullness (turned (superGrid S.cpV F E) m)) x y := by
      intro m x y
      rw [← tensor_turn 4 _ x y]
      exact tensor_congr (fun j _ k hk => biquartic_turn S.fullness _ hk) _ _
    interval_cases i
    · rfl
    · exact t 0 u w
    · exact (t 1 w (1 - u)).trans (t 0 u w)
    · have := (t 2 (1 - u) (1 - w)).trans ((t 1 w (1 - u)).trans (t 0 u w))
      rwa [sub_sub_cancel] at this
  rw [Finset.sum_congr rfl fun i hi => by rw [hval i (Finset.mem_range.mp hi)], ← Finset.sum_smul, bs, one_smul]
  rfl

end SuperD

/-! ### Generalized Bézier patches with four sides -/

namespace GB

variable {d : ℕ} {ε : ℝ} {arc : List (P3 ℝ) → ℝ → ℝ → ℝ} {G : GB ℝ} {calls : List (Call ℝ)}

/-- `P` is the grid of the control points of a four-sided patch. -/
def IsGrid (d : ℕ) (G : GB ℝ) (P : ℕ → ℕ → P3 ℝ) : Prop :=
  (∀ i < 4, ∀ j ≤ d, ∀ k < (d + 1) / 2, G.controlPoint i j k = .ok (P (gridPlace d i j k).1 (gridPlace d i j k).2)) ∧ (d % 2 = 0 → P (d / 2) (d / 2) = G.central)

/-- C101: the control points of a four-sided patch form a rectangular grid (that is unique). -/
theorem C101_grid (h : Usable ε arc .side 4 d calls G) (hreg : ∀ c ∈ calls, c.regular = true) : ∃ P, IsGrid d G P ∧ ∀ Q, IsGrid d G Q → ∀ j ≤ d, ∀ k ≤ d, Q j k = P j k := by
  obtain ⟨F, hF, hcons⟩ := h.consistent (by omega) hreg
  set l := (d + 1) / 2 with hl
  have cons : ∀ i < 4, ∀ j < l, ∀ k < l, F i j k = F (prevIx 4 i) (d - k) j := fun i hi j hj k hk =>
    hcons ⟨i, j, k⟩ ⟨prevIx 4 i, d - k, j⟩ ⟨hi, by dsimp only; omega, hk⟩ ⟨prevIx_lt (by omega), by dsimp only; omega, hj⟩ (Or.inr (Or.inl ⟨hj, hk, rfl⟩))
  have c0 := cons 0 (by omega)
  have c1 := cons 1 (by omega)
  have c2 := cons 2 (by omega)
  have c3 := cons 3 (by omega)
  rw [show prevIx 4 0 = 3 from rfl] at c0
  rw [show prevIx 4 1 = 0 from rfl] at c1
  rw [show prevIx 4 2 = 1 from rfl] at c2
  rw [show prevIx 4 3 = 2 from rfl] at c3
  refine ⟨fun a b => if b < l then F 0 a b else if d - l < b then F 2 (d - a) (d - b) else if a < l then F 3 (d - b) a else if d - l < a then F 1 b (d - a) else G.central, ⟨?_, ?_⟩, ?_⟩
  · intro i hi j hj k hk
    refine (hF.cpt hi hj hk).trans (congrArg Except.ok ?_)
    interval_cases i
    · rw [show gridPlace d 0 j k = (j, k) from rfl]
      dsimp only
      rw [if_pos hk]
    · rw [show gridPlace d 1 j k = (d - k, j) from rfl]
      dsimp only
      split_ifs with q1 q2 q3 q4
      · exact c1 j q1 k hk
      · rw [show d - (d - k) = k by omega, c2 k hk (d - j) (by omega), show d - (d - j) = j by omega]
      · omega
      · rw [show d - (d - k) = k by omega]
      · omega
    · rw [show gridPlace d 2 j k = (d - j, d - k) from rfl]
      dsimp only
      rw [if_neg (by omega), if_pos (by omega), show d - (d - j) = j by omega, show d - (d - k) = k by omega]
    · rw [show gridPlace d 3 j k = (k, d - j) from rfl]
      dsimp only
      split_ifs with q1 q2
      · rw [c0 k hk (d - j) q1, show d - (d - j) = j by omega]
      · rw [show d - (d - j) = j by omega]
        exact c3 j (by omega) k hk
      · rw [show d - (d - j) = j by omega]
  · intro e
    dsimp only
    rw [if_neg (by omega), if_neg (by omega), if_neg (by omega), if_neg (by omega)]
  · rintro Q ⟨q1, q2⟩ a ha b hb
    have val : ∀ i < 4, ∀ j ≤ d, ∀ k < l, F i j k = Q (gridPlace d i j k).1 (gridPlace d i j k).2 := fun i hi j hj k hk =>
      Except.ok.inj ((hF.cpt hi hj hk).symm.trans (q1 i hi j hj k hk))
    dsimp only
    split_ifs with r1 r2 r3 r4
    · exact (val 0 (by omega) a ha b r1).symm
    · have := val 2 (by omega) (d - a) (by omega) (d - b) (by omega)
      rw [this]
      change Q a b = Q (d - (d - a)) (d - (d - b))
      rw [show d - (d - a) = a by omega, show d - (d - b) = b by omega]
    · have := val 3 (by omega) (d - b) (by omega) a r3
      rw [this]
      change Q a b = Q a (d - (d - b))
      rw [show d - (d - b) = b by omega]
    · have := val 1 (by omega) b hb (d - a) (by omega)
      rw [this]
      change Q a b = Q (d - (d - a)) b
      rw [show d - (d - a) = a by omega]
    · rw [show a = d / 2 by omega, show b = d / 2 by omega]
      exact q2 (by omega)

/-- The local parameters of the square. -/
theorem Usable.square (hε : 0 < ε) (hε1 : ε ≤ 1) (h : Usable ε arc .side 4 d calls G) {u w : ℝ} (u0 : 0 ≤ u) (u1 : u ≤ 1) (w0 : 0 ≤ w) (w1 : w ≤ 1) :
    ∃ o, Param.mapToRibbons ε G.kind.param ⟨1 - 2 * w, 2 * u - 1⟩ G.param = .ok (tab 4 (sqPar u w), o) := by
  obtain ⟨hi, hk, hdn, _⟩ := h.state (by omega)
  obtain ⟨vs, e1, e2⟩ := (hi.regular hk).resolve_left (by omega)
  rw [hdn] at e1
  obtain ⟨r, φ, hr, hr2, hd, hl⟩ := square_domain e1 e2
  exact h.maps (by omega) fun j hj => sq_baryMap hr hr2 hd hl u0 u1 w0 w1 hε hε1 hj

/-- C101: a four-sided Generalized Bézier patch of degree at least 3 is the tensor product Bézier surface of its control points, in the whole domain (the square with the corners (±1, ±1)) except
for the zones near the corners where the patch takes the corner control points (`C101_gb_corner`). For odd degree the central control point has no effect, for even degree it is the middle control point. -/
theorem C101_gb (hε : 0 < ε) (hε1 : ε ≤ 1) (hd : 3 ≤ d) (h : Usable ε arc .side 4 d calls G) {P : ℕ → ℕ → P3 ℝ} (hP : IsGrid d G P) {u w : ℝ} (u0 : 0 ≤ u) (u1 : u ≤ 1) (w0 : 0 ≤ w) (w1 : w ≤ 1)
    (hc : ∀ a b : ℝ, (a = 0 ∨ a = 1) → (b = 0 ∨ b = 1) → ε ≤ |u - a| + |w - b|) : ∃ G', G.eval ε ⟨1 - 2 * w, 2 * u - 1⟩ = .ok (tensor d P u w, G') := by
  obtain ⟨o, ho⟩ := h.square hε hε1 u0 u1 w0 w1
  obtain ⟨_, hk, _, ⟨F, hF⟩, _⟩ := h.state (by omega)
  have habs : |u - 0| = u ∧ |u - 1| = 1 - u ∧ |w - 0| = w ∧ |w - 1| = 1 - w := by
    refine ⟨?_, ?_, ?_, ?_⟩
    · rw [sub_zero, abs_of_nonneg u0]
    · rw [abs_sub_comm, abs_of_nonneg (by linarith)]
    · rw [sub_zero, abs_of_nonneg w0]
    · rw [abs_sub_comm, abs_of_nonneg (by linarith)]
  obtain ⟨a1, a2, a3, a4⟩ := habs
  have hc' : ∀ i < 4, ε ≤ sqDist u w i + sqDist u w (nextIx 4 i) := by
    have k00 := hc 0 0 (Or.inl rfl) (Or.inl rfl)
    have k01 := hc 0 1 (Or.inl rfl) (Or.inr rfl)
    have k10 := hc 1 0 (Or.inr rfl) (Or.inl rfl)
    have k11 := hc 1 1 (Or.inr rfl) (Or.inr rfl)
    rw [a1, a3] at k00
    rw [a1, a4] at k01
    rw [a2, a3] at k10
    rw [a2, a4] at k11
    intro i hi
    interval_cases i <;> norm_num [sqDist, nextIx] <;> linarith
  obtain ⟨G', e⟩ := eval_side hk ho (sideEval_eq hε hF hc')
  refine ⟨G', e.trans ?_⟩
  congr 2
  have val : ∀ i < 4, ∀ j ≤ d, ∀ k < (d + 1) / 2, F i j k = P (gridPlace d i j k).1 (gridPlace d i j k).2 := fun i hi j hj k hk =>
    Except.ok.inj ((hF.cpt hi hj hk).symm.trans (hP.1 i hi j hj k hk))
  have s1 := sum_square hd G.squared hε hc' val
  have s2 := sum_square (V := ℝ) hd G.squared hε hc' (F := fun _ _ _ => 1) (P := fun _ _ => 1) fun _ _ _ _ _ _ => rfl
  have one : tensor d (fun _ _ => (1 : ℝ)) u w = 1 := by
    unfold tensor
    simp only [smul_eq_mul, mul_one]
    rw [Finset.sum_congr rfl fun j _ => (Finset.mul_sum _ _ _).symm, bern_sum, Finset.sum_congr rfl fun j _ => mul_one _, bern_sum]
  simp only [smul_eq_mul, mul_one] at s2
  rw [one] at s2
  rw [← s1]
  congr 1
  by_cases ev : d % 2 = 0
  · rw [if_pos ev] at s2 ⊢
    rw [hP.2 ev, ← s2, add_sub_cancel_left]
  · rw [if_neg ev] at s2 ⊢
    rw [add_zero] at s2
    rw [s2, sub_self, zero_smul]

/-- C101: near a corner the patch takes the value of the tensor product surface in that corner. -/
theorem C101_gb_corner (hε : 0 < ε) (hε1 : ε ≤ 1 / 2) (hd : 1 ≤ d) (h : Usable ε arc .side 4 d calls G) {P : ℕ → ℕ → P3 ℝ} (hP : IsGrid d G P) {u w : ℝ} (u0 : 0 ≤ u) (u1 : u ≤ 1) (w0 : 0 ≤ w)
    (w1 : w ≤ 1) {a b : ℝ} (ha : a = 0 ∨ a = 1) (hb : b = 0 ∨ b = 1) (hc : |u - a| + |w - b| < ε) : ∃ G', G.eval ε ⟨1 - 2 * w, 2 * u - 1⟩ = .ok (tensor d P a b, G') := by
  obtain ⟨o, ho⟩ := h.square hε (by linarith) u0 u1 w0 w1
  obtain ⟨_, hk, _, ⟨F, hF⟩, _⟩ := h.state (by omega)
  have val : ∀ i < 4, ∀ j ≤ d, ∀ k < (d + 1) / 2, F i j k = P (gridPlace d i j k).1 (gridPlace d i j k).2 := fun i hi j hj k hk =>
    Except.ok.inj ((hF.cpt hi hj hk).symm.trans (hP.1 i hi j hj k hk))
  have ten : ∀ p q : ℕ, p ≤ d → q ≤ d → (∀ j ≤ d, bern d j a = if j = p then 1 else 0) → (∀ j ≤ d, bern d j b = if j = q then 1 else 0) → tensor d P a b = P p q := by
    intro p q hp hq h1 h2
    unfold tensor
    rw [Finset.sum_congr rfl fun j hj => Finset.sum_congr rfl fun k hk => by
      rw [h1 j (by have := Finset.mem_range.mp hj; omega), h2 k (by have := Finset.mem_range.mp hk; omega)]]
    rw [Finset.sum_eq_single p, Finset.sum_eq_single q]
    · simp
    · intro k _ hne; simp [hne]
    · intro hne; exact absurd (Finset.mem_range.mpr (by omega)) hne
    · intro j _ hne; simp [hne]
    · intro hne; exact absurd (Finset.mem_range.mpr (by omega)) hne
  have key : ∀ c < 4, (sqPar u w c).y + (sqPar u w (nextIx 4 c)).y < ε → F c d 0 = tensor d P a b → F (nextIx 4 c) 0 0 = tensor d P a b →
      ∃ G', G.eval ε ⟨1 - 2 * w, 2 * u - 1⟩ = .ok (tensor d P a b, G') := by
    intro c hcn hlt p1 p2
    refine eval_side hk ho (sideEval_corner hε hF hd hcn hlt (fun i hi hne => ?_) p1 p2)
    interval_cases c <;> interval_cases i <;> first | exact absurd rfl hne | (norm_num [sqPar, sqDist, nextIx] at hlt ⊢; linarith)
  have z0 : ∀ j ≤ d, bern d j (0 : ℝ) = if j = 0 then 1 else 0 := fun j _ => bern_at_zero d j
  have z1 : ∀ j ≤ d, bern d j (1 : ℝ) = if j = d then 1 else 0 := fun j hj => bern_at_one hj
  have hl : 0 < (d + 1) / 2 := by omega
  rcases ha with rfl | rfl <;> rcases hb with rfl | rfl
  · rw [sub_zero, sub_zero, abs_of_nonneg u0, abs_of_nonneg w0] at hc
    refine key 3 (by omega) (by norm_num [sqPar, sqDist, nextIx]; linarith) ?_ ?_
    · rw [ten 0 0 (by omega) (by omega) z0 z0, val 3 (by omega) d le_rfl 0 hl]; simp [gridPlace]
    · rw [ten 0 0 (by omega) (by omega) z0 z0, val (nextIx 4 3) (by decide) 0 (by omega) 0 hl]; simp [gridPlace, nextIx]
  · rw [sub_zero, abs_of_nonneg u0, abs_sub_comm, abs_of_nonneg (show 0 ≤ 1 - w by linarith)] at hc
    refine key 2 (by omega) (by norm_num [sqPar, sqDist, nextIx]; linarith) ?_ ?_
    · rw [ten 0 d (by omega) (by omega) z0 z1, val 2 (by omega) d le_rfl 0 hl]; simp [gridPlace]
    · rw [ten 0 d (by omega) (by omega) z0 z1, val (nextIx 4 2) (by decide) 0 (by omega) 0 hl]; simp [gridPlace, nextIx]
  · rw [sub_zero, abs_of_nonneg w0, abs_sub_comm, abs_of_nonneg (show 0 ≤ 1 - u by linarith)] at hc
    refine key 0 (by omega) (by norm_num [sqPar, sqDist, nextIx]; linarith) ?_ ?_
    · rw [ten d 0 (by omega) (by omega) z1 z0, val 0 (by omega) d le_rfl 0 hl]; simp [gridPlace]
    · rw [ten d 0 (by omega) (by omega) z1 z0, val (nextIx 4 0) (by decide) 0 (by omega) 0 hl]; simp [gridPlace, nextIx]
  · rw [abs_sub_comm u, abs_sub_comm w, abs_of_nonneg (show 0 ≤ 1 - u by linarith), abs_of_nonneg (show 0 ≤ 1 - w by linarith)] at hc
    refine key 1 (by omega) (by norm_num [sqPar, sqDist, nextIx]; linarith) ?_ ?_
    · rw [ten d d (by omega) (by omega) z1 z1, val 1 (by omega) d le_rfl 0 hl]; simp [gridPlace]
    · rw [ten d d (by omega) (by omega) z1 z1, val (nextIx 4 1) (by decide) 0 (by omega) 0 hl]; simp [gridPlace, nextIx]

/-- C101: four-sided patches of degree 2 are not tensor product surfaces: the middle control points of the sides have a single name, but they take only a part of their weight, and the rest goes to
the central control point. Here all control points except the central one are at height 0, and the centre of the patch is at twice the height of the tensor product surface. -/
theorem C101_gb_quadratic (hε : 0 < ε) (hε1 : ε ≤ 1) : ∃ (calls : List (Call ℝ)) (G : GB ℝ) (P : ℕ → ℕ → P3 ℝ), Usable ε arc .side 4 2 calls G ∧ (∀ c ∈ calls, c.regular = true) ∧ IsGrid 2 G P ∧
    tensor 2 P (1 / 2 : ℝ) (1 / 2 : ℝ) = ⟨0, 0, 1⟩ ∧ ∃ G', G.eval ε 0 = .ok (⟨0, 0, 2⟩, G') := by
  obtain ⟨G, hu, hreg, hcen, _, hcp⟩ := built (ε := ε) (arc := arc) (n := 4) (d := 2) .side (by norm_num) (by norm_num) (Or.inl rfl) (w := []) (by simp) ⟨0, 0, 4⟩ false
  refine ⟨_, G, fun j k => if j = 1 ∧ k = 1 then ⟨0, 0, 4⟩ else 0, hu, hreg, ⟨fun i hi j hj k hk => ?_, fun _ => ?_⟩, ?_, ?_⟩
  · rw [hcp ⟨i, j, k⟩ ⟨hi, hj, hk⟩]
    refine congrArg Except.ok ?_
    beta_reduce
    rw [if_neg]
    · rfl
    · have : k = 0 := by omega
      unfold gridPlace
      split_ifs <;> omega
  · simp [hcen]
  · unfold tensor bern
    simp only [Finset.sum_range_succ, Finset.sum_range_zero]
    ext <;> norm_num [Nat.choose]
  · obtain ⟨o, ho⟩ := hu.square hε hε1 (u := 1 / 2) (w := 1 / 2) (by norm_num) (by norm_num) (by norm_num) (by norm_num)
    obtain ⟨_, hk, _, ⟨F, hF⟩, _⟩ := hu.state (by omega)
    have par : ∀ i, sqPar (1 / 2) (1 / 2) i = ⟨1 / 2, 1 / 2⟩ := by
      intro i
      unfold sqPar sqDist
      norm_num
    obtain ⟨G', e⟩ := eval_side hk ho (sideEval_eq hε hF fun i _ => by rw [par, par]; norm_num; linarith)
    rw [show (⟨1 - 2 * (1 / 2), 2 * (1 / 2) - 1⟩ : P2 ℝ) = 0 by ext <;> norm_num] at e
    refine ⟨G', e.trans ?_⟩
    congr 2
    have z : ∀ i < 4, ∀ j ≤ 2, F i j 0 = 0 := fun i hi j hj => Except.ok.inj ((hF.cpt hi hj (by norm_num)).symm.trans (hcp ⟨i, j, 0⟩ ⟨hi, hj, by norm_num⟩))
    have rat : ratVal G.squared (1 / 2 : ℝ) (1 / 2) = 1 / 2 := by unfold ratVal; split_ifs <;> norm_num
    rw [hcen, show ((2 : ℕ) + 1) / 2 = 1 from rfl]
    simp only [Finset.sum_range_succ, Finset.sum_range_zero, z 0 (by omega) 0 (by omega), z 0 (by omega) 1 (by omega), z 0 (by omega) 2 (by omega), z 1 (by omega) 0 (by omega),
      z 1 (by omega) 1 (by omega), z 1 (by omega) 2 (by omega), z 2 (by omega) 0 (by omega), z 2 (by omega) 1 (by omega), z 2 (by omega) 2 (by omega), z 3 (by omega) 0 (by omega),
      z 3 (by omega) 1 (by omega), z 3 (by omega) 2 (by omega), smul_zero]
    unfold wt
    simp only [par, rat]
    unfold factor bern
    ext <;> norm_num [Nat.choose, usub]

end GB

section examples

/-- A triangular S-patch of depth 3 with any control points. -/
example (P : ℕ → ℕ → ℕ → P3 ℝ) : ∃ calls S, SPatch.Usable (1 / 1000) (fun _ _ _ => 0) 3 3 calls S ∧ (∀ i j k, i + j + k = 3 → S.controlPoint [i, j, k] = .ok (P i j k)) ∧
    ∃ v0 v1 v2 : P2 ℝ, S.dom.dom.vertices = [v0, v1, v2] ∧ ∀ a b c : ℝ, 0 ≤ a → 0 ≤ b → 0 ≤ c → a + b + c = 1 →
      ∃ S', S.eval (1 / 1000) (a • v0 + b • v1 + c • v2) = .ok (bezierTriangle 3 P a b c, S') := by
  obtain ⟨calls, S, h, hP⟩ := SPatch.C50_complete (ε := 1 / 1000) (arc := fun _ _ _ => 0) (n := 3) (by norm_num) 3 fun k => P (k 0) (k 1) (k 2)
  have hP' : ∀ i j k, i + j + k = 3 → S.controlPoint [i, j, k] = .ok (P i j k) := by
    intro i j k hs
    have := hP (fun x => if x = 0 then i else if x = 1 then j else if x = 2 then k else 0) (by
      unfold labels
      rw [Finset.mem_piAntidiag]
      refine ⟨?_, fun y hy => ?_⟩
      · simp only [Finset.sum_range_succ, Finset.sum_range_zero]
        norm_num
        omega
      · rw [Finset.mem_range]
        by_contra q
        rw [if_neg (by omega), if_neg (by omega), if_neg (by omega)] at hy
        exact hy rfl)
    exact this
  exact ⟨calls, S, h, hP', SPatch.C101_spatch (by norm_num) (by norm_num) (by norm_num) h hP'⟩

/-- A SuperD patch with 4 sides and any control points. -/
example (V : P3 ℝ) (F E : ℕ → P3 ℝ) : ∃ calls S, SuperD.Usable (1 / 1000) (fun _ _ _ => 0) 4 calls S ∧ SuperD.Points 4 S F E ∧ S.vertexControlPoint = V ∧
    ∃ S', S.eval (1 / 1000) ⟨1 / 2, 1 / 2⟩ = .ok (tensor 4 (biquartic (1 / 2) (SuperD.superGrid V F E)) (3 / 4 : ℝ) (1 / 4 : ℝ), S') := by
  obtain ⟨calls, S, h, hP, hf, hV⟩ := SuperD.C51_complete (ε := 1 / 1000) (arc := fun _ _ _ => 0) (n := 4) (by norm_num) (1 / 2) V F E
  obtain ⟨S', e⟩ := SuperD.C101_superd (by norm_num) (by norm_num) h hP (u := 3 / 4) (w := 1 / 4) (by norm_num) (by norm_num) (by norm_num) (by norm_num)
  rw [hf, hV] at e
  refine ⟨calls, S, h, hP, hV, S', ?_⟩
  rw [← e]
  norm_num

/-- A quartic Generalized Bézier patch with 4 sides. -/
example : ∃ calls G P, GB.Usable (1 / 1000) (fun _ _ _ => 0) .side 4 4 calls G ∧ GB.IsGrid 4 G P ∧ P 2 1 = ⟨1, 2, 3⟩ ∧ P 2 2 = ⟨4, 5, 6⟩ ∧
    ∃ G', G.eval (1 / 1000) ⟨1 / 2, 1 / 2⟩ = .ok (tensor 4 P (3 / 4 : ℝ) (1 / 4 : ℝ), G') := by
  obtain ⟨G, hu, hreg, hcen, _, hcp⟩ := GB.built (ε := 1 / 1000) (arc := fun _ _ _ => 0) (n := 4) (d := 4) .side (by norm_num) (by norm_num) (Or.inl rfl) (w := [(⟨0, 2, 1⟩, ⟨1, 2, 3⟩)])
    (by simp [Name.InRange]) ⟨4, 5, 6⟩ false
  obtain ⟨P, hP, _⟩ := GB.C101_grid hu hreg
  obtain ⟨G', e⟩ := GB.C101_gb (by norm_num) (by norm_num) (by norm_num) hu hP (u := 3 / 4) (w := 1 / 4) (by norm_num) (by norm_num) (by norm_num) (by norm_num) (by
    rintro a b (rfl | rfl) (rfl | rfl) <;> norm_num [abs_of_pos, abs_of_neg])
  refine ⟨_, G, P, hu, hP, ?_, (hP.2 rfl).trans hcen, G', ?_⟩
  · have := (hP.1 0 (by norm_num) 2 (by norm_num) 1 (by norm_num)).symm.trans (hcp ⟨0, 2, 1⟩ ⟨by norm_num, by norm_num, by norm_num⟩)
    exact Except.ok.inj this
  · rw [← e]
    norm_num

end examples

end Transfinite
