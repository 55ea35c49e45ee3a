import Verif.Lemmas.TangentSuperD
import Verif.Props.Fences

/-! # C98: tangent planes of SuperD patches -/

namespace Transfinite

open Spec Set Filter Topology Real

namespace SuperD

variable {n m : ℕ} {ε : ℝ} {arc arc' : List (P3 ℝ) → ℝ → ℝ → ℝ} {S A B : SuperD ℝ} {calls calls' : List (Call ℝ)} {F E F' E' : ℕ → P3 ℝ} {i k : ℕ} {s : ℝ}

/-! ### Specification -/

/-- The point `s` of a side is outside of the tolerance of the corners. -/
structure Inner (ε : ℝ) (n : ℕ) (s : ℝ) : Prop where
  low : ε < superDScale n * s
  high : ε < superDScale n * (1 - s)
  lowSin : ε < s * sin (2 * π / n)
  highSin : ε < (1 - s) * sin (2 * π / n)

/-- The derivative of the quartic curve of side `i`. -/
noncomputable def sideDer (n : ℕ) (f : ℝ) (F E : ℕ → P3 ℝ) (i : ℕ) (s : ℝ) : P3 ℝ := bezierDer 4 (quarticPoint f (F ((i + n - 1) % n)) (E i) (F i)) s

/-- Side `i` of the first patch is side `k` of the second one, in the other direction. -/
structure SameSide (n m : ℕ) (F E F' E' : ℕ → P3 ℝ) (i k : ℕ) : Prop where
  first : F ((i + n - 1) % n) = F' k
  edge : E i = E' k
  last : F i = F' ((k + m - 1) % m)

/-- The face points are between the edge points of the two patches that are next to them, with the ratio `c` of the distances. -/
structure Between (n m : ℕ) (c : ℝ) (F E F' E' : ℕ → P3 ℝ) (i k : ℕ) : Prop where
  first : E ((i + n - 1) % n) - F ((i + n - 1) % n) = (-c) • (E' ((k + 1) % m) - F' k)
  last : E ((i + 1) % n) - F i = (-c) • (E' ((k + m - 1) % m) - F' ((k + m - 1) % m))

/-- The patches have a common tangent plane at a point `s` of their common side, and they are on different sides of the curve. The vector `D` is the derivative of the curve. -/
def JoinedAt (ε : ℝ) (A B : SuperD ℝ) (n m : ℕ) (v v' : ℕ → P2 ℝ) (D : P3 ℝ) (i k : ℕ) (s : ℝ) : Prop :=
  ∀ p w p' w', DomainPath n v i s p w → 0 < inward n v i w → DomainPath m v' k (1 - s) p' w' → 0 < inward m v' k w' →
    ∃ (X Y : ℝ → P3 ℝ) (X' Y' : P3 ℝ) (a b : ℝ), (∀ᶠ t in nhdsWithin 0 (Set.Ici 0), ∃ A', A.eval ε (p t) = .ok (X t, A')) ∧
      (∀ᶠ t in nhdsWithin 0 (Set.Ici 0), ∃ B', B.eval ε (p' t) = .ok (Y t, B')) ∧ X 0 = Y 0 ∧ RightDer3 X X' ∧ RightDer3 Y Y' ∧ 0 < a ∧ 0 < b ∧
      a • P3.cross D X' = -(b • P3.cross D Y')

/-! ### Theorems -/

/-- C98: along every path that starts on a side, the derivative of the patch is a combination of the derivative of the boundary curve and the cross derivative of the ribbon; the factor
of the latter is positive when the path leaves the side. -/
theorem C98_derivative (hε : 0 < ε) (hn : 3 ≤ n) (h : Usable ε arc n calls S) (hP : Points n S F E) (hi : i < n) (hs : Inner ε n s) :
    ∃ v, ConvexDomain S.dom.dom n v ∧ ∀ p w, DomainPath n v i s p w → ∃ (X : ℝ → P3 ℝ) (α β : ℝ),
      (∀ᶠ t in nhdsWithin 0 (Set.Ici 0), ∃ S', S.eval ε (p t) = .ok (X t, S')) ∧ X 0 = sideCurve n S.fullness F E i s ∧
        RightDer3 X (α • sideDer n S.fullness F E i s + β • superDCross n S.fullness S.vertexControlPoint F E i s) ∧ 0 ≤ β ∧ (0 < inward n v i w → 0 < β) := by
  obtain ⟨hs', hiv, hcur, r, φ, hr, hd⟩ := h.state hn
  obtain ⟨hF, hE⟩ := hP.lists hs'
  exact ⟨_, hd, fun p w hp => side_der hε hn (by linarith) hd hs' hiv hcur hF hE hi hs.low hs.high hs.lowSin hs.highSin hp⟩

/-- C98: the tangent plane of the patch on a side is spanned by the derivative of the boundary curve and the cross derivative of the ribbon. -/
theorem C98_normal (hε : 0 < ε) (hn : 3 ≤ n) (h : Usable ε arc n calls S) (hP : Points n S F E) (hi : i < n) (hs : Inner ε n s) :
    ∃ v, ConvexDomain S.dom.dom n v ∧ ∀ p w, DomainPath n v i s p w → 0 < inward n v i w → ∃ (X : ℝ → P3 ℝ) (X' : P3 ℝ) (β : ℝ),
      (∀ᶠ t in nhdsWithin 0 (Set.Ici 0), ∃ S', S.eval ε (p t) = .ok (X t, S')) ∧ X 0 = sideCurve n S.fullness F E i s ∧ RightDer3 X X' ∧ 0 < β ∧
        P3.cross (sideDer n S.fullness F E i s) X' = β • P3.cross (sideDer n S.fullness F E i s) (superDCross n S.fullness S.vertexControlPoint F E i s) := by
  obtain ⟨v, hv, hder⟩ := C98_derivative hε hn h hP hi hs
  refine ⟨v, hv, fun p w hp hw => ?_⟩
  obtain ⟨X, α, β, h1, h2, h3, _, h5⟩ := hder p w hp
  refine ⟨X, _, β, h1, h2, h3, h5 hw, ?_⟩
  ext <;> simp [P3.cross] <;> ring

/-- C98: with more than 4 sides the vertex control point has no effect: setting it (and updating the ribbons) does not change any point of the patch. -/
theorem C98_vertex (hn : 4 < n) (h : Usable ε arc n calls S) (V : P3 ℝ) : ∃ S', (S.setVertexControlPoint V).updateRibbons = .ok S' ∧ S'.vertexControlPoint = V ∧
    ∀ uv, (S'.eval ε uv).map Prod.fst = (S.eval ε uv).map Prod.fst := by
  obtain ⟨hs, _, hcur, _⟩ := h.state (by omega)
  have same : ∀ j, (S.setVertexControlPoint V).generateRibbon j = S.generateRibbon j := by
    intro j
    have hb : ∀ j, (S.setVertexControlPoint V).generateBase j = S.generateBase j := fun _ => rfl
    have hN : (S.setVertexControlPoint V).n = S.n := rfl
    unfold generateRibbon
    simp only [hb, hN, if_pos (show S.n > 4 by rw [hs.n_eq]; exact hn)]
  refine ⟨{ S with cpV := V }, ?_, rfl, fun uv => ?_⟩
  · rw [current_iff] at hcur
    unfold updateRibbons
    simp only [same]
    change (forLoop S.n _ [] >>= _) = _
    rw [hcur, M_bind_ok]
    rfl
  · unfold eval
    dsimp only
    cases Param.mapToRibbons ε .superD uv S.param with
    | error e => rfl
    | ok r =>
      rw [M_bind_ok, M_bind_ok]
      cases Surf.blendSideSingular ε r.1 with
      | error e => rfl
      | ok b =>
        rw [M_bind_ok, M_bind_ok]
        cases sumRibbons S.n S.quartic r.1 b with
        | error e => rfl
        | ok q => rfl

theorem quartic_linear (f c : ℝ) {a b d a' b' d' u v w u' v' w' : P3 ℝ} (h1 : a - u = c • (a' - u')) (h2 : b - v = c • (b' - v')) (h3 : d - w = c • (d' - w')) (s : ℝ) :
    bezier 4 (quarticPoint f a b d) s - bezier 4 (quarticPoint f u v w) s = c • (bezier 4 (quarticPoint f a' b' d') s - bezier 4 (quarticPoint f u' v' w') s) := by
  have e1 : a = u + c • (a' - u') := by rw [← h1]; module
  have e2 : b = v + c • (b' - v') := by rw [← h2]; module
  have e3 : d = w + c • (d' - w') := by rw [← h3]; module
  simp only [quartic_eval, e1, e2, e3]
  module

theorem quartic_symm (f : ℝ) (a b c : P3 ℝ) (s : ℝ) : bezier 4 (quarticPoint f a b c) (1 - s) = bezier 4 (quarticPoint f c b a) s := by
  simp only [quartic_eval]
  module

theorem sideCurve_shared (h : SameSide n m F E F' E' i k) (f : ℝ) (s : ℝ) : sideCurve m f F' E' k (1 - s) = sideCurve n f F E i s := by
  unfold sideCurve
  rw [quartic_symm, h.first, h.edge, h.last]

theorem sideDer_shared (h : SameSide n m F E F' E' i k) (f : ℝ) (s : ℝ) : sideDer m f F' E' k (1 - s) = -sideDer n f F E i s := by
  unfold sideDer bezierDer
  rw [h.first, h.edge, h.last]
  unfold bezier bern
  simp only [Finset.sum_range_succ, Finset.sum_range_zero, quarticPoint]
  norm_num [Nat.choose]
  module

/-- The cross derivatives of two patches on a common side. -/
theorem cross_shared {c : ℝ} (h : SameSide n m F E F' E' i k) (hb : Between n m c F E F' E' i k) {V V' : P3 ℝ} (f : ℝ)
    (hv : n ≤ 4 ∧ m ≤ 4 ∧ V - E i = (-c) • (V' - E' k) ∨ 4 < n ∧ 4 < m) (s : ℝ) : superDCross n f V F E i s = (-c) • superDCross m f V' F' E' k (1 - s) := by
  unfold superDCross
  rcases hv with ⟨h1, h2, h3⟩ | ⟨h1, h2⟩
  · rw [if_pos h1, if_pos h2, quartic_symm, quartic_symm, quartic_linear f (-c) hb.first h3 hb.last, smul_comm]
  · rw [if_neg (by omega), if_neg (by omega), hb.first, hb.last]
    module

/-- C98: two patches with a common side are joined smoothly if their face points are between the adjacent edge points with the same ratio, provided that both have more than 4 sides, or both
have at most 4 sides and the edge point is between the vertex control points with the same ratio. -/
theorem C98_smooth (hε : 0 < ε) (hn : 3 ≤ n) (hm : 3 ≤ m) (hA : Usable ε arc n calls A) (hB : Usable ε arc' m calls' B) (pA : Points n A F E) (pB : Points m B F' E')
    (hf : A.fullness = B.fullness) (hi : i < n) (hk : k < m) (hs : Inner ε n s) (hs' : Inner ε m s) (h : SameSide n m F E F' E' i k) {c : ℝ} (hc : 0 < c)
    (hb : Between n m c F E F' E' i k)
    (hv : n ≤ 4 ∧ m ≤ 4 ∧ A.vertexControlPoint - E i = (-c) • (B.vertexControlPoint - E' k) ∨ 4 < n ∧ 4 < m) :
    ∃ v v', ConvexDomain A.dom.dom n v ∧ ConvexDomain B.dom.dom m v' ∧ JoinedAt ε A B n m v v' (sideDer n A.fullness F E i s) i k s := by
  obtain ⟨v, cv, hder⟩ := C98_normal hε hn hA pA hi hs
  obtain ⟨v', cv', hder'⟩ := C98_normal hε hm hB pB hk (s := 1 - s) ⟨hs'.high, by rw [sub_sub_cancel]; exact hs'.low, hs'.highSin, by rw [sub_sub_cancel]; exact hs'.lowSin⟩
  refine ⟨v, v', cv, cv', fun p w p' w' hp hw hp' hw' => ?_⟩
  obtain ⟨X, X', β, h1, h2, h3, h4, h5⟩ := hder p w hp hw
  obtain ⟨Y, Y', γ, k1, k2, k3, k4, k5⟩ := hder' p' w' hp' hw'
  refine ⟨X, Y, X', Y', γ, c * β, h1, k1, ?_, h3, k3, k4, by positivity, ?_⟩
  · rw [h2, k2, sideCurve_shared h, hf]
  · rw [sideDer_shared h, ← hf] at k5
    rw [h5, cross_shared h hb A.fullness hv]
    have n1 : ∀ a b : P3 ℝ, P3.cross (-a) b = -P3.cross a b := fun a b => by ext <;> simp [P3.cross] <;> ring
    have n2 : ∀ (x : ℝ) (a b : P3 ℝ), P3.cross a (x • b) = x • P3.cross a b := fun x a b => by ext <;> simp [P3.cross] <;> ring
    rw [n1, n1] at k5
    have k6 := neg_inj.mp (k5.trans (smul_neg _ _))
    rw [mul_comm c β, mul_smul, k6, n2]
    module

/-! ### A patch with 4 sides next to a patch with 5 sides -/

theorem inner_quarter {ε : ℝ} (hε1 : ε < 1 / 5) (hn : n = 4 ∨ n = 5) {s : ℝ} (s0 : 1 / 4 ≤ s) (s1 : s ≤ 3 / 4) : Inner ε n s := by
  have h1 : superDScale n = 1 := by unfold superDScale; rw [if_pos (by omega)]
  have h2 : 4 / 5 ≤ sin (2 * π / n) := by
    rcases hn with rfl | rfl
    · rw [show 2 * π / (4 : ℕ) = π / 2 by push_cast; ring, sin_pi_div_two]; norm_num
    · have := mul_le_sin (x := 2 * π / (5 : ℕ)) (by positivity) (by push_cast; linarith [pi_pos])
      refine le_trans (le_of_eq ?_) this
      push_cast
      field_simp
      norm_num
  exact ⟨by rw [h1]; linarith, by rw [h1]; linarith, by nlinarith, by nlinarith⟩

noncomputable def mixF (i : ℕ) : P3 ℝ := if i = 1 then ⟨2, 0, 0⟩ else 0
noncomputable def mixE (i : ℕ) : P3 ℝ := if i = 0 then ⟨0, 1, 0⟩ else if i = 1 then ⟨1, 0, 0⟩ else ⟨2, 0, 1⟩
noncomputable def mixF' (i : ℕ) : P3 ℝ := if i = 0 then ⟨2, 0, 0⟩ else 0
noncomputable def mixE' (i : ℕ) : P3 ℝ := if i = 0 then ⟨2, 0, -1⟩ else if i = 1 then ⟨1, 0, 0⟩ else ⟨0, -1, 0⟩

theorem mix_side : SameSide 4 5 mixF mixE mixF' mixE' 1 1 := ⟨by norm_num [mixF, mixF'], by norm_num [mixE, mixE'], by norm_num [mixF, mixF']⟩

theorem mix_between : Between 4 5 1 mixF mixE mixF' mixE' 1 1 :=
  ⟨by ext <;> norm_num [mixF, mixF', mixE, mixE'], by ext <;> norm_num [mixF, mixF', mixE, mixE']⟩

/-- C98: a patch with 4 sides and a patch with 5 sides with a common side do not have common tangent planes in general, even if all points are in the symmetric position that gives a
smooth connection between two patches with 4 sides or between two patches with 5 sides. -/
theorem C98_mixed (hε : 0 < ε) (hε1 : ε < 1 / 5) : ∃ (A B : SuperD ℝ) (calls calls' : List (Call ℝ)) (F E F' E' : ℕ → P3 ℝ) (i k : ℕ), i < 4 ∧ k < 5 ∧
    Usable ε arc 4 calls A ∧ Usable ε arc 5 calls' B ∧ Points 4 A F E ∧ Points 5 B F' E' ∧ A.fullness = B.fullness ∧ SameSide 4 5 F E F' E' i k ∧
    Between 4 5 1 F E F' E' i k ∧ A.vertexControlPoint - E i = -(B.vertexControlPoint - E' k) ∧
    ∃ s v v', Inner ε 4 s ∧ Inner ε 5 s ∧ ConvexDomain A.dom.dom 4 v ∧ ConvexDomain B.dom.dom 5 v' ∧
      ∀ p w p' w', DomainPath 4 v i s p w → 0 < inward 4 v i w → DomainPath 5 v' k (1 - s) p' w' → 0 < inward 5 v' k w' →
        ∃ (X Y : ℝ → P3 ℝ) (X' Y' : P3 ℝ), (∀ᶠ t in nhdsWithin 0 (Set.Ici 0), ∃ A', A.eval ε (p t) = .ok (X t, A')) ∧
          (∀ᶠ t in nhdsWithin 0 (Set.Ici 0), ∃ B', B.eval ε (p' t) = .ok (Y t, B')) ∧ X 0 = Y 0 ∧ RightDer3 X X' ∧ RightDer3 Y Y' ∧
          P3.dot (P3.cross (sideDer 4 A.fullness F E i s) X') Y' ≠ 0 := by
  obtain ⟨calls, A, hA, pA, fA, vA⟩ := C51_complete (ε := ε) (arc := arc) (n := 4) (by omega) (1 / 2) ⟨1, 1 / 2, 1 / 2⟩ mixF mixE
  obtain ⟨calls', B, hB, pB, fB, vB⟩ := C51_complete (ε := ε) (arc := arc) (n := 5) (by omega) (1 / 2) ⟨1, -1 / 2, -1 / 2⟩ mixF' mixE'
  obtain ⟨v, cv, hder⟩ := C98_normal hε (by omega) hA pA (i := 1) (by omega) (inner_quarter hε1 (Or.inl rfl) (s := 1 / 4) (by norm_num) (by norm_num))
  obtain ⟨v', cv', hder'⟩ := C98_normal hε (by omega) hB pB (i := 1) (by omega) (inner_quarter hε1 (Or.inr rfl) (s := 1 - 1 / 4) (by norm_num) (by norm_num))
  refine ⟨A, B, calls, calls', mixF, mixE, mixF', mixE', 1, 1, by omega, by omega, hA, hB, pA, pB, fA.trans fB.symm, mix_side, mix_between, ?_, 1 / 4, v, v',
    inner_quarter hε1 (Or.inl rfl) (by norm_num) (by norm_num), inner_quarter hε1 (Or.inr rfl) (by norm_num) (by norm_num), cv, cv', fun p w p' w' hp hw hp' hw' => ?_⟩
  · rw [vA, vB]
    ext <;> norm_num [mixE, mixE']
  obtain ⟨X, X', β, h1, h2, h3, h4, h5⟩ := hder p w hp hw
  obtain ⟨Y, Y', γ, k1, k2, k3, k4, k5⟩ := hder' p' w' hp' hw'
  refine ⟨X, Y, X', Y', h1, k1, ?_, h3, k3, ?_⟩
  · rw [h2, k2, sideCurve_shared mix_side, fA, fB]
  rw [sideDer_shared mix_side, fB] at k5
  rw [h5, fA]
  rw [vB] at k5
  rw [vA]
  set D := sideDer 4 (1 / 2) mixF mixE 1 (1 / 4) with hD
  have eD : D = ⟨41 / 20, 0, 0⟩ := by
    rw [hD]
    unfold sideDer bezierDer bezier bern
    simp only [Finset.sum_range_succ, Finset.sum_range_zero, quarticPoint]
    ext <;> norm_num [Nat.choose, mixF, mixE]
  have eA : superDCross 4 (1 / 2) ⟨1, 1 / 2, 1 / 2⟩ mixF mixE 1 (1 / 4) = ⟨0, 123 / 100, 37 / 100⟩ := by
    unfold superDCross
    rw [if_pos (by omega)]
    simp only [quartic_eval]
    ext <;> norm_num [mixF, mixE]
  have eB : superDCross 5 (1 / 2) ⟨1, -1 / 2, -1 / 2⟩ mixF' mixE' 1 (1 - 1 / 4) = ⟨0, -6 / 5, -2 / 5⟩ := by
    unfold superDCross
    rw [if_neg (by omega)]
    ext <;> norm_num [mixF', mixE']
  rw [eB, eD] at k5
  rw [eA, eD]
  have y1 := congrArg P3.y k5
  have z1 := congrArg P3.z k5
  simp [P3.cross] at y1 z1
  simp [P3.cross, P3.dot]
  have y2 : Y'.z = -(2 / 5) * γ := by linarith
  have z2 : Y'.y = -(6 / 5) * γ := by linarith
  rw [y2, z2]
  have := mul_pos h4 k4
  intro q
  nlinarith


/-! ### Examples -/

/-- The hypotheses of `C98_smooth` hold for two patches with 5 sides and for two patches with 4 sides (the second one is the mirror image of the first one), and there are paths that leave
the common side. -/
example (hn : n = 4 ∨ n = 5) (arc : List (P3 ℝ) → ℝ → ℝ → ℝ) : ∃ (A B : SuperD ℝ) (calls calls' : List (Call ℝ)) (F E F' E' : ℕ → P3 ℝ), Usable (1 / 10) arc n calls A ∧
    Usable (1 / 10) arc n calls' B ∧ Points n A F E ∧ Points n B F' E' ∧ A.fullness = B.fullness ∧ Inner (1 / 10) n (1 / 4) ∧ SameSide n n F E F' E' 1 1 ∧
    Between n n 1 F E F' E' 1 1 ∧ A.vertexControlPoint - E 1 = (-1 : ℝ) • (B.vertexControlPoint - E' 1) ∧
    P3.cross (sideDer n A.fullness F E 1 (1 / 4)) (superDCross n A.fullness A.vertexControlPoint F E 1 (1 / 4)) ≠ 0 ∧
    ∃ v p w, ConvexDomain A.dom.dom n v ∧ DomainPath n v 1 (1 / 4) p w ∧ 0 < inward n v 1 w := by
  obtain ⟨calls, A, hA, pA, fA, vA⟩ := C51_complete (ε := 1 / 10) (arc := arc) (n := n) (by omega) (1 / 2) ⟨1, 1 / 2, 1 / 2⟩ mixF mixE
  obtain ⟨calls', B, hB, pB, fB, vB⟩ := C51_complete (ε := 1 / 10) (arc := arc) (n := n) (by omega) (1 / 2) ⟨1, -1 / 2, -1 / 2⟩ mixF' mixE'
  obtain ⟨v, cv, _⟩ := C98_derivative (by norm_num) (by omega) hA pA (i := 1) (by omega) (inner_quarter (n := n) (by norm_num) hn (s := 1 / 4) (by norm_num) (by norm_num))
  obtain ⟨q1, q2⟩ := straight_path cv (i := 1) (s := 1 / 4) (by omega) (by norm_num) (by norm_num)
  refine ⟨A, B, calls, calls', mixF, mixE, mixF', mixE', hA, hB, pA, pB, fA.trans fB.symm, inner_quarter (by norm_num) hn (by norm_num) (by norm_num), ?_, ?_, ?_, ?_, v, _, _, cv, q1, q2⟩
  · rcases hn with rfl | rfl <;> exact ⟨by norm_num [mixF, mixF'], by norm_num [mixE, mixE'], by norm_num [mixF, mixF']⟩
  · rcases hn with rfl | rfl <;> constructor <;> ext <;> norm_num [mixF, mixF', mixE, mixE']
  · rw [vA, vB]
    ext <;> norm_num [mixE, mixE']
  · intro h
    have := congrArg P3.y h
    rw [fA, vA] at this
    unfold sideDer bezierDer superDCross at this
    rcases hn with rfl | rfl
    · rw [if_pos (by omega)] at this
      norm_num [P3.cross, bezier, bern, Finset.sum_range_succ, quarticPoint, Nat.choose, mixF, mixE] at this
    · rw [if_neg (by omega)] at this
      norm_num [P3.cross, bezier, bern, Finset.sum_range_succ, quarticPoint, Nat.choose, mixF, mixE] at this

/-- With 4 sides, the vertex control point does change the tangent planes. -/
example : superDCross 4 (1 / 2) ⟨1, 1 / 2, 1 / 2⟩ mixF mixE 1 (1 / 4) ≠ superDCross 4 (1 / 2) ⟨1, 1, 1 / 2⟩ mixF mixE 1 (1 / 4) := by
  intro h
  have := congrArg P3.y h
  unfold superDCross at this
  rw [if_pos (by omega), if_pos (by omega)] at this
  simp only [quartic_eval] at this
  norm_num [mixF, mixE] at this

end SuperD

end Transfinite
