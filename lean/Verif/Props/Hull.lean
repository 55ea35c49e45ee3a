import Verif.Lemmas.Hull
import Mathlib.Algebra.BigOperators.Option
import Verif.Lemmas.GenBezierBuilt
import Verif.Props.SPatch
import Verif.Props.GenBezier

/-! # C100: convex hull of the control points -/

namespace Transfinite

open Spec Real

/-- A point above all points of a set is not in its convex hull. -/
theorem not_mem_hull {C : Set (P3 ℝ)} {c : ℝ} (h : ∀ q ∈ C, q.z ≤ c) {p : P3 ℝ} (hp : c < p.z) : p ∉ convexHull ℝ C := by
  intro q
  have : convexHull ℝ C ⊆ {q : P3 ℝ | q.z ≤ c} := convexHull_min h fun x hx y hy a b ha hb hab => by
    change a * x.z + b * y.z ≤ c
    have h1 := mul_le_mul_of_nonneg_left (show x.z ≤ c from hx) ha
    have h2 := mul_le_mul_of_nonneg_left (show y.z ≤ c from hy) hb
    have : a * c + b * c = c := by rw [← add_mul, hab, one_mul]
    linarith
  exact absurd (this q) (not_le.mpr hp)

/-! ### S-patches -/

namespace SPatch

variable {n d : ℕ} {ε : ℝ} {arc : List (P3 ℝ) → ℝ → ℝ → ℝ} {S : SPatch ℝ} {calls : List (Call ℝ)}

/-- C100: the points of an S-patch are in the convex hull of its control points, if all control points are set. -/
theorem C100_spatch (hε : 0 < ε) (hε1 : ε ≤ 1) (hn : 3 ≤ n) (hd : d ≤ 20) (h : Usable ε arc n d calls S) (hP : ∀ k ∈ labels n d, ∃ p, S.controlPoint (tab n k) = .ok p) {v : ℕ → P2 ℝ}
    (hv : S.dom.dom.vertices = tab n v) {uv : P2 ℝ} (hin : InsideClosed n v uv) :
    ∃ p S', S.eval ε uv = .ok (p, S') ∧ p ∈ convexHull ℝ {q | ∃ k ∈ labels n d, S.controlPoint (tab n k) = .ok q} := by
  have hQ : ∀ k, ∃ p, k ∈ labels n d → S.controlPoint (tab n k) = .ok p := fun k => by
    by_cases q : k ∈ labels n d
    · obtain ⟨p, e⟩ := hP k q; exact ⟨p, fun _ => e⟩
    · exact ⟨0, fun w => absurd w q⟩
  choose P hQ using hQ
  obtain ⟨c, S', _, _, _, e, h0, h1⟩ := C50_weights hε hε1 hn hd h (P := P) (fun k hk => Or.inl (hQ k hk)) hv hin
  exact ⟨_, S', e, (convex_convexHull ℝ _).sum_mem h0 h1 fun k hk => subset_convexHull ℝ _ ⟨k, hk, hQ k hk⟩⟩

end SPatch

/-! ### SuperD patches -/

namespace SuperD

variable {n : ℕ} {ε : ℝ} {arc : List (P3 ℝ) → ℝ → ℝ → ℝ} {S : SuperD ℝ} {calls : List (Call ℝ)}

/-- The control points of a patch. -/
def controlSet (n : ℕ) (S : SuperD ℝ) : Set (P3 ℝ) := {q | q = S.vertexControlPoint ∨ ∃ i < n, S.faceControlPoint i = .ok q ∨ S.edgeControlPoint i = .ok q}

/-- C100: the points of a SuperD patch with 3 or 4 sides are in the convex hull of its control points, if the fullness is between 0 and 1. -/
theorem C100_superd (hε : 0 < ε) (hn : 3 ≤ n) (hn4 : n ≤ 4) (h : Usable ε arc n calls S) (f0 : 0 ≤ S.fullness) (f1 : S.fullness ≤ 1) {v : ℕ → P2 ℝ}
    (hv : S.dom.dom.vertices = tab n v) {uv : P2 ℝ} (hin : InsideClosed n v uv) : ∃ p S', S.eval ε uv = .ok (p, S') ∧ p ∈ convexHull ℝ (controlSet n S) := by
  obtain ⟨hs, hiv, hcur, r, φ, hr, hd⟩ := h.state hn
  obtain ⟨F, E, hF, hE⟩ := hs.points
  have hw : ∀ i < n, v i = regularVertex n r φ i := fun i hi => tab_inj (hv.symm.trans hd.vertices_eq) hi
  have hin' := Patch.insideClosed_congr (by omega) hw hin
  obtain ⟨f, hf, hsq⟩ := Param.bilinear_total hd hε hin'
  obtain ⟨G, g1, _, g2⟩ := eval_eq hε hn (by linarith) hd hs hiv hcur hF hE
  obtain ⟨b, S', e, b0, b1, _⟩ := g2 uv (fun j => (f j).x) fun j hj => Param.bilinearSide_of_map (hf j hj)
  refine ⟨_, S', e, ?_⟩
  have hC := convex_convexHull ℝ (controlSet n S)
  have sub := subset_convexHull ℝ (controlSet n S)
  have mF : ∀ x ∈ S.cpF, x ∈ convexHull ℝ (controlSet n S) := by
    intro x hx
    rw [hF] at hx
    obtain ⟨i, hi, rfl⟩ := List.mem_map.mp hx
    refine sub (Or.inr ⟨i, List.mem_range.mp hi, Or.inl ?_⟩)
    unfold faceControlPoint
    rw [hF, vget_tab _ (List.mem_range.mp hi)]
  have mE : ∀ x ∈ S.cpE, x ∈ convexHull ℝ (controlSet n S) := by
    intro x hx
    rw [hE] at hx
    obtain ⟨i, hi, rfl⟩ := List.mem_map.mp hx
    refine sub (Or.inr ⟨i, List.mem_range.mp hi, Or.inr ?_⟩)
    unfold edgeControlPoint
    rw [hE, vget_tab _ (List.mem_range.mp hi)]
  have hG : ∀ i < n, ∀ j ≤ 4, ∀ k ≤ 4, G i j k ∈ convexHull ℝ (controlSet n S) := by
    intro i hi j hj k hk
    exact generateRibbon_mem hC (by rw [hs.n_eq]; exact hn4) f0 f1 (sub (Or.inl rfl)) mF mE (g1 i hi) _ (List.mem_map.mpr ⟨j, List.mem_range.mpr (by omega), rfl⟩) _
      (List.mem_map.mpr ⟨k, List.mem_range.mpr (by omega), rfl⟩)
  obtain ⟨s1, s2⟩ := sin_pi_div_pos hn
  have hsc : superDScale n = 1 := by unfold superDScale; rw [if_pos (by omega)]
  refine hC.sum_mem (fun i hi => b0 i (Finset.mem_range.mp hi)) b1 fun i hi => ?_
  rw [Finset.mem_range] at hi
  have hA : 0 < r ^ 2 * (4 * sin (π / n) ^ 2) * sin (2 * π / n) := by positivity
  refine bezier_mem hC (fun j hj => bezier_mem hC (fun k hk => hG i hi j hj k hk) ?_ ?_) (hsq i hi).1 (hsq i hi).2.1
  · beta_reduce; rw [hsc, one_mul]; exact div_nonneg (hin' i hi) hA.le
  · beta_reduce; rw [hsc, one_mul]; exact div_le_one_of_le₀ (left_le (by linarith) hd hn4 hin' hi) hA.le

theorem ribbonMany_value {F E : ℕ → P3 ℝ} (hF : S.cpF = tab n F) (hE : S.cpE = tab n E) (hn : S.n = n) (h4 : 4 < n) {i : ℕ} (hi : i < n) :
    S.generateRibbon i = .ok (tab 5 fun j => tab 5 fun k => basePoint S.fullness n F E i j +
      ((4 - j : ℕ) / 4 : ℝ) • (basePoint S.fullness n F E (prevIx n i) (4 - k) - basePoint S.fullness n F E (prevIx n i) 4) +
      (j / 4 : ℝ) • (basePoint S.fullness n F E (nextIx n i) k - basePoint S.fullness n F E (nextIx n i) 0)) := by
  have hp : prevIx n i < n := prevIx_lt (by omega)
  have hx : nextIx n i < n := nextIx_lt (by omega)
  unfold generateRibbon
  rw [generateBase_eq hF hE hn hi, M_bind_ok, hn, if_pos h4, generateBase_eq hF hE hn hp, M_bind_ok, generateBase_eq hF hE hn hx, M_bind_ok]
  unfold ribbonMany
  refine (forLoop_push 5 _ _ [] ?_).trans (by rw [List.nil_append, tab])
  intro j r hj
  rw [forLoop_push 5 _ (fun k => basePoint S.fullness n F E i j + ((4 - j : ℕ) / 4 : ℝ) • (basePoint S.fullness n F E (prevIx n i) (4 - k) - basePoint S.fullness n F E (prevIx n i) 4) +
    (j / 4 : ℝ) • (basePoint S.fullness n F E (nextIx n i) k - basePoint S.fullness n F E (nextIx n i) 0)) [], M_bind_ok]
  · rfl
  · intro k l hk
    rw [vget_tab _ hj, M_bind_ok, vget_tab _ (by omega), M_bind_ok, vget_tab _ (by omega), M_bind_ok, vget_tab _ hk, M_bind_ok, vget_tab _ (by omega), M_bind_ok]

theorem sin_fifth : (31 / 100 : ℝ) < sin (π / 5) ^ 2 ∧ sin (π / 5) ^ 2 < 37 / 100 := by
  have h5 : (22 / 10 : ℝ) < √5 ∧ √5 < 23 / 10 := ⟨by rw [Real.lt_sqrt (by norm_num)]; norm_num, by rw [Real.sqrt_lt' (by norm_num)]; norm_num⟩
  have e : sin (π / 5) ^ 2 = 1 - ((1 + √5) / 4) ^ 2 := by rw [← cos_pi_div_five, ← sin_sq_add_cos_sq (π / 5)]; ring
  rw [e]
  constructor <;> nlinarith

/-- C100: a SuperD patch with 5 sides may leave the convex hull of its control points, also with a fullness between 0 and 1: here all face and vertex control points are at height 0, all edge
control points at height 1, and the centre of the patch is higher than 1. -/
theorem C100_superd_many (hε : 0 < ε) (hε1 : ε ≤ 1) : ∃ (calls : List (Call ℝ)) (S : SuperD ℝ), Usable ε arc 5 calls S ∧ S.fullness = 1 ∧
    ∃ v, S.dom.dom.vertices = tab 5 v ∧ InsideClosed 5 v 0 ∧ ∃ p S', S.eval ε 0 = .ok (p, S') ∧ p ∉ convexHull ℝ (controlSet 5 S) := by
  obtain ⟨calls, S, hS, pS, fS, vS⟩ := C51_complete (ε := ε) (arc := arc) (n := 5) (by omega) 1 0 (fun _ => 0) (fun _ => ⟨0, 0, 1⟩)
  obtain ⟨hs, hiv, hcur, r, φ, hr, hd⟩ := hS.state (by omega)
  obtain ⟨hF, hE⟩ := pS.lists hs
  obtain ⟨s1, s2⟩ := sin_pi_div_pos (n := 5) (by omega)
  have hr0 : 0 < r := by linarith
  have left : ∀ j, leftOf 5 (regularVertex 5 r φ) j 0 = r ^ 2 * sin (2 * π / (5 : ℕ)) := fun j => regular_centre_left (by omega)
  have hin : InsideClosed 5 (regularVertex 5 r φ) 0 := fun i _ => by rw [left]; positivity
  refine ⟨calls, S, hS, fS, _, hd.vertices_eq, hin, ?_⟩
  obtain ⟨b1, b2⟩ := sin_fifth
  have c5 : sin (π / (5 : ℕ)) ^ 2 = sin (π / 5) ^ 2 := by norm_num
  have hs2 : 4 / 5 ≤ sin (2 * π / (5 : ℕ)) := by
    have := mul_le_sin (x := 2 * π / (5 : ℕ)) (by positivity) (by push_cast; linarith [pi_pos])
    refine le_trans (le_of_eq ?_) this
    push_cast
    field_simp
    norm_num
  obtain ⟨G, g1, _, g2⟩ := eval_eq hε (by omega) hr0 hd hs hiv hcur hF hE
  have hpar : ∀ j < 5, Param.bilinearSide ε S.dom.dom j 0 = .ok (1 / 2) := by
    intro j hj
    have := bilinearMap_ratio hd hε hj (by rw [regular_leftOf_prev (by omega) hj, regular_leftOf_next (by omega) hj]) (hin _ (prevIx_lt (by omega))) (hin _ (nextIx_lt (by omega)))
    rw [left, left, regular_du (by omega), if_neg, show r ^ 2 * sin (2 * π / (5 : ℕ)) / (r ^ 2 * sin (2 * π / (5 : ℕ)) + r ^ 2 * sin (2 * π / (5 : ℕ))) = 1 / 2 by field_simp; norm_num] at this
    · exact Param.bilinearSide_of_map this
    · rw [not_lt, le_div_iff₀ (by positivity), c5]
      have : 0 < r ^ 2 := by positivity
      have h1 : ε * (r ^ 2 * (4 * sin (π / 5) ^ 2)) ≤ 1 * (r ^ 2 * (4 * (37 / 100))) := by gcongr
      nlinarith
  obtain ⟨b, S', e, _, bs, _⟩ := g2 0 (fun _ => 1 / 2) hpar
  refine ⟨_, S', e, ?_⟩
  set y : ℝ := 1 / (4 * sin (π / 5) ^ 2) with hy
  have hy0 : 6 / 10 ≤ y := by rw [hy, le_div_iff₀ (by linarith)]; linarith
  have hy1 : y ≤ 9 / 10 := by rw [hy, div_le_iff₀ (by linarith)]; linarith
  have hval : ∀ i < 5, bezier 4 (fun k => bezier 4 (G i k) y) (1 / 2 : ℝ) = ⟨0, 0, 7 / 8 + (1 - y ^ 4 - (1 - y) ^ 4)⟩ := by
    intro i hi
    have e1 := (ribbonMany_value hF hE hs.n_eq (by omega) hi).symm.trans (g1 i hi)
    have e2 : ∀ j < 5, ∀ k < 5, G i j k = _ := fun j hj k hk => (tab_inj (tab_inj (Except.ok.inj e1) hj) hk).symm
    rw [bezier_congr fun j hj => bezier_congr (fun k hk => e2 j (by omega) k (by omega)) y]
    unfold bezier bern basePoint
    rw [fS]
    simp only [Finset.sum_range_succ, Finset.sum_range_zero, quarticPoint]
    ext <;> norm_num [Nat.choose]
    ring
  have hsc : superDScale 5 = 1 := by unfold superDScale; rw [if_pos (by omega)]
  have heq : ∑ i ∈ Finset.range 5, b i • bezier 4 (fun k => bezier 4 (G i k) (superDScale 5 * (leftOf 5 (regularVertex 5 r φ) i 0 / (r ^ 2 * (4 * sin (π / (5 : ℕ)) ^ 2) * sin (2 * π / (5 : ℕ)))))) (1 / 2 : ℝ) =
      ⟨0, 0, 7 / 8 + (1 - y ^ 4 - (1 - y) ^ 4)⟩ := by
    have : ∀ i, superDScale 5 * (leftOf 5 (regularVertex 5 r φ) i 0 / (r ^ 2 * (4 * sin (π / (5 : ℕ)) ^ 2) * sin (2 * π / (5 : ℕ)))) = y := by
      intro i
      rw [hsc, left, hy, c5]
      have : sin (π / 5) ≠ 0 := fun q => by rw [q] at b1; norm_num at b1
      field_simp
    simp only [this]
    rw [Finset.sum_congr rfl fun i hi => by rw [hval i (Finset.mem_range.mp hi)], ← Finset.sum_smul, bs, one_smul]
  refine not_mem_hull (c := 1) ?_ ?_
  · rintro q (rfl | ⟨i, hi, q1 | q1⟩)
    · rw [vS]; norm_num
    · rw [(pS i hi).1] at q1; cases q1; norm_num
    · rw [(pS i hi).2] at q1; cases q1; norm_num
  · refine lt_of_lt_of_eq ?_ (congrArg P3.z heq).symm
    dsimp only
    have : y ^ 4 + (1 - y) ^ 4 < 7 / 8 := by
      have a1 : y ^ 4 ≤ (9 / 10) ^ 4 := by gcongr
      have a2 : (1 - y) ^ 4 ≤ (4 / 10) ^ 4 := pow_le_pow_left₀ (by linarith) (by linarith) 4
      norm_num at a1 a2 ⊢
      linarith
    linarith

/-- C100: with a fullness above 1, also a patch with 4 sides leaves the convex hull, even on its boundary. -/
theorem C100_superd_full (hε : 0 < ε) (hε1 : ε ≤ 1 / 4) : ∃ (calls : List (Call ℝ)) (S : SuperD ℝ), Usable ε arc 4 calls S ∧ S.fullness = 2 ∧
    ∃ uv p S', S.dom.dom.edgePoint 0 (1 / 2) = .ok uv ∧ S.eval ε uv = .ok (p, S') ∧ p ∉ convexHull ℝ (controlSet 4 S) := by
  obtain ⟨calls, S, hS, pS, fS, vS⟩ := C51_complete (ε := ε) (arc := arc) (n := 4) (by omega) 2 0 (fun _ => 0) (fun _ => ⟨0, 0, 1⟩)
  have hsc : superDScale 4 = 1 := by unfold superDScale; rw [if_pos (by omega)]
  obtain ⟨uv, S', e1, e2⟩ := C51_interpolates hε hε1 (by rw [show 2 * π / (4 : ℕ) = π / 2 by push_cast; ring, sin_pi_div_two]; linarith) (by rw [hsc]; linarith) (by omega) hS pS (i := 0) (by omega)
    (s := 1 / 2) (by norm_num) (by norm_num) (Or.inl (by omega))
  refine ⟨calls, S, hS, fS, uv, _, S', e1, e2, not_mem_hull (c := 1) ?_ ?_⟩
  · rintro q (rfl | ⟨i, hi, q1 | q1⟩)
    · rw [vS]; norm_num
    · rw [(pS i hi).1] at q1; cases q1; norm_num
    · rw [(pS i hi).2] at q1; cases q1; norm_num
  · rw [fS]
    unfold sideCurve bezier bern
    simp only [Finset.sum_range_succ, Finset.sum_range_zero, quarticPoint]
    norm_num [Nat.choose]

end SuperD

/-! ### Generalized Bézier patches -/

namespace GB

variable {n d : ℕ} {ε : ℝ} {arc arc' : List (P3 ℝ) → ℝ → ℝ → ℝ} {G G' : GB ℝ} {calls calls' : List (Call ℝ)}

/-- The weights of a cubic patch at the centre of the domain. -/
theorem centre_value (hε : 0 < ε) (hε1 : ε ≤ 1 / 2) (hε2 : ε ≤ 2 / n) (hn : 3 ≤ n) (h : Usable ε arc .side n 3 calls G) : ∃ (F : ℕ → ℕ → ℕ → P3 ℝ) (W : ℕ → ℕ → ℝ) (G' : GB ℝ),
    (∀ i < n, ∀ j ≤ 3, ∀ k < 2, G.controlPoint i j k = .ok (F i j k)) ∧ W = (fun j k => 1 / 2 * (bern 3 j (1 / 2) * bern 3 k (1 - 2 / n : ℝ))) ∧
      (∀ i < n, ∀ j ≤ 3, ∀ k < 2, Prod.fst <$> G.weight ε i j k 0 = .ok (W j k)) ∧
      ∑ _i ∈ Finset.range n, ∑ k ∈ Finset.range 2, ∑ j ∈ Finset.range 4, W j k = 1 - (n - 2) * (n - 4) / n ^ 2 ∧
      G.eval ε 0 = .ok ((∑ i ∈ Finset.range n, ∑ k ∈ Finset.range 2, ∑ j ∈ Finset.range 4, W j k • F i j k) + (((n - 2) * (n - 4) / n ^ 2 : ℝ)) • G.central, G') := by
  obtain ⟨hi, hk, hdn, ⟨F, hF⟩, _⟩ := h.state (by omega)
  obtain ⟨vs, e1, e2⟩ := (hi.regular hk).resolve_left (by omega)
  rw [hdn] at e1
  obtain ⟨r, φ, hr, hd, _⟩ := regular_convex hn e1 e2
  have hn3 : (3 : ℝ) ≤ n := by exact_mod_cast hn
  obtain ⟨o, ho⟩ := h.maps hn (f := fun _ => ⟨1 / 2, 1 - 2 / n⟩) fun j hj => baryMap_centre (by linarith) hd (by linarith) hε2 hj
  have hy : 1 / 3 ≤ (1 - 2 / n : ℝ) := by
    have : (2 / n : ℝ) ≤ 2 / 3 := by gcongr
    linarith
  obtain ⟨G', e⟩ := eval_side hk ho (sideEval_eq hε hF fun i _ => by dsimp only; linarith)
  have hw : ∀ i, ∀ k ∈ Finset.range 2, ∀ j ∈ Finset.range 4, wt G.squared n 3 (fun _ => (⟨1 / 2, 1 - 2 / n⟩ : P2 ℝ)) i j k = 1 / 2 * (bern 3 j (1 / 2) * bern 3 k (1 - 2 / n : ℝ)) := by
    intro i k hk j hj
    rw [Finset.mem_range] at hk hj
    have rat : ratVal G.squared (1 - 2 / n : ℝ) (1 - 2 / n) = 1 / 2 := by
      have : (1 - 2 / n : ℝ) ≠ 0 := by linarith
      unfold ratVal
      split_ifs
      · rw [div_eq_iff (by have := mul_self_pos.mpr this; linarith)]; ring
      · rw [div_eq_iff (by linarith)]; ring
    unfold wt
    dsimp only
    rw [rat]
    unfold factor
    interval_cases k <;> interval_cases j <;> norm_num [usub] <;> ring
  have hs : ∑ _i ∈ Finset.range n, ∑ k ∈ Finset.range 2, ∑ j ∈ Finset.range 4, (1 / 2 : ℝ) * (bern 3 j (1 / 2) * bern 3 k (1 - 2 / n : ℝ)) = 1 - (n - 2) * (n - 4) / n ^ 2 := by
    rw [Finset.sum_const, Finset.card_range, nsmul_eq_mul]
    unfold bern
    simp only [Finset.sum_range_succ, Finset.sum_range_zero]
    have : (n : ℝ) ≠ 0 := by linarith
    norm_num [Nat.choose]
    field_simp
    ring
  refine ⟨F, _, G', fun i hi j hj k hk => hF.cpt hi hj hk, rfl, fun i hi j hj k hk' => ?_, hs, ?_⟩
  · rw [← hw i k (Finset.mem_range.mpr hk') j (Finset.mem_range.mpr (by omega))]
    exact weight_eq hε hF hk ho hi hj hk' (by dsimp only; linarith) (by dsimp only; linarith)
  rw [e]
  congr 2
  rw [Finset.sum_congr rfl fun i _ => Finset.sum_congr rfl fun k hk => Finset.sum_congr rfl fun j hj => hw i k hk j hj]
  rw [show ∑ _i ∈ Finset.range n, ∑ k ∈ Finset.range ((3 + 1) / 2), ∑ j ∈ Finset.range (3 + 1), (1 / 2 : ℝ) * (bern 3 j (1 / 2) * bern 3 k (1 - 2 / n : ℝ)) = _ from hs, sub_sub_cancel]
  congr 1
  exact Finset.sum_congr rfl fun i _ => Finset.sum_congr rfl fun k hk => Finset.sum_congr rfl fun j hj => by rw [hw i k hk j hj]

/-- C100: the effect of the central control point on the centre of a cubic Generalized Bézier patch. It is multiplied by `(n - 2) (n - 4) / n²`: with 5 or more sides the patch follows the
central control point; with 4 sides it is independent of it; and with 3 sides it moves in the opposite direction. -/
theorem C100_gb_centre (hε : 0 < ε) (hε1 : ε ≤ 1 / 2) (hε2 : ε ≤ 2 / n) (hn : 3 ≤ n) (h : Usable ε arc .side n 3 calls G) (h' : Usable ε arc' .side n 3 calls' G')
    (hp : ∀ i < n, ∀ j ≤ 3, ∀ k < 2, G'.controlPoint i j k = G.controlPoint i j k) : ∃ p p' H H', G.eval ε 0 = .ok (p, H) ∧ G'.eval ε 0 = .ok (p', H') ∧
      p' - p = ((n - 2) * (n - 4) / n ^ 2 : ℝ) • (G'.central - G.central) := by
  obtain ⟨F, W, H, c, hW, _, _, e⟩ := centre_value hε hε1 hε2 hn h
  obtain ⟨F', W', H', c', hW', _, _, e'⟩ := centre_value hε hε1 hε2 hn h'
  refine ⟨_, _, H, H', e, e', ?_⟩
  have : ∀ i < n, ∀ j ≤ 3, ∀ k < 2, F' i j k = F i j k := fun i hi j hj k hk => by
    have := hp i hi j hj k hk
    rw [c i hi j hj k hk, c' i hi j hj k hk] at this
    exact Except.ok.inj this
  rw [hW', ← hW, Finset.sum_congr rfl fun i hi => Finset.sum_congr rfl fun k hk => Finset.sum_congr rfl fun j hj => by
    rw [this i (Finset.mem_range.mp hi) j (by have := Finset.mem_range.mp hj; omega) k (Finset.mem_range.mp hk)]]
  module

/-- The control points of a patch. -/
def controlSet (n d : ℕ) (G : GB ℝ) : Set (P3 ℝ) := {q | q = G.central ∨ ∃ i < n, ∃ j ≤ d, ∃ k < (d + 1) / 2, G.controlPoint i j k = .ok q}

/-- C100: a Generalized Bézier patch with 3 sides may leave the convex hull of its control points: here the central control point is at height -1, all others are at height 0, and the centre
of the patch is above 0. -/
theorem C100_gb_triangle (hε : 0 < ε) (hε1 : ε ≤ 1 / 2) : ∃ (calls : List (Call ℝ)) (G : GB ℝ), Usable ε arc .side 3 3 calls G ∧
    ∃ v, G.dom.dom.vertices = tab 3 v ∧ InsideClosed 3 v 0 ∧ ∃ p G', G.eval ε 0 = .ok (p, G') ∧ p = ⟨0, 0, 1 / 9⟩ ∧ p ∉ convexHull ℝ (controlSet 3 3 G) := by
  obtain ⟨G, hu, _, hcen, _, hcp⟩ := built (ε := ε) (arc := arc) (n := 3) (d := 3) .side (by norm_num) (by norm_num) (Or.inl rfl) (w := []) (by simp) ⟨0, 0, -1⟩ false
  obtain ⟨F, W, G', c, hW, _, _, e⟩ := centre_value hε hε1 (by norm_num; linarith) (by norm_num) hu
  obtain ⟨hi, hk, hdn, _⟩ := hu.state (by omega)
  obtain ⟨vs, e1, e2⟩ := (hi.regular hk).resolve_left (by omega)
  rw [hdn] at e1
  obtain ⟨r, φ, hr, hd, _⟩ := regular_convex (by omega) e1 e2
  obtain ⟨s1, s2⟩ := sin_pi_div_pos (n := 3) (by omega)
  refine ⟨_, G, hu, _, hd.vertices_eq, fun i _ => by rw [regular_centre_left (by omega)]; positivity, _, G', e, ?_⟩
  have z : ∀ i < 3, ∀ j ≤ 3, ∀ k < 2, G.controlPoint i j k = .ok 0 := fun i hi j hj k hk => hcp ⟨i, j, k⟩ ⟨hi, hj, hk⟩
  have hp : (∑ i ∈ Finset.range 3, ∑ k ∈ Finset.range 2, ∑ j ∈ Finset.range 4, W j k • F i j k) + ((((3 : ℕ) - 2) * ((3 : ℕ) - 4) / (3 : ℕ) ^ 2 : ℝ)) • G.central = ⟨0, 0, 1 / 9⟩ := by
    rw [Finset.sum_congr rfl fun i hi => Finset.sum_congr rfl fun k hk => Finset.sum_congr rfl fun j hj => by
      rw [Except.ok.inj ((c i (Finset.mem_range.mp hi) j (by have := Finset.mem_range.mp hj; omega) k (Finset.mem_range.mp hk)).symm.trans
        (z i (Finset.mem_range.mp hi) j (by have := Finset.mem_range.mp hj; omega) k (Finset.mem_range.mp hk))), smul_zero], hcen]
    ext <;> norm_num
  refine ⟨hp, ?_⟩
  rw [hp]
  refine not_mem_hull (c := 0) ?_ (by norm_num)
  rintro q (rfl | ⟨i, hi, j, hj, k, hk, q1⟩)
  · rw [hcen]; norm_num
  · rw [z i hi j hj k hk] at q1; cases q1; exact le_rfl

/-- Near a corner the value is a control point. -/
theorem sideEval_near {F : ℕ → ℕ → ℕ → P3 ℝ} {f : ℕ → P2 ℝ} (hε : 0 < ε) (h : HasNet G n d F) (hd : 1 ≤ d) (hc : ¬∀ i < n, ε ≤ (f i).y + (f (nextIx n i)).y) :
    ∃ i < n, ∃ j ≤ d, G.sideEval ε (tab n f) = .ok (F i j 0) := by
  unfold sideEval
  obtain ⟨s, e, hs⟩ := forLoop_inv (n := n) (body := G.evalSide ε (tab n f)) (s := .inr (0, 0))
    (fun m st => (∃ i < n, ∃ j ≤ d, st = .inl (F i j 0)) ∨ (∃ r, st = .inr r) ∧ ∀ i < m, ε ≤ (f i).y + (f (nextIx n i)).y)
    (Or.inr ⟨⟨_, rfl⟩, fun i hi => absurd hi (Nat.not_lt_zero _)⟩) (by
    rintro i st hi (⟨a, ha, j, hj, rfl⟩ | ⟨⟨st, rfl⟩, q⟩)
    · exact ⟨_, rfl, Or.inl ⟨a, ha, j, hj, rfl⟩⟩
    · by_cases c1 : (f i).y + (f (nextIx n i)).y < ε
      · refine ⟨.inl (F i d 0), ?_, Or.inl ⟨i, hi, d, le_rfl, rfl⟩⟩
        unfold evalSide
        dsimp only
        rw [h.n_eq, h.degree, vget_tab _ hi, M_bind_ok, vget_tab _ (prevIx_lt (by omega)), M_bind_ok, vget_tab _ (nextIx_lt (by omega)), M_bind_ok, if_pos c1, h.cpt hi le_rfl (by omega), M_bind_ok]
      · by_cases c2 : (f (prevIx n i)).y + (f i).y < ε
        · refine ⟨.inl (F i 0 0), ?_, Or.inl ⟨i, hi, 0, Nat.zero_le _, rfl⟩⟩
          unfold evalSide
          dsimp only
          rw [h.n_eq, h.degree, vget_tab _ hi, M_bind_ok, vget_tab _ (prevIx_lt (by omega)), M_bind_ok, vget_tab _ (nextIx_lt (by omega)), M_bind_ok, if_neg c1, if_pos c2,
            h.cpt hi (Nat.zero_le _) (by omega), M_bind_ok]
        · refine ⟨_, evalSide_eq hε h hi (not_lt.mp c1) (not_lt.mp c2) st, Or.inr ⟨⟨_, rfl⟩, fun k hk => ?_⟩⟩
          rcases Nat.lt_succ_iff_lt_or_eq.mp hk with w | rfl
          · exact q k w
          · exact not_lt.mp c1)
  rcases hs with ⟨i, hi, j, hj, rfl⟩ | ⟨_, q⟩
  · exact ⟨i, hi, j, hj, by rw [h.n_eq, e, M_bind_ok]; rfl⟩
  · exact absurd q hc

/-- C100: where the weights of the control points do not sum to more than 1, the points of a Generalized Bézier patch are in the convex hull of its control points. -/
theorem C100_gb (hε : 0 < ε) (hε1 : ε ≤ 1) (hn : 3 ≤ n) (hd : 1 ≤ d) (h : Usable ε arc .side n d calls G) {v : ℕ → P2 ℝ} (hv : G.dom.dom.vertices = tab n v) {uv : P2 ℝ} (hin : InsideClosed n v uv)
    {W : ℕ → ℕ → ℕ → ℝ} (hW : ∀ i < n, ∀ j ≤ d, ∀ k < (d + 1) / 2, Prod.fst <$> G.weight ε i j k uv = .ok (W i j k))
    (hs : ∑ i ∈ Finset.range n, ∑ k ∈ Finset.range ((d + 1) / 2), ∑ j ∈ Finset.range (d + 1), W i j k ≤ 1) :
    ∃ p G', G.eval ε uv = .ok (p, G') ∧ p ∈ convexHull ℝ (controlSet n d G) := by
  have hC := convex_convexHull ℝ (controlSet n d G)
  have sub := subset_convexHull ℝ (controlSet n d G)
  obtain ⟨f, o, ho, key⟩ := C43_sum hε hε1 hn h hv hin
  by_cases hf : ∀ i < n, ε ≤ (f i).y + (f ((i + 1) % n)).y
  swap
  · obtain ⟨_, hk, _, ⟨F, hF⟩, _⟩ := h.state (by omega)
    obtain ⟨i, hi, j, hj, e⟩ := sideEval_near hε hF hd hf
    obtain ⟨G', e'⟩ := eval_side hk ho e
    exact ⟨_, G', e', sub (Or.inr ⟨i, hi, j, hj, 0, by omega, hF.cpt hi hj (by omega)⟩)⟩
  obtain ⟨W', cp, p, G', e, hw, hp⟩ := key hf
  refine ⟨p, G', e, ?_⟩
  have eW : ∀ i < n, ∀ j ≤ d, ∀ k < (d + 1) / 2, W' i j k = W i j k := fun i hi j hj k hk => Except.ok.inj ((hw i hi j hj k hk).1.symm.trans (hW i hi j hj k hk))
  classical
  -- all terms in one sum
  let I := (Finset.range n ×ˢ Finset.range ((d + 1) / 2)) ×ˢ Finset.range (d + 1)
  have hsum : ∀ {A : Type} [AddCommMonoid A] (g : ℕ → ℕ → ℕ → A), ∑ i ∈ Finset.range n, ∑ k ∈ Finset.range ((d + 1) / 2), ∑ j ∈ Finset.range (d + 1), g i j k = ∑ x ∈ I, g x.1.1 x.2 x.1.2 := by
    intro A _ g
    rw [Finset.sum_product, Finset.sum_product]
  have eS : ∑ x ∈ I, W' x.1.1 x.2 x.1.2 = ∑ x ∈ I, W x.1.1 x.2 x.1.2 := Finset.sum_congr rfl fun x hx => by
    simp only [I, Finset.mem_product, Finset.mem_range] at hx
    exact eW _ hx.1.1 _ (by omega) _ hx.1.2
  rw [hp]
  unfold weightedSum
  rw [hsum, hsum]
  rw [hsum] at hs
  have := hC.sum_mem (t := Finset.insertNone I) (w := fun o : Option ((ℕ × ℕ) × ℕ) => o.elim (1 - ∑ x ∈ I, W' x.1.1 x.2 x.1.2) fun x => W' x.1.1 x.2 x.1.2)
    (z := fun o : Option ((ℕ × ℕ) × ℕ) => o.elim G.central fun x => cp x.1.1 x.2 x.1.2) ?_ ?_ ?_
  · rw [Finset.sum_insertNone] at this
    rw [add_comm]
    exact this
  · rintro (_ | x) hx
    · dsimp only [Option.elim]; rw [eS]; linarith
    · have hx := Finset.some_mem_insertNone.mp hx
      simp only [I, Finset.mem_product, Finset.mem_range] at hx
      exact (hw _ hx.1.1 _ (by omega) _ hx.1.2).2.2
  · rw [Finset.sum_insertNone]
    dsimp only [Option.elim]
    ring
  · rintro (_ | x) hx
    · exact sub (Or.inl rfl)
    · have hx := Finset.some_mem_insertNone.mp hx
      simp only [I, Finset.mem_product, Finset.mem_range] at hx
      exact sub (Or.inr ⟨_, hx.1.1, _, by omega, _, hx.1.2, (hw _ hx.1.1 _ (by omega) _ hx.1.2).2.1⟩)

/-- C100: the centre of a cubic Generalized Bézier patch with at least 4 sides is in the convex hull. -/
theorem C100_gb_inside (hε : 0 < ε) (hε1 : ε ≤ 1 / 2) (hε2 : ε ≤ 2 / n) (hn : 4 ≤ n) (h : Usable ε arc .side n 3 calls G) :
    ∃ p G', G.eval ε 0 = .ok (p, G') ∧ p ∈ convexHull ℝ (controlSet n 3 G) := by
  obtain ⟨F, W, G', c, _, hW, hs, _⟩ := centre_value hε hε1 hε2 (by omega) h
  obtain ⟨hi, hk, hdn, _⟩ := h.state (by omega)
  obtain ⟨vs, e1, e2⟩ := (hi.regular hk).resolve_left (by omega)
  rw [hdn] at e1
  obtain ⟨r, φ, hr, hd, _⟩ := regular_convex (by omega) e1 e2
  obtain ⟨s1, s2⟩ := sin_pi_div_pos (n := n) (by omega)
  refine C100_gb hε (by linarith) (by omega) (by norm_num) h hd.vertices_eq (fun i _ => by rw [regular_centre_left (by omega)]; positivity) hW ?_
  refine hs.le.trans ?_
  have h4 : (4 : ℝ) ≤ n := by exact_mod_cast hn
  have : 0 ≤ ((n - 2) * (n - 4) / n ^ 2 : ℝ) := div_nonneg (mul_nonneg (by linarith) (by linarith)) (by positivity)
  linarith

end GB

section examples

/-- An S-patch with 5 sides and depth 2. -/
example (P : (ℕ → ℕ) → P3 ℝ) : ∃ calls S, SPatch.Usable (1 / 1000) (fun _ _ _ => 0) 5 2 calls S ∧ (∀ k ∈ labels 5 2, S.controlPoint (tab 5 k) = .ok (P k)) ∧
    ∃ v, S.dom.dom.vertices = tab 5 v ∧ ∀ uv, InsideClosed 5 v uv → ∃ p S', S.eval (1 / 1000) uv = .ok (p, S') ∧ p ∈ convexHull ℝ {q | ∃ k ∈ labels 5 2, S.controlPoint (tab 5 k) = .ok q} := by
  obtain ⟨calls, S, h, hP⟩ := SPatch.C50_complete (ε := 1 / 1000) (arc := fun _ _ _ => 0) (n := 5) (by norm_num) 2 P
  obtain ⟨_, _, w, hcd⟩ := h.state (by norm_num)
  exact ⟨calls, S, h, hP, w, hcd.vertices_eq, fun uv hin =>
    SPatch.C100_spatch (by norm_num) (by norm_num) (by norm_num) (by norm_num) h (fun k hk => ⟨_, hP k hk⟩) hcd.vertices_eq hin⟩

/-- A SuperD patch with 4 sides and any control points. -/
example (V : P3 ℝ) (F E : ℕ → P3 ℝ) : ∃ calls S, SuperD.Usable (1 / 1000) (fun _ _ _ => 0) 4 calls S ∧ SuperD.Points 4 S F E ∧ S.vertexControlPoint = V ∧
    ∃ v, S.dom.dom.vertices = tab 4 v ∧ ∀ uv, InsideClosed 4 v uv → ∃ p S', S.eval (1 / 1000) uv = .ok (p, S') ∧ p ∈ convexHull ℝ (SuperD.controlSet 4 S) := by
  obtain ⟨calls, S, h, hP, hf, hV⟩ := SuperD.C51_complete (ε := 1 / 1000) (arc := fun _ _ _ => 0) (n := 4) (by norm_num) (1 / 2) V F E
  obtain ⟨_, _, _, r, φ, _, hd⟩ := h.state (by norm_num)
  exact ⟨calls, S, h, hP, hV, _, hd.vertices_eq, fun uv hin =>
    SuperD.C100_superd (by norm_num) (by norm_num) le_rfl h (by rw [hf]; norm_num) (by rw [hf]; norm_num) hd.vertices_eq hin⟩

/-- Two cubic patches with 5 sides that differ in the central control point: its effect is 3/25. -/
example : ∃ calls calls' G G', GB.Usable (1 / 1000) (fun _ _ _ => 0) .side 5 3 calls G ∧ GB.Usable (1 / 1000) (fun _ _ _ => 0) .side 5 3 calls' G' ∧
    ∃ p p' H H', G.eval (1 / 1000) 0 = .ok (p, H) ∧ G'.eval (1 / 1000) 0 = .ok (p', H') ∧ p' - p = (⟨0, 0, 3⟩ : P3 ℝ) := by
  obtain ⟨G, hu, _, hcen, _, hcp⟩ := GB.built (ε := 1 / 1000) (arc := fun _ _ _ => 0) (n := 5) (d := 3) .side (by norm_num) (by norm_num) (Or.inl rfl) (w := [(⟨1, 1, 1⟩, ⟨1, 2, 3⟩)])
    (by simp [Name.InRange]) 0 false
  obtain ⟨G', hu', _, hcen', _, hcp'⟩ := GB.built (ε := 1 / 1000) (arc := fun _ _ _ => 0) (n := 5) (d := 3) .side (by norm_num) (by norm_num) (Or.inl rfl) (w := [(⟨1, 1, 1⟩, ⟨1, 2, 3⟩)])
    (by simp [Name.InRange]) ⟨0, 0, 25⟩ false
  obtain ⟨p, p', H, H', e, e', q⟩ := GB.C100_gb_centre (by norm_num) (by norm_num) (by norm_num) (by norm_num) hu hu' fun i hi j hj k hk =>
    (hcp' ⟨i, j, k⟩ ⟨hi, hj, hk⟩).trans (hcp ⟨i, j, k⟩ ⟨hi, hj, hk⟩).symm
  refine ⟨_, _, G, G', hu, hu', p, p', H, H', e, e', q.trans ?_⟩
  rw [hcen, hcen']
  ext <;> norm_num

end examples

end Transfinite
