import Verif.Props.BlendTol
import Verif.Props.SuperD
import Verif.Lemmas.ShiftPatch

/-! # C110: the effect of the tolerance on the surfaces with singular blends -/

namespace Transfinite

open Spec Surf

variable {n : ℕ} {f : ℕ → P2 ℝ} {ε m : ℝ}

private theorem norm_smul' (k : ℝ) (a : P3 ℝ) : (k • a).norm = |k| * a.norm := by
  change √(P3.dot _ _) = |k| * √(P3.dot _ _)
  rw [show P3.dot (k • a) (k • a) = k ^ 2 * P3.dot a a by simp only [P3.dot, P3.smul_x, P3.smul_y, P3.smul_z]; ring, Real.sqrt_mul (sq_nonneg k), Real.sqrt_sq_eq_abs]

private theorem norm_zero' : (0 : P3 ℝ).norm = 0 := by
  change √(P3.dot _ _) = 0
  rw [show P3.dot (0 : P3 ℝ) 0 = 0 by simp [P3.dot], Real.sqrt_zero]

private theorem norm_sum_le' (s : Finset ℕ) (a : ℕ → P3 ℝ) : (∑ k ∈ s, a k).norm ≤ ∑ k ∈ s, (a k).norm := by
  induction s using Finset.induction_on with
  | empty => simp [norm_zero']
  | insert x s hx ih =>
    rw [Finset.sum_insert hx, Finset.sum_insert hx]
    exact (Loop.norm_add_le _ _).trans (by linarith)

/-- Two affine combinations of the same points. -/
private theorem affine_diff {b e : ℕ → ℝ} {q : ℕ → P3 ℝ} {i : ℕ} {δ D : ℝ} (hi : i < n) (hb : ∑ k ∈ Finset.range n, b k = 1) (he : ∑ k ∈ Finset.range n, e k = 1)
    (hd : ∀ k < n, |b k - e k| ≤ δ) (hD : ∀ k < n, (q k - q i).norm ≤ D) :
    (∑ k ∈ Finset.range n, b k • q k - ∑ k ∈ Finset.range n, e k • q k).norm ≤ (n - 1) * (δ * D) := by
  have key : ∑ k ∈ Finset.range n, b k • q k - ∑ k ∈ Finset.range n, e k • q k = ∑ k ∈ (Finset.range n).erase i, (b k - e k) • (q k - q i) := by
    have e1 : ∑ k ∈ (Finset.range n).erase i, (b k - e k) • (q k - q i) = ∑ k ∈ Finset.range n, (b k - e k) • (q k - q i) := by
      rw [← Finset.add_sum_erase _ _ (Finset.mem_range.mpr hi), sub_self, smul_zero, zero_add]
    have e2 : ∀ k ∈ Finset.range n, (b k - e k) • (q k - q i) = b k • q k - e k • q k - (b k - e k) • q i := fun k _ => by module
    rw [e1, Finset.sum_congr rfl e2, Finset.sum_sub_distrib, Finset.sum_sub_distrib, ← Finset.sum_smul, Finset.sum_sub_distrib, hb, he, sub_self, zero_smul, sub_zero]
  rw [key]
  refine (norm_sum_le' _ _).trans ?_
  have := Finset.sum_le_card_nsmul ((Finset.range n).erase i) (fun k => ((b k - e k) • (q k - q i)).norm) (δ * D) fun k hk => by
    have hk := Finset.mem_range.mp (Finset.mem_erase.mp hk).2
    rw [norm_smul']
    exact mul_le_mul (hd k hk) (hD k hk) (P3.norm_nonneg _) ((abs_nonneg _).trans (hd k hk))
  rwa [Finset.card_erase_of_mem (Finset.mem_range.mpr hi), Finset.card_range, nsmul_eq_mul, Nat.cast_sub (by omega), Nat.cast_one] at this

private theorem sideNum_nonneg (h : ℕ → ℝ) (k : ℕ) : 0 ≤ sideNum n h k := Finset.prod_nonneg fun _ _ => sq_nonneg _
private theorem cornerNum_nonneg (h : ℕ → ℝ) (k : ℕ) : 0 ≤ cornerNum n h k := Finset.prod_nonneg fun _ _ => sq_nonneg _

private theorem exactSide_sum {h : ℕ → ℝ} {i : ℕ} (hi : i < n) (hp : ∀ j < n, j ≠ i → 0 < h j) : ∑ k ∈ Finset.range n, exactSide n h k = 1 := by
  unfold exactSide
  rw [← Finset.sum_div, div_self]
  refine (Finset.sum_pos' (fun k _ => sideNum_nonneg h k) ⟨i, Finset.mem_range.mpr hi, Finset.prod_pos fun j hj => ?_⟩).ne'
  obtain ⟨a, b⟩ := Finset.mem_erase.mp hj
  exact pow_pos (hp j (Finset.mem_range.mp b) a) 2

private theorem exactCorner_sum {h : ℕ → ℝ} {i : ℕ} (hi : i < n) (hp : ∀ j < n, j ≠ i → 0 < h j) : ∑ k ∈ Finset.range n, exactCorner n h k = 1 := by
  unfold exactCorner
  rw [← Finset.sum_div, div_self]
  refine (Finset.sum_pos' (fun k _ => cornerNum_nonneg h k) ⟨i, Finset.mem_range.mpr hi, Finset.prod_pos fun j hj => ?_⟩).ne'
  obtain ⟨_, b⟩ := Finset.mem_erase.mp hj
  obtain ⟨a, b⟩ := Finset.mem_erase.mp b
  exact pow_pos (hp j (Finset.mem_range.mp b) a) 2

namespace Surf

/-- C110: a side-based surface within the tolerance of one side is at most `((n-1) ε / m)² D` away from the point given by the exact blends, where `D` bounds the distances of the ribbon points from that of this side. -/
theorem C110_sideBased {S : Surf ℝ} (hS : S.n = n) (hε : 0 < ε) (hm : ε ≤ m) {i : ℕ} (hi : i < n) (h0 : 0 ≤ (f i).y) (h1 : (f i).y < ε)
    (h2 : ∀ j < n, j ≠ i → m ≤ (f j).y) {q : ℕ → P3 ℝ} (hq : ∀ j < n, S.sideInterpolant ε j (f j).x (f j).y = .ok (q j)) {D : ℝ} (hD : ∀ j < n, (q j - q i).norm ≤ D) :
    ∃ p, S.sideBased ε (tab n f) = .ok p ∧ (p - ∑ k ∈ Finset.range n, exactSide n (fun j => (f j).y) k • q k).norm ≤ ((n - 1) * ε / m) ^ 2 * D := by
  obtain ⟨b, e, hb⟩ := C110_side_near hε hm hi h0 h1 h2
  obtain ⟨b', e', _, hs, _⟩ := C28_side hε (n := n) (by omega) f
  have hs : ∑ k ∈ Finset.range n, b k = 1 := by
    rw [← hs]
    exact Finset.sum_congr rfl fun k hk => tab_inj (Except.ok.inj (e.symm.trans e')) (Finset.mem_range.mp hk)
  refine ⟨∑ k ∈ Finset.range n, b k • q k, ?_, ?_⟩
  · unfold sideBased
    rw [e, M_bind_ok, hS, forLoop_sum n _ (fun k => b k • q k) 0, zero_add]
    intro k p hk
    rw [vget_tab _ hk, M_bind_ok, hq k hk, M_bind_ok, vget_tab _ hk, M_bind_ok]
  · refine (affine_diff hi hs (exactSide_sum hi fun j hj w => lt_of_lt_of_le (by linarith) (h2 j hj w)) hb hD).trans (le_of_eq ?_)
    ring

/-- C110: a corner-based surface within the tolerance of one side is at most `(n-1)(n-2) ε² / (2 m⁴) D` away from the point given by the exact blends. -/
theorem C110_cornerBased {S : Surf ℝ} (hS : S.n = n) (hε : 0 < ε) (hm : ε ≤ m) (hn : 3 ≤ n) {i : ℕ} (hi : i < n) (h0 : 0 ≤ (f i).y) (h1 : (f i).y < ε)
    (h2 : ∀ j < n, j ≠ i → m ≤ (f j).y) (h3 : ∀ j < n, (f j).y ≤ 1) {q : ℕ → P3 ℝ} (hq : ∀ j < n, S.cornerInterpolant ε j (tab n f) = .ok (q j)) {D : ℝ}
    (hD : ∀ j < n, (q j - q i).norm ≤ D) :
    ∃ p, S.cornerBased ε (tab n f) = .ok p ∧
      (p - ∑ k ∈ Finset.range n, exactCorner n (fun j => (f j).y) k • q k).norm ≤ (n - 1) * (n - 2) * ε ^ 2 / (2 * m ^ 4) * D := by
  obtain ⟨b, e, hb⟩ := C110_corner_near hε hm hn hi h0 h1 h2 h3
  obtain ⟨b', e', _, hs, _⟩ := C28_corner_side hε hn hi h1 (fun j hj w => hm.trans (h2 j hj w))
  have hs : ∑ k ∈ Finset.range n, b k = 1 := by
    rw [← hs]
    exact Finset.sum_congr rfl fun k hk => tab_inj (Except.ok.inj (e.symm.trans e')) (Finset.mem_range.mp hk)
  refine ⟨∑ k ∈ Finset.range n, b k • q k, ?_, ?_⟩
  · unfold cornerBased
    rw [hS, e, M_bind_ok, forLoop_sum n _ (fun k => b k • q k) 0, zero_add]
    intro k p hk
    rw [hq k hk, M_bind_ok, vget_tab _ hk, M_bind_ok]
  · refine (affine_diff hi hs (exactCorner_sum hi fun j hj w => lt_of_lt_of_le (by linarith) (h2 j hj w)) hb hD).trans (le_of_eq ?_)
    ring

end Surf

namespace SuperD

/-- C110: the same for SuperD patches. -/
theorem C110_superd {arc : List (P3 ℝ) → ℝ → ℝ → ℝ} {calls : List (Call ℝ)} {S : SuperD ℝ} (hn : 3 ≤ n) (h : Usable ε arc n calls S) (hε : 0 < ε) (hm : ε ≤ m)
    {uv : P2 ℝ} {o : Param.Obj ℝ} (hf : Param.mapToRibbons ε .superD uv S.param = .ok (tab n f, o)) {i : ℕ} (hi : i < n) (h0 : 0 ≤ (f i).y) (h1 : (f i).y < ε)
    (h2 : ∀ j < n, j ≠ i → m ≤ (f j).y) :
    ∃ (q : ℕ → P3 ℝ) (p : P3 ℝ) (S' : SuperD ℝ), (∀ j < n, ∃ s, S.generateRibbon j = .ok s ∧ bezierEvaluate s (f j).x (f j).y = .ok (q j)) ∧
      S.eval ε uv = .ok (p, S') ∧ ∀ D, (∀ j < n, (q j - q i).norm ≤ D) →
        (p - ∑ k ∈ Finset.range n, exactSide n (fun j => (f j).y) k • q k).norm ≤ ((n - 1) * ε / m) ^ 2 * D := by
  obtain ⟨hs, hiv, hc, _⟩ := h.state hn
  obtain ⟨F, hF⟩ : ∃ F, S.cpF = tab n F := by have := exists_tab' (l := S.cpF) (by rw [hs.lenF]; omega); rwa [hs.lenF] at this
  obtain ⟨E, hE⟩ : ∃ E, S.cpE = tab n E := by have := exists_tab' (l := S.cpE) (by rw [hs.lenE]; omega); rwa [hs.lenE] at this
  obtain ⟨G, g1, g2, _⟩ := ribbons_eq hn hs hc hF hE
  obtain ⟨b, e, hb⟩ := C110_side_near hε hm hi h0 h1 h2
  obtain ⟨b', e', _, hsum, _⟩ := C28_side hε (n := n) (by omega) f
  have hsum : ∑ k ∈ Finset.range n, b k = 1 := by
    rw [← hsum]
    exact Finset.sum_congr rfl fun k hk => tab_inj (Except.ok.inj (e.symm.trans e')) (Finset.mem_range.mp hk)
  refine ⟨fun j => bezier 4 (fun k => bezier 4 (G j k) (f j).y) (f j).x, ∑ k ∈ Finset.range n, b k • bezier 4 (fun l => bezier 4 (G k l) (f k).y) (f k).x, { S with param := o },
    fun j hj => ⟨_, g2 j hj, bezierEvaluate_eq _ _ _⟩, ?_, fun D hD => ?_⟩
  · unfold eval
    rw [hf, M_bind_ok]
    dsimp only
    rw [e, M_bind_ok, hs.n_eq, g1, sumRibbons_eq, M_bind_ok]
  · refine (affine_diff hi hsum (exactSide_sum hi fun j hj w => lt_of_lt_of_le (by linarith) (h2 j hj w)) hb hD).trans (le_of_eq ?_)
    ring

end SuperD

section examples

/-- Five ribbons given by lines in the `y` direction, without cross derivatives. -/
private noncomputable def fiveLines : Surf ℝ where
  useGamma := false
  ribbons := tab 5 fun j => Ribbon.new .dummy ⟨fun u => ⟨j, u, 0⟩, fun _ => ⟨0, 1, 0⟩, fun a b => b - a⟩
  corners := tab 5 fun j => ⟨⟨j, 0, 0⟩, 0, 0, 0, 0⟩

private theorem fiveLines_side {j : ℕ} (hj : j < 5) (ε d : ℝ) : fiveLines.sideInterpolant ε j 0 d = .ok ⟨j, 0, 0⟩ := by
  unfold sideInterpolant gamma fiveLines
  rw [if_neg (by simp), M_bind_ok, vget_tab _ hj, M_bind_ok]
  unfold Ribbon.eval Ribbon.baseEval Ribbon.crossDerivative Ribbon.new
  dsimp only
  rw [M_bind_ok]
  simp [Domain.clamp]

private theorem norm_x (x : ℝ) : (⟨x, 0, 0⟩ : P3 ℝ).norm = |x| := by
  change √(P3.dot _ _) = |x|
  rw [show P3.dot (⟨x, 0, 0⟩ : P3 ℝ) ⟨x, 0, 0⟩ = x ^ 2 by simp only [P3.dot]; ring, Real.sqrt_sq_eq_abs]

/-- The hypotheses can be met: near side 2 of five sides, with tolerance 1e-8 and the other sides 1/10 away. -/
example : ∃ p, fiveLines.sideBased (1 / 10 ^ 8) (tab 5 fun j => (⟨0, if j = 2 then 1 / 10 ^ 9 else 1 / 10⟩ : P2 ℝ)) = .ok p ∧
    (p - ∑ k ∈ Finset.range 5, exactSide 5 (fun j => if j = 2 then 1 / 10 ^ 9 else 1 / 10) k • (⟨k, 0, 0⟩ : P3 ℝ)).norm ≤ 32 / 10 ^ 14 := by
  obtain ⟨p, e, h⟩ := C110_sideBased (S := fiveLines) (n := 5) (f := fun j => (⟨0, if j = 2 then 1 / 10 ^ 9 else 1 / 10⟩ : P2 ℝ)) (ε := 1 / 10 ^ 8) (m := 1 / 10) (i := 2) (length_tab _ _)
    (by norm_num) (by norm_num) (by norm_num) (by norm_num) (by norm_num) (fun j _ q => by simp [q]) (q := fun j => ⟨j, 0, 0⟩) (fun j hj => fiveLines_side hj _ _) (D := 2) (fun j hj => by
      rw [show (⟨j, 0, 0⟩ : P3 ℝ) - ⟨(2 : ℕ), 0, 0⟩ = ⟨j - 2, 0, 0⟩ by apply P3.ext <;> simp, norm_x]
      interval_cases j <;> norm_num)
  exact ⟨p, e, h.trans (by norm_num)⟩

example : ∃ p, fiveLines.cornerBased (1 / 10 ^ 8) (tab 5 fun j => (⟨0, if j = 2 then 1 / 10 ^ 9 else 1 / 10⟩ : P2 ℝ)) = .ok p ∧
    (p - ∑ k ∈ Finset.range 5, exactCorner 5 (fun j => if j = 2 then 1 / 10 ^ 9 else 1 / 10) k • (⟨nextIx 5 k, 0, 0⟩ : P3 ℝ)).norm ≤ 18 / 10 ^ 12 := by
  obtain ⟨p, e, h⟩ := C110_cornerBased (S := fiveLines) (n := 5) (f := fun j => (⟨0, if j = 2 then 1 / 10 ^ 9 else 1 / 10⟩ : P2 ℝ)) (ε := 1 / 10 ^ 8) (m := 1 / 10) (i := 2) (length_tab _ _)
    (by norm_num) (by norm_num) (by norm_num) (by norm_num) (by norm_num) (by norm_num) (fun j _ q => by simp [q]) (fun j _ => by dsimp only; split_ifs <;> norm_num)
    (q := fun j => ⟨nextIx 5 j, 0, 0⟩) (fun j hj => by
      have hj' : nextIx 5 j < 5 := nextIx_lt (by omega)
      unfold cornerInterpolant
      rw [show fiveLines.n = 5 from length_tab _ _, vget_tab _ hj, M_bind_ok, vget_tab _ hj', M_bind_ok]
      dsimp only
      rw [fiveLines_side hj, M_bind_ok, fiveLines_side hj', M_bind_ok]
      unfold cornerCorrection gamma fiveLines rationalTwist
      dsimp only
      rw [if_neg (by simp), if_neg (by simp), M_bind_ok, M_bind_ok, vget_tab _ hj, M_bind_ok, if_neg (by norm_num [Domain.clamp])]
      unfold Ribbon.vdiv
      norm_num [Domain.clamp, fdiv]) (D := 3) (fun j hj => by
      rw [show (⟨nextIx 5 j, 0, 0⟩ : P3 ℝ) - ⟨nextIx 5 2, 0, 0⟩ = ⟨nextIx 5 j - nextIx 5 2, 0, 0⟩ by apply P3.ext <;> simp, norm_x]
      interval_cases j <;> norm_num [nextIx])
  exact ⟨p, e, h.trans (by norm_num)⟩

/-- The hypotheses for SuperD patches can be met: in the middle of side 1 of five sides the other distance parameters are at least 1/2. -/
example (arc : List (P3 ℝ) → ℝ → ℝ → ℝ) : ∃ (calls : List (SuperD.Call ℝ)) (S : SuperD ℝ) (uv : P2 ℝ) (f : ℕ → P2 ℝ) (o : Param.Obj ℝ), SuperD.Usable (1 / 8) arc 5 calls S ∧
    Param.mapToRibbons (1 / 8) .superD uv S.param = .ok (tab 5 f, o) ∧ (f 1).y = 0 ∧ ∀ j < 5, j ≠ 1 → 1 / 2 ≤ (f j).y := by
  obtain ⟨calls, S, h, hP, _⟩ := SuperD.C51_complete (ε := 1 / 8) (arc := arc) (n := 5) (by omega) 1 ⟨0, 0, 5⟩ (fun i => ⟨i, 0, 1⟩) (fun i => ⟨i, 1, 1⟩)
  have hsin : (1 / 8 : ℝ) ≤ Real.sin (2 * Real.pi / (5 : ℕ)) := by
    have := Real.mul_le_sin (x := 2 * Real.pi / (5 : ℕ)) (by positivity) (by push_cast; linarith [Real.pi_pos])
    refine le_trans ?_ this
    push_cast
    rw [show 2 / Real.pi * (2 * Real.pi / 5) = 4 / 5 by field_simp; norm_num]
    norm_num
  obtain ⟨hs, hiv, _, r, φ, hr, hd⟩ := h.state (by omega)
  have hr : 0 < r := by linarith
  obtain ⟨x, x1, _⟩ := SuperD.side_params (by norm_num) hsin hr hd (i := 1) (by omega) (s := 1 / 2) (by norm_num) (by norm_num)
  obtain ⟨o, e⟩ := SuperD.params_eq hr hd hiv x1
  obtain ⟨l0, l1, l2, l3⟩ := regular_side (n := 5) (by omega) (r := r) (φ := φ) (i := 1) (by omega) (s := 1 / 2) (by norm_num) (by norm_num)
  obtain ⟨sp1, sp2⟩ := sin_pi_div_pos (n := 5) (by omega)
  have hH : 0 < r ^ 2 * (4 * Real.sin (Real.pi / (5 : ℕ)) ^ 2) * Real.sin (2 * Real.pi / (5 : ℕ)) := by positivity
  have hρ : superDScale 5 = 1 := by unfold superDScale; rw [if_pos (by omega)]
  refine ⟨calls, S, _, _, o, h, e, ?_, fun j hj q => ?_⟩
  · dsimp only
    rw [l0]; simp
  · dsimp only
    rw [hρ, one_mul, le_div_iff₀ hH]
    by_cases q2 : j = nextIx 5 1
    · rw [q2, l1]; linarith
    · by_cases q3 : j = prevIx 5 1
      · rw [q3, l2]
      · have := (l3 j hj q q2 q3).1
        linarith

end examples

end Transfinite
