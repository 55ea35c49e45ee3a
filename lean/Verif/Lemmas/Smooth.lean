import Mathlib.Analysis.Calculus.ContDiff.Operations
import Verif.Lemmas.TangentBary
import Verif.Lemmas.RegularBilinear
import Verif.Lemmas.TangentGB
import Verif.Lemmas.SideParams
import Verif.Props.Barycentric

/-! Analyticity of the local parameters of the side-based Generalized Bézier patch and of the S-patch. -/

namespace Transfinite

open Spec Param Real
open scoped ContDiff

/-- Analyticity of a real function of the domain at a point. -/
def Analytic2 (f : P2 ℝ → ℝ) (p : P2 ℝ) : Prop := ContDiffAt ℝ ω (fun q : ℝ × ℝ => f ⟨q.1, q.2⟩) (p.x, p.y)

namespace Analytic2

variable {f g : P2 ℝ → ℝ} {p : P2 ℝ}

theorem const (c : ℝ) : Analytic2 (fun _ => c) p := contDiffAt_const
theorem xc : Analytic2 (fun q => q.x) p := contDiffAt_fst
theorem yc : Analytic2 (fun q => q.y) p := contDiffAt_snd
theorem add (hf : Analytic2 f p) (hg : Analytic2 g p) : Analytic2 (fun q => f q + g q) p := ContDiffAt.add hf hg
theorem sub (hf : Analytic2 f p) (hg : Analytic2 g p) : Analytic2 (fun q => f q - g q) p := ContDiffAt.sub hf hg
theorem mul (hf : Analytic2 f p) (hg : Analytic2 g p) : Analytic2 (fun q => f q * g q) p := ContDiffAt.mul hf hg
theorem div (hf : Analytic2 f p) (hg : Analytic2 g p) (h : g p ≠ 0) : Analytic2 (fun q => f q / g q) p := ContDiffAt.div hf hg h
theorem pow (hf : Analytic2 f p) (k : ℕ) : Analytic2 (fun q => f q ^ k) p := ContDiffAt.pow hf k
theorem sum {s : Finset ι} {f : ι → P2 ℝ → ℝ} (h : ∀ i ∈ s, Analytic2 (f i) p) : Analytic2 (fun q => ∑ i ∈ s, f i q) p := ContDiffAt.sum h
theorem prod {s : Finset ι} {f : ι → P2 ℝ → ℝ} (h : ∀ i ∈ s, Analytic2 (f i) p) : Analytic2 (fun q => ∏ i ∈ s, f i q) p := contDiffAt_prod h

theorem leftOf (n : ℕ) (v : ℕ → P2 ℝ) (i : ℕ) : Analytic2 (Spec.leftOf n v i) p := by
  unfold Spec.leftOf area2
  exact ((const _).mul (yc.sub (const _))).sub ((const _).mul (xc.sub (const _)))

theorem areaOf (n : ℕ) (v : ℕ → P2 ℝ) (i : ℕ) : Analytic2 (fun q => Transfinite.Param.areaOf n v q i) p :=
  (((xc.sub (const _)).mul (yc.sub (const _))).sub ((yc.sub (const _)).mul (xc.sub (const _)))).div (const 2) two_ne_zero

theorem prodBut (n : ℕ) (v : ℕ → P2 ℝ) (P : ℕ → Prop) [DecidablePred P] : Analytic2 (fun q => Transfinite.Param.prodBut n (Transfinite.Param.areaOf n v q) P) p :=
  prod fun j _ => by
    by_cases h : P j
    · simp only [if_pos h]; exact const 1
    · simp only [if_neg h]; exact areaOf n v j

theorem weightOf (n : ℕ) (v : ℕ → P2 ℝ) (i : ℕ) : Analytic2 (fun q => Transfinite.Param.weightOf (fun _ => 1) n v q i) p :=
  (((const 1).mul (prodBut n v _)).add ((const 1).mul (prodBut n v _))).sub
    (((const 1).mul ((((xc.sub (const _)).mul (yc.sub (const _))).sub ((yc.sub (const _)).mul (xc.sub (const _)))).div (const 2) two_ne_zero)).mul (prodBut n v _))

theorem lam {n : ℕ} {v : ℕ → P2 ℝ} (hn : 3 ≤ n) (hc : StrictConvex n v) (hin : InsideClosed n v p) (j : ℕ) : Analytic2 (fun q => Transfinite.Surf.lam n v q j) p :=
  (weightOf n v j).div (sum fun k _ => weightOf n v k) (weights_sum_pos hn hc hin (r := fun _ => 1) fun _ _ => one_pos).ne'

theorem bern (hf : Analytic2 f p) (d j : ℕ) : Analytic2 (fun q => Spec.bern d j (f q)) p :=
  ((const _).mul (hf.pow _)).mul (((const 1).sub hf).pow _)

end Analytic2

namespace Surf

variable {n : ℕ} {r φ : ℝ} {d : Domain ℝ} {ε : ℝ} {uv : P2 ℝ} {v : ℕ → P2 ℝ}

theorem prodBut_or {A : ℕ → ℝ} {P : ℕ → Prop} [DecidablePred P] {p : ℕ} (hp : p < n) (h : ¬ P p) :
    prodBut n A P = A p * prodBut n A (fun j => P j ∨ j = p) := by
  unfold prodBut
  rw [← Finset.mul_prod_erase _ _ (Finset.mem_range.mpr hp),
    ← Finset.mul_prod_erase (Finset.range n) (fun j => if P j ∨ j = p then 1 else A j) (Finset.mem_range.mpr hp)]
  simp only [if_neg h, or_true, if_true, one_mul]
  congr 1
  refine Finset.prod_congr rfl fun j hj => ?_
  have := Finset.ne_of_mem_erase hj
  simp only [this, or_false]

/-- In a regular domain the first parameter is the ratio of the distances from the neighbouring sides. -/
theorem regular_ratio (h : ConvexDomain d n (regularVertex n r φ)) {j : ℕ} (hj : j < n)
    (hp : lam n (regularVertex n r φ) uv (prevIx n j) + lam n (regularVertex n r φ) uv j ≠ 0) :
    leftOf n (regularVertex n r φ) (prevIx n j) uv + leftOf n (regularVertex n r φ) (nextIx n j) uv ≠ 0 ∧
    lam n (regularVertex n r φ) uv j / (lam n (regularVertex n r φ) uv (prevIx n j) + lam n (regularVertex n r φ) uv j) =
      leftOf n (regularVertex n r φ) (prevIx n j) uv /
        (leftOf n (regularVertex n r φ) (prevIx n j) uv + leftOf n (regularVertex n r φ) (nextIx n j) uv) := by
  have hn := h.hn
  set v := regularVertex n r φ with hv
  have hpj : prevIx n j < n := prevIx_lt (by omega)
  have hppj : prevIx n (prevIx n j) < n := prevIx_lt (by omega)
  have n1 : prevIx n (prevIx n j) ≠ prevIx n j := prev_ne (by omega) hpj
  have n2 : prevIx n j ≠ j := prev_ne (by omega) hj
  have n3 : prevIx n (prevIx n j) ≠ j := by
    intro q
    have := next_ne_prev hn hpj
    rw [q, nextIx_prevIx hj] at this
    exact this rfl
  obtain ⟨Q, q1, q2⟩ : ∃ Q, prodBut n (areaOf n v uv) (fun x => x = j ∨ x = prevIx n j) = leftOf n v (prevIx n j) uv / 2 * Q ∧
      prodBut n (areaOf n v uv) (fun x => x = prevIx n j ∨ x = prevIx n (prevIx n j)) = leftOf n v (nextIx n j) uv / 2 * Q := by
    refine ⟨prodBut n (areaOf n v uv) (fun x => (x = j ∨ x = prevIx n j) ∨ x = prevIx n (prevIx n j)), ?_, ?_⟩
    · rw [prodBut_or (p := prevIx n (prevIx n j)) hppj (by simp [n1, n3]), areaOf_eq_leftOf n v uv hppj, nextIx_prevIx hpj]
    · rw [prodBut_or (p := j) hj (by simp [n2.symm, n3.symm]), areaOf_eq_leftOf n v uv hj]
      congr 1
      unfold prodBut
      refine Finset.prod_congr rfl fun x _ => if_congr ?_ rfl rfl
      tauto
  have c1 : cornerArea n v j = r ^ 2 * (4 * sin (π / n) ^ 2) * sin (2 * π / n) := regular_leftOf_next hn hj
  have c2 : cornerArea n v (prevIx n j) = r ^ 2 * (4 * sin (π / n) ^ 2) * sin (2 * π / n) := regular_leftOf_next hn hpj
  unfold lam at hp ⊢
  rw [weightOf_wachspress hn v uv hj, weightOf_wachspress hn v uv hpj, c1, c2, q1, q2] at hp ⊢
  generalize r ^ 2 * (4 * sin (π / n) ^ 2) * sin (2 * π / n) = C at hp ⊢
  generalize leftOf n v (prevIx n j) uv = a at hp ⊢
  generalize leftOf n v (nextIx n j) uv = b at hp ⊢
  generalize (∑ k ∈ Finset.range n, weightOf (fun _ => 1) n v uv k) = W at hp ⊢
  have e : C / 2 * (b / 2 * Q) / W + C / 2 * (a / 2 * Q) / W = (C * Q / (4 * W)) * (a + b) := by ring
  have e2 : C / 2 * (a / 2 * Q) / W = (C * Q / (4 * W)) * a := by ring
  rw [e] at hp ⊢
  rw [e2]
  exact ⟨right_ne_zero_of_mul hp, mul_div_mul_left _ _ (left_ne_zero_of_mul hp)⟩

theorem leftOf_sum (v : ℕ → P2 ℝ) (i : ℕ) {c : ℕ → ℝ} (hc : ∑ k ∈ Finset.range n, c k = 1) (u : ℕ → P2 ℝ) :
    leftOf n v i (∑ k ∈ Finset.range n, c k • u k) = ∑ k ∈ Finset.range n, c k * leftOf n v i (u k) := by
  have ex : (∑ k ∈ Finset.range n, c k • u k).x = ∑ k ∈ Finset.range n, c k * (u k).x := by
    rw [P2.sum_x]; rfl
  have ey : (∑ k ∈ Finset.range n, c k • u k).y = ∑ k ∈ Finset.range n, c k * (u k).y := by
    rw [P2.sum_y]; rfl
  unfold leftOf area2
  rw [ex, ey]
  generalize v ((i + n - 1) % n) = a
  generalize v i = b
  have : ∀ k ∈ Finset.range n, c k * ((b.x - a.x) * ((u k).y - a.y) - (b.y - a.y) * ((u k).x - a.x)) =
      (b.x - a.x) * (c k * (u k).y) - (b.y - a.y) * (c k * (u k).x) + c k * ((b.y - a.y) * a.x - (b.x - a.x) * a.y) := fun k _ => by ring
  rw [Finset.sum_congr rfl this, Finset.sum_add_distrib, Finset.sum_sub_distrib, ← Finset.mul_sum, ← Finset.mul_sum, ← Finset.sum_mul, hc]
  ring

theorem lam_precision (h : ConvexDomain d n v) {uv : P2 ℝ} (hin : InsideClosed n v uv) : ∑ k ∈ Finset.range n, lam n v uv k • v k = uv := by
  obtain ⟨c, e, _, q⟩ := C11_partition_precision h.hn h.vertices_eq le_rfl (lam_eq h le_rfl hin)
  have q := q.resolve_right fun w => w.1 rfl
  refine Eq.trans (Finset.sum_congr rfl fun k hk => ?_) q
  rw [tab_inj e (Finset.mem_range.mp hk)]

/-- The neighbours of a side are not both near. -/
theorem regular_neighbours (h : ConvexDomain d n (regularVertex n r φ)) (hn : 4 ≤ n) (hin : InsideClosed n (regularVertex n r φ) uv) {j : ℕ} (hj : j < n) :
    r ^ 2 * (4 * sin (π / n) ^ 2) * sin (2 * π / n) ≤
      leftOf n (regularVertex n r φ) (prevIx n j) uv + leftOf n (regularVertex n r φ) (nextIx n j) uv := by
  obtain ⟨l0, l1⟩ := lam_range h hin
  have hpj : prevIx n j < n := prevIx_lt (by omega)
  have hnj : nextIx n j < n := nextIx_lt (by omega)
  have pos : ∀ i < n, ∀ k < n, 0 ≤ leftOf n (regularVertex n r φ) i (regularVertex n r φ k) := by
    intro i hi k hk
    by_cases a : k = i
    · rw [a]
      unfold leftOf area2
      apply le_of_eq; ring
    · by_cases b : k = prevIx n i
      · rw [b]
        unfold leftOf area2 prevIx
        apply le_of_eq; ring
      · exact (h.convex i hi k hk a b).le
  have key : ∀ k < n, r ^ 2 * (4 * sin (π / n) ^ 2) * sin (2 * π / n) ≤
      leftOf n (regularVertex n r φ) (prevIx n j) (regularVertex n r φ k) + leftOf n (regularVertex n r φ) (nextIx n j) (regularVertex n r φ k) := by
    intro k hk
    have c : k ≠ prevIx n j ∧ k ≠ prevIx n (prevIx n j) ∨ k ≠ nextIx n j ∧ k ≠ j := by
      rw [prevIx_eq hpj, prevIx_eq hj, nextIx_eq hj]
      split_ifs <;> omega
    rcases c with ⟨b, c⟩ | ⟨b, c⟩
    · have := (regular_far (r := r) (φ := φ) (show 3 ≤ n by omega) hpj hk b c).1
      linarith [pos _ hnj k hk]
    · have := (regular_far (r := r) (φ := φ) (show 3 ≤ n by omega) hnj hk b (by rw [prevIx_nextIx hj]; exact c)).1
      linarith [pos _ hpj k hk]
  generalize r ^ 2 * (4 * sin (π / n) ^ 2) * sin (2 * π / n) = H at *
  have e := lam_precision h hin
  have e1 := leftOf_sum (regularVertex n r φ) (prevIx n j) l1 (regularVertex n r φ)
  have e2 := leftOf_sum (regularVertex n r φ) (nextIx n j) l1 (regularVertex n r φ)
  rw [e] at e1 e2
  have g : ∑ k ∈ Finset.range n, lam n (regularVertex n r φ) uv k * H ≤
      ∑ k ∈ Finset.range n, (lam n (regularVertex n r φ) uv k * leftOf n (regularVertex n r φ) (prevIx n j) (regularVertex n r φ k) +
        lam n (regularVertex n r φ) uv k * leftOf n (regularVertex n r φ) (nextIx n j) (regularVertex n r φ k)) :=
    Finset.sum_le_sum fun k hk => by
      have := mul_le_mul_of_nonneg_left (key k (Finset.mem_range.mp hk)) (l0 k (Finset.mem_range.mp hk))
      rwa [mul_add] at this
  rw [← Finset.sum_mul, l1, one_mul, Finset.sum_add_distrib, ← e1, ← e2] at g
  exact g

/-- The local parameters in a regular domain, as functions of the point. -/
noncomputable def regF (n : ℕ) (r φ : ℝ) (uv : P2 ℝ) (j : ℕ) : P2 ℝ :=
  ⟨leftOf n (regularVertex n r φ) (prevIx n j) uv / (leftOf n (regularVertex n r φ) (prevIx n j) uv + leftOf n (regularVertex n r φ) (nextIx n j) uv),
    1 - lam n (regularVertex n r φ) uv j - lam n (regularVertex n r φ) uv (prevIx n j)⟩

theorem regF_eq (hr : 1 ≤ r) (h : ConvexDomain d n (regularVertex n r φ)) (hε : 0 < ε) (hle : ε ≤ sin (2 * π / n) ^ 2 * sin (π / n) / 2)
    (hin : InsideClosed n (regularVertex n r φ) uv) {j : ℕ} (hj : j < n)
    (hz : 4 ≤ n ∨ ε ≤ lam n (regularVertex n r φ) uv (prevIx n j) + lam n (regularVertex n r φ) uv j) :
    baryMap ε .wachspress d j uv = .ok (regF n r φ uv j) ∧
      leftOf n (regularVertex n r φ) (prevIx n j) uv + leftOf n (regularVertex n r φ) (nextIx n j) uv ≠ 0 := by
  obtain ⟨sp1, sp2⟩ := sin_pi_div_pos h.hn
  have su1 := sin_le_one (π / n)
  have su2 := sin_le_one (2 * π / n)
  have hε2 : ε ≤ 1 / 2 := by
    have : sin (2 * π / n) ^ 2 * sin (π / n) ≤ 1 := by
      have : sin (2 * π / n) ^ 2 ≤ 1 := by nlinarith
      nlinarith
    linarith
  by_cases hc : ε ≤ lam n (regularVertex n r φ) uv (prevIx n j) + lam n (regularVertex n r φ) uv j
  · obtain ⟨e, _, _, y, x⟩ := baryF_spec h hε (by linarith) hin hj
    obtain ⟨q1, q2⟩ := regular_ratio (uv := uv) h hj (lt_of_lt_of_le hε hc).ne'
    refine ⟨?_, q1⟩
    rw [e]
    congr 1
    have := x hc
    rw [q2] at this
    ext
    · exact this
    · exact y
  · push Not at hc
    have hn := hz.resolve_right (not_le.mpr hc)
    have hsum := regular_neighbours h hn hin hj
    have H0 : 0 < r ^ 2 * (4 * sin (π / n) ^ 2) * sin (2 * π / n) := by positivity
    refine ⟨?_, (lt_of_lt_of_le (by nlinarith) hsum).ne'⟩
    unfold baryMap
    rw [lam_eq h (by linarith) hin, M_bind_ok]
    refine regular_baryMapWith hr h hε hj hc ?_
    rw [le_div_iff₀ (by linarith)]
    have q1 := mul_le_mul_of_nonneg_left hsum (show 0 ≤ sin (2 * π / n) / 2 by positivity)
    refine le_trans ?_ q1
    have q2 : ε * (sin (π / n) * r) ≤ sin (2 * π / n) ^ 2 * sin (π / n) / 2 * (sin (π / n) * r) :=
      mul_le_mul_of_nonneg_right hle (by positivity)
    have q3 : 0 ≤ sin (2 * π / n) ^ 2 * sin (π / n) ^ 2 * r := by positivity
    have q4 : sin (2 * π / n) ^ 2 * sin (π / n) ^ 2 * r ≤ sin (2 * π / n) ^ 2 * sin (π / n) ^ 2 * r * r := by nlinarith
    have q5 : 0 ≤ sin (2 * π / n) ^ 2 * sin (π / n) ^ 2 * r * r := by positivity
    nlinarith

end Surf

end Transfinite
