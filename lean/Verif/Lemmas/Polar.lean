import Verif.Model.Polar
import Verif.Spec.Polar
import Verif.Lemmas.Ribbon
import Verif.Lemmas.Net
import Verif.Props.Utilities
import Verif.Props.PolarInverse
import Mathlib.LinearAlgebra.Lagrange
import Mathlib.Algebra.Polynomial.Roots

/-! # Lemmas on polar patches -/

namespace Transfinite

open Spec Polynomial

namespace Polar

/-! ## Polynomial curves -/

/-- A polynomial with values of a Bézier function. -/
noncomputable def bezPoly (m : ℕ) (f : ℕ → ℝ) : ℝ[X] :=
  ∑ j ∈ Finset.range (m + 1), C ((m.choose j : ℝ) * f j) * X ^ j * (1 - X) ^ (m - j)

theorem bezPoly_eval (m : ℕ) (f : ℕ → ℝ) (u : ℝ) : (bezPoly m f).eval u = bezier m f u := by
  unfold bezPoly bezier bern
  rw [eval_finset_sum]
  apply Finset.sum_congr rfl
  intro j _
  simp; ring

theorem bezPoly_degree (m : ℕ) (f : ℕ → ℝ) : (bezPoly m f).natDegree ≤ m := by
  unfold bezPoly
  apply natDegree_sum_le_of_forall_le
  intro j hj
  rw [Finset.mem_range] at hj
  have h1 : ((1 - X : ℝ[X]) ^ (m - j)).natDegree ≤ m - j := by
    refine le_trans natDegree_pow_le ?_
    have : (1 - X : ℝ[X]).natDegree ≤ 1 := by
      refine le_trans (natDegree_sub_le _ _) ?_
      simp
    nlinarith
  have h2 : (C ((m.choose j : ℝ) * f j) * X ^ j).natDegree ≤ j := natDegree_C_mul_X_pow_le _ _
  refine le_trans natDegree_mul_le ?_
  omega

theorem bezier_comp (m : ℕ) (f : ℕ → P3 ℝ) (u : ℝ) :
    bezier m f u = ⟨bezier m (fun j => (f j).x) u, bezier m (fun j => (f j).y) u, bezier m (fun j => (f j).z) u⟩ := by
  unfold bezier
  induction m + 1 with
  | zero => rfl
  | succ k ih =>
    simp only [Finset.sum_range_succ]
    rw [ih]; rfl

theorem isPoly_bezier (m : ℕ) (f : ℕ → P3 ℝ) : IsPoly m (bezier m f) :=
  ⟨_, _, _, bezPoly_degree m fun j => (f j).x, bezPoly_degree m fun j => (f j).y, bezPoly_degree m fun j => (f j).z, fun u => by
    rw [bezPoly_eval, bezPoly_eval, bezPoly_eval, bezier_comp]⟩

theorem isPoly_add {m : ℕ} {f g : ℝ → P3 ℝ} (hf : IsPoly m f) (hg : IsPoly m g) : IsPoly m fun u => f u + g u := by
  obtain ⟨X, Y, Z, a, b, c, e⟩ := hf
  obtain ⟨X', Y', Z', a', b', c', e'⟩ := hg
  refine ⟨X + X', Y + Y', Z + Z', (natDegree_add_le _ _).trans (max_le a a'), (natDegree_add_le _ _).trans (max_le b b'),
    (natDegree_add_le _ _).trans (max_le c c'), fun u => ?_⟩
  show f u + g u = _
  rw [e, e']
  simp only [eval_add]
  rfl

theorem isPoly_linear {m : ℕ} (hm : 1 ≤ m) (E : P3 ℝ) : IsPoly m fun u => u • E := by
  refine ⟨X * C E.x, X * C E.y, X * C E.z, ?_, ?_, ?_, fun u => ?_⟩
  · exact (natDegree_mul_C_le _ _).trans (natDegree_X_le.trans hm)
  · exact (natDegree_mul_C_le _ _).trans (natDegree_X_le.trans hm)
  · exact (natDegree_mul_C_le _ _).trans (natDegree_X_le.trans hm)
  · simp only [eval_mul, eval_X, eval_C]
    rfl

theorem isPoly_rev {m : ℕ} {f : ℝ → P3 ℝ} (hf : IsPoly m f) : IsPoly m fun u => f (1 - u) := by
  obtain ⟨X, Y, Z, a, b, c, e⟩ := hf
  have key : ∀ P : ℝ[X], P.natDegree ≤ m → (P.comp (1 - Polynomial.X)).natDegree ≤ m := by
    intro P hP
    rw [natDegree_comp]
    have : (1 - Polynomial.X : ℝ[X]).natDegree ≤ 1 := by
      refine le_trans (natDegree_sub_le _ _) ?_
      simp
    calc _ ≤ P.natDegree * 1 := Nat.mul_le_mul_left _ this
      _ ≤ m := by omega
  refine ⟨X.comp (1 - Polynomial.X), Y.comp (1 - Polynomial.X), Z.comp (1 - Polynomial.X), key X a, key Y b, key Z c, fun u => ?_⟩
  show f (1 - u) = _
  rw [e]
  simp [eval_comp]

/-- Polynomial curves of degree at most `m` that agree at `m+1` parameters are the same. -/
theorem isPoly_unique {m : ℕ} {f g : ℝ → P3 ℝ} (hf : IsPoly m f) (hg : IsPoly m g) (t : ℕ → ℝ)
    (ht : ∀ i ≤ m, ∀ j ≤ m, t i = t j → i = j) (h : ∀ k ≤ m, f (t k) = g (t k)) (u : ℝ) : f u = g u := by
  obtain ⟨X, Y, Z, a, b, c, e⟩ := hf
  obtain ⟨X', Y', Z', a', b', c', e'⟩ := hg
  have key : ∀ P Q : ℝ[X], P.natDegree ≤ m → Q.natDegree ≤ m → (∀ k ≤ m, P.eval (t k) = Q.eval (t k)) → P = Q := by
    intro P Q hP hQ hk
    have card : ((Finset.range (m + 1)).image t).card = m + 1 := by
      rw [Finset.card_image_of_injOn, Finset.card_range]
      intro i hi j hj hij
      simp only [Finset.coe_range, Set.mem_Iio] at hi hj
      exact ht i (by omega) j (by omega) hij
    apply Polynomial.eq_of_degrees_lt_of_eval_finset_eq ((Finset.range (m + 1)).image t)
    · rw [card]; exact lt_of_le_of_lt (degree_le_of_natDegree_le hP) (by exact_mod_cast Nat.lt_succ_self m)
    · rw [card]; exact lt_of_le_of_lt (degree_le_of_natDegree_le hQ) (by exact_mod_cast Nat.lt_succ_self m)
    · intro x hx
      rw [Finset.mem_image] at hx
      obtain ⟨k, hk', rfl⟩ := hx
      rw [Finset.mem_range] at hk'
      exact hk k (by omega)
  have hk : ∀ k ≤ m, X.eval (t k) = X'.eval (t k) ∧ Y.eval (t k) = Y'.eval (t k) ∧ Z.eval (t k) = Z'.eval (t k) := by
    intro k hk
    have := h k hk
    rw [e, e', P3.mk.injEq] at this
    exact this
  rw [e, e', key X X' a a' fun k q => (hk k q).1, key Y Y' b b' fun k q => (hk k q).2.1, key Z Z' c c' fun k q => (hk k q).2.2]

/-- The Bernstein polynomials are independent. -/
theorem bezier_zero_coeff {m : ℕ} {f : ℕ → ℝ} (h : ∀ u : ℝ, bezier m f u = 0) : ∀ j ≤ m, f j = 0 := by
  set Q : ℝ[X] := ∑ j ∈ Finset.range (m + 1), C ((m.choose j : ℝ) * f j) * X ^ j with hQ
  have hz : ∀ w : ℝ, 0 < w → Q.eval w = 0 := by
    intro w hw
    have h1 : (1 : ℝ) + w ≠ 0 := by positivity
    have := h (w / (1 + w))
    have e : (1 + w) ^ m * bezier m f (w / (1 + w)) = Q.eval w := by
      rw [hQ, eval_finset_sum]
      unfold bezier bern
      rw [Finset.mul_sum]
      apply Finset.sum_congr rfl
      intro j hj
      rw [Finset.mem_range] at hj
      have e1 : 1 - w / (1 + w) = 1 / (1 + w) := by field_simp; ring
      obtain ⟨k, rfl⟩ : ∃ k, m = j + k := ⟨m - j, by omega⟩
      rw [e1, Nat.add_sub_cancel_left]
      simp only [smul_eq_mul, eval_mul, eval_C, eval_pow, eval_X, div_pow, one_pow, pow_add]
      field_simp
      done
    rw [← e, this, mul_zero]
  have hQ0 : Q = 0 := by
    apply Polynomial.eq_zero_of_infinite_isRoot
    apply Set.Infinite.mono (s := Set.Ioi (0 : ℝ))
    · intro w hw; exact hz w hw
    · exact Set.Ioi_infinite 0
  intro j hj
  have hc : Q.coeff j = (m.choose j : ℝ) * f j := by
    rw [hQ, finset_sum_coeff, Finset.sum_eq_single j]
    · rw [coeff_C_mul, coeff_X_pow, if_pos rfl, mul_one]
    · intro k _ hk
      rw [coeff_C_mul, coeff_X_pow, if_neg (Ne.symm hk), mul_zero]
    · intro hn; exact absurd (Finset.mem_range.mpr (by omega)) hn
  rw [hQ0, coeff_zero] at hc
  have : (m.choose j : ℝ) ≠ 0 := by exact_mod_cast (Nat.choose_pos hj).ne'
  exact (mul_eq_zero.mp hc.symm).resolve_left this

/-! ## `bezierRefit` -/

theorem refitSystem_eq {d : ℕ} (hd : 2 ≤ d) (f : ℕ → P3 ℝ) (t : ℕ → ℝ) (s : ℕ → P3 ℝ) :
    refitSystem (tab (d + 1) f) (tab (d - 1) t) (tab (d - 1) s) =
      .ok (tab (d - 1) (fun i => tab (d - 1) fun j => bern d (j + 1) (t i)),
        tab (d - 1) fun i => s i - bern d 0 (t i) • f 0 - bern d d (t i) • f d) := by
  unfold refitSystem
  dsimp only
  rw [length_tab, show usub (d + 1) 1 = d from usub_of_le (by omega), show usub d 1 = d - 1 from usub_of_le (by omega)]
  apply forLoop_eq (fun k => (tab k (fun i => tab (d - 1) fun j => bern d (j + 1) (t i)),
        tab k fun i => s i - bern d 0 (t i) • f 0 - bern d d (t i) • f d))
  · rfl
  · intro k hk
    rw [vget_tab _ hk, M_bind_ok, bernsteinAll_eq, M_bind_ok]
    rw [forLoop_push _ _ (fun j => bern d (j + 1) (t k)), M_bind_ok]
    · rw [vget_tab _ hk, vget_tab _ (by omega), vget_tab _ (by omega), vget_tab _ (by omega), vget_tab _ (by omega)]
      simp only [M_bind_ok, List.nil_append]
      rw [tab_succ, tab_succ]
    · intro j l hj
      rw [vget_tab _ (by omega)]
      rfl

/-- A Bézier curve with separated ends. -/
theorem bezier_split {V : Type*} [AddCommGroup V] [Module ℝ V] {d : ℕ} (hd : 2 ≤ d) (g : ℕ → V) (u : ℝ) :
    bezier d g u = bern d 0 u • g 0 + ∑ j ∈ Finset.range (d - 1), bern d (j + 1) u • g (j + 1) + bern d d u • g d := by
  obtain ⟨e, rfl⟩ : ∃ e, d = e + 2 := ⟨d - 2, by omega⟩
  unfold bezier
  rw [Finset.sum_range_succ, Finset.sum_range_succ', show e + 2 - 1 = e + 1 by omega]
  congr 1
  rw [add_comm]

/-- The inner Bernstein polynomials at distinct inner parameters: a regular matrix. -/
theorem collocation {d : ℕ} (hd : 2 ≤ d) {t : ℕ → ℝ} (t01 : ∀ i < d - 1, 0 < t i ∧ t i < 1)
    (tinj : ∀ i < d - 1, ∀ j < d - 1, t i = t j → i = j) (x : ℕ → ℝ)
    (h : ∀ i < d - 1, ∑ j ∈ Finset.range (d - 1), bern d (j + 1) (t i) * x j = 0) : ∀ j < d - 1, x j = 0 := by
  set g : ℕ → ℝ := fun j => if j = 0 then 0 else if j = d then 0 else x (j - 1) with hg
  have g0 : g 0 = 0 := by simp [hg]
  have gd : g d = 0 := by simp [hg]
  have gi : ∀ j < d - 1, g (j + 1) = x j := by
    intro j hj
    simp only [hg]
    rw [if_neg (by omega), if_neg (by omega), Nat.add_sub_cancel]
  have hz : ∀ i < d - 1, bezier d g (t i) = 0 := by
    intro i hi
    rw [bezier_split hd, g0, gd, smul_zero, smul_zero, zero_add, add_zero, ← h i hi]
    apply Finset.sum_congr rfl
    intro j hj
    rw [gi j (Finset.mem_range.mp hj)]; rfl
  have e0 : bezier d g (0 : ℝ) = 0 := by
    unfold bezier
    apply Finset.sum_eq_zero
    intro j _
    rw [bern_at_zero]
    split
    · subst_vars; rw [g0, smul_zero]
    · rw [zero_smul]
  have e1 : bezier d g (1 : ℝ) = 0 := by
    unfold bezier
    apply Finset.sum_eq_zero
    intro j hj
    rw [bern_at_one (by have := Finset.mem_range.mp hj; omega)]
    split
    · subst_vars; rw [gd, smul_zero]
    · rw [zero_smul]
  set T : ℕ → ℝ := fun k => if k = 0 then 0 else if k = d then 1 else t (k - 1) with hT
  have main : ∀ u : ℝ, bezier d g u = 0 := by
    have hall : ∀ k ≤ d, bezier d g (T k) = 0 := by
      intro k hk
      simp only [hT]
      split
      · exact e0
      · split
        · exact e1
        · exact hz _ (by omega)
    have hinj : ∀ i ≤ d, ∀ j ≤ d, T i = T j → i = j := by
      intro i hi j hj e
      simp only [hT] at e
      split at e
      · split at e
        · omega
        · split at e
          · norm_num at e
          · have := t01 (j - 1) (by omega); linarith [this.1]
      · split at e
        · split at e
          · norm_num at e
          · split at e
            · omega
            · have := t01 (j - 1) (by omega); linarith [this.2]
        · have hi' := t01 (i - 1) (by omega)
          split at e
          · linarith [hi'.1]
          · split at e
            · linarith [hi'.2]
            · have := tinj (i - 1) (by omega) (j - 1) (by omega) e
              omega
    have key := isPoly_unique (m := d) (f := fun u => (⟨bezier d g u, 0, 0⟩ : P3 ℝ)) (g := fun _ => 0)
      ⟨bezPoly d g, 0, 0, bezPoly_degree d g, by simp, by simp, fun u => by rw [bezPoly_eval]; simp⟩
      ⟨0, 0, 0, by simp, by simp, by simp, fun u => by simp; rfl⟩ T hinj
      (fun k hk => by show (⟨bezier d g (T k), 0, 0⟩ : P3 ℝ) = 0; rw [hall k hk]; rfl)
    intro u
    exact congrArg P3.x (key u)
  intro j hj
  rw [← gi j hj]
  exact bezier_zero_coeff main (j + 1) (by omega)

theorem refit_ok {solve : List (List ℝ) → List (P3 ℝ) → List (P3 ℝ)} (hs : Solver solve) {d : ℕ} (hd : 2 ≤ d) (f : ℕ → P3 ℝ)
    (t : ℕ → ℝ) (s : ℕ → P3 ℝ) :
    ∃ g, bezierRefit solve (tab (d + 1) f) (tab (d - 1) t) (tab (d - 1) s) = .ok (tab (d + 1) g) ∧ g 0 = f 0 ∧ g d = f d ∧
      ((∀ i < d - 1, 0 < t i ∧ t i < 1) → (∀ i < d - 1, ∀ j < d - 1, t i = t j → i = j) → ∀ i < d - 1, bezier d g (t i) = s i) := by
  have S := hs (d - 1) (fun i j => bern d (j + 1) (t i)) (fun i => s i - bern d 0 (t i) • f 0 - bern d d (t i) • f d)
  change (solve (tab (d - 1) fun i => tab (d - 1) fun j => bern d (j + 1) (t i)) (tab (d - 1) _)).length = d - 1 ∧ (_ →
    ∃ x : ℕ → P3 ℝ, solve (tab (d - 1) fun i => tab (d - 1) fun j => bern d (j + 1) (t i)) (tab (d - 1) _) = tab (d - 1) x ∧ _) at S
  have run : ∀ x : ℕ → P3 ℝ, forLoop (d - 1) (fun i c => do
      let q ← vget (tab (d - 1) x) i
      vset c (i + 1) q) (tab (d + 1) f) = .ok (tab (d + 1) fun j => if 1 ≤ j ∧ j ≤ d - 1 then x (j - 1) else f j) := by
    intro x
    apply forLoop_eq (fun k => tab (d + 1) fun j => if 1 ≤ j ∧ j ≤ k then x (j - 1) else f j)
    · apply tab_congr
      intro j _
      rw [if_neg (by omega)]
    · intro k hk
      rw [vget_tab _ hk, M_bind_ok, vset_tab _ _ (by omega)]
      congr 1
      apply tab_congr
      intro j _
      by_cases hj : j = k + 1
      · subst hj
        rw [Function.update_self, if_pos (by omega)]; rfl
      · rw [Function.update_of_ne hj]
        by_cases q : 1 ≤ j ∧ j ≤ k
        · rw [if_pos q, if_pos (by omega)]
        · rw [if_neg q, if_neg (by omega)]
  have start : ∀ x : ℕ → P3 ℝ, solve (tab (d - 1) fun i => tab (d - 1) fun j => bern d (j + 1) (t i))
        (tab (d - 1) fun i => s i - bern d 0 (t i) • f 0 - bern d d (t i) • f d) = tab (d - 1) x →
      bezierRefit solve (tab (d + 1) f) (tab (d - 1) t) (tab (d - 1) s) =
        .ok (tab (d + 1) fun j => if 1 ≤ j ∧ j ≤ d - 1 then x (j - 1) else f j) := by
    intro x hx
    unfold bezierRefit
    rw [refitSystem_eq hd, M_bind_ok]
    dsimp only
    rw [hx, length_tab, show usub (d + 1) 1 = d from usub_of_le (by omega), show usub d 1 = d - 1 from usub_of_le (by omega)]
    exact run x
  by_cases hreg : (∀ i < d - 1, 0 < t i ∧ t i < 1) ∧ ∀ i < d - 1, ∀ j < d - 1, t i = t j → i = j
  · obtain ⟨x, hx, hsol⟩ := S.2 (collocation hd hreg.1 hreg.2)
    refine ⟨_, start x hx, if_neg (by omega), if_neg (by omega), fun _ _ i hi => ?_⟩
    rw [bezier_split hd, if_neg (by omega), if_neg (by omega)]
    have e : ∑ j ∈ Finset.range (d - 1), bern d (j + 1) (t i) • (if 1 ≤ j + 1 ∧ j + 1 ≤ d - 1 then x (j + 1 - 1) else f (j + 1)) =
        ∑ j ∈ Finset.range (d - 1), bern d (j + 1) (t i) • x j := by
      apply Finset.sum_congr rfl
      intro j hj
      have := Finset.mem_range.mp hj
      rw [if_pos (by omega), Nat.add_sub_cancel]
    rw [e, hsol i hi]
    abel
  · haveI : Inhabited (P3 ℝ) := ⟨0⟩
    obtain ⟨x, hx⟩ := exists_tab (solve (tab (d - 1) fun i => tab (d - 1) fun j => bern d (j + 1) (t i))
        (tab (d - 1) fun i => s i - bern d 0 (t i) • f 0 - bern d d (t i) • f d))
    rw [S.1] at hx
    exact ⟨_, start x hx, if_neg (by omega), if_neg (by omega), fun a b => absurd ⟨a, b⟩ hreg⟩

/-! ## The rounds of degree elevation -/

/-- The uniform parameters of a round. -/
noncomputable def unif (k j : ℕ) : ℝ := ((j + 1 : ℕ) : ℝ) / ((k + 1 : ℕ) : ℝ)

theorem unif_mem {k j : ℕ} (hj : j < k) : 0 < unif k j ∧ unif k j < 1 := by
  unfold unif
  have : (0 : ℝ) < ((k + 1 : ℕ) : ℝ) := by exact_mod_cast Nat.succ_pos k
  constructor
  · apply div_pos _ this
    exact_mod_cast Nat.succ_pos j
  · rw [div_lt_one this]
    exact_mod_cast (by omega : j + 1 < k + 1)

theorem unif_inj {k i j : ℕ} (h : unif k i = unif k j) : i = j := by
  unfold unif at h
  have : ((k + 1 : ℕ) : ℝ) ≠ 0 := by exact_mod_cast Nat.succ_ne_zero k
  rw [div_left_inj' this] at h
  have : i + 1 = j + 1 := by exact_mod_cast h
  omega

theorem takeSamples_eq (inv : ℝ → M (P2 ℝ)) (cl cr : ℝ → P3 ℝ) (p : P2 ℝ) {l : ℝ} (hl : l ≠ 0) (psi : ℝ) (k : ℕ) (c a b : ℕ → P3 ℝ)
    {Q : ℕ → P2 ℝ} (hQ : ∀ j < k, inv (1 - unif k j) = .ok (Q j)) :
    takeSamples inv cl cr p l psi (k + 1) ⟨tab (k + 2) c, tab (k + 2) a, tab (k + 2) b⟩ =
      .ok ⟨tab k (unif k), tab k (fun j => (Q j - p).norm / l),
        tab k (fun j => bezier (k + 1) c ((Q j - p).norm / l) + ((1 - psi) • (cl (1 - unif k j) - bezier (k + 1) a (unif k j)) +
          psi • (cr (unif k j) - bezier (k + 1) b (unif k j)))),
        tab k (fun j => cl (1 - unif k j)), tab k (fun j => cr (unif k j))⟩ := by
  unfold takeSamples
  rw [Nat.add_sub_cancel]
  apply forLoop_eq (fun m => (⟨tab m (unif k), tab m (fun j => (Q j - p).norm / l),
        tab m (fun j => bezier (k + 1) c ((Q j - p).norm / l) + ((1 - psi) • (cl (1 - unif k j) - bezier (k + 1) a (unif k j)) +
          psi • (cr (unif k j) - bezier (k + 1) b (unif k j)))),
        tab m (fun j => cl (1 - unif k j)), tab m (fun j => cr (unif k j))⟩ : Samples ℝ))
  · rfl
  · intro j hj
    have hk : ((k + 1 : ℕ) : ℝ) ≠ 0 := by exact_mod_cast Nat.succ_ne_zero k
    rw [fdiv_of_ne hk, M_bind_ok]
    change (inv (1 - unif k j) >>= _) = _
    rw [hQ j hj, M_bind_ok, fdiv_of_ne hl, M_bind_ok, Ribbon.bezierPt_eq, M_bind_ok, Ribbon.bezierPt_eq, M_bind_ok, Ribbon.bezierPt_eq, M_bind_ok]
    simp only [tab_succ]
    rfl

/-- One round of degree elevation. -/
theorem round_ok {solve : List (List ℝ) → List (P3 ℝ) → List (P3 ℝ)} (hs : Solver solve) (inv : ℝ → M (P2 ℝ)) (cl cr : ℝ → P3 ℝ)
    (p : P2 ℝ) {l : ℝ} (hl : l ≠ 0) (psi : ℝ) {k : ℕ} (hk : 1 ≤ k) (c a b : ℕ → P3 ℝ)
    {Q : ℕ → P2 ℝ} (hQ : ∀ j < k, inv (1 - unif k j) = .ok (Q j)) :
    ∃ c' a' b' : ℕ → P3 ℝ, round solve inv cl cr p l psi (k + 1) ⟨tab (k + 1) c, tab (k + 1) a, tab (k + 1) b⟩ =
        .ok ⟨tab (k + 2) c', tab (k + 2) a', tab (k + 2) b'⟩ ∧
      c' 0 = c 0 ∧ c' (k + 1) = c k ∧ a' 0 = a 0 ∧ a' (k + 1) = a k ∧ b' 0 = b 0 ∧ b' (k + 1) = b k ∧
      (∀ j < k, bezier (k + 1) a' (unif k j) = cl (1 - unif k j)) ∧
      (∀ j < k, bezier (k + 1) b' (unif k j) = cr (unif k j)) ∧
      ((∀ j < k, (Q j - p).norm / l = unif k j) → ∀ j < k, bezier (k + 1) c' (unif k j) =
        bezier k c (unif k j) + ((1 - psi) • (cl (1 - unif k j) - bezier k a (unif k j)) + psi • (cr (unif k j) - bezier k b (unif k j)))) := by
  obtain ⟨c1, ec, c10, c1k, c1e⟩ := C56_bezierElevate k c
  obtain ⟨a1, ea, a10, a1k, a1e⟩ := C56_bezierElevate k a
  obtain ⟨b1, eb, b10, b1k, b1e⟩ := C56_bezierElevate k b
  obtain ⟨a2, fa, a20, a2k, a2e⟩ := refit_ok hs (d := k + 1) (by omega) a1 (unif k) (fun j => cl (1 - unif k j))
  obtain ⟨b2, fb, b20, b2k, b2e⟩ := refit_ok hs (d := k + 1) (by omega) b1 (unif k) (fun j => cr (unif k j))
  obtain ⟨c2, fc, c20, c2k, c2e⟩ := refit_ok hs (d := k + 1) (by omega) c1 (fun j => (Q j - p).norm / l)
    (fun j => bezier (k + 1) c1 ((Q j - p).norm / l) + ((1 - psi) • (cl (1 - unif k j) - bezier (k + 1) a1 (unif k j)) +
          psi • (cr (unif k j) - bezier (k + 1) b1 (unif k j))))
  rw [Nat.add_sub_cancel] at *
  refine ⟨c2, a2, b2, ?_, by rw [c20, c10], by rw [c2k, c1k], by rw [a20, a10], by rw [a2k, a1k], by rw [b20, b10], by rw [b2k, b1k],
    a2e (fun i hi => unif_mem hi) (fun i _ j _ => unif_inj), b2e (fun i hi => unif_mem hi) (fun i _ j _ => unif_inj), ?_⟩
  · unfold round
    dsimp only
    rw [ec, M_bind_ok, ea, M_bind_ok, eb, M_bind_ok, takeSamples_eq inv cl cr p hl psi k c1 a1 b1 hQ, M_bind_ok]
    dsimp only
    rw [fa, M_bind_ok, fb, M_bind_ok, fc, M_bind_ok]
  · intro hpos j hj
    have := c2e (fun i hi => by rw [hpos i hi]; exact unif_mem hi) (fun i hi j hj e => by rw [hpos i hi, hpos j hj] at e; exact unif_inj e) j hj
    rw [hpos j hj, c1e, a1e, b1e] at this
    exact this

/-- The parameters of `Interpolates`, from those of the rounds. -/
theorem interpolates_of {k : ℕ} {f g : ℝ → P3 ℝ} (hf : IsPoly (k + 1) f) (h0 : f 0 = g 0) (h1 : f 1 = g 1)
    (hu : ∀ j < k, f (unif k j) = g (unif k j)) : Interpolates (k + 1) g f := by
  refine ⟨hf, fun m hm => ?_⟩
  have hk : ((k + 1 : ℕ) : ℝ) ≠ 0 := by exact_mod_cast Nat.succ_ne_zero k
  rcases Nat.eq_zero_or_pos m with rfl | hm0
  · simpa using h0
  · by_cases e : m = k + 1
    · subst e
      rw [div_self hk]; exact h1
    · have := hu (m - 1) (by omega)
      unfold unif at this
      rwa [show m - 1 + 1 = m by omega] at this

/-- Curves that agree at the parameters of a round. -/
theorem unique_of {k : ℕ} {f g : ℝ → P3 ℝ} (hf : IsPoly (k + 1) f) (hg : IsPoly (k + 1) g) (h0 : f 0 = g 0) (h1 : f 1 = g 1)
    (hu : ∀ j < k, f (unif k j) = g (unif k j)) (u : ℝ) : f u = g u := by
  have hk : ((k + 1 : ℕ) : ℝ) ≠ 0 := by exact_mod_cast Nat.succ_ne_zero k
  have := (interpolates_of hf h0 h1 hu).2
  refine isPoly_unique hf hg (fun m => (m : ℝ) / ((k + 1 : ℕ) : ℝ)) ?_ this u
  intro i _ j _ e
  rw [div_left_inj' hk] at e
  exact_mod_cast e

theorem interpolates_unique {m : ℕ} (hm : 1 ≤ m) {c f g : ℝ → P3 ℝ} (hf : Interpolates m c f) (hg : Interpolates m c g) (u : ℝ) : f u = g u := by
  have hk : (m : ℝ) ≠ 0 := by exact_mod_cast (by omega : m ≠ 0)
  refine isPoly_unique hf.1 hg.1 (fun k => (k : ℝ) / m) ?_ (fun k hk => by rw [hf.2 k hk, hg.2 k hk]) u
  intro i _ j _ e
  rw [div_left_inj' hk] at e
  exact_mod_cast e

/-- All rounds, whatever the angle. -/
theorem rounds_ok {solve : List (List ℝ) → List (P3 ℝ) → List (P3 ℝ)} (hs : Solver solve) (inv : ℝ → M (P2 ℝ)) (cl cr : ℝ → P3 ℝ)
    (p : P2 ℝ) {l : ℝ} (hl : l ≠ 0) (psi : ℝ) (hinv : ∀ t, ∃ q, inv t = .ok q) (P Q P1 P2 : P3 ℝ) (K : ℕ) :
    ∃ c a b : ℕ → P3 ℝ, forLoop K (fun k st => round solve inv cl cr p l psi (k + 2) st) ⟨[P, Q], [P, P1], [P, P2]⟩ =
        .ok ⟨tab (K + 2) c, tab (K + 2) a, tab (K + 2) b⟩ ∧
      c 0 = P ∧ c (K + 1) = Q ∧ a 0 = P ∧ a (K + 1) = P1 ∧ b 0 = P ∧ b (K + 1) = P2 ∧
      (∀ j < K, bezier (K + 1) a (unif K j) = cl (1 - unif K j)) ∧
      (∀ j < K, bezier (K + 1) b (unif K j) = cr (unif K j)) ∧
      ((∀ t, 0 < t → t < 1 → ∀ q, inv (1 - t) = .ok q → (q - p).norm / l = t) →
        ((psi = 0 → Q = P1 → ∀ u : ℝ, bezier (K + 1) c u = bezier (K + 1) a u) ∧
         (psi = 1 → ∀ u : ℝ, bezier (K + 1) c u = bezier (K + 1) b u + u • (Q - P2)))) := by
  induction K with
  | zero =>
    refine ⟨fun j => if j = 0 then P else Q, fun j => if j = 0 then P else P1, fun j => if j = 0 then P else P2, rfl, rfl, rfl, rfl, rfl, rfl, rfl,
      fun j hj => absurd hj (by omega), fun j hj => absurd hj (by omega), fun _ => ⟨?_, ?_⟩⟩
    · rintro - rfl u; rfl
    · rintro - u
      unfold bezier bern
      simp [Finset.sum_range_succ]
      module
  | succ K ih =>
    obtain ⟨c, a, b, e, c0, c1, a0, a1, b0, b1, sa, sb, hc⟩ := ih
    choose R hR using hinv
    obtain ⟨c', a', b', e', c0', c1', a0', a1', b0', b1', sa', sb', hc'⟩ := round_ok hs inv cl cr p hl psi (k := K + 1) (by omega) c a b
      (Q := fun j => R (1 - unif (K + 1) j)) (fun j _ => hR _)
    refine ⟨c', a', b', by rw [forLoop_succ, e, M_bind_ok, e'], by rw [c0', c0], by rw [c1', c1], by rw [a0', a0], by rw [a1', a1],
      by rw [b0', b0], by rw [b1', b1], sa', sb', fun hpos => ?_⟩
    obtain ⟨h0, h1⟩ := hc hpos
    have hcs := hc' (fun j hj => hpos _ (unif_mem hj).1 (unif_mem hj).2 _ (hR _))
    constructor
    · intro hpsi hQ
      subst hpsi
      apply unique_of (isPoly_bezier _ _) (isPoly_bezier _ _)
      · rw [Ribbon.bezier_zero, Ribbon.bezier_zero, c0', a0', c0, a0]
      · rw [Ribbon.bezier_one, Ribbon.bezier_one, c1', a1', c1, a1, hQ]
      · intro j hj
        rw [hcs j hj, sa' j hj, h0 rfl hQ]
        module
    · intro hpsi
      subst hpsi
      apply unique_of (isPoly_bezier _ _) (isPoly_add (isPoly_bezier _ _) (isPoly_linear (by omega) _))
      · rw [Ribbon.bezier_zero, Ribbon.bezier_zero, c0', b0', c0, b0, zero_smul, add_zero]
      · rw [Ribbon.bezier_one, Ribbon.bezier_one, c1', b1', c1, b1, one_smul, add_sub_cancel]
      · intro j hj
        rw [hcs j hj, sb' j hj, h1 rfl]
        module

end Polar

end Transfinite
