import Verif.Spec.Tangent
import Verif.Lemmas.Lists
import Mathlib.Analysis.Calculus.Deriv.Add
import Mathlib.Analysis.Calculus.Deriv.Mul
import Mathlib.Analysis.Calculus.Deriv.Inv
import Mathlib.Analysis.Calculus.Deriv.Comp

/-! # Calculus with one-sided derivatives -/

namespace Transfinite.Spec

open Set Filter Topology

section

variable {f g : ℝ → ℝ} {f' g' : ℝ} {F G : ℝ → P3 ℝ} {F' G' : P3 ℝ}

/-- Near 0, from the right. -/
abbrev near0 : Filter ℝ := 𝓝[≥] (0 : ℝ)

theorem RightDer.continuous (h : RightDer f f') : Tendsto f near0 (𝓝 (f 0)) := h.continuousWithinAt

theorem RightDer.congr (h : RightDer f f') (e : ∀ᶠ t in near0, g t = f t) : RightDer g f' :=
  HasDerivWithinAt.congr_of_eventuallyEq h e (e.self_of_nhdsWithin (by simp))

theorem RightDer.const (c : ℝ) : RightDer (fun _ => c) 0 := hasDerivWithinAt_const _ _ _

theorem RightDer.id : RightDer (fun t => t) 1 := hasDerivWithinAt_id _ _

theorem RightDer.add (h : RightDer f f') (k : RightDer g g') : RightDer (fun t => f t + g t) (f' + g') := HasDerivWithinAt.add h k

theorem RightDer.sub (h : RightDer f f') (k : RightDer g g') : RightDer (fun t => f t - g t) (f' - g') := HasDerivWithinAt.sub h k

theorem RightDer.mul (h : RightDer f f') (k : RightDer g g') : RightDer (fun t => f t * g t) (f' * g 0 + f 0 * g') := HasDerivWithinAt.mul h k

theorem RightDer.div (h : RightDer f f') (k : RightDer g g') (h0 : g 0 ≠ 0) : RightDer (fun t => f t / g t) ((f' * g 0 - f 0 * g') / g 0 ^ 2) :=
  HasDerivWithinAt.div h k h0

theorem RightDer.congr_der (h : RightDer f f') (e : f' = g') : RightDer f g' := e ▸ h

/-- Composition with a function that has a derivative. -/
theorem RightDer.comp {u : ℝ → ℝ} {u' : ℝ} (h : RightDer f f') (k : HasDerivAt u u' (f 0)) : RightDer (fun t => u (f t)) (u' * f') :=
  HasDerivAt.comp_hasDerivWithinAt (0 : ℝ) k h

theorem RightDer.lt (h : RightDer f f') {c : ℝ} (hc : f 0 < c) : ∀ᶠ t in near0, f t < c := h.continuous.eventually (eventually_lt_nhds hc)

theorem RightDer.gt (h : RightDer f f') {c : ℝ} (hc : c < f 0) : ∀ᶠ t in near0, c < f t := h.continuous.eventually (eventually_gt_nhds hc)

theorem RightDer.sum {n : ℕ} {H : ℕ → ℝ → ℝ} {H' : ℕ → ℝ} (h : ∀ j < n, RightDer (H j) (H' j)) :
    RightDer (fun t => ∑ j ∈ Finset.range n, H j t) (∑ j ∈ Finset.range n, H' j) := by
  induction n with
  | zero => exact RightDer.const 0
  | succ n ih =>
    simp only [Finset.sum_range_succ]
    exact (ih fun j hj => h j (by omega)).add (h n (by omega))

/-- A function squeezed by the square of another one. -/
theorem RightDer.of_sq {C : ℝ} (h : RightDer g g') (h0 : g 0 = 0) (hb : ∀ᶠ t in near0, |f t| ≤ C * g t ^ 2) : RightDer f 0 := by
  have f0 : f 0 = 0 := by
    have := hb.self_of_nhdsWithin (by simp : (0 : ℝ) ∈ Ici 0)
    rw [h0] at this
    exact abs_nonpos_iff.mp (by simpa using this)
  have k := h.mul h
  have k0 : RightDer (fun t => C * g t ^ 2) 0 := by
    have := (RightDer.const C).mul k
    refine (this.congr (Eventually.of_forall fun t => by ring)).congr_der ?_
    rw [h0]; ring
  unfold RightDer at *
  rw [hasDerivWithinAt_iff_isLittleO] at k0 ⊢
  refine Asymptotics.IsBigO.trans_isLittleO (Asymptotics.IsBigO.of_bound 1 ?_) k0
  filter_upwards [hb] with t ht
  rw [f0, h0]
  simp only [sub_zero, smul_zero, one_mul, Real.norm_eq_abs]
  simp only [ne_eq, OfNat.ofNat_ne_zero, not_false_eq_true, zero_pow, mul_zero, sub_zero]
  exact ht.trans (le_abs_self _)

theorem RightDer3.congr (h : RightDer3 F F') (e : ∀ᶠ t in near0, G t = F t) : RightDer3 G F' :=
  ⟨h.1.congr (e.mono fun t q => by rw [q]), h.2.1.congr (e.mono fun t q => by rw [q]), h.2.2.congr (e.mono fun t q => by rw [q])⟩

theorem RightDer3.congr_der (h : RightDer3 F F') (e : F' = G') : RightDer3 F G' := e ▸ h

theorem RightDer3.const (c : P3 ℝ) : RightDer3 (fun _ => c) 0 := ⟨RightDer.const _, RightDer.const _, RightDer.const _⟩

theorem RightDer3.add (h : RightDer3 F F') (k : RightDer3 G G') : RightDer3 (fun t => F t + G t) (F' + G') :=
  ⟨h.1.add k.1, h.2.1.add k.2.1, h.2.2.add k.2.2⟩

theorem RightDer3.sub (h : RightDer3 F F') (k : RightDer3 G G') : RightDer3 (fun t => F t - G t) (F' - G') :=
  ⟨h.1.sub k.1, h.2.1.sub k.2.1, h.2.2.sub k.2.2⟩

theorem RightDer3.smul (h : RightDer f f') (k : RightDer3 G G') : RightDer3 (fun t => f t • G t) (f' • G 0 + f 0 • G') :=
  ⟨h.mul k.1, h.mul k.2.1, h.mul k.2.2⟩

theorem RightDer3.smul_const (h : RightDer f f') (v : P3 ℝ) : RightDer3 (fun t => f t • v) (f' • v) :=
  (RightDer3.smul h (RightDer3.const v)).congr_der (by rw [smul_zero, add_zero])

theorem RightDer3.sum {n : ℕ} {H : ℕ → ℝ → P3 ℝ} {H' : ℕ → P3 ℝ} (h : ∀ j < n, RightDer3 (H j) (H' j)) :
    RightDer3 (fun t => ∑ j ∈ Finset.range n, H j t) (∑ j ∈ Finset.range n, H' j) := by
  induction n with
  | zero => exact RightDer3.const 0
  | succ n ih =>
    simp only [Finset.sum_range_succ]
    exact (ih fun j hj => h j (by omega)).add (h n (by omega))

/-- A derivative on the unit interval, along a function to the unit interval. -/
theorem RightDer3.unit {C : ℝ → P3 ℝ} {C' : P3 ℝ} (h : UnitDer C C' (f 0)) (k : RightDer f f') (hr : ∀ᶠ t in near0, 0 ≤ f t ∧ f t ≤ 1) :
    RightDer3 (fun t => C (f t)) (f' • C') := by
  obtain ⟨δ, hδ, hs⟩ := mem_nhdsGE_iff_exists_Ico_subset.mp hr
  have hδ' : (0 : ℝ) < δ := hδ
  have one : ∀ {u : ℝ → ℝ} {u' : ℝ}, HasDerivWithinAt u u' (Icc 0 1) (f 0) → RightDer (fun t => u (f t)) (f' * u') := by
    intro u u' hu
    have hk : HasDerivWithinAt f f' (Ico 0 δ) 0 := HasDerivWithinAt.mono k Ico_subset_Ici_self
    have := HasDerivWithinAt.comp (0 : ℝ) hu hk (fun t ht => hs ht)
    rw [mul_comm] at this
    exact this.mono_of_mem_nhdsWithin (Ico_mem_nhdsGE hδ')
  exact ⟨one h.1, one h.2.1, one h.2.2⟩

end

end Transfinite.Spec
