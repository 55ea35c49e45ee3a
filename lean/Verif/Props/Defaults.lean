import Verif.Props.Loop
import Verif.Model.Hybrid
import Verif.Model.SuperD
import Mathlib.Analysis.Calculus.Deriv.Comp
import Mathlib.Analysis.Calculus.Deriv.Add
import Mathlib.Analysis.Calculus.Deriv.Mul

/-! # C106: default settings; C26: derivatives of the reversed curves -/

namespace Transfinite

section defaults
variable {K : Type} [Field K] [LinearOrder K] [Libm K]

/-- C106: `setGamma(true)` on a new surface changes nothing, whatever follows. -/
theorem C106_gamma (ε : K) (kind : PatchKind) (cs : List (Patch.Call K)) : (Patch.new kind).run ε (.gamma true :: cs) = (Patch.new kind).run ε cs := rfl

/-- C106: `setFullness(0.5)` on a new SuperD patch changes nothing. -/
theorem C106_fullness (ε : K) (arc : List (P3 K) → K → K → K) (cs : List (SuperD.Call K)) :
    (SuperD.new).run ε arc (.setFull (1 / 2) :: cs) = (SuperD.new).run ε arc cs := rfl

/-- C106: `useSquaredRationalWeights(false)` on a new Generalized Bézier patch changes nothing. -/
theorem C106_squared (ε : K) (arc : List (P3 K) → K → K → K) (kind : GBKind K) (d l : ℕ) (cs : List (GB.Call K)) :
    (GB.new kind d l).run ε arc (.squared false :: cs) = (GB.new kind d l).run ε arc cs := rfl

/-- C106: in a new hybrid patch the squared weights are on. -/
theorem C106_hybrid (ε : K) (arc : List (P3 K) → K → K → K) (d l : ℕ) (cs : List (Hybrid.Call K)) :
    (Hybrid.new d l).run ε arc (.net (.squared true) :: cs) = (Hybrid.new d l).run ε arc cs := rfl

/-- C26: the lengths of the curves do not change. -/
theorem C26_length {cs cs' : List (Curve K)} (h : orientLoop cs = .ok cs') {j : ℕ} (hj : j < cs.length) (hj' : j < cs'.length) : cs'[j].arc 0 1 = cs[j].arc 0 1 := by
  obtain ⟨l, e, hl, hr⟩ := C27_total cs
  rw [h] at e
  cases e
  rcases hr j hj with w | w
  · rw [List.getElem?_eq_getElem hj'] at w
    rw [Option.some.inj w]
  · rw [List.getElem?_eq_getElem hj'] at w
    rw [Option.some.inj w]
    unfold Curve.reverse
    dsimp only
    rw [sub_self, sub_zero]

end defaults

/-- The derivative of a curve is that of its points. -/
def Curve.Differentiable (c : Curve ℝ) : Prop :=
  ∀ u, HasDerivAt (fun t => (c.pt t).x) (c.der u).x u ∧ HasDerivAt (fun t => (c.pt t).y) (c.der u).y u ∧ HasDerivAt (fun t => (c.pt t).z) (c.der u).z u

theorem Curve.Differentiable.reverse {c : Curve ℝ} (h : c.Differentiable) : c.reverse.Differentiable := by
  have key : ∀ {f f' : ℝ → ℝ}, (∀ u, HasDerivAt f (f' u) u) → ∀ u, HasDerivAt (fun t => f (1 - t)) (-f' (1 - u)) u := by
    intro f f' hf u
    have := (hf (1 - u)).comp u ((hasDerivAt_id u).const_sub 1)
    simpa [Function.comp_def] using this
  intro u
  exact ⟨key (fun u => (h u).1) u, key (fun u => (h u).2.1) u, key (fun u => (h u).2.2) u⟩

/-- C26: the derivatives of the curves are still derivatives after `setupLoop` has reversed some of them. -/
theorem C26_derivative {cs cs' : List (Curve ℝ)} (h : orientLoop cs = .ok cs') (hc : ∀ c ∈ cs, c.Differentiable) : ∀ c ∈ cs', c.Differentiable := by
  obtain ⟨l, e, hl, hr⟩ := C27_total cs
  rw [h] at e
  cases e
  intro c hcm
  obtain ⟨j, hj, rfl⟩ := List.mem_iff_getElem.mp hcm
  rcases hr j (by omega) with w | w
  · rw [List.getElem?_eq_getElem hj] at w
    rw [Option.some.inj w]
    exact hc _ (List.getElem_mem _)
  · rw [List.getElem?_eq_getElem hj] at w
    rw [Option.some.inj w]
    exact (hc _ (List.getElem_mem _)).reverse

/-- A parabola. -/
example : Curve.Differentiable ⟨fun u => ⟨u, u ^ 2, 0⟩, fun u => ⟨1, 2 * u, 0⟩, 0⟩ := by
  intro u
  refine ⟨hasDerivAt_id u, ?_, hasDerivAt_const u 0⟩
  simpa using hasDerivAt_pow 2 u

end Transfinite
