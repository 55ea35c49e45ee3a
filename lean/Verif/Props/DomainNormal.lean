import Verif.Props.Domain
import Verif.Lemmas.ConvexDomain

/-! # C08, continued: `update()` of regular and circular domains gives domains in normal state -/

namespace Transfinite

open Domain Spec

/-- C08: a regular domain whose side count changes to `n` becomes a strictly convex domain in its
normal state (all members consistent, centre inside). -/
theorem C08_regular_normal {n : ℕ} (hn : 3 ≤ n) (d : Domain ℝ) (h : d.n ≠ n) :
    ∃ d' v, d.regularUpdate n = .ok (d', true) ∧ ConvexDomain d' n v := by
  obtain ⟨v, e, h1, h2⟩ := C08_regular hn
  unfold regularUpdate
  rw [if_neg h, e, M_bind_ok, updateFrom_eq]
  exact ⟨_, v, rfl, hn, h1, h2, updateFrom_eq n v 0⟩

/-- C08: a strictly convex polygon gives a domain in its normal state. -/
theorem C08_update_normal {n : ℕ} (hn : 3 ≤ n) {v : ℕ → P2 ℝ} (hc : StrictConvex n v) :
    ∃ d, update (tab n v) = .ok d ∧ ConvexDomain d n v := by
  obtain ⟨d, e, h1, h2, h3⟩ := C08_center_inside hn hc
  refine ⟨d, e, hn, hc, h3, ?_⟩
  unfold update at e
  cases hcc : computeCenter (tab n v) with
  | error f => rw [hcc] at e; simp at e
  | ok c =>
    rw [hcc, M_bind_ok] at e
    have := e
    rw [updateFrom_eq] at this
    rw [← Except.ok.inj this, updateFrom_eq]

/-- C08: a circular domain over curves of positive length is in its normal state. -/
theorem C08_circular_normal (curves : List (Curve ℝ)) (hn : 3 ≤ curves.length)
    (hl : ∀ c ∈ curves, 0 < c.arc 0 1) :
    ∃ d v, circularUpdate curves = .ok d ∧ ConvexDomain d curves.length v := by
  have e : curveLengths curves = tab curves.length fun i => (curveLengths curves).getD i 0 := by
    apply eq_tab_of_get (by simp [curveLengths])
    intro i hi; simp [hi]
  have hl' : ∀ i < curves.length, 0 < (curveLengths curves).getD i 0 := by
    intro i hi
    have : (curveLengths curves).getD i 0 = curves[i].arc 0 1 := by simp [curveLengths, hi]
    rw [this]; exact hl _ (List.getElem_mem hi)
  obtain ⟨v, h1, h2⟩ := C08_circular_convex hn _ hl'
  obtain ⟨d, h3, h4⟩ := C08_update_normal hn h2
  refine ⟨d, v, ?_, h4⟩
  unfold circularUpdate
  rw [e, h1, M_bind_ok, h3]

example : ∃ curves : List (Curve ℝ), 3 ≤ curves.length ∧ ∀ c ∈ curves, 0 < c.arc 0 1 :=
  ⟨List.replicate 4 ⟨fun _ => 0, fun _ => 0, fun a b => b - a⟩, by simp, by simp⟩

end Transfinite
