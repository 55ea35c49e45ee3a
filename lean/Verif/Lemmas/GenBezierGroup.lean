import Verif.Props.GenBezierEnum
import Mathlib.Algebra.BigOperators.Group.Finset.Sigma

/-! Sums over all names of a control network, grouped by points. -/

namespace Transfinite

open Spec

namespace GB

variable {n d : ℕ} {V : Type} [AddCommMonoid V]

/-- The names of a network. -/
def allNames (n d : ℕ) : Finset (ℕ × ℕ × ℕ) := Finset.range n ×ˢ Finset.range ((d + 1) / 2) ×ˢ Finset.range (d + 1)

/-- The value of `g` at the first corner name and the second corner name, if there are such, and at the name itself. -/
def perPoint (n d : ℕ) (g : ℕ → ℕ → ℕ → V) (a : Name) : V :=
  g a.side a.col a.row + (if a.col < (d + 1) / 2 then g ((a.side + n - 1) % n) (d - a.row) a.col else 0) +
    (if d - (d + 1) / 2 < a.col then g ((a.side + 1) % n) a.row (d - a.col) else 0)

theorem sum_names (g : ℕ → ℕ → ℕ → V) :
    (∑ i ∈ Finset.range n, ∑ k ∈ Finset.range ((d + 1) / 2), ∑ j ∈ Finset.range (d + 1), g i j k) = ∑ x ∈ allNames n d, g x.1 x.2.2 x.2.1 := by
  unfold allNames
  rw [Finset.sum_product]
  refine Finset.sum_congr rfl fun i _ => ?_
  rw [Finset.sum_product]

theorem mem_allNames {x : ℕ × ℕ × ℕ} : x ∈ allNames n d ↔ x.1 < n ∧ x.2.1 < (d + 1) / 2 ∧ x.2.2 ≤ d := by
  unfold allNames
  simp [Finset.mem_product, Nat.lt_succ_iff]

theorem sum_visited (h : Name → V) :
    (∑ t ∈ Finset.range (enumCount n d), h (enumPos n d ⟨0, 0, 0⟩ t)) =
      ∑ x ∈ (allNames n d).filter (fun x => x.2.1 ≤ x.2.2 ∧ x.2.2 + x.2.1 < d), h ⟨x.1, x.2.2, x.2.1⟩ := by
  refine Finset.sum_bij (fun t _ => ((enumPos n d ⟨0, 0, 0⟩ t).side, (enumPos n d ⟨0, 0, 0⟩ t).row, (enumPos n d ⟨0, 0, 0⟩ t).col)) ?_ ?_ ?_ ?_
  · intro t ht
    obtain ⟨h1, h2, h3⟩ := visited_spec (Finset.mem_range.mp ht)
    rw [Finset.mem_filter, mem_allNames]
    dsimp only
    exact ⟨⟨h1, by omega, by omega⟩, h2, h3⟩
  · intro t ht u hu e
    simp only [Prod.mk.injEq] at e
    refine visited_inj (Finset.mem_range.mp ht) (Finset.mem_range.mp hu) ?_
    rcases e1 : enumPos n d ⟨0, 0, 0⟩ t with ⟨i, j, k⟩
    rcases e2 : enumPos n d ⟨0, 0, 0⟩ u with ⟨i', j', k'⟩
    rw [e1, e2] at e
    simp only [Name.mk.injEq]
    exact ⟨e.1, e.2.2, e.2.1⟩
  · rintro ⟨i, k, j⟩ hx
    rw [Finset.mem_filter, mem_allNames] at hx
    obtain ⟨⟨h1, _, _⟩, h2, h3⟩ := hx
    obtain ⟨t, ht, e, _⟩ := visited_mem (n := n) (d := d) (a := ⟨i, j, k⟩) h1 h2 h3
    refine ⟨t, Finset.mem_range.mpr ht, ?_⟩
    rw [e]
  · intro t _
    rfl

/-- All names, grouped by the points visited by the loop. -/
theorem sum_perPoint (g : ℕ → ℕ → ℕ → V) :
    (∑ i ∈ Finset.range n, ∑ k ∈ Finset.range ((d + 1) / 2), ∑ j ∈ Finset.range (d + 1), g i j k) =
      ∑ t ∈ Finset.range (enumCount n d), perPoint n d g (enumPos n d ⟨0, 0, 0⟩ t) := by
  rw [sum_names, sum_visited]
  unfold perPoint
  rw [Finset.sum_add_distrib, Finset.sum_add_distrib]
  dsimp only
  rw [← Finset.sum_filter_add_sum_filter_not (allNames n d) (fun x => x.2.1 ≤ x.2.2 ∧ x.2.2 + x.2.1 < d), add_assoc]
  congr 1
  rw [← Finset.sum_filter_add_sum_filter_not ((allNames n d).filter fun x => ¬(x.2.1 ≤ x.2.2 ∧ x.2.2 + x.2.1 < d)) (fun x => x.2.1 ≤ x.2.2)]
  rw [← Finset.sum_filter, ← Finset.sum_filter, Finset.filter_filter, Finset.filter_filter, Finset.filter_filter, Finset.filter_filter]
  congr 1
  · refine Finset.sum_bij' (fun x _ => ((x.1 + 1) % n, d - x.2.2, x.2.1)) (fun x _ => ((x.1 + n - 1) % n, x.2.2, d - x.2.1)) ?_ ?_ ?_ ?_ ?_
    · rintro ⟨i, k, j⟩ hx
      rw [Finset.mem_filter, mem_allNames] at hx ⊢
      dsimp only at *
      exact ⟨⟨Nat.mod_lt _ (by omega), by omega, by omega⟩, by omega, by omega⟩
    · rintro ⟨i, k, j⟩ hx
      rw [Finset.mem_filter, mem_allNames] at hx ⊢
      dsimp only at *
      exact ⟨⟨Nat.mod_lt _ (by omega), by omega, by omega⟩, by omega, by omega⟩
    · rintro ⟨i, k, j⟩ hx
      rw [Finset.mem_filter, mem_allNames] at hx
      dsimp only at *
      rw [show ((i + 1) % n + n - 1) % n = i from prevIx_nextIx hx.1.1, show d - (d - j) = j by omega]
    · rintro ⟨i, k, j⟩ hx
      rw [Finset.mem_filter, mem_allNames] at hx
      dsimp only at *
      rw [show ((i + n - 1) % n + 1) % n = i from nextIx_prevIx hx.1.1, show d - (d - k) = k by omega]
    · rintro ⟨i, k, j⟩ hx
      rw [Finset.mem_filter, mem_allNames] at hx
      dsimp only at *
      rw [show ((i + 1) % n + n - 1) % n = i from prevIx_nextIx hx.1.1, show d - (d - j) = j by omega]
  · refine Finset.sum_bij' (fun x _ => ((x.1 + n - 1) % n, x.2.2, d - x.2.1)) (fun x _ => ((x.1 + 1) % n, d - x.2.2, x.2.1)) ?_ ?_ ?_ ?_ ?_
    · rintro ⟨i, k, j⟩ hx
      rw [Finset.mem_filter, mem_allNames] at hx ⊢
      dsimp only at *
      exact ⟨⟨Nat.mod_lt _ (by omega), by omega, by omega⟩, by omega, by omega⟩
    · rintro ⟨i, k, j⟩ hx
      rw [Finset.mem_filter, mem_allNames] at hx ⊢
      dsimp only at *
      exact ⟨⟨Nat.mod_lt _ (by omega), by omega, by omega⟩, by omega, by omega⟩
    · rintro ⟨i, k, j⟩ hx
      rw [Finset.mem_filter, mem_allNames] at hx
      dsimp only at *
      rw [show ((i + n - 1) % n + 1) % n = i from nextIx_prevIx hx.1.1, show d - (d - k) = k by omega]
    · rintro ⟨i, k, j⟩ hx
      rw [Finset.mem_filter, mem_allNames] at hx
      dsimp only at *
      rw [show ((i + 1) % n + n - 1) % n = i from prevIx_nextIx hx.1.1, show d - (d - j) = j by omega]
    · rintro ⟨i, k, j⟩ hx
      rw [Finset.mem_filter, mem_allNames] at hx
      dsimp only at *
      rw [show ((i + n - 1) % n + 1) % n = i from nextIx_prevIx hx.1.1, show d - (d - k) = k by omega]

/-- With consistent points, each point takes the sum of the weights of its names. -/
theorem sum_points {K W : Type} [Field K] [AddCommGroup W] [Module K W] (w : ℕ → ℕ → ℕ → K) {p : ℕ → ℕ → ℕ → W}
    (hp : ∀ a b : Name, a.InRange n d → b.InRange n d → SamePoint n d a b → p a.side a.col a.row = p b.side b.col b.row) :
    (∑ i ∈ Finset.range n, ∑ k ∈ Finset.range ((d + 1) / 2), ∑ j ∈ Finset.range (d + 1), w i j k • p i j k) =
      ∑ t ∈ Finset.range (enumCount n d), perPoint n d w (enumPos n d ⟨0, 0, 0⟩ t) •
        p (enumPos n d ⟨0, 0, 0⟩ t).side (enumPos n d ⟨0, 0, 0⟩ t).col (enumPos n d ⟨0, 0, 0⟩ t).row := by
  rw [sum_perPoint]
  refine Finset.sum_congr rfl fun t ht => ?_
  obtain ⟨h1, h2, h3⟩ := visited_spec (Finset.mem_range.mp ht)
  rcases e : enumPos n d ⟨0, 0, 0⟩ t with ⟨i, j, k⟩
  rw [e] at h1 h2 h3
  dsimp only at h1 h2 h3
  have hin : (⟨i, j, k⟩ : Name).InRange n d := ⟨h1, by dsimp only; omega, by dsimp only; omega⟩
  unfold perPoint
  dsimp only
  rw [add_smul, add_smul]
  congr 1
  · congr 1
    split_ifs with c
    · rw [hp ⟨i, j, k⟩ ⟨(i + n - 1) % n, d - k, j⟩ hin ⟨Nat.mod_lt _ (by omega), by dsimp only; omega, by dsimp only; omega⟩
        (Or.inr (Or.inl ⟨c, by dsimp only; omega, rfl⟩))]
    · rw [zero_smul]
  · split_ifs with c
    · rw [hp ⟨i, j, k⟩ ⟨(i + 1) % n, k, d - j⟩ hin ⟨Nat.mod_lt _ (by omega), by dsimp only; omega, by dsimp only; omega⟩
        (Or.inr (Or.inr ⟨by dsimp only; omega, by dsimp only; omega, by
          simp only [Name.mk.injEq]; exact ⟨(prevIx_nextIx h1).symm, by omega, trivial⟩⟩))]
    · rw [zero_smul]

end GB

end Transfinite
