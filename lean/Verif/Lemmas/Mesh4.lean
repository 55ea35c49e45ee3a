import Verif.Lemmas.MeshBase
import Mathlib.Tactic.IntervalCases

/-! The 4-sided mesh. -/

namespace Transfinite

open Spec Domain

/-- index of the grid vertex (i, j) -/
def enc4 (R i j : ℕ) : ℕ := i * (R + 1) + j

theorem enc4_inj {R i j i' j' : ℕ} (hj : j ≤ R) (hj' : j' ≤ R) (h : enc4 R i j = enc4 R i' j') :
    i = i' ∧ j = j' := by
  unfold enc4 at h
  have h1 : (i * (R + 1) + j) / (R + 1) = i := by
    rw [mul_comm, Nat.mul_add_div (by omega), Nat.div_eq_of_lt (by omega), add_zero]
  have h2 : (i' * (R + 1) + j') / (R + 1) = i' := by
    rw [mul_comm, Nat.mul_add_div (by omega), Nat.div_eq_of_lt (by omega), add_zero]
  have : i = i' := by rw [← h1, ← h2, h]
  subst this; exact ⟨rfl, by omega⟩

def tris4 (R i j : ℕ) : List Tri :=
  [(enc4 R i j, enc4 R (i + 1) j, enc4 R i (j + 1)),
   (enc4 R i (j + 1), enc4 R (i + 1) j, enc4 R (i + 1) (j + 1))]

theorem topology4_eq (R : ℕ) : topology4 R =
    .ok ((List.range R).flatMap fun i => (List.range R).flatMap fun j => tris4 R i j) := by
  unfold topology4
  rw [forLoop_flatMap R _ (fun i => (List.range R).flatMap fun j => tris4 R i j)]
  · simp
  · intro i s _
    rw [forLoop_flatMap R _ (fun j => tris4 R i j)]
    intro j s _
    simp only [tris4, enc4, List.append_assoc, List.cons_append, List.nil_append,
      Except.ok.injEq, List.append_cancel_left_eq, List.cons.injEq, Prod.mk.injEq, and_true, true_and]
    refine ⟨⟨?_, ?_⟩, ⟨?_, ?_, ?_⟩⟩ <;> ring

/-- the six directed edges in the cell (i, j) -/
def edges4 (R i j : ℕ) : List (ℕ × ℕ) := meshEdges (tris4 R i j)

theorem mem_edges4 {R i j : ℕ} {e : ℕ × ℕ} : e ∈ edges4 R i j ↔
    (e = (enc4 R i j, enc4 R (i + 1) j) ∨ e = (enc4 R (i + 1) j, enc4 R i (j + 1)) ∨
     e = (enc4 R i (j + 1), enc4 R i j)) ∨
    (e = (enc4 R i (j + 1), enc4 R (i + 1) j) ∨ e = (enc4 R (i + 1) j, enc4 R (i + 1) (j + 1)) ∨
     e = (enc4 R (i + 1) (j + 1), enc4 R i (j + 1))) := by
  simp [edges4, meshEdges, tris4, dirEdges, or_assoc]

def all4 (R : ℕ) : List Tri := (List.range R).flatMap fun i => (List.range R).flatMap fun j => tris4 R i j

theorem mem_all4 {R : ℕ} {e : ℕ × ℕ} : e ∈ meshEdges (all4 R) ↔
    ∃ i < R, ∃ j < R, e ∈ edges4 R i j := by
  simp [all4, meshEdges_flatMap, edges4]

theorem edges4_label {R i j i' j' : ℕ} (hj : j < R) (hj' : j' < R) {e : ℕ × ℕ}
    (h : e ∈ edges4 R i j) (h' : e ∈ edges4 R i' j') : i = i' ∧ j = j' := by
  rw [mem_edges4] at h h'
  rcases h with (rfl | rfl | rfl) | (rfl | rfl | rfl) <;>
  rcases h' with (h' | h' | h') | (h' | h' | h') <;>
  · obtain ⟨h1, h2⟩ := Prod.mk.inj h'
    have a := enc4_inj (by omega) (by omega) h1
    have b := enc4_inj (by omega) (by omega) h2
    omega

theorem nodup4 (R : ℕ) : OrientedManifold (all4 R) := by
  unfold OrientedManifold all4
  rw [meshEdges_flatMap]
  simp only [meshEdges_flatMap]
  apply nodup_flatMap_of List.nodup_range
  · intro i hi
    apply nodup_flatMap_of List.nodup_range
    · intro j hj
      rw [List.mem_range] at hi hj
      have I := fun a b c d (h1 : b ≤ R) (h2 : d ≤ R) (h : enc4 R a b = enc4 R c d) => enc4_inj h1 h2 h
      simp only [meshEdges, tris4, dirEdges, List.flatMap_cons, List.flatMap_nil, List.append_nil,
        List.cons_append, List.nil_append, List.nodup_cons, List.mem_cons, Prod.mk.injEq,
        List.not_mem_nil, or_false, not_or, not_and, List.nodup_nil, and_true, not_false_eq_true]
      refine ⟨⟨?_, ?_, ?_, ?_, ?_⟩, ⟨?_, ?_, ?_, ?_⟩, ⟨?_, ?_, ?_⟩, ⟨?_, ?_⟩, ?_⟩ <;>
      · first
          | (intro h1; have a := I _ _ _ _ (by omega) (by omega) h1; omega)
          | (intro _ h2; have b := I _ _ _ _ (by omega) (by omega) h2; omega)
    · intro x hx y hy e h1 h2
      rw [List.mem_range] at hx hy
      exact (edges4_label hx hy h1 h2).2
  · intro x hx y hy e h1 h2
    simp only [List.mem_flatMap, List.mem_range] at h1 h2
    obtain ⟨j, hj, h1⟩ := h1
    obtain ⟨j', hj', h2⟩ := h2
    exact (edges4_label hj hj' h1 h2).1

/-- the boundary loop of the grid -/
def loop4 (R p : ℕ) : ℕ :=
  if p < R then enc4 R p 0 else if p < 2 * R then enc4 R R (p - R)
  else if p < 3 * R then enc4 R (3 * R - p) R else enc4 R 0 (4 * R - p)

/-- coordinates along the boundary loop -/
def loop4c (R p : ℕ) : ℕ × ℕ :=
  if p < R then (p, 0) else if p < 2 * R then (R, (p - R))
  else if p < 3 * R then ((3 * R - p), R) else (0, (4 * R - p))

theorem loop4_eq (R p : ℕ) : loop4 R p = enc4 R (loop4c R p).1 (loop4c R p).2 := by
  unfold loop4 loop4c; split_ifs <;> rfl

theorem boundary4 {R : ℕ} (hR : 1 ≤ R) : BoundaryLoop (all4 R) (4 * R) (loop4 R) := by
  apply boundaryLoop_of (nodup4 R)
  · intro p hp q hq h
    rw [loop4_eq, loop4_eq] at h
    have := enc4_inj (by unfold loop4c; split_ifs <;> simp only <;> omega)
      (by unfold loop4c; split_ifs <;> simp only <;> omega) h
    unfold loop4c at this
    split_ifs at this <;> simp only at this <;> omega
  · intro e
    -- which edges are unpaired
    have key : (e ∈ meshEdges (all4 R) ∧ e.swap ∉ meshEdges (all4 R)) ↔
        (∃ i < R, e = (enc4 R i 0, enc4 R (i + 1) 0)) ∨ (∃ j < R, e = (enc4 R R j, enc4 R R (j + 1))) ∨
        (∃ i < R, e = (enc4 R (i + 1) R, enc4 R i R)) ∨ (∃ j < R, e = (enc4 R 0 (j + 1), enc4 R 0 j)) := by
      constructor
      · rintro ⟨he, hs⟩
        rw [mem_all4] at he
        obtain ⟨i, hi, j, hj, he⟩ := he
        rw [mem_edges4] at he
        rcases he with (rfl | rfl | rfl) | (rfl | rfl | rfl)
        · rcases Nat.eq_zero_or_pos j with rfl | h0
          · exact Or.inl ⟨i, hi, rfl⟩
          · exfalso; apply hs; rw [mem_all4]
            refine ⟨i, hi, j - 1, by omega, ?_⟩
            rw [mem_edges4]
            have : j - 1 + 1 = j := by omega
            simp [this]
        · exfalso; apply hs; rw [mem_all4]
          refine ⟨i, hi, j, hj, ?_⟩
          rw [mem_edges4]; simp
        · rcases Nat.eq_zero_or_pos i with rfl | h0
          · exact Or.inr (Or.inr (Or.inr ⟨j, hj, rfl⟩))
          · exfalso; apply hs; rw [mem_all4]
            refine ⟨i - 1, by omega, j, hj, ?_⟩
            rw [mem_edges4]
            have : i - 1 + 1 = i := by omega
            simp [this]
        · exfalso; apply hs; rw [mem_all4]
          refine ⟨i, hi, j, hj, ?_⟩
          rw [mem_edges4]; simp
        · by_cases h0 : i + 1 = R
          · subst h0; exact Or.inr (Or.inl ⟨j, hj, rfl⟩)
          · exfalso; apply hs; rw [mem_all4]
            refine ⟨i + 1, by omega, j, hj, ?_⟩
            rw [mem_edges4]; simp
        · by_cases h0 : j + 1 = R
          · subst h0; exact Or.inr (Or.inr (Or.inl ⟨i, hi, rfl⟩))
          · exfalso; apply hs; rw [mem_all4]
            refine ⟨i, by omega, j + 1, by omega, ?_⟩
            rw [mem_edges4]; simp
      · intro h
        have hno : ∀ a b c d, b ≤ R → d ≤ R →
            ((a = c + 1 ∧ b = 0 ∧ d = 0) ∨ (a = R ∧ c = R ∧ b = d + 1) ∨
            (c = a + 1 ∧ b = R ∧ d = R) ∨ (a = 0 ∧ c = 0 ∧ d = b + 1)) →
            (enc4 R a b, enc4 R c d) ∉ meshEdges (all4 R) := by
          intro a b c d hb hd hc hm
          rw [mem_all4] at hm
          obtain ⟨i, hi, j, hj, hm⟩ := hm
          rw [mem_edges4] at hm
          rcases hm with (hm | hm | hm) | (hm | hm | hm) <;>
          · obtain ⟨h1, h2⟩ := Prod.mk.inj hm
            have a := enc4_inj (by omega) (by omega) h1
            have b := enc4_inj (by omega) (by omega) h2
            omega
        rcases h with ⟨i, hi, rfl⟩ | ⟨j, hj, rfl⟩ | ⟨i, hi, rfl⟩ | ⟨j, hj, rfl⟩
        · exact ⟨mem_all4.mpr ⟨i, hi, 0, by omega, by rw [mem_edges4]; simp⟩,
            hno _ _ _ _ (by omega) (by omega) (by omega)⟩
        · refine ⟨mem_all4.mpr ⟨R - 1, by omega, j, by omega, ?_⟩,
            hno _ _ _ _ (by omega) (by omega) (by omega)⟩
          rw [mem_edges4]
          have : R - 1 + 1 = R := by omega
          simp [this]
        · refine ⟨mem_all4.mpr ⟨i, by omega, R - 1, by omega, ?_⟩,
            hno _ _ _ _ (by omega) (by omega) (by omega)⟩
          rw [mem_edges4]
          have : R - 1 + 1 = R := by omega
          simp [this]
        · exact ⟨mem_all4.mpr ⟨0, by omega, j, by omega, by rw [mem_edges4]; simp⟩,
            hno _ _ _ _ (by omega) (by omega) (by omega)⟩
    rw [key]
    have hlast : ∀ p, p < 4 * R → (p + 1) % (4 * R) = if p + 1 = 4 * R then 0 else p + 1 := by
      intro p hp; split
      · simp [*]
      · exact Nat.mod_eq_of_lt (by omega)
    have pt : ∀ p a b, loop4c R p = (a, b) → loop4 R p = enc4 R a b := by
      intro p a b h; rw [loop4_eq, h]
    constructor
    · rintro (⟨i, hi, rfl⟩ | ⟨j, hj, rfl⟩ | ⟨i, hi, rfl⟩ | ⟨j, hj, rfl⟩)
      · refine ⟨i, by omega, ?_⟩
        rw [hlast i (by omega), if_neg (by omega), pt i i 0, pt (i + 1) (i + 1) 0]
        · unfold loop4c; split_ifs <;> simp <;> omega
        · unfold loop4c; split_ifs <;> simp <;> omega
      · refine ⟨R + j, by omega, ?_⟩
        rw [hlast _ (by omega), if_neg (by omega), pt (R + j) R j, pt (R + j + 1) R (j + 1)]
        · unfold loop4c; split_ifs <;> simp <;> omega
        · unfold loop4c; split_ifs <;> simp <;> omega
      · refine ⟨3 * R - 1 - i, by omega, ?_⟩
        rw [hlast _ (by omega), if_neg (by omega), pt _ (i + 1) R, pt _ i R]
        · unfold loop4c; split_ifs <;> simp <;> omega
        · unfold loop4c; split_ifs <;> simp <;> omega
      · refine ⟨4 * R - 1 - j, by omega, ?_⟩
        rw [hlast _ (by omega), pt _ 0 (j + 1), pt _ 0 j]
        · unfold loop4c; split_ifs <;> simp <;> omega
        · unfold loop4c; split_ifs <;> simp <;> omega
    · rintro ⟨p, hp, rfl⟩
      rw [hlast p hp]
      by_cases c1 : p < R
      · left; refine ⟨p, c1, ?_⟩
        rw [if_neg (by omega), pt p p 0, pt (p + 1) (p + 1) 0]
        · unfold loop4c; split_ifs <;> simp <;> omega
        · unfold loop4c; split_ifs <;> simp <;> omega
      · by_cases c2 : p < 2 * R
        · right; left; refine ⟨p - R, by omega, ?_⟩
          rw [if_neg (by omega), pt p R (p - R), pt (p + 1) R (p - R + 1)]
          · unfold loop4c; split_ifs <;> simp <;> omega
          · unfold loop4c; split_ifs <;> simp <;> omega
        · by_cases c3 : p < 3 * R
          · right; right; left; refine ⟨3 * R - 1 - p, by omega, ?_⟩
            rw [if_neg (by omega), pt p (3 * R - 1 - p + 1) R, pt (p + 1) (3 * R - 1 - p) R]
            · unfold loop4c; split_ifs <;> simp <;> omega
            · unfold loop4c; split_ifs <;> simp <;> omega
          · right; right; right; refine ⟨4 * R - 1 - p, by omega, ?_⟩
            rw [pt p 0 (4 * R - 1 - p + 1), pt _ 0 (4 * R - 1 - p)]
            · unfold loop4c; split_ifs <;> simp <;> omega
            · unfold loop4c; split_ifs <;> simp <;> omega

theorem enc4_lt {R i j : ℕ} (hi : i ≤ R) (hj : j ≤ R) : enc4 R i j < (R + 1) * (R + 1) := by
  unfold enc4
  have : i * (R + 1) ≤ R * (R + 1) := Nat.mul_le_mul_right _ hi
  have : (R + 1) * (R + 1) = R * (R + 1) + (R + 1) := by ring
  omega

theorem proper4 {R : ℕ} {t : Tri} (h : t ∈ all4 R) : ProperTri ((R + 1) * (R + 1)) t := by
  simp only [all4, List.mem_flatMap, List.mem_range, tris4, List.mem_cons, List.not_mem_nil,
    or_false] at h
  obtain ⟨i, hi, j, hj, h⟩ := h
  rcases h with rfl | rfl <;> refine ⟨?_, ?_, ?_, ?_, ?_, ?_⟩ <;> simp only
  all_goals first
    | exact enc4_lt (by omega) (by omega)
    | (intro h; have := enc4_inj (by omega) (by omega) h; omega)

theorem length4 (R : ℕ) : (all4 R).length = 2 * R * R := by
  unfold all4
  rw [length_flatMap_range R _ (fun i => i * (2 * R)) (by simp)]
  · ring
  · intro k _
    rw [length_flatMap_range R _ (fun j => j * 2) (by simp)]
    · ring
    · intro j _; simp only [tris4, List.length_cons, List.length_nil]; ring

/-- vertices on the boundary loop of the grid are those with an extreme coordinate -/
theorem mem_loop4 {R : ℕ} (hR : 1 ≤ R) {i j : ℕ} (hi : i ≤ R) (hj : j ≤ R) :
    (∃ p < 4 * R, loop4 R p = enc4 R i j) ↔ i = 0 ∨ i = R ∨ j = 0 ∨ j = R := by
  have pt : ∀ p a b, loop4c R p = (a, b) → loop4 R p = enc4 R a b := by
    intro p a b h; rw [loop4_eq, h]
  constructor
  · rintro ⟨p, hp, h⟩
    rw [loop4_eq] at h
    have := enc4_inj (by unfold loop4c; split_ifs <;> simp only <;> omega) hj h
    unfold loop4c at this
    split_ifs at this <;> simp only at this <;> omega
  · intro h
    by_cases c1 : j = 0 ∧ i < R
    · exact ⟨i, by omega, pt _ _ _ (by unfold loop4c; split_ifs <;> simp <;> omega)⟩
    · by_cases c2 : i = R ∧ j < R
      · exact ⟨R + j, by omega, pt _ _ _ (by unfold loop4c; split_ifs <;> simp <;> omega)⟩
      · by_cases c3 : j = R ∧ 0 < i
        · exact ⟨3 * R - i, by omega, pt _ _ _ (by unfold loop4c; split_ifs <;> simp <;> omega)⟩
        · exact ⟨4 * R - j, by omega, pt _ _ _ (by unfold loop4c; split_ifs <;> simp <;> omega)⟩

theorem onEdge4 {R : ℕ} (hR : 1 ≤ R) {i j : ℕ} (hi : i ≤ R) (hj : j ≤ R) :
    onEdge 4 R (enc4 R i j) = true ↔ i = 0 ∨ i = R ∨ j = 0 ∨ j = R := by
  have hm : enc4 R i j % (R + 1) = j := by
    unfold enc4; rw [Nat.mul_comm, Nat.mul_add_mod, Nat.mod_eq_of_lt (by omega)]
  have h1 : enc4 R i j ≤ R ↔ i = 0 := by
    unfold enc4; constructor
    · intro h; by_contra hne
      have : 1 * (R + 1) ≤ i * (R + 1) := Nat.mul_le_mul_right _ (by omega)
      omega
    · rintro rfl; omega
  have h2 : (R + 1) * R ≤ enc4 R i j ↔ i = R := by
    unfold enc4; constructor
    · intro h; by_contra hne
      have : (i + 1) * (R + 1) ≤ R * (R + 1) := Nat.mul_le_mul_right _ (by omega)
      have e1 : (i + 1) * (R + 1) = i * (R + 1) + (R + 1) := by ring
      have e2 : (R + 1) * R = R * (R + 1) := by ring
      omega
    · rintro rfl; rw [mul_comm]; omega
  unfold onEdge
  simp only [show ¬ (4 = 3) by decide, if_false, if_true, Bool.or_eq_true, decide_eq_true_eq,
    ge_iff_le, hm, h1, h2]
  omega

end Transfinite
