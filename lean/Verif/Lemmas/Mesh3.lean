import Verif.Lemmas.MeshBase

/-! The 3-sided mesh. -/

namespace Transfinite

open Spec Domain

/-- index of the vertex k in row j -/
def enc3 (j k : ℕ) : ℕ := triNum j + k

theorem enc3_inj {j k j' k' : ℕ} (h1 : k ≤ j) (h2 : k' ≤ j') (h : enc3 j k = enc3 j' k') :
    j = j' ∧ k = k' := triNum_decode h1 h2 h

/-- the triangles starting at row i, column j -/
def tris3 (i j : ℕ) : List Tri :=
  if j < i then
    [(enc3 (i + 1) j, enc3 (i + 1) (j + 1), enc3 i j), (enc3 (i + 1) (j + 1), enc3 i (j + 1), enc3 i j)]
  else [(enc3 (i + 1) j, enc3 (i + 1) (j + 1), enc3 i j)]

def all3 (R : ℕ) : List Tri := (List.range R).flatMap fun i => (List.range (i + 1)).flatMap fun j => tris3 i j

theorem topology3_eq (R : ℕ) : topology3 R = .ok (all3 R) := by
  unfold topology3
  rw [forLoop_eq (fun i => (all3 i, triNum i, triNum (i + 1)))]
  · rfl
  · simp [all3, triNum]
  · intro i _
    dsimp only
    rw [forLoop_flatMap i _ (fun j => tris3 i j)]
    · simp only [M_bind_ok, Except.ok.injEq, Prod.mk.injEq, true_and]
      constructor
      · simp only [all3]
        rw [List.range_succ (n := i), List.flatMap_append]
        simp only [List.flatMap_cons, List.flatMap_nil, List.append_nil]
        rw [List.range_succ (n := i), List.flatMap_append]
        simp [tris3, enc3]; omega
      · rw [triNum_succ (i + 1)]
    · intro j s hj
      simp only [tris3, hj, if_true, enc3, List.append_assoc, List.cons_append, List.nil_append]
      simp [add_assoc]

def edges3 (i j : ℕ) : List (ℕ × ℕ) := meshEdges (tris3 i j)

theorem mem_edges3 {i j : ℕ} {e : ℕ × ℕ} : e ∈ edges3 i j ↔
    (e = (enc3 (i + 1) j, enc3 (i + 1) (j + 1)) ∨ e = (enc3 (i + 1) (j + 1), enc3 i j) ∨
     e = (enc3 i j, enc3 (i + 1) j)) ∨
    (j < i ∧ (e = (enc3 (i + 1) (j + 1), enc3 i (j + 1)) ∨ e = (enc3 i (j + 1), enc3 i j) ∨
     e = (enc3 i j, enc3 (i + 1) (j + 1)))) := by
  by_cases h : j < i <;> simp [edges3, meshEdges, tris3, dirEdges, h, or_assoc]

theorem mem_all3 {R : ℕ} {e : ℕ × ℕ} : e ∈ meshEdges (all3 R) ↔
    ∃ i < R, ∃ j ≤ i, e ∈ edges3 i j := by
  simp [all3, meshEdges_flatMap, edges3, Nat.lt_succ_iff]

theorem edges3_label {i j i' j' : ℕ} (hj : j ≤ i) (hj' : j' ≤ i') {e : ℕ × ℕ}
    (h : e ∈ edges3 i j) (h' : e ∈ edges3 i' j') : i = i' ∧ j = j' := by
  rw [mem_edges3] at h h'
  rcases h with (rfl | rfl | rfl) | ⟨hl, (rfl | rfl | rfl)⟩ <;>
  rcases h' with (h' | h' | h') | ⟨hl', (h' | h' | h')⟩ <;>
  · obtain ⟨h1, h2⟩ := Prod.mk.inj h'
    have a := enc3_inj (by omega) (by omega) h1
    have b := enc3_inj (by omega) (by omega) h2
    omega

theorem nodup3 (R : ℕ) : OrientedManifold (all3 R) := by
  unfold OrientedManifold all3
  rw [meshEdges_flatMap]
  simp only [meshEdges_flatMap]
  apply nodup_flatMap_of List.nodup_range
  · intro i hi
    apply nodup_flatMap_of List.nodup_range
    · intro j hj
      rw [List.mem_range] at hi hj
      have I := fun a b c d (h1 : b ≤ a) (h2 : d ≤ c) (h : enc3 a b = enc3 c d) => enc3_inj h1 h2 h
      unfold tris3
      split
      · simp only [meshEdges, dirEdges, List.flatMap_cons, List.flatMap_nil, List.append_nil,
          List.cons_append, List.nil_append, List.nodup_cons, List.mem_cons, Prod.mk.injEq,
          List.not_mem_nil, or_false, not_or, not_and, List.nodup_nil, and_true, not_false_eq_true]
        refine ⟨⟨?_, ?_, ?_, ?_, ?_⟩, ⟨?_, ?_, ?_, ?_⟩, ⟨?_, ?_, ?_⟩, ⟨?_, ?_⟩, ?_⟩ <;>
        · first
            | (intro h1; have a := I _ _ _ _ (by omega) (by omega) h1; omega)
            | (intro _ h2; have b := I _ _ _ _ (by omega) (by omega) h2; omega)
      · simp only [meshEdges, dirEdges, List.flatMap_cons, List.flatMap_nil, List.append_nil,
          List.cons_append, List.nil_append, List.nodup_cons, List.mem_cons, Prod.mk.injEq,
          List.not_mem_nil, or_false, not_or, not_and, List.nodup_nil, and_true, not_false_eq_true]
        refine ⟨⟨?_, ?_⟩, ?_⟩ <;>
        · first
            | (intro h1; have a := I _ _ _ _ (by omega) (by omega) h1; omega)
            | (intro _ h2; have b := I _ _ _ _ (by omega) (by omega) h2; omega)
    · intro x hx y hy e h1 h2
      rw [List.mem_range] at hx hy
      exact (edges3_label (by omega) (by omega) h1 h2).2
  · intro x hx y hy e h1 h2
    simp only [List.mem_flatMap, List.mem_range] at h1 h2
    obtain ⟨j, hj, h1⟩ := h1
    obtain ⟨j', hj', h2⟩ := h2
    exact (edges3_label (by omega) (by omega) h1 h2).1

/-- coordinates along the boundary loop -/
def loop3c (R p : ℕ) : ℕ × ℕ :=
  if p < R then (R, p) else if p < 2 * R then (2 * R - p, 2 * R - p) else (p - 2 * R, 0)

/-- the boundary loop -/
def loop3 (R p : ℕ) : ℕ := enc3 (loop3c R p).1 (loop3c R p).2

theorem boundary3 {R : ℕ} (hR : 1 ≤ R) : BoundaryLoop (all3 R) (3 * R) (loop3 R) := by
  apply boundaryLoop_of (nodup3 R)
  · intro p hp q hq h
    unfold loop3 at h
    have := enc3_inj (by unfold loop3c; split_ifs <;> simp only <;> omega)
      (by unfold loop3c; split_ifs <;> simp only <;> omega) h
    unfold loop3c at this
    split_ifs at this <;> simp only at this <;> omega
  · intro e
    have key : (e ∈ meshEdges (all3 R) ∧ e.swap ∉ meshEdges (all3 R)) ↔
        (∃ j < R, e = (enc3 R j, enc3 R (j + 1))) ∨ (∃ i < R, e = (enc3 (i + 1) (i + 1), enc3 i i)) ∨
        (∃ i < R, e = (enc3 i 0, enc3 (i + 1) 0)) := by
      constructor
      · rintro ⟨he, hs⟩
        rw [mem_all3] at he
        obtain ⟨i, hi, j, hj, he⟩ := he
        rw [mem_edges3] at he
        rcases he with (rfl | rfl | rfl) | ⟨hl, (rfl | rfl | rfl)⟩
        · by_cases h0 : i + 1 = R
          · subst h0; exact Or.inl ⟨j, by omega, rfl⟩
          · exfalso; apply hs; rw [mem_all3]
            refine ⟨i + 1, by omega, j, by omega, ?_⟩
            rw [mem_edges3]; simp; omega
        · by_cases h0 : j = i
          · subst h0; exact Or.inr (Or.inl ⟨j, hi, rfl⟩)
          · exfalso; apply hs; rw [mem_all3]
            refine ⟨i, hi, j, hj, ?_⟩
            rw [mem_edges3]; simp; omega
        · rcases Nat.eq_zero_or_pos j with rfl | h0
          · exact Or.inr (Or.inr ⟨i, hi, rfl⟩)
          · exfalso; apply hs; rw [mem_all3]
            refine ⟨i, hi, j - 1, by omega, ?_⟩
            rw [mem_edges3]
            have : j - 1 + 1 = j := by omega
            simp [this]; omega
        · exfalso; apply hs; rw [mem_all3]
          refine ⟨i, hi, j + 1, by omega, ?_⟩
          rw [mem_edges3]; simp
        · exfalso; apply hs; rw [mem_all3]
          refine ⟨i - 1, by omega, j, by omega, ?_⟩
          rw [mem_edges3]
          have : i - 1 + 1 = i := by omega
          simp [this]
        · exfalso; apply hs; rw [mem_all3]
          refine ⟨i, hi, j, by omega, ?_⟩
          rw [mem_edges3]; simp
      · intro h
        have hno : ∀ a b c d, b ≤ a → d ≤ c →
            ((a = R ∧ c = R ∧ b = d + 1) ∨ (c = a + 1 ∧ b = a ∧ d = c) ∨ (a = c + 1 ∧ b = 0 ∧ d = 0)) →
            (enc3 a b, enc3 c d) ∉ meshEdges (all3 R) := by
          intro a b c d hb hd hc hm
          rw [mem_all3] at hm
          obtain ⟨i, hi, j, hj, hm⟩ := hm
          rw [mem_edges3] at hm
          rcases hm with (hm | hm | hm) | ⟨hl, (hm | hm | hm)⟩ <;>
          · obtain ⟨h1, h2⟩ := Prod.mk.inj hm
            have a := enc3_inj (by omega) (by omega) h1
            have b := enc3_inj (by omega) (by omega) h2
            omega
        rcases h with ⟨j, hj, rfl⟩ | ⟨i, hi, rfl⟩ | ⟨i, hi, rfl⟩
        · refine ⟨mem_all3.mpr ⟨R - 1, by omega, j, by omega, ?_⟩,
            hno _ _ _ _ (by omega) (by omega) (by omega)⟩
          rw [mem_edges3]
          have : R - 1 + 1 = R := by omega
          simp [this]
        · exact ⟨mem_all3.mpr ⟨i, by omega, i, by omega, by rw [mem_edges3]; simp⟩,
            hno _ _ _ _ (by omega) (by omega) (by omega)⟩
        · exact ⟨mem_all3.mpr ⟨i, by omega, 0, by omega, by rw [mem_edges3]; simp⟩,
            hno _ _ _ _ (by omega) (by omega) (by omega)⟩
    rw [key]
    have hlast : ∀ p, p < 3 * R → (p + 1) % (3 * R) = if p + 1 = 3 * R then 0 else p + 1 := by
      intro p hp; split
      · simp [*]
      · exact Nat.mod_eq_of_lt (by omega)
    have pt : ∀ p a b, loop3c R p = (a, b) → loop3 R p = enc3 a b := by
      intro p a b h; unfold loop3; rw [h]
    constructor
    · rintro (⟨j, hj, rfl⟩ | ⟨i, hi, rfl⟩ | ⟨i, hi, rfl⟩)
      · refine ⟨j, by omega, ?_⟩
        rw [hlast _ (by omega), if_neg (by omega), pt j R j, pt (j + 1) R (j + 1)]
        · unfold loop3c; split_ifs <;> simp <;> omega
        · unfold loop3c; split_ifs <;> simp <;> omega
      · refine ⟨2 * R - 1 - i, by omega, ?_⟩
        rw [hlast _ (by omega), if_neg (by omega), pt _ (i + 1) (i + 1), pt _ i i]
        · unfold loop3c; split_ifs <;> simp <;> omega
        · unfold loop3c; split_ifs <;> simp <;> omega
      · refine ⟨2 * R + i, by omega, ?_⟩
        rw [hlast _ (by omega), pt (2 * R + i) i 0, pt _ (i + 1) 0]
        · unfold loop3c; split_ifs <;> simp <;> omega
        · unfold loop3c; split_ifs <;> simp <;> omega
    · rintro ⟨p, hp, rfl⟩
      rw [hlast p hp]
      by_cases c1 : p < R
      · left; refine ⟨p, c1, ?_⟩
        rw [if_neg (by omega), pt p R p, pt (p + 1) R (p + 1)]
        · unfold loop3c; split_ifs <;> simp <;> omega
        · unfold loop3c; split_ifs <;> simp <;> omega
      · by_cases c2 : p < 2 * R
        · right; left; refine ⟨2 * R - 1 - p, by omega, ?_⟩
          rw [if_neg (by omega), pt p (2 * R - 1 - p + 1) (2 * R - 1 - p + 1), pt (p + 1) (2 * R - 1 - p) (2 * R - 1 - p)]
          · unfold loop3c; split_ifs <;> simp <;> omega
          · unfold loop3c; split_ifs <;> simp <;> omega
        · right; right; refine ⟨p - 2 * R, by omega, ?_⟩
          rw [pt p (p - 2 * R) 0, pt _ (p - 2 * R + 1) 0]
          · unfold loop3c; split_ifs <;> simp <;> omega
          · unfold loop3c; split_ifs <;> simp <;> omega

theorem enc3_lt {R i j : ℕ} (hi : i ≤ R) (hj : j ≤ i) : enc3 i j < triNum (R + 1) := by
  unfold enc3
  have := triNum_mono hi
  rw [triNum_succ]; omega

theorem meshSize3 (R : ℕ) : meshSize 3 R = triNum (R + 1) := by
  unfold meshSize; rw [if_pos rfl, triNum_eq]

theorem proper3 {R : ℕ} {t : Tri} (h : t ∈ all3 R) : ProperTri (triNum (R + 1)) t := by
  simp only [all3, List.mem_flatMap, List.mem_range, tris3] at h
  obtain ⟨i, hi, j, hj, h⟩ := h
  split at h <;> simp only [List.mem_cons, List.not_mem_nil, or_false] at h
  · rcases h with rfl | rfl <;> refine ⟨?_, ?_, ?_, ?_, ?_, ?_⟩ <;> simp only
    all_goals first
      | exact enc3_lt (by omega) (by omega)
      | (intro h; have := enc3_inj (by omega) (by omega) h; omega)
  · subst h; refine ⟨?_, ?_, ?_, ?_, ?_, ?_⟩ <;> simp only
    all_goals first
      | exact enc3_lt (by omega) (by omega)
      | (intro h; have := enc3_inj (by omega) (by omega) h; omega)

theorem length3 (R : ℕ) : (all3 R).length = R * R := by
  unfold all3
  rw [length_flatMap_range R _ (fun i => i * i) (by simp)]
  intro k _
  rw [length_flatMap_range (k + 1) _ (fun j => if j ≤ k then 2 * j else 2 * k + 1) (by simp)]
  · simp; ring
  · intro j hj
    by_cases h : j < k
    · have h1 : j ≤ k := by omega
      simp only [tris3, h, h1, if_true, List.length_cons, List.length_nil]; split_ifs <;> omega
    · have : j = k := by omega
      subst this; simp [tris3]

theorem mem_loop3 {R : ℕ} (hR : 1 ≤ R) {i j : ℕ} (hi : i ≤ R) (hj : j ≤ i) :
    (∃ p < 3 * R, loop3 R p = enc3 i j) ↔ i = R ∨ j = 0 ∨ j = i := by
  have pt : ∀ p a b, loop3c R p = (a, b) → loop3 R p = enc3 a b := by
    intro p a b h; unfold loop3; rw [h]
  constructor
  · rintro ⟨p, hp, h⟩
    unfold loop3 at h
    have := enc3_inj (by unfold loop3c; split_ifs <;> simp only <;> omega) hj h
    unfold loop3c at this
    split_ifs at this <;> simp only at this <;> omega
  · intro h
    by_cases c1 : i = R ∧ j < R
    · exact ⟨j, by omega, pt _ _ _ (by unfold loop3c; split_ifs <;> simp <;> omega)⟩
    · by_cases c2 : j = i ∧ 0 < i
      · exact ⟨2 * R - i, by omega, pt _ _ _ (by unfold loop3c; split_ifs <;> simp <;> omega)⟩
      · exact ⟨2 * R + i, by omega, pt _ _ _ (by unfold loop3c; split_ifs <;> simp <;> omega)⟩

/-- The rounding-based test in the code recognizes exactly the squares. -/
theorem isSquare_iff (n : ℕ) : isSquare n = true ↔ ∃ r, r * r = n := by
  unfold isSquare
  simp only [beq_iff_eq]
  constructor
  · intro h; exact ⟨_, h⟩
  · rintro ⟨r, rfl⟩
    rw [Nat.sqrt_eq]
    rw [if_neg (by omega)]

/-- `8i+1` is a square exactly for triangular numbers `i`. -/
theorem isSquare_tri {j k : ℕ} (hk : k ≤ j) : isSquare (enc3 j k * 8 + 1) = true ↔ k = 0 := by
  rw [isSquare_iff]
  unfold enc3
  have h2 := triNum_mul_two j
  have e : (triNum j + k) * 8 + 1 = (2 * j + 1) * (2 * j + 1) + 8 * k := by
    have : (triNum j + k) * 8 + 1 = (triNum j * 2) * 4 + 8 * k + 1 := by ring
    rw [this, h2]; ring
  rw [e]
  constructor
  · rintro ⟨r, hr⟩
    by_contra hne
    have h3 : 2 * j + 1 < r := by
      by_contra hle
      have : r * r ≤ (2 * j + 1) * (2 * j + 1) := Nat.mul_le_mul (by omega) (by omega)
      omega
    have h4 : r < 2 * j + 3 := by
      by_contra hle
      have : (2 * j + 3) * (2 * j + 3) ≤ r * r := Nat.mul_le_mul (by omega) (by omega)
      have : (2 * j + 3) * (2 * j + 3) = (2 * j + 1) * (2 * j + 1) + 8 * j + 8 := by ring
      omega
    have : r = 2 * j + 2 := by omega
    subst this
    have : (2 * j + 2) * (2 * j + 2) = (2 * j + 1) * (2 * j + 1) + 4 * j + 3 := by ring
    omega
  · rintro rfl; exact ⟨2 * j + 1, by simp⟩

theorem onEdge3 {R i j : ℕ} (hi : i ≤ R) (hj : j ≤ i) :
    onEdge 3 R (enc3 i j) = true ↔ i = R ∨ j = 0 ∨ j = i := by
  unfold onEdge
  rw [if_pos rfl, meshSize3, triNum_succ]
  have h1 : enc3 i j ≥ triNum R + (R + 1) - R - 1 ↔ i = R := by
    unfold enc3
    constructor
    · intro h
      by_contra hne
      have := triNum_mono (show i + 1 ≤ R by omega)
      rw [triNum_succ] at this; omega
    · rintro rfl; omega
  have h2 : isSquare (enc3 i j * 8 + 1 + 8) = true ↔ j = i := by
    by_cases hji : j = i
    · subst hji
      have : enc3 j j * 8 + 1 + 8 = enc3 (j + 1) 0 * 8 + 1 := by unfold enc3; rw [triNum_succ]; ring
      rw [this, isSquare_tri (by omega)]; simp
    · have : enc3 i j * 8 + 1 + 8 = enc3 i (j + 1) * 8 + 1 := by unfold enc3; ring
      rw [this, isSquare_tri (by omega)]; simp [hji]
  by_cases c : i = R
  · rw [if_pos (h1.mpr c)]; simp [c]
  · rw [if_neg (mt h1.mp c), Bool.or_eq_true, isSquare_tri hj, h2]; simp [c]

end Transfinite
