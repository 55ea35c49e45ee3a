import Verif.Lemmas.MeshN

/-! The general (concentric) mesh: global statements. -/

namespace Transfinite

open Spec Domain

theorem encN_zero_cond {l k v : ℕ} (hv : v ≤ l) : (l = 0 → k * l + v = 0) := by
  intro h; subst h; simp; omega

theorem two_lt_ring {n l : ℕ} (hn : 3 ≤ n) (hl : 0 < l) : 2 < n * l := by
  have : n * 1 ≤ n * l := Nat.mul_le_mul_left n hl
  omega

/-- vertices of different rings differ -/
theorem encN_ne_ring {n : ℕ} (hn : 0 < n) {L p L' p' : ℕ} (h0 : L = 0 → p = 0) (h0' : L' = 0 → p' = 0)
    (h : L ≠ L') : encN n L p ≠ encN n L' p' := fun e => h (encN_inj hn h0 h0' e).1

/-- consecutive vertices of a ring differ -/
theorem encN_ne_succ {n : ℕ} (hn : 3 ≤ n) {L p : ℕ} (hL : 0 < L) : encN n L p ≠ encN n L (p + 1) := by
  intro e
  have := (encN_inj (by omega) (by intro h; omega) (by intro h; omega) e).2
  exact not_modEq_add (b := 1) (by omega) (by have := two_lt_ring hn hL; omega) this

theorem nodup_trisN {n : ℕ} (hn : 3 ≤ n) {l k v : ℕ} (hv : v ≤ l) : (meshEdges (trisN n l k v)).Nodup := by
  have n0 : 0 < n := by omega
  have z := encN_zero_cond (k := k) hv
  have a1 : ∀ p, encN n l (k * l + v) ≠ encN n (l + 1) p := fun p =>
    encN_ne_ring n0 z (by intro h; omega) (by omega)
  have a2 : ∀ p, encN n (l + 1) p ≠ encN n l (k * l + v) := fun p => (a1 p).symm
  have a3 := encN_ne_succ hn (L := l + 1) (p := k * (l + 1) + v) (by omega)
  by_cases h : v < l
  · have b1 : ∀ p, encN n l (k * l + v + 1) ≠ encN n (l + 1) p := fun p =>
      encN_ne_ring n0 (by intro h; omega) (by intro h; omega) (by omega)
    have b2 : ∀ p, encN n (l + 1) p ≠ encN n l (k * l + v + 1) := fun p => (b1 p).symm
    have b3 := encN_ne_succ hn (L := l) (p := k * l + v) (by omega)
    simp [trisN, h, meshEdges, dirEdges, a1, a2, a3, b1, b2, b3]
  · simp [trisN, h, meshEdges, dirEdges, a1, a2]

theorem nodupN {n : ℕ} (hn : 3 ≤ n) (R : ℕ) : OrientedManifold (allN n R) := by
  unfold OrientedManifold allN sideN
  simp only [meshEdges_flatMap]
  apply nodup_flatMap_of List.nodup_range
  · intro l _
    apply nodup_flatMap_of List.nodup_range
    · intro k hk
      rw [List.mem_range] at hk
      apply nodup_flatMap_of List.nodup_range
      · intro v hv
        rw [List.mem_range] at hv
        exact nodup_trisN hn (by omega)
      · intro x hx y hy e h1 h2
        rw [List.mem_range] at hx hy
        exact (edgesN_label hn hk hk (by omega) (by omega) h1 h2).2.2
    · intro x hx y hy e h1 h2
      simp only [List.mem_flatMap, List.mem_range] at h1 h2 hx hy
      obtain ⟨v, hv, h1⟩ := h1
      obtain ⟨v', hv', h2⟩ := h2
      exact (edgesN_label hn hx hy (by omega) (by omega) h1 h2).2.1
  · intro x hx y hy e h1 h2
    simp only [List.mem_flatMap, List.mem_range] at h1 h2 hx hy
    obtain ⟨k, hk, v, hv, h1⟩ := h1
    obtain ⟨k', hk', v', hv', h2⟩ := h2
    exact (edgesN_label hn hk hk' (by omega) (by omega) h1 h2).1

/-- every position of a ring is decoded as (side, offset) -/
theorem pos_exists {n m p : ℕ} (h : p < n * m) : ∃ k < n, ∃ v < m, p = k * m + v := by
  have hm : 0 < m := by
    rcases Nat.eq_zero_or_pos m with h0 | h0
    · subst h0; simp at h
    · exact h0
  refine ⟨p / m, ?_, p % m, Nat.mod_lt _ hm, ?_⟩
  · rw [Nat.div_lt_iff_lt_mul hm]; exact h
  · rw [mul_comm]; exact (Nat.div_add_mod p m).symm

theorem boundaryN {n R : ℕ} (hn : 3 ≤ n) (hR : 1 ≤ R) :
    BoundaryLoop (allN n R) (n * R) (encN n R) := by
  have n0 : 0 < n := by omega
  apply boundaryLoop_of (nodupN hn R)
  · intro p hp q hq h
    have := (encN_inj n0 (by intro h; omega) (by intro h; omega) h).2
    exact this.eq_of_lt_of_lt hp hq
  · intro e
    constructor
    · rintro ⟨he, hs⟩
      rw [mem_allN] at he
      obtain ⟨l, hl, k, hk, v, hv, he⟩ := he
      rw [mem_trisN] at he
      rcases he with (rfl | rfl | rfl) | ⟨hvl, (rfl | rfl | rfl)⟩
      · -- A1, opposite is B2 of (k, v-1) or A3 of (k-1, l)
        exfalso; apply hs; rw [mem_allN]
        rcases Nat.eq_zero_or_pos v with rfl | h0
        · -- previous side
          rcases Nat.eq_zero_or_pos k with rfl | hk0
          · refine ⟨l, hl, n - 1, by omega, l, le_rfl, ?_⟩
            rw [mem_trisN]; left; right; right
            simp only [Prod.swap_prod_mk, Prod.mk.injEq]
            obtain ⟨q, rfl⟩ : ∃ q, n = q + 1 := ⟨n - 1, by omega⟩
            simp only [Nat.add_sub_cancel]
            have e1 : q * (l + 1) + l + 1 = (q + 1) * (l + 1) := by ring
            have e2 : q * l + l = (q + 1) * l := by ring
            rw [e1, e2]
            constructor <;> · unfold encN; simp
          · refine ⟨l, hl, k - 1, by omega, l, le_rfl, ?_⟩
            rw [mem_trisN]; left; right; right
            simp only [Prod.swap_prod_mk, Prod.mk.injEq]
            obtain ⟨q, rfl⟩ : ∃ q, k = q + 1 := ⟨k - 1, by omega⟩
            simp only [Nat.add_sub_cancel]
            have e1 : q * (l + 1) + l + 1 = (q + 1) * (l + 1) + 0 := by ring
            have e2 : q * l + l = (q + 1) * l + 0 := by ring
            rw [e1, e2]; exact ⟨rfl, rfl⟩
        · refine ⟨l, hl, k, hk, v - 1, by omega, ?_⟩
          rw [mem_trisN]; right
          refine ⟨by omega, Or.inr (Or.inl ?_)⟩
          have e1 : k * (l + 1) + (v - 1) + 1 = k * (l + 1) + v := by omega
          have e2 : k * l + (v - 1) + 1 = k * l + v := by omega
          rw [e1, e2]; rfl
      · -- A2: outer ring or B3 of the next layer
        by_cases h0 : l + 1 = R
        · subst h0
          refine ⟨k * (l + 1) + v, pos_lt hk (by omega), ?_⟩
          rw [Prod.mk.injEq]
          exact ⟨rfl, encN_congr (Nat.mod_modEq _ _).symm⟩
        · exfalso; apply hs; rw [mem_allN]
          refine ⟨l + 1, by omega, k, hk, v, by omega, ?_⟩
          rw [mem_trisN]; right
          exact ⟨by omega, Or.inr (Or.inr rfl)⟩
      · -- A3: opposite is B1 (k, v) or A1 of the next side
        exfalso; apply hs; rw [mem_allN]
        by_cases h0 : v < l
        · refine ⟨l, hl, k, hk, v, hv, ?_⟩
          rw [mem_trisN]; right
          exact ⟨h0, Or.inl rfl⟩
        · have : v = l := by omega
          subst this
          by_cases hk1 : k + 1 = n
          · refine ⟨v, hl, 0, by omega, 0, by omega, ?_⟩
            rw [mem_trisN]; left; left
            simp only [Prod.swap_prod_mk, Prod.mk.injEq]
            have e1 : k * (v + 1) + v + 1 = n * (v + 1) := by rw [← hk1]; ring
            have e2 : k * v + v = n * v := by rw [← hk1]; ring
            rw [e1, e2]
            constructor <;> · unfold encN; simp
          · refine ⟨v, hl, k + 1, by omega, 0, by omega, ?_⟩
            rw [mem_trisN]; left; left
            simp only [Prod.swap_prod_mk, Prod.mk.injEq]
            have e1 : k * (v + 1) + v + 1 = (k + 1) * (v + 1) + 0 := by ring
            have e2 : k * v + v = (k + 1) * v + 0 := by ring
            rw [e1, e2]; exact ⟨rfl, rfl⟩
      · -- B1: opposite is A3
        exfalso; apply hs; rw [mem_allN]
        refine ⟨l, hl, k, hk, v, hv, ?_⟩
        rw [mem_trisN]; left; right; right; rfl
      · -- B2: opposite is A1 of (k, v + 1)
        exfalso; apply hs; rw [mem_allN]
        refine ⟨l, hl, k, hk, v + 1, by omega, ?_⟩
        rw [mem_trisN]; left; left; rfl
      · -- B3: opposite is A2 of the previous layer
        exfalso; apply hs; rw [mem_allN]
        obtain ⟨q, rfl⟩ : ∃ q, l = q + 1 := ⟨l - 1, by omega⟩
        refine ⟨q, by omega, k, hk, v, by omega, ?_⟩
        rw [mem_trisN]; left; right; left; rfl
    · rintro ⟨p, hp, rfl⟩
      obtain ⟨k, hk, v, hv, rfl⟩ := pos_exists hp
      have e : encN n R ((k * R + v + 1) % (n * R)) = encN n R (k * R + v + 1) :=
        encN_congr (Nat.mod_modEq _ _)
      rw [e]
      obtain ⟨q, rfl⟩ : ∃ q, R = q + 1 := ⟨R - 1, by omega⟩
      constructor
      · rw [mem_allN]
        refine ⟨q, by omega, k, hk, v, by omega, ?_⟩
        rw [mem_trisN]; left; right; left; rfl
      · intro hm
        rw [mem_allN] at hm
        obtain ⟨l', hl', k', hk', v', hv', hm⟩ := hm
        have z := encN_zero_cond (k := k') hv'
        have s : ∀ l p, (l + 1 = 0 → p = 0) := by intro l p h; omega
        rw [mem_trisN] at hm
        rcases hm with (hm | hm | hm) | ⟨hvl, (hm | hm | hm)⟩ <;>
        obtain ⟨h1, h2⟩ := Prod.mk.inj hm
        · have a := (encN_inj n0 (s _ _) z h1).1
          have b := (encN_inj n0 (s _ _) (s _ _) h2).1
          omega
        · obtain ⟨_, c1⟩ := encN_inj n0 (s _ _) (s _ _) h1
          obtain ⟨_, c2⟩ := encN_inj n0 (s _ _) (s _ _) h2
          have a := (encN_inj n0 (s _ _) (s _ _) h1).1
          have : q = l' := by omega
          subst this
          -- p + 1 ≡ p', p ≡ p' + 1
          have c5 := (c1.add_right 1).trans c2.symm
          exact not_modEq_add (b := 2) (by omega) (by have := two_lt_ring hn (show 0 < q + 1 by omega); omega) c5.symm
        · have a := (encN_inj n0 (s _ _) (s _ _) h1).1
          have b := (encN_inj n0 (s _ _) z h2).1
          omega
        · have a := (encN_inj n0 (s _ _) z h1).1
          have b := (encN_inj n0 (s _ _) (s _ _) h2).1
          omega
        · have a := (encN_inj n0 (s _ _) (s _ _) h1).1
          have b := (encN_inj n0 (s _ _) (by intro h; omega) h2).1
          omega
        · have a := (encN_inj n0 (s _ _) (by intro h; omega) h1).1
          omega

theorem circleMeshSize_eq (n R : ℕ) : circleMeshSize n R = ringStart n (R + 1) := by
  unfold circleMeshSize
  have : n * R * (R + 1) / 2 = n * triNum R := by
    rw [mul_assoc, ← triNum_mul_two, ← mul_assoc]; omega
  rw [this]; rfl

theorem meshSizeN {n : ℕ} (h3 : n ≠ 3) (h4 : n ≠ 4) (R : ℕ) : meshSize n R = ringStart n (R + 1) := by
  unfold meshSize; rw [if_neg h3, if_neg h4, ← circleMeshSize_eq]; rfl

theorem encN_lt_size {n R : ℕ} (hn : 0 < n) {L p : ℕ} (hL : L ≤ R) (h0 : L = 0 → p = 0) :
    encN n L p < ringStart n (R + 1) :=
  lt_of_lt_of_le (encN_lt hn h0) (ringStart_mono n (by omega))

theorem properN {n R : ℕ} (hn : 3 ≤ n) {t : Tri} (h : t ∈ allN n R) : ProperTri (ringStart n (R + 1)) t := by
  have n0 : 0 < n := by omega
  simp only [allN, sideN, List.mem_flatMap, List.mem_range, trisN] at h
  obtain ⟨l, hl, k, hk, v, hv, h⟩ := h
  have z := encN_zero_cond (k := k) (show v ≤ l by omega)
  have s : ∀ l p, (l + 1 = 0 → p = 0) := by intro l p h; omega
  have A : ProperTri (ringStart n (R + 1)) (encN n l (k * l + v), encN n (l + 1) (k * (l + 1) + v), encN n (l + 1) (k * (l + 1) + v + 1)) :=
    ⟨encN_lt_size n0 (by omega) z, encN_lt_size n0 (by omega) (s _ _), encN_lt_size n0 (by omega) (s _ _),
      encN_ne_ring n0 z (s _ _) (by omega), encN_ne_succ hn (by omega), encN_ne_ring n0 (s _ _) z (by omega)⟩
  split at h <;> simp only [List.mem_cons, List.not_mem_nil, or_false] at h
  · rcases h with rfl | rfl
    · exact A
    · exact ⟨encN_lt_size n0 (by omega) z, encN_lt_size n0 (by omega) (s _ _),
        encN_lt_size n0 (by omega) (by intro h; omega), encN_ne_ring n0 z (s _ _) (by omega),
        encN_ne_ring n0 (s _ _) (by intro h; omega) (by omega), (encN_ne_succ hn (by omega)).symm⟩
  · subst h; exact A

theorem lengthN (n R : ℕ) : (allN n R).length = n * R * R := by
  unfold allN
  rw [length_flatMap_range R _ (fun l => n * l * l) (by simp)]
  intro l _
  rw [length_flatMap_range n _ (fun k => k * (2 * l + 1)) (by simp)]
  · ring
  · intro k _
    unfold sideN
    rw [length_flatMap_range (l + 1) _ (fun j => if j ≤ l then 2 * j else 2 * l + 1) (by simp)]
    · simp; ring
    · intro j hj
      by_cases h : j < l
      · have h1 : j ≤ l := by omega
        simp only [trisN, h, h1, if_true, List.length_cons, List.length_nil]; split_ifs <;> omega
      · have : j = l := by omega
        subst this; simp [trisN]

theorem mem_loopN {n R i : ℕ} (hn : 3 ≤ n) (hR : 1 ≤ R) (hi : i < ringStart n (R + 1)) :
    (∃ p < n * R, encN n R p = i) ↔ ringStart n (R + 1) - n * R ≤ i := by
  rw [ringStart_succ' n hR] at hi ⊢
  constructor
  · rintro ⟨p, hp, rfl⟩; have := le_encN n R p; omega
  · intro h
    refine ⟨i - ringStart n R, by omega, ?_⟩
    unfold encN
    rw [Nat.mod_eq_of_lt (by omega)]; omega

end Transfinite
