import Verif.Model.GenBezier
import Verif.Lemmas.Lists
import Verif.Lemmas.PatchRun
import Verif.Spec.Net

/-! Control networks as functions of the indices. -/

namespace Transfinite

variable {K : Type} [Field K] [LinearOrder K] [Libm K]

theorem usub_of_le {a b : ℕ} (h : b ≤ a) : usub a b = a - b := if_pos h

theorem usub_two_lt {d j : ℕ} (hj : j ≤ d) : usub d 2 < j ↔ 2 ≤ d ∧ d - 2 < j := by
  unfold usub
  split_ifs with h
  · simp [h]
  · constructor
    · intro h'
      have : (2 : ℕ) ^ 64 = 18446744073709551616 := by norm_num
      omega
    · intro h'; omega

namespace GB

open Spec

/-- The three-dimensional array of a function. -/
def net3 (n d l : ℕ) (F : ℕ → ℕ → ℕ → P3 K) : List (List (List (P3 K))) :=
  tab n fun i => tab (d + 1) fun j => tab l (F i j)

theorem cpt_net3 {n d l : ℕ} {F : ℕ → ℕ → ℕ → P3 K} {i j k : ℕ} (hi : i < n) (hj : j ≤ d) (hk : k < l) :
    cpt (net3 n d l F) i j k = .ok (F i j k) := by
  unfold cpt net3
  rw [vget_tab _ hi, M_bind_ok, vget_tab _ (by omega), M_bind_ok, vget_tab _ hk]

theorem net3_congr {n d l : ℕ} {F F' : ℕ → ℕ → ℕ → P3 K} (h : ∀ i < n, ∀ j ≤ d, ∀ k < l, F i j k = F' i j k) :
    net3 n d l F = net3 n d l F' := by
  unfold net3
  apply tab_congr
  intro i hi
  apply tab_congr
  intro j hj
  exact tab_congr fun k hk => h i hi j (by omega) k hk

/-- `F` with the value at `(i, j, k)` replaced. -/
def upd (F : ℕ → ℕ → ℕ → P3 K) (i j k : ℕ) (p : P3 K) : ℕ → ℕ → ℕ → P3 K :=
  fun i' j' k' => if i' = i ∧ j' = j ∧ k' = k then p else F i' j' k'

theorem cptSet_net3 {n d l : ℕ} {F : ℕ → ℕ → ℕ → P3 K} {i j k : ℕ} (hi : i < n) (hj : j ≤ d) (hk : k < l) (p : P3 K) :
    cptSet (net3 n d l F) i j k p = .ok (net3 n d l (upd F i j k p)) := by
  unfold cptSet net3
  rw [vget_tab _ hi, M_bind_ok, vget_tab _ (by omega), M_bind_ok, vset_tab _ _ hk, M_bind_ok, vset_tab _ _ (by omega), M_bind_ok,
    vset_tab _ _ hi]
  congr 1
  apply tab_congr
  intro i' _
  unfold upd
  by_cases a : i' = i
  · subst a
    simp only [Function.update_self, if_true, true_and]
    apply tab_congr
    intro j' _
    by_cases b : j' = j
    · subst b
      simp only [Function.update_self, true_and]
      apply tab_congr
      intro k' _
      by_cases c : k' = k
      · subst c; simp
      · simp [c]
    · simp [b]
  · simp [a]

/-- The network of `G` has `n` sides, degree `d` and the points `F`. -/
structure HasNet (G : GB K) (n d : ℕ) (F : ℕ → ℕ → ℕ → P3 K) : Prop where
  n_eq : G.n = n
  degree : G.degree = d
  layers : G.layers = (d + 1) / 2
  nets : G.nets = net3 n d ((d + 1) / 2) F

variable {G : GB K} {n d : ℕ} {F : ℕ → ℕ → ℕ → P3 K}

theorem HasNet.cpt (h : HasNet G n d F) {i j k : ℕ} (hi : i < n) (hj : j ≤ d) (hk : k < (d + 1) / 2) : GB.cpt G.nets i j k = .ok (F i j k) := by
  rw [h.nets, cpt_net3 hi hj hk]

theorem HasNet.congr {F' : ℕ → ℕ → ℕ → P3 K} (h : HasNet G n d F) (e : ∀ i < n, ∀ j ≤ d, ∀ k < (d + 1) / 2, F i j k = F' i j k) : HasNet G n d F' :=
  ⟨h.n_eq, h.degree, h.layers, by rw [h.nets, net3_congr e]⟩

/-- The effect of `setControlPoint`. -/
def write (n d : ℕ) (F : ℕ → ℕ → ℕ → P3 K) (a : Name) (p : P3 K) : ℕ → ℕ → ℕ → P3 K :=
  fun i j k => if SamePoint n d ⟨i, j, k⟩ a then p else F i j k

theorem upd_upd_eq {F : ℕ → ℕ → ℕ → P3 K} {i j k i' j' k' x y z : ℕ} {p : P3 K} {P : Prop} [Decidable P]
    (h : P ↔ (x = i ∧ y = j ∧ z = k) ∨ (x = i' ∧ y = j' ∧ z = k')) :
    upd (upd F i j k p) i' j' k' p x y z = if P then p else F x y z := by
  unfold upd
  by_cases h2 : x = i' ∧ y = j' ∧ z = k'
  · rw [if_pos h2, if_pos (h.mpr (Or.inr h2))]
  · rw [if_neg h2]
    by_cases h1 : x = i ∧ y = j ∧ z = k
    · rw [if_pos h1, if_pos (h.mpr (Or.inl h1))]
    · rw [if_neg h1, if_neg (fun q => by rcases h.mp q with q | q; exacts [h1 q, h2 q])]

theorem setControlPoint_eq (h : HasNet G n d F) {a : Name} (ha : a.InRange n d) (p : P3 K) :
    ∃ G', G.setControlPoint a.side a.col a.row p = .ok G' ∧ G' = { G with nets := G'.nets } ∧ HasNet G' n d (write n d F a p) := by
  obtain ⟨hi, hj, hk⟩ := ha
  obtain ⟨i, j, k⟩ := a
  dsimp only at hi hj hk ⊢
  have hkd : k ≤ d := by omega
  unfold setControlPoint
  rw [h.nets, cptSet_net3 hi hj hk, M_bind_ok, h.layers, h.degree, h.n_eq, usub_of_le hkd, usub_of_le hj]
  by_cases c1 : j < (d + 1) / 2
  · rw [if_pos c1, cptSet_net3 (prevIx_lt (by omega)) (by omega) c1, M_bind_ok]
    refine ⟨_, rfl, rfl, ⟨rfl, rfl, rfl, ?_⟩⟩
    dsimp only
    apply net3_congr
    intro x hx y hy z hz
    unfold write
    apply upd_upd_eq
    unfold SamePoint AtCorner
    simp only [Name.mk.injEq]
    constructor
    · rintro (⟨rfl, rfl, rfl⟩ | ⟨e1, e2, e3, e4, e5⟩ | ⟨e1, e2, e3, e4, e5⟩)
      · exact Or.inl ⟨rfl, rfl, rfl⟩
      · omega
      · exact Or.inr ⟨e3, e4, e5⟩
    · rintro (⟨rfl, rfl, rfl⟩ | ⟨e3, e4, e5⟩)
      · exact Or.inl ⟨rfl, rfl, rfl⟩
      · exact Or.inr (Or.inr ⟨c1, hk, e3, e4, e5⟩)
  · rw [if_neg c1]
    by_cases c2 : d - j < (d + 1) / 2
    · rw [if_pos c2, cptSet_net3 (nextIx_lt (by omega)) (by omega) c2, M_bind_ok]
      refine ⟨_, rfl, rfl, ⟨rfl, rfl, rfl, ?_⟩⟩
      dsimp only
      apply net3_congr
      intro x hx y hy z hz
      unfold write
      apply upd_upd_eq
      unfold SamePoint AtCorner
      simp only [Name.mk.injEq]
      constructor
      · rintro (⟨rfl, rfl, rfl⟩ | ⟨e1, e2, e3, e4, e5⟩ | ⟨e1, e2, e3, e4, e5⟩)
        · exact Or.inl ⟨rfl, rfl, rfl⟩
        · refine Or.inr ⟨?_, by omega, by omega⟩
          rw [e3]
          exact (nextIx_prevIx hx).symm
        · omega
      · rintro (⟨rfl, rfl, rfl⟩ | ⟨e3, e4, e5⟩)
        · exact Or.inl ⟨rfl, rfl, rfl⟩
        · refine Or.inr (Or.inl ⟨by omega, by omega, ?_, by omega, by omega⟩)
          rw [e3]
          exact (prevIx_nextIx hi).symm
    · rw [if_neg c2]
      refine ⟨_, rfl, rfl, ⟨rfl, rfl, rfl, ?_⟩⟩
      dsimp only
      apply net3_congr
      intro x hx y hy z hz
      unfold write upd
      have e : SamePoint n d ⟨x, y, z⟩ ⟨i, j, k⟩ ↔ x = i ∧ y = j ∧ z = k := by
        unfold SamePoint AtCorner
        simp only [Name.mk.injEq]
        constructor
        · rintro (e | ⟨e1, e2, e3, e4, e5⟩ | ⟨e1, e2, e3, e4, e5⟩)
          · exact e
          · omega
          · omega
        · exact Or.inl
      simp only [e]

end GB

namespace Spec

theorem samePoint_refl (n d : ℕ) (a : Name) : SamePoint n d a a := Or.inl rfl

theorem samePoint_symm {n d : ℕ} {a b : Name} (h : SamePoint n d a b) : SamePoint n d b a := by
  rcases h with h | h | h
  · exact Or.inl h.symm
  · exact Or.inr (Or.inr h)
  · exact Or.inr (Or.inl h)

theorem atCorner_left {n d : ℕ} {a b c : Name} (hb : b.side < n) (hc : c.side < n) (h1 : AtCorner n d b a) (h2 : AtCorner n d c a) : b = c := by
  obtain ⟨b1, b2, rfl⟩ := h1
  obtain ⟨c1, c2, e⟩ := h2
  obtain ⟨i, j, k⟩ := b
  obtain ⟨i', j', k'⟩ := c
  simp only [Name.mk.injEq] at *
  obtain ⟨e1, e2, e3⟩ := e
  refine ⟨?_, e3, by omega⟩
  rw [← nextIx_prevIx hb, ← nextIx_prevIx hc]
  exact congrArg (nextIx n) e1

/-- No name has a second corner. -/
theorem atCorner_comp {n d : ℕ} {a b c : Name} (h1 : AtCorner n d a b) (h2 : AtCorner n d b c) : False := by
  obtain ⟨b1, b2, rfl⟩ := h1
  obtain ⟨c1, c2, e⟩ := h2
  dsimp only at *
  omega

theorem samePoint_trans {n d : ℕ} {a b c : Name} (ha : a.side < n) (hc : c.side < n) (h1 : SamePoint n d a b) (h2 : SamePoint n d b c) :
    SamePoint n d a c := by
  rcases h1 with rfl | h1 | h1
  · exact h2
  · rcases h2 with rfl | h2 | h2
    · exact Or.inr (Or.inl h1)
    · exact absurd h2 (fun q => atCorner_comp h1 q)
    · exact Or.inl (atCorner_left ha hc h1 h2)
  · rcases h2 with rfl | h2 | h2
    · exact Or.inr (Or.inr h1)
    · left
      rw [h1.2.2, h2.2.2]
    · exact absurd h1 (fun q => atCorner_comp h2 q)

end Spec

end Transfinite
