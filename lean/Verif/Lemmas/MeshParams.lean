import Verif.Lemmas.Mesh3
import Verif.Lemmas.Mesh4
import Verif.Lemmas.MeshN2
import Mathlib.Algebra.CharZero.Defs

/-! Closed forms of the mesh parameter points. -/

namespace Transfinite

open Domain

variable {K : Type*} [Field K] [CharZero K] [DecidableEq K]

/-- mesh point (j, k) of a triangle -/
def pt3 (R : ℕ) (v : ℕ → P2 K) (j k : ℕ) : P2 K :=
  (((j : K) - k) / R) • v 0 + ((k : K) / R) • v 1 + (1 - (j : K) / R) • v 2

/-- mesh point (j, k) of a quadrilateral -/
def pt4 (R : ℕ) (v : ℕ → P2 K) (j k : ℕ) : P2 K :=
  (1 - (k : K) / R) • ((1 - (j : K) / R) • v 0 + ((j : K) / R) • v 1) +
    ((k : K) / R) • ((1 - (j : K) / R) • v 3 + ((j : K) / R) • v 2)

/-- mesh point at ring L, side k, offset i -/
def ptN (n R : ℕ) (c : P2 K) (v : ℕ → P2 K) (L k i : ℕ) : P2 K :=
  (1 - (L : K) / R) • c + ((L : K) / R - (i : K) / R) • v (prevIx n k) + ((i : K) / R) • v k

theorem params3_eq {R : ℕ} (hR : 1 ≤ R) (v : ℕ → P2 K) :
    ∃ ps, params3 (tab 3 v) R = .ok ps ∧ ps.length = triNum (R + 1) ∧
      ∀ j ≤ R, ∀ k ≤ j, ps[enc3 j k]? = some (pt3 R v j k) := by
  have hR0 : (R : K) ≠ 0 := by exact_mod_cast (show R ≠ 0 by omega)
  refine ⟨(List.range (R + 1)).flatMap fun j => tab (j + 1) (pt3 R v j), ?_, ?_, ?_⟩
  · unfold params3
    rw [forLoop_flatMap (R + 1) _ (fun j => tab (j + 1) (pt3 R v j))]
    · simp
    · intro j s _
      rw [fdiv_of_ne hR0, vget_tab v (by omega), vget_tab v (by omega), vget_tab v (by omega)]
      simp only [M_bind_ok]
      rw [forLoop_push (j + 1) _ (pt3 R v j)]
      intro k s hk
      by_cases hj : j = 0
      · subst hj
        have : k = 0 := by omega
        subst this
        simp [pt3]
      · have hj0 : (j : K) ≠ 0 := by exact_mod_cast hj
        rw [if_neg hj, fdiv_of_ne hj0]
        simp only [M_bind_ok, Except.ok.injEq, List.append_cancel_left_eq, List.cons.injEq, and_true]
        unfold pt3
        have e : (k : K) / R = (k : K) / j * ((j : K) / R) := by field_simp
        have e2 : ((j : K) - k) / R = (j : K) / R - (k : K) / j * ((j : K) / R) := by
          rw [← e]; ring
        rw [e2, e]; module
  · rw [length_flatMap_range (R + 1) _ triNum rfl]
    intro k _; rw [length_tab, triNum_succ]
  · intro j hj k hk
    unfold enc3
    rw [getElem?_flatMap_range (R + 1) _ triNum rfl (by intro k _; rw [length_tab, triNum_succ])
      (by omega) (by rw [length_tab]; omega)]
    simp [tab, show k < j + 1 by omega]

theorem params4_eq {R : ℕ} (hR : 1 ≤ R) (v : ℕ → P2 K) :
    ∃ ps, params4 (tab 4 v) R = .ok ps ∧ ps.length = (R + 1) * (R + 1) ∧
      ∀ j ≤ R, ∀ k ≤ R, ps[enc4 R j k]? = some (pt4 R v j k) := by
  have hR0 : (R : K) ≠ 0 := by exact_mod_cast (show R ≠ 0 by omega)
  refine ⟨(List.range (R + 1)).flatMap fun j => tab (R + 1) (pt4 R v j), ?_, ?_, ?_⟩
  · unfold params4
    rw [forLoop_flatMap (R + 1) _ (fun j => tab (R + 1) (pt4 R v j))]
    · simp
    · intro j s _
      rw [fdiv_of_ne hR0, vget_tab v (by omega), vget_tab v (by omega), vget_tab v (by omega), vget_tab v (by omega)]
      simp only [M_bind_ok]
      rw [forLoop_push (R + 1) _ (pt4 R v j)]
      intro k s hk
      rw [fdiv_of_ne hR0]; rfl
  · rw [length_flatMap_range (R + 1) _ (fun i => i * (R + 1)) (by simp)]
    intro k _; rw [length_tab]; ring
  · intro j hj k hk
    unfold enc4
    rw [getElem?_flatMap_range (R + 1) _ (fun i => i * (R + 1)) (by simp) (by intro k _; rw [length_tab]; ring)
      (by omega) (by rw [length_tab]; omega)]
    simp [tab, show k < R + 1 by omega]

theorem paramsN_eq {n R : ℕ} (hn : 0 < n) (hR : 1 ≤ R) (c : P2 K) (v : ℕ → P2 K) :
    ∃ ps, paramsN n c (tab n v) R = .ok ps ∧ ps.length = ringStart n (R + 1) ∧
      ps[0]? = some c ∧
      ∀ L, 1 ≤ L → L ≤ R → ∀ k < n, ∀ i < L, ps[ringStart n L + (k * L + i)]? = some (ptN n R c v L k i) := by
  have hR0 : (R : K) ≠ 0 := by exact_mod_cast (show R ≠ 0 by omega)
  have hin : ∀ l, ((List.range n).flatMap fun k => tab (l + 1) (ptN n R c v (l + 1) k)).length = n * (l + 1) := by
    intro l
    rw [length_flatMap_range n _ (fun k => k * (l + 1)) (by simp)]
    intro k _; rw [length_tab]; ring
  refine ⟨c :: (List.range R).flatMap fun l => (List.range n).flatMap fun k => tab (l + 1) (ptN n R c v (l + 1) k), ?_, ?_, ?_, ?_⟩
  · unfold paramsN
    rw [forLoop_flatMap R _ (fun l => (List.range n).flatMap fun k => tab (l + 1) (ptN n R c v (l + 1) k))]
    · simp
    · intro l s _
      dsimp only
      rw [fdiv_of_ne hR0]
      simp only [M_bind_ok]
      rw [forLoop_flatMap n _ (fun k => tab (l + 1) (ptN n R c v (l + 1) k))]
      intro k s hk
      rw [forLoop_push (l + 1) _ (ptN n R c v (l + 1) k)]
      intro i s hi
      have hl0 : ((l + 1 : ℕ) : K) ≠ 0 := by exact_mod_cast Nat.succ_ne_zero l
      rw [fdiv_of_ne hl0, vget_tab v (prevIx_lt hn), vget_tab v hk]
      simp only [M_bind_ok, Except.ok.injEq, List.append_cancel_left_eq, List.cons.injEq, and_true]
      unfold ptN
      have e : (i : K) / R = (i : K) / ((l + 1 : ℕ) : K) * (((l + 1 : ℕ) : K) / R) := by field_simp
      rw [e]; module
  · rw [List.length_cons, length_flatMap_range R _ (fun l => n * triNum l) (by simp)]
    · simp only [ringStart]; ring
    · intro l _; rw [hin, triNum_succ]; ring
  · simp
  · intro L h1 hL k hk i hi
    obtain ⟨l, rfl⟩ : ∃ l, L = l + 1 := ⟨L - 1, by omega⟩
    have e : ringStart n (l + 1) + (k * (l + 1) + i) = (n * triNum l + (k * (l + 1) + i)) + 1 := by
      simp only [ringStart]; ring
    rw [e, List.getElem?_cons_succ]
    rw [getElem?_flatMap_range R _ (fun l => n * triNum l) (by simp)
      (by intro l _; rw [hin, triNum_succ]; ring) (by omega)
      (by rw [hin]; exact pos_lt hk hi)]
    rw [getElem?_flatMap_range n _ (fun k => k * (l + 1)) (by simp)
      (by intro k _; rw [length_tab]; ring) hk (by rw [length_tab]; exact hi)]
    simp [tab, hi]

end Transfinite
