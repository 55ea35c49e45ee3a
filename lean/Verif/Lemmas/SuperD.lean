import Verif.Model.SuperD
import Verif.Spec.SuperD
import Verif.Lemmas.SPatchState
import Verif.Lemmas.PatchTotal
import Verif.Lemmas.SideParams

/-! # Lemmas on the quartic curves and ribbons of SuperD patches -/

namespace Transfinite

open Spec

namespace SuperD

variable {n : ℕ}

theorem generateQuartic_eq (f : ℝ) (a b c : P3 ℝ) : generateQuartic f a b c = tab 5 (quarticPoint f a b c) := by
  have e1 : ∀ p : P3 ℝ, affineCombine3 p ((2 / 5 * f + 3 / 5) * f) b = p + ((2 * f ^ 2 + 3 * f) / 5) • (b - p) := by
    intro p; unfold affineCombine3; module
  have e2 : affineCombine3 (affineCombine3 a ((-2 / 7 * f + 9 / 7) * f) b) (1 / 2) (affineCombine3 c ((-2 / 7 * f + 9 / 7) * f) b) =
      (1 / 2 : ℝ) • (a + c) + ((9 * f - 2 * f ^ 2) / 7) • (b - (1 / 2 : ℝ) • (a + c)) := by
    unfold affineCombine3; module
  unfold generateQuartic
  dsimp only
  rw [e1, e1, e2]
  rfl

theorem quartic_reverse (f : ℝ) (a b c : P3 ℝ) {j : ℕ} (hj : j ≤ 4) : quarticPoint f a b c (4 - j) = quarticPoint f c b a j := by
  have : j = 0 ∨ j = 1 ∨ j = 2 ∨ j = 3 ∨ j = 4 := by omega
  rcases this with rfl | rfl | rfl | rfl | rfl
  · rfl
  · rfl
  · change (1 / 2 : ℝ) • (a + c) + ((9 * f - 2 * f ^ 2) / 7) • (b - (1 / 2 : ℝ) • (a + c)) = (1 / 2 : ℝ) • (c + a) + ((9 * f - 2 * f ^ 2) / 7) • (b - (1 / 2 : ℝ) • (c + a))
    rw [add_comm a c]
  · rfl
  · rfl

theorem bezierEvaluate_eq (g : ℕ → ℕ → P3 ℝ) (u v : ℝ) :
    bezierEvaluate (tab 5 fun i => tab 5 (g i)) u v = .ok (bezier 4 (fun i => bezier 4 (g i) v) u) := by
  unfold bezierEvaluate
  rw [bernsteinAll_eq, M_bind_ok, bernsteinAll_eq, M_bind_ok]
  rw [forLoop_sum 5 _ (fun i => bern 4 i u • bezier 4 (g i) v)]
  · rw [zero_add]; rfl
  · intro i r hi
    rw [forLoop_sum 5 _ (fun j => bern 4 j v • bern 4 i u • g i j)]
    · unfold bezier
      rw [Finset.smul_sum]
      congr 2
      exact Finset.sum_congr rfl fun j _ => smul_comm _ _ _
    · intro j r hj
      rw [vget_tab _ hi, M_bind_ok, vget_tab _ hj, M_bind_ok, vget_tab _ hi, M_bind_ok, vget_tab _ hj, M_bind_ok]

variable {S : SuperD ℝ} {F E : ℕ → P3 ℝ}

/-- The control points of boundary curve `i`. -/
noncomputable def basePoint (f : ℝ) (n : ℕ) (F E : ℕ → P3 ℝ) (i : ℕ) : ℕ → P3 ℝ := quarticPoint f (F (prevIx n i)) (E i) (F i)

theorem generateBase_eq (hF : S.cpF = tab n F) (hE : S.cpE = tab n E) (hn : S.n = n) {i : ℕ} (hi : i < n) :
    S.generateBase i = .ok (tab 5 (basePoint S.fullness n F E i)) := by
  unfold generateBase
  rw [hF, hE, hn, vget_tab _ (prevIx_lt (by omega)), M_bind_ok, vget_tab _ hi, M_bind_ok, vget_tab _ hi, M_bind_ok, generateQuartic_eq]
  rfl

/-- The direction of the second row of control points of ribbon `i`. -/
noncomputable def rowStep (f : ℝ) (n : ℕ) (V : P3 ℝ) (F E : ℕ → P3 ℝ) (i j : ℕ) : P3 ℝ :=
  if n ≤ 4 then quarticPoint f (E (prevIx n i)) V (E (nextIx n i)) j - basePoint f n F E i j
  else ((4 - j : ℕ) / 4 : ℝ) • (E (prevIx n i) - F (prevIx n i)) + (j / 4 : ℝ) • (E (nextIx n i) - F i)

/-- The ribbon is a biquartic surface with three of its sides on the boundary. -/
theorem generateRibbon_eq (hF : S.cpF = tab n F) (hE : S.cpE = tab n E) (hn : S.n = n) (hn3 : 3 ≤ n) {i : ℕ} (hi : i < n) :
    ∃ g : ℕ → ℕ → P3 ℝ, S.generateRibbon i = .ok (tab 5 fun j => tab 5 (g j)) ∧
      (∀ j ≤ 4, g j 0 = basePoint S.fullness n F E i j) ∧
      (∀ k ≤ 4, g 0 k = basePoint S.fullness n F E (prevIx n i) (4 - k)) ∧
      (∀ k ≤ 4, g 4 k = basePoint S.fullness n F E (nextIx n i) k) ∧
      (∀ j, g j 1 = basePoint S.fullness n F E i j + ((2 * S.fullness ^ 2 + 3 * S.fullness) / 5) • rowStep S.fullness n S.cpV F E i j) := by
  have hp : prevIx n i < n := prevIx_lt (by omega)
  have hx : nextIx n i < n := nextIx_lt (by omega)
  have hb := generateBase_eq hF hE hn hi
  unfold generateRibbon
  rw [hb, M_bind_ok, hn]
  by_cases h4 : n > 4
  · rw [if_pos h4, generateBase_eq hF hE hn hp, M_bind_ok, generateBase_eq hF hE hn hx, M_bind_ok]
    refine ⟨fun j k => basePoint S.fullness n F E i j + ((4 - j : ℕ) / 4 : ℝ) • (basePoint S.fullness n F E (prevIx n i) (4 - k) - basePoint S.fullness n F E (prevIx n i) 4) +
      (j / 4 : ℝ) • (basePoint S.fullness n F E (nextIx n i) k - basePoint S.fullness n F E (nextIx n i) 0), ?_, ?_, ?_, ?_, ?_⟩
    · unfold ribbonMany
      refine (forLoop_push 5 _ _ [] ?_).trans (by rw [List.nil_append, tab])
      intro j r hj
      rw [forLoop_push 5 _ (fun k => basePoint S.fullness n F E i j + ((4 - j : ℕ) / 4 : ℝ) • (basePoint S.fullness n F E (prevIx n i) (4 - k) - basePoint S.fullness n F E (prevIx n i) 4) +
        (j / 4 : ℝ) • (basePoint S.fullness n F E (nextIx n i) k - basePoint S.fullness n F E (nextIx n i) 0)) [], M_bind_ok]
      · rfl
      · intro k l hk
        rw [vget_tab _ hj, M_bind_ok, vget_tab _ (by omega), M_bind_ok, vget_tab _ (by omega), M_bind_ok, vget_tab _ hk, M_bind_ok, vget_tab _ (by omega), M_bind_ok]
    · intro j _; simp
    · intro k _
      have e : basePoint S.fullness n F E (prevIx n i) 4 = basePoint S.fullness n F E i 0 := rfl
      simp [e]
    · intro k _
      have e : basePoint S.fullness n F E (nextIx n i) 0 = basePoint S.fullness n F E i 4 := by
        change F (prevIx n (nextIx n i)) = F i
        rw [prevIx_nextIx hi]
      simp [e]
    · intro j
      have e1 : basePoint S.fullness n F E (prevIx n i) (4 - 1) =
          F (prevIx n i) + ((2 * S.fullness ^ 2 + 3 * S.fullness) / 5) • (E (prevIx n i) - F (prevIx n i)) := rfl
      have e2 : basePoint S.fullness n F E (prevIx n i) 4 = F (prevIx n i) := rfl
      have e3 : basePoint S.fullness n F E (nextIx n i) 0 = F i := by
        change F (prevIx n (nextIx n i)) = F i
        rw [prevIx_nextIx hi]
      have e4 : basePoint S.fullness n F E (nextIx n i) 1 = F i + ((2 * S.fullness ^ 2 + 3 * S.fullness) / 5) • (E (nextIx n i) - F i) := by
        change F (prevIx n (nextIx n i)) + _ • (_ - F (prevIx n (nextIx n i))) = _
        rw [prevIx_nextIx hi]
      unfold rowStep
      beta_reduce
      rw [if_neg (by omega), e1, e2, e3, e4]
      module
  · have hm : S.generateMid i = .ok (tab 5 (quarticPoint S.fullness (E (prevIx n i)) S.cpV (E (nextIx n i)))) := by
      unfold generateMid
      rw [hE, hn, vget_tab _ hp, M_bind_ok, vget_tab _ hx, M_bind_ok, generateQuartic_eq]
    have ho : ∃ o : ℕ → P3 ℝ, S.generateOpp i = .ok (tab 5 o) ∧ o 0 = F (prevIx n (prevIx n i)) ∧ o 4 = F (nextIx n i) := by
      unfold generateOpp
      rw [hn, hF]
      by_cases h3 : n = 3
      · rw [if_pos h3, vget_tab _ hx, M_bind_ok]
        refine ⟨fun _ => F (nextIx n i), rfl, ?_, rfl⟩
        have key : nextIx n i = prevIx n (prevIx n i) := by
          rw [prevIx_eq hp, prevIx_eq hi, nextIx_eq hi]
          split_ifs <;> omega
        exact congrArg F key
      · have hxx : nextIx n (nextIx n i) < n := nextIx_lt (by omega)
        rw [if_neg h3, if_pos (by omega), generateBase_eq hF hE hn hxx, M_bind_ok]
        refine ⟨fun j => basePoint S.fullness n F E (nextIx n (nextIx n i)) (4 - j), rfl, ?_, ?_⟩
        · change F (nextIx n (nextIx n i)) = _
          rw [prevIx_eq hp, prevIx_eq hi, nextIx_eq hx, nextIx_eq hi]
          congr 1
          split_ifs <;> omega
        · change F (prevIx n (nextIx n (nextIx n i))) = _
          rw [prevIx_nextIx hx]
    obtain ⟨o, ho, o0, o4⟩ := ho
    rw [if_neg h4, hm, M_bind_ok, ho, M_bind_ok]
    refine ⟨fun j => quarticPoint S.fullness (basePoint S.fullness n F E i j) (quarticPoint S.fullness (E (prevIx n i)) S.cpV (E (nextIx n i)) j) (o j), ?_, ?_, ?_, ?_, ?_⟩
    · unfold ribbonFew
      refine (forLoop_push 5 _ _ [] ?_).trans (by rw [List.nil_append, tab])
      intro j r hj
      rw [vget_tab _ hj, M_bind_ok, vget_tab _ hj, M_bind_ok, vget_tab _ hj, M_bind_ok, generateQuartic_eq]
    · intro j _; rfl
    · intro k hk
      dsimp only
      rw [o0]
      exact (quartic_reverse _ _ _ _ hk).symm
    · intro k hk
      dsimp only
      rw [o4]
      unfold basePoint
      rw [prevIx_nextIx hi]
      rfl
    · intro j
      unfold rowStep
      rw [if_pos (by omega)]
      rfl

end SuperD

end Transfinite
