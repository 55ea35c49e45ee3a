import Verif.Model.Demo
import Verif.Spec.Demo
import Verif.Lemmas.Ready
import Verif.Props.MeshEval
import Verif.Props.Interpolation

/-! # Helper lemmas for the loops of test.cc -/

namespace Transfinite

namespace Demo

open Spec

section lists

/-- Pushing pairs in a double loop. -/
theorem pairs_loop {α : Type} {n m : ℕ} {body : ℕ → ℕ → List α → M (List α)} {a b : ℕ → ℕ → α}
    (h : ∀ i j l, i < n → j < m → body i j l = .ok (l ++ [a i j, b i j])) :
    ∃ l, forLoop n (fun i pv => forLoop m (fun j pv => body i j pv) pv) [] = .ok l ∧ l.length = 2 * (n * m) ∧
      ∀ i < n, ∀ j < m, l[2 * (i * m + j)]? = some (a i j) ∧ l[2 * (i * m + j) + 1]? = some (b i j) := by
  set g : ℕ → α := fun k => if k % 2 = 0 then a (k / 2 / m) (k / 2 % m) else b (k / 2 / m) (k / 2 % m) with hg
  have hi : ∀ i j, j < m → (i * m + j) / m = i ∧ (i * m + j) % m = j := by
    intro i j hj
    rw [Nat.mul_comm i m]
    exact ⟨by rw [Nat.mul_add_div (by omega), Nat.div_eq_of_lt hj, Nat.add_zero], by rw [Nat.mul_add_mod, Nat.mod_eq_of_lt hj]⟩
  have ga : ∀ i j, j < m → g (2 * (i * m + j)) = a i j := by
    intro i j hj
    have e : 2 * (i * m + j) / 2 = i * m + j := by omega
    simp only [hg, Nat.mul_mod_right, e, (hi i j hj).1, (hi i j hj).2, if_true]
  have gb : ∀ i j, j < m → g (2 * (i * m + j) + 1) = b i j := by
    intro i j hj
    have e : (2 * (i * m + j) + 1) / 2 = i * m + j := by omega
    have e' : (2 * (i * m + j) + 1) % 2 = 1 := by omega
    simp only [hg, e, e', (hi i j hj).1, (hi i j hj).2, if_false, one_ne_zero]
  refine ⟨tab (2 * (n * m)) g, ?_, by simp, ?_⟩
  · refine forLoop_eq (fun i => tab (2 * (i * m)) g) (by simp) ?_
    intro i hin
    have : forLoop m (fun j pv => body i j pv) (tab (2 * (i * m)) g) = .ok (tab (2 * (i * m + m)) g) := by
      refine forLoop_eq (fun j => tab (2 * (i * m + j)) g) (by simp) ?_
      intro j hj
      rw [h i j _ hin hj]
      rw [show 2 * (i * m + (j + 1)) = 2 * (i * m + j) + 1 + 1 by ring, tab_succ, tab_succ, ga i j hj, gb i j hj]
      simp
    rw [this, Nat.succ_mul i m]
  · intro i hin j hj
    have hlt : i * m + j < n * m := by nlinarith [Nat.mul_le_mul_right m (show i + 1 ≤ n by omega)]
    constructor
    · rw [List.getElem?_map, List.getElem?_range (by omega), Option.map_some, ga i j hj]
    · rw [List.getElem?_map, List.getElem?_range (by omega), Option.map_some, gb i j hj]

/-- The inner loop on triangles. -/
theorem strip_loop (m a : ℕ) (ts : List Domain.Tri) :
    forLoop m (fun _ (st : ℕ × List Domain.Tri) =>
      .ok (st.1 + 2, st.2 ++ [(st.1, st.1 + 1, st.1 + 2), (st.1 + 1, st.1 + 3, st.1 + 2)])) (2 * a, ts) =
    .ok (2 * (a + m), ts ++ (List.range m).flatMap fun j => quad (a + j) (a + j + 1)) := by
  refine forLoop_eq (fun j => (2 * (a + j), ts ++ (List.range j).flatMap fun j => quad (a + j) (a + j + 1))) (by simp) ?_
  intro j _
  rw [List.range_succ, List.flatMap_append]
  simp only [List.flatMap_singleton, quad, List.append_assoc]
  congr 1

theorem fenceTriangles_eq {m : ℕ} (hm : 0 < m) : fenceTriangles (m * 2) = .ok (closedBand m) := by
  unfold fenceTriangles
  rw [if_neg (by omega)]
  have e := strip_loop ((m * 2 - 2) / 2) 0 []
  rw [Nat.mul_zero] at e
  dsimp only
  show (forLoop _ _ _ >>= _) = _
  rw [e, M_bind_ok]
  dsimp only
  congr 1
  obtain ⟨k, rfl⟩ : ∃ k, m = k + 1 := ⟨m - 1, by omega⟩
  have e1 : ((k + 1) * 2 - 2) / 2 = k := by omega
  unfold closedBand
  rw [e1, List.range_succ, List.flatMap_append, List.nil_append]
  congr 1
  · refine List.flatMap_congr ?_
    intro j hj
    have := List.mem_range.mp hj
    rw [Nat.mod_eq_of_lt (by omega), Nat.zero_add]
  · simp [quad, Nat.mod_self]

theorem ribbonTriangles_eq (n m : ℕ) : ribbonTriangles n m = .ok (openBands n m) := by
  unfold ribbonTriangles
  have : forLoop n (fun _ (st : ℕ × List Domain.Tri) => do
      let st ← forLoop m (fun _ (st : ℕ × List Domain.Tri) =>
        let index := st.1
        .ok (index + 2, st.2 ++ [(index, index + 1, index + 2), (index + 1, index + 3, index + 2)])) st
      .ok (st.1 + 2, st.2)) (0, []) = .ok (2 * (n * (m + 1)), openBands n m) := by
    refine forLoop_eq (fun i => (2 * (i * (m + 1)), openBands i m)) (by simp [openBands]) ?_
    intro i _
    dsimp only
    rw [strip_loop, M_bind_ok]
    unfold openBands
    rw [List.range_succ, List.flatMap_append, List.flatMap_singleton]
    congr 2
    ring
  rw [this, M_bind_ok]

theorem closedBand_length (m : ℕ) : (closedBand m).length = 2 * m := by
  unfold closedBand
  rw [List.length_flatMap]
  simp [quad, mul_comm]

theorem closedBand_lt {m : ℕ} {t : ℕ × ℕ × ℕ} (h : t ∈ closedBand m) : t.1 < 2 * m ∧ t.2.1 < 2 * m ∧ t.2.2 < 2 * m := by
  unfold closedBand at h
  obtain ⟨k, hk, h⟩ := List.mem_flatMap.mp h
  have hk := List.mem_range.mp hk
  have := Nat.mod_lt (k + 1) (show 0 < m by omega)
  unfold quad at h
  simp only [List.mem_cons, List.not_mem_nil, or_false] at h
  rcases h with rfl | rfl <;> dsimp only <;> omega

theorem openBands_lt {n m : ℕ} {t : ℕ × ℕ × ℕ} (h : t ∈ openBands n m) :
    t.1 < 2 * (n * (m + 1)) ∧ t.2.1 < 2 * (n * (m + 1)) ∧ t.2.2 < 2 * (n * (m + 1)) := by
  unfold openBands at h
  obtain ⟨i, hi, h⟩ := List.mem_flatMap.mp h
  obtain ⟨j, hj, h⟩ := List.mem_flatMap.mp h
  have hi := List.mem_range.mp hi
  have hj := List.mem_range.mp hj
  have : i * (m + 1) + (m + 1) ≤ n * (m + 1) := by
    have := Nat.mul_le_mul_right (m + 1) (show i + 1 ≤ n by omega)
    rwa [Nat.succ_mul] at this
  unfold quad at h
  simp only [List.mem_cons, List.not_mem_nil, or_false] at h
  rcases h with rfl | rfl <;> dsimp only <;> omega

end lists

section positional

variable {ε : ℝ} {P : Patch ℝ} {n : ℕ} {c : ℕ → Curve ℝ}

/-- The state of the loops of the positional test: the points tested, as pairs (side, index). -/
def Tested (ε : ℝ) (P : Patch ℝ) (c : ℕ → Curve ℝ) (D : ℕ → ℕ → Prop) (st : ℝ × Patch ℝ) : Prop :=
  Patch.Queried ε P st.2 ∧ 0 ≤ st.1 ∧
    (∀ i j, D i j → ∃ p, SideValue ε P i (j / 40) p ∧ (p - (c i).pt (j / 40)).norm ≤ st.1) ∧
    (st.1 = 0 ∨ ∃ i j p, D i j ∧ SideValue ε P i (j / 40) p ∧ (p - (c i).pt (j / 40)).norm = st.1)

theorem step_iff (hp : Patch.ParamOk ε P) (hc : ∀ i < n, ∃ r, vget P.surf.ribbons i = .ok r ∧ r.curve = c i) {i j : ℕ} (hi : i < n)
    {st : ℝ × Patch ℝ} (hq : Patch.Queried ε P st.2) :
    (∀ p, SideValue ε P i (j / 40) p → ∃ st', positionalStep ε i j st = .ok st') ∧
    ∀ st', positionalStep ε i j st = .ok st' →
      ∃ p, SideValue ε P i (j / 40) p ∧ Patch.Queried ε P st'.2 ∧ st'.1 = max st.1 (p - (c i).pt (j / 40)).norm := by
  obtain ⟨r, hr, hcr⟩ := hc i hi
  have e40 : fdiv (j : ℝ) 40 = .ok (j / 40) := fdiv_of_ne (by norm_num)
  constructor
  · rintro p ⟨uv, P', e1, e2⟩
    obtain ⟨Q, e3⟩ := (hq.eval_iff hp uv p).mpr ⟨P', e2⟩
    unfold positionalStep
    rw [e40, M_bind_ok, hq.dom, e1, M_bind_ok, e3, M_bind_ok, hq.surf, hr, M_bind_ok]
    exact ⟨_, rfl⟩
  · intro st' h
    unfold positionalStep at h
    rw [e40, M_bind_ok, hq.dom, hq.surf] at h
    obtain ⟨uv, e1, h⟩ := bind_ok h
    obtain ⟨x, e2, h⟩ := bind_ok h
    rw [hr, M_bind_ok] at h
    cases h
    obtain ⟨Q, e3⟩ := (hq.eval_iff hp uv x.1).mp ⟨x.2, e2⟩
    exact ⟨x.1, ⟨uv, Q, e1, e3⟩, hq.trans (Patch.eval_queried e2), by rw [hcr]⟩

theorem Tested.next {D : ℕ → ℕ → Prop} {st st' : ℝ × Patch ℝ} (h : Tested ε P c D st) {i j : ℕ} {p : P3 ℝ}
    (hp : SideValue ε P i (j / 40) p) (hq : Patch.Queried ε P st'.2) (he : st'.1 = max st.1 (p - (c i).pt (j / 40)).norm) :
    Tested ε P c (fun a b => D a b ∨ (a = i ∧ b = j)) st' := by
  obtain ⟨_, h0, h1, h2⟩ := h
  refine ⟨hq, by rw [he]; exact le_max_of_le_left h0, ?_, ?_⟩
  · rintro a b (hd | ⟨rfl, rfl⟩)
    · obtain ⟨q, q1, q2⟩ := h1 a b hd
      exact ⟨q, q1, by rw [he]; exact le_max_of_le_left q2⟩
    · exact ⟨p, hp, by rw [he]; exact le_max_right _ _⟩
  · rcases le_total st.1 (p - (c i).pt (j / 40)).norm with hle | hle
    · right
      exact ⟨i, j, p, Or.inr ⟨rfl, rfl⟩, hp, by rw [he, max_eq_right hle]⟩
    · rw [he, max_eq_left hle]
      rcases h2 with h2 | ⟨a, b, q, q1, q2, q3⟩
      · exact Or.inl h2
      · exact Or.inr ⟨a, b, q, Or.inl q1, q2, q3⟩

theorem Tested.congr {D E : ℕ → ℕ → Prop} {st : ℝ × Patch ℝ} (h : Tested ε P c D st) (he : ∀ a b, D a b ↔ E a b) : Tested ε P c E st := by
  have : D = E := by funext a b; exact propext (he a b)
  rw [← this]; exact h

end positional

end Demo

end Transfinite
