import Verif.Lemmas.Lists
import Verif.Model.Domain
import Verif.Spec.Mesh
import Mathlib.Data.Nat.ModEq

namespace Transfinite

open Spec

universe u

theorem forLoop_flatMap {β : Type u} (n : ℕ) (body : ℕ → List β → M (List β)) (g : ℕ → List β)
    (s : List β) (h : ∀ k s, k < n → body k s = .ok (s ++ g k)) :
    forLoop n body s = .ok (s ++ (List.range n).flatMap g) := by
  apply forLoop_eq (fun m => s ++ (List.range m).flatMap g)
  · simp
  · intro k hk; rw [h k _ hk, List.range_succ]; simp

/-- Indexing into concatenated blocks. -/
theorem getElem?_flatMap_range {β : Type u} (m : ℕ) (g : ℕ → List β) (off : ℕ → ℕ) (h0 : off 0 = 0)
    (hs : ∀ k < m, off (k + 1) = off k + (g k).length) {k j : ℕ} (hk : k < m)
    (hj : j < (g k).length) : ((List.range m).flatMap g)[off k + j]? = (g k)[j]? := by
  have hlen : ∀ m' ≤ m, ((List.range m').flatMap g).length = off m' := by
    intro m' hm'
    induction m' with
    | zero => simp [h0]
    | succ q ih => rw [List.range_succ, List.flatMap_append, List.length_append, ih (by omega),
        hs q (by omega)]; simp
  induction m with
  | zero => omega
  | succ m ih =>
    rw [List.range_succ, List.flatMap_append]
    by_cases hkm : k = m
    · subst hkm
      rw [List.getElem?_append_right (by rw [hlen k (by omega)]; omega), hlen k (by omega)]
      simp
    · have : off k + j < ((List.range m).flatMap g).length := by
        rw [hlen m (by omega)]
        have mono : ∀ a b, a ≤ b → b ≤ m → off a ≤ off b := by
          intro a b hab hb
          induction b with
          | zero => simp_all
          | succ b ih2 =>
            rcases Nat.eq_or_lt_of_le hab with h | h
            · rw [h]
            · have := ih2 (by omega) (by omega)
              have := hs b (by omega)
              omega
        have := mono (k + 1) m (by omega) le_rfl
        have := hs k (by omega)
        omega
      rw [List.getElem?_append_left this]
      exact ih (fun k hk => hs k (by omega)) (by omega) (fun m' hm' => hlen m' (by omega))

theorem length_flatMap_range {β : Type u} (m : ℕ) (g : ℕ → List β) (off : ℕ → ℕ) (h0 : off 0 = 0)
    (hs : ∀ k < m, off (k + 1) = off k + (g k).length) :
    ((List.range m).flatMap g).length = off m := by
  induction m with
  | zero => simp [h0]
  | succ q ih =>
    rw [List.range_succ, List.flatMap_append, List.length_append, ih (fun k hk => hs k (by omega)),
        hs q (by omega)]; simp

theorem nodup_flatMap_of {ι β : Type*} {l : List ι} {f : ι → List β} (hl : l.Nodup)
    (h1 : ∀ x ∈ l, (f x).Nodup) (h2 : ∀ x ∈ l, ∀ y ∈ l, ∀ e, e ∈ f x → e ∈ f y → x = y) :
    (l.flatMap f).Nodup := by
  rw [List.nodup_flatMap]
  refine ⟨h1, ?_⟩
  rw [List.pairwise_iff_getElem]
  intro i j hi hj hij e he1 he2
  have := h2 _ (List.getElem_mem hi) _ (List.getElem_mem hj) e he1 he2
  have := (hl.getElem_inj_iff).mp this
  omega

/-- Triangular numbers. -/
def triNum : ℕ → ℕ
  | 0 => 0
  | i + 1 => triNum i + (i + 1)

@[simp] theorem triNum_zero : triNum 0 = 0 := rfl
theorem triNum_succ (i : ℕ) : triNum (i + 1) = triNum i + (i + 1) := rfl

theorem triNum_mul_two (i : ℕ) : triNum i * 2 = i * (i + 1) := by
  induction i with
  | zero => rfl
  | succ i ih => rw [triNum_succ, add_mul, ih]; ring

theorem triNum_eq (i : ℕ) : i * (i + 1) / 2 = triNum i := by
  rw [← triNum_mul_two]; omega

theorem triNum_mono {i j : ℕ} (h : i ≤ j) : triNum i ≤ triNum j := by
  induction j with
  | zero => simp_all
  | succ j ih =>
    rcases Nat.eq_or_lt_of_le h with h | h
    · rw [h]
    · have := ih (by omega); rw [triNum_succ]; omega

/-- Decoding of triangular indices is unique. -/
theorem triNum_decode {j k j' k' : ℕ} (hk : k ≤ j) (hk' : k' ≤ j')
    (h : triNum j + k = triNum j' + k') : j = j' ∧ k = k' := by
  have : j = j' := by
    rcases Nat.lt_trichotomy j j' with h1 | h1 | h1
    · have := triNum_mono (show j + 1 ≤ j' from h1); rw [triNum_succ] at this; omega
    · exact h1
    · have := triNum_mono (show j' + 1 ≤ j from h1); rw [triNum_succ] at this; omega
  subst this; exact ⟨rfl, by omega⟩

/-- Every index is in some row. -/
theorem triNum_exists (i : ℕ) : ∃ j k, k ≤ j ∧ i = triNum j + k := by
  induction i with
  | zero => exact ⟨0, 0, le_rfl, rfl⟩
  | succ i ih =>
    obtain ⟨j, k, h, rfl⟩ := ih
    by_cases hk : k = j
    · exact ⟨j + 1, 0, by omega, by rw [triNum_succ]; omega⟩
    · exact ⟨j, k + 1, by omega, by omega⟩

theorem meshEdges_append (a b : List (ℕ × ℕ × ℕ)) :
    meshEdges (a ++ b) = meshEdges a ++ meshEdges b := by simp [meshEdges]

theorem meshEdges_flatMap {ι : Type*} (l : List ι) (f : ι → List (ℕ × ℕ × ℕ)) :
    meshEdges (l.flatMap f) = l.flatMap (fun x => meshEdges (f x)) := by
  simp [meshEdges, List.flatMap_assoc]

/-- Assembling `BoundaryLoop` from the memberships. -/
theorem boundaryLoop_of {ts : List (ℕ × ℕ × ℕ)} {m : ℕ} {b : ℕ → ℕ} (hn : OrientedManifold ts)
    (hinj : ∀ p < m, ∀ q < m, b p = b q → p = q)
    (hmem : ∀ e, (e ∈ meshEdges ts ∧ e.swap ∉ meshEdges ts) ↔
      ∃ p < m, e = (b p, b ((p + 1) % m))) : BoundaryLoop ts m b := by
  refine ⟨hinj, ?_⟩
  have h1 : (boundaryEdges ts).Nodup := List.Nodup.filter _ hn
  have h2 : ((List.range m).map fun p => (b p, b ((p + 1) % m))).Nodup := by
    apply List.Nodup.map_on _ List.nodup_range
    intro x hx y hy h
    exact hinj x (List.mem_range.mp hx) y (List.mem_range.mp hy) (Prod.mk.inj h).1
  rw [List.perm_ext_iff_of_nodup h1 h2]
  intro e
  simp only [boundaryEdges, List.mem_filter, decide_eq_true_eq, List.mem_map, List.mem_range]
  rw [hmem]
  constructor
  · rintro ⟨p, hp, rfl⟩; exact ⟨p, hp, rfl⟩
  · rintro ⟨p, hp, rfl⟩; exact ⟨p, hp, rfl⟩

/-- Boundary vertices are the vertices of the loop. -/
theorem isBoundaryVertex_iff_of_loop {ts : List (ℕ × ℕ × ℕ)} {m : ℕ} {b : ℕ → ℕ}
    (h : BoundaryLoop ts m b) (i : ℕ) : IsBoundaryVertex ts i ↔ ∃ p < m, b p = i := by
  have key : ∀ e, (e ∈ meshEdges ts ∧ e.swap ∉ meshEdges ts) ↔
      ∃ p < m, (b p, b ((p + 1) % m)) = e := by
    intro e
    have := h.2.mem_iff (a := e)
    simpa [boundaryEdges, List.mem_filter] using this
  constructor
  · rintro ⟨e, he, hs, h1⟩
    obtain ⟨p, hp, rfl⟩ := (key e).mp ⟨he, hs⟩
    rcases h1 with h1 | h1
    · exact ⟨p, hp, h1⟩
    · exact ⟨(p + 1) % m, Nat.mod_lt _ (by omega), h1⟩
  · rintro ⟨p, hp, rfl⟩
    obtain ⟨he, hs⟩ := (key _).mpr ⟨p, hp, rfl⟩
    exact ⟨_, he, hs, Or.inl rfl⟩

end Transfinite
