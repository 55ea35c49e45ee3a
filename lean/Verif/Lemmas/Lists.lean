import Verif.Prelude
import Mathlib.Logic.Function.Basic
import Mathlib.Algebra.BigOperators.Group.List.Basic

/-! Helper lemmas on lists given by a function on an index range. -/

namespace Transfinite

universe u
variable {α : Type u}

/-- The list `[f 0, ..., f (n-1)]`. -/
abbrev tab (n : ℕ) (f : ℕ → α) : List α := (List.range n).map f

@[simp] theorem length_tab (n : ℕ) (f : ℕ → α) : (tab n f).length = n := by simp [tab]

theorem tab_congr {n : ℕ} {f g : ℕ → α} (h : ∀ i < n, f i = g i) : tab n f = tab n g := by
  apply List.map_congr_left; intro i hi; exact h i (List.mem_range.mp hi)

theorem vget_tab {n i : ℕ} (f : ℕ → α) (h : i < n) : vget (tab n f) i = .ok (f i) :=
  vget_ofFn_range f h

theorem set_tab {n i : ℕ} (f : ℕ → α) (a : α) :
    (tab n f).set i a = tab n (Function.update f i a) := by
  apply List.ext_getElem
  · simp
  · intro k h1 h2
    simp only [tab, List.getElem_set, List.getElem_map, List.getElem_range, Function.update_apply]
    by_cases h : i = k
    · simp [h]
    · simp [h, Ne.symm h]

theorem vset_tab {n i : ℕ} (f : ℕ → α) (a : α) (h : i < n) :
    vset (tab n f) i a = .ok (tab n (Function.update f i a)) := by
  rw [vset_of_lt (by simpa using h), set_tab]

theorem tab_succ (n : ℕ) (f : ℕ → α) : tab (n + 1) f = tab n f ++ [f n] := by
  simp [tab, List.range_succ]

theorem tab_push (n : ℕ) (f : ℕ → α) (a : α) :
    tab n f ++ [a] = tab (n + 1) (Function.update f n a) := by
  rw [tab_succ]; simp
  intro i hi; rw [Function.update_of_ne (by omega)]

theorem replicate_eq_tab (n : ℕ) (a : α) : List.replicate n a = tab n (fun _ => a) := by
  simp [tab]

theorem eq_tab_of_get {n : ℕ} {l : List α} {f : ℕ → α} (hl : l.length = n)
    (h : ∀ i (hi : i < l.length), l[i] = f i) : l = tab n f := by
  apply List.ext_getElem
  · simp [hl]
  · intro i h1 h2; simp [tab, h i h1]

theorem exists_tab [Inhabited α] (l : List α) : ∃ f, l = tab l.length f :=
  ⟨fun i => l.getD i default, eq_tab_of_get rfl (by intro i hi; simp [hi])⟩

theorem sum_tab {β : Type*} [AddCommMonoid β] (n : ℕ) (f : ℕ → β) :
    (tab n f).sum = ∑ i ∈ Finset.range n, f i := by
  induction n with
  | zero => simp [tab]
  | succ n ih => rw [tab_succ, List.sum_append, ih, Finset.sum_range_succ]; simp

theorem tab_inj {n : ℕ} {f g : ℕ → α} (h : tab n f = tab n g) {i : ℕ} (hi : i < n) : f i = g i := by
  have h1 := vget_tab f hi
  rw [h, vget_tab g hi] at h1
  exact (Except.ok.inj h1).symm

end Transfinite
