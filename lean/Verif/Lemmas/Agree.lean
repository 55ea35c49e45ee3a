import Verif.Prelude
import Mathlib.Data.List.Forall2

/-! Two computations that fail in the same way or have related results. -/

namespace Transfinite

variable {α β γ δ : Type}

/-- Both fail with the same fault, or both succeed with related results. -/
def Agree (r : α → β → Prop) : M α → M β → Prop
  | .ok a, .ok b => r a b
  | .error e, .error f => e = f
  | _, _ => False

namespace Agree

theorem mono {r q : α → β → Prop} {x : M α} {y : M β} (h : Agree r x y) (hq : ∀ a b, r a b → q a b) : Agree q x y := by
  cases x <;> cases y <;> first | exact h | exact hq _ _ h

theorem bind {r : α → β → Prop} {q : γ → δ → Prop} {x : M α} {y : M β} {k : α → M γ} {l : β → M δ} (h : Agree r x y) (hk : ∀ a b, x = .ok a → y = .ok b → r a b → Agree q (k a) (l b)) :
    Agree q (x >>= k) (y >>= l) := by
  cases x <;> cases y
  · exact h
  · exact h.elim
  · exact h.elim
  · exact hk _ _ rfl rfl h

/-- The same computation on both sides. -/
theorem same {q : γ → δ → Prop} {x : M α} {k : α → M γ} {l : α → M δ} (hk : ∀ a, x = .ok a → Agree q (k a) (l a)) : Agree q (x >>= k) (x >>= l) := by
  cases x with
  | error e => rfl
  | ok a => exact hk a rfl

theorem refl {r : α → α → Prop} {x : M α} (h : ∀ a, x = .ok a → r a a) : Agree r x x := by
  cases x with
  | error e => rfl
  | ok a => exact h a rfl

theorem ok {r : α → β → Prop} {x : M α} {y : M β} (h : Agree r x y) {a : α} (e : x = .ok a) : ∃ b, y = .ok b ∧ r a b := by
  subst e
  cases y with
  | error e => exact h.elim
  | ok b => exact ⟨b, rfl, h⟩

theorem ok' {r : α → β → Prop} {x : M α} {y : M β} (h : Agree r x y) {b : β} (e : y = .ok b) : ∃ a, x = .ok a ∧ r a b := by
  subst e
  cases x with
  | error e => exact h.elim
  | ok b => exact ⟨b, rfl, h⟩

theorem error_iff {r : α → β → Prop} {x : M α} {y : M β} (h : Agree r x y) (e : Fault) : x = .error e ↔ y = .error e := by
  cases x <;> cases y
  · rename_i a b
    have h : a = b := h
    subst h
    exact ⟨fun h => by cases h; rfl, fun h => by cases h; rfl⟩
  · exact h.elim
  · exact h.elim
  · exact ⟨(fun h => by cases h), (fun h => by cases h)⟩

theorem results {r : α → β → Prop} {x : M α} {y : M β} (h : Agree r x y) : Agree (fun a b => r a b ∧ x = .ok a ∧ y = .ok b) x y := by
  cases x <;> cases y
  · exact h
  · exact h.elim
  · exact h.elim
  · exact ⟨h, rfl, rfl⟩

theorem loop {n : ℕ} {f : ℕ → α → M α} {f' : ℕ → β → M β} (I : ℕ → α → β → Prop) {s : α} {s' : β} (h0 : I 0 s s')
    (hs : ∀ i < n, ∀ a b, I i a b → Agree (I (i + 1)) (f i a) (f' i b)) : Agree (I n) (forLoop n f s) (forLoop n f' s') := by
  induction n with
  | zero => exact h0
  | succ n ih =>
    rw [forLoop_succ, forLoop_succ]
    exact (ih fun i hi => hs i (by omega)).bind fun a b _ _ h => hs n (by omega) a b h

theorem vget {r : α → β → Prop} {l : List α} {l' : List β} (h : List.Forall₂ r l l') (i : ℕ) : Agree r (vget l i) (vget l' i) := by
  induction h generalizing i with
  | nil => rfl
  | cons h _ ih =>
    cases i with
    | zero => exact h
    | succ i => exact ih i

theorem vset {r : α → β → Prop} {l : List α} {l' : List β} (h : List.Forall₂ r l l') (i : ℕ) {a : α} {b : β} (hab : r a b) : Agree (List.Forall₂ r) (vset l i a) (vset l' i b) := by
  unfold Transfinite.vset
  rw [← h.length_eq]
  split_ifs with hi
  · change List.Forall₂ r _ _
    clear hi
    induction h generalizing i with
    | nil => exact List.Forall₂.nil
    | cons h t ih =>
      cases i with
      | zero => exact List.Forall₂.cons hab t
      | succ i => exact List.Forall₂.cons h (ih i)
  · rfl

end Agree

end Transfinite
