import Verif.Lemmas.Lists
import Mathlib.Data.List.Rotate
import Mathlib.Algebra.BigOperators.Group.List.Basic

/-! Computations on cyclically shifted data. -/

namespace Transfinite

variable {α β γ δ : Type}

/-- Alike fail (not necessarily with the same fault), or both succeed with related results. -/
def Alike (r : α → β → Prop) : M α → M β → Prop
  | .ok a, .ok b => r a b
  | .error _, .error _ => True
  | _, _ => False

namespace Alike

theorem mono {r q : α → β → Prop} {x : M α} {y : M β} (h : Alike r x y) (hq : ∀ a b, r a b → q a b) : Alike q x y := by
  cases x <;> cases y <;> first | exact h | exact hq _ _ h

theorem bind {r : α → β → Prop} {q : γ → δ → Prop} {x : M α} {y : M β} {k : α → M γ} {l : β → M δ} (h : Alike r x y) (hk : ∀ a b, x = .ok a → y = .ok b → r a b → Alike q (k a) (l b)) :
    Alike q (x >>= k) (y >>= l) := by
  cases x <;> cases y
  · trivial
  · exact h.elim
  · exact h.elim
  · exact hk _ _ rfl rfl h

/-- The same results on both sides. -/
theorem bindEq {q : γ → δ → Prop} {x y : M α} {k : α → M γ} {l : α → M δ} (h : Alike (· = ·) x y) (hk : ∀ a, x = .ok a → y = .ok a → Alike q (k a) (l a)) :
    Alike q (x >>= k) (y >>= l) :=
  h.bind fun a b h1 h2 e => by subst e; exact hk a h1 h2

theorem refl (x : M α) : Alike (· = ·) x x := by
  cases x
  · trivial
  · exact rfl

theorem of_eq {x y : M α} (h : x = y) : Alike (· = ·) x y := h ▸ refl x

/-- The same computation on both sides. -/
theorem same {q : γ → δ → Prop} {x : M α} {k : α → M γ} {l : α → M δ} (hk : ∀ a, x = .ok a → Alike q (k a) (l a)) : Alike q (x >>= k) (x >>= l) :=
  (refl x).bindEq fun a h _ => hk a h

theorem ok {r : α → β → Prop} {x : M α} {y : M β} (h : Alike r x y) {a : α} (e : x = .ok a) : ∃ b, y = .ok b ∧ r a b := by
  subst e
  cases y with
  | error e => exact h.elim
  | ok b => exact ⟨b, rfl, h⟩

theorem ok' {r : α → β → Prop} {x : M α} {y : M β} (h : Alike r x y) {b : β} (e : y = .ok b) : ∃ a, x = .ok a ∧ r a b := by
  subst e
  cases x with
  | error e => exact h.elim
  | ok b => exact ⟨b, rfl, h⟩

theorem symm {r : α → β → Prop} {x : M α} {y : M β} (h : Alike r x y) : Alike (fun b a => r a b) y x := by
  cases x <;> cases y <;> exact h

end Alike

/-! ### Indices -/

/-- The index `k` places later on the circle. -/
def sh (n k i : ℕ) : ℕ := (i + k) % n

variable {n k i : ℕ}

theorem sh_lt (hn : 0 < n) : sh n k i < n := Nat.mod_lt _ hn

theorem next_sh (j : ℕ) : nextIx n (sh n k i) j = sh n k (nextIx n i j) := by
  unfold sh nextIx
  rw [Nat.mod_add_mod, Nat.mod_add_mod, Nat.add_right_comm]

theorem prev_sh {j : ℕ} (hj : j ≤ n) : prevIx n (sh n k i) j = sh n k (prevIx n i j) := by
  unfold sh prevIx
  rw [Nat.add_sub_assoc hj, Nat.add_sub_assoc hj, Nat.mod_add_mod, Nat.mod_add_mod, Nat.add_right_comm]

/-- The inverse of `sh`. -/
def unsh (n k i : ℕ) : ℕ := (i + (n - k % n)) % n

theorem unsh_lt (hn : 0 < n) : unsh n k i < n := Nat.mod_lt _ hn

theorem sh_unsh (hn : 0 < n) (hi : i < n) : sh n k (unsh n k i) = i := by
  unfold sh unsh
  rw [Nat.mod_add_mod]
  have h := Nat.mod_lt k hn
  have : i + (n - k % n) + k = i + n * (1 + k / n) := by
    have := Nat.mod_add_div k n
    rw [mul_add, mul_one]
    omega
  rw [this, Nat.add_mul_mod_self_left, Nat.mod_eq_of_lt hi]

theorem unsh_sh (hn : 0 < n) (hi : i < n) : unsh n k (sh n k i) = i := by
  unfold sh unsh
  rw [Nat.mod_add_mod]
  have h := Nat.mod_lt k hn
  have : i + k + (n - k % n) = i + n * (1 + k / n) := by
    have := Nat.mod_add_div k n
    rw [mul_add, mul_one]
    omega
  rw [this, Nat.add_mul_mod_self_left, Nat.mod_eq_of_lt hi]

theorem sum_sh [AddCommMonoid α] (hn : 0 < n) (f : ℕ → α) : ∑ i ∈ Finset.range n, f (sh n k i) = ∑ i ∈ Finset.range n, f i := by
  refine Finset.sum_nbij' (sh n k) (unsh n k) (fun i _ => Finset.mem_range.mpr (sh_lt hn)) (fun i _ => Finset.mem_range.mpr (unsh_lt hn)) (fun i hi => ?_) (fun i hi => ?_) fun i _ => rfl
  · exact unsh_sh hn (Finset.mem_range.mp hi)
  · exact sh_unsh hn (Finset.mem_range.mp hi)

/-! ### Lists -/

/-- The second list is the first one, starting `k` places later. -/
structure Rot (n k : ℕ) (l l' : List α) : Prop where
  eq : l' = l.rotate k
  len : l.length = n ∨ l = []

namespace Rot

theorem length {l l' : List α} (h : Rot n k l l') : l'.length = l.length := by
  rw [h.eq, List.length_rotate]

theorem getElem? {l l' : List α} (h : Rot n k l l') (hi : i < n) : l'[i]? = l[sh n k i]? := by
  rcases h.len with e | e
  · rw [h.eq, List.getElem?_rotate (by omega), e]
    rfl
  · rw [h.eq, e]
    rfl

theorem vget {l l' : List α} (h : Rot n k l l') (hi : i < n) : vget l (sh n k i) = vget l' i := by
  unfold Transfinite.vget
  rw [h.getElem? hi]

theorem of_get {l l' : List α} (h : l.length = n) (h' : l'.length = n) (hg : ∀ i < n, l'[i]? = l[sh n k i]?) : Rot n k l l' := by
  refine ⟨List.ext_getElem? fun i => ?_, Or.inl h⟩
  by_cases hi : i < n
  · rw [hg i hi, List.getElem?_rotate (by omega), h]
    rfl
  · rw [List.getElem?_eq_none (by omega), List.getElem?_eq_none (by rw [List.length_rotate]; omega)]

theorem nil : Rot n k ([] : List α) [] := ⟨rfl, Or.inr rfl⟩

theorem of_tab {f f' : ℕ → α} (h : ∀ i < n, f' i = f (sh n k i)) : Rot n k (tab n f) (tab n f') := by
  rcases Nat.eq_zero_or_pos n with h0 | h0
  · subst h0
    exact nil
  refine of_get (length_tab _ _) (length_tab _ _) fun i hi => ?_
  rw [vget_eq_ok.mp (vget_tab f' hi), vget_eq_ok.mp (vget_tab f (sh_lt h0)), h i hi]

theorem perm {l l' : List α} (h : Rot n k l l') : l'.Perm l := h.eq ▸ List.rotate_perm l k

theorem sum [AddCommMonoid α] {l l' : List α} (h : Rot n k l l') : l'.sum = l.sum := h.perm.sum_eq

theorem countP {l l' : List α} (h : Rot n k l l') (p : α → Bool) : l'.countP p = l.countP p := h.perm.countP_eq p

theorem map {l l' : List α} (h : Rot n k l l') (f : α → β) : Rot n k (l.map f) (l'.map f) := by
  refine ⟨by rw [h.eq, List.map_rotate], h.len.imp (fun h => by rw [List.length_map, h]) fun h => by rw [h]; rfl⟩

theorem set {l l' : List α} (h : Rot n k l l') (hi : i < n) (a : α) : Rot n k (l.set (sh n k i) a) (l'.set i a) := by
  rcases h.len with e | e
  · refine of_get (by rw [List.length_set, e]) (by rw [List.length_set, h.length, e]) fun j hj => ?_
    have hn : 0 < n := by omega
    rw [List.getElem?_set, List.getElem?_set, h.length, e, if_pos hi, if_pos (sh_lt hn), h.getElem? hj]
    by_cases hij : i = j
    · rw [if_pos hij, if_pos (by rw [hij])]
    · rw [if_neg hij, if_neg fun e => hij ?_]
      rw [← unsh_sh hn hi (k := k), e, unsh_sh hn hj]
  · rw [h.eq, e]
    exact nil

end Rot

namespace Alike

theorem vget {l l' : List α} (h : Rot n k l l') (hi : i < n) : Alike (· = ·) (vget l (sh n k i)) (vget l' i) := of_eq (h.vget hi)

theorem vset {l l' : List α} (h : Rot n k l l') (hi : i < n) (a : α) : Alike (Rot n k) (vset l (sh n k i) a) (vset l' i a) := by
  unfold Transfinite.vset
  rw [h.length]
  rcases h.len with e | e
  · rw [if_pos (by rw [e]; exact sh_lt (by omega)), if_pos (by rw [e]; exact hi)]
    exact h.set hi a
  · rw [e, if_neg (by simp), if_neg (by simp)]
    trivial

/-! ### Loops -/

theorem loop_fails {σ : Type} {b : ℕ → σ → M σ} {s : σ} (hi : i < n) (h : ∀ s, ∃ e, b i s = .error e) : ∃ e, forLoop n b s = .error e := by
  induction n with
  | zero => omega
  | succ n ih =>
    rw [forLoop_succ]
    by_cases hin : i = n
    · subst hin
      cases forLoop i b s with
      | error e => exact ⟨e, rfl⟩
      | ok x => exact h x
    · obtain ⟨e, he⟩ := ih (by omega)
      rw [he]
      exact ⟨e, rfl⟩

theorem push_ok {f : ℕ → M α} {v : ℕ → α} (h : ∀ i < n, f i = .ok (v i)) : (forLoop n (fun i (l : List α) => do let x ← f i; .ok (l ++ [x])) [] : M (List α)) = .ok (tab n v) := by
  rw [forLoop_push n _ v _ fun k s hk => by rw [h k hk, M_bind_ok]]
  rfl

/-- Loops that append one element in each step. -/
theorem push {f f' : ℕ → M α} (h : ∀ i < n, Alike (· = ·) (f (sh n k i)) (f' i)) :
    Alike (Rot n k) (forLoop n (fun i (l : List α) => do let x ← f i; .ok (l ++ [x])) []) (forLoop n (fun i (l : List α) => do let x ← f' i; .ok (l ++ [x])) []) := by
  rcases Nat.eq_zero_or_pos n with h0 | h0
  · subst h0
    exact Rot.nil
  by_cases hf : ∃ i < n, ∃ e, f' i = .error e
  · obtain ⟨i, hi, e, he⟩ := hf
    have h1 := h i hi
    rw [he] at h1
    obtain ⟨e2, h2⟩ : ∃ e, f (sh n k i) = .error e := by
      cases q : f (sh n k i) with
      | error e => exact ⟨e, rfl⟩
      | ok x => rw [q] at h1; exact h1.elim
    obtain ⟨a, ha⟩ := loop_fails (b := fun i (l : List α) => (do let x ← f i; .ok (l ++ [x]) : M (List α))) (s := []) (sh_lt h0 (k := k) (i := i)) fun s => ⟨e2, by rw [h2]; rfl⟩
    obtain ⟨b, hb⟩ := loop_fails (b := fun i (l : List α) => (do let x ← f' i; .ok (l ++ [x]) : M (List α))) (s := []) hi fun s => ⟨e, by rw [he]; rfl⟩
    rw [ha, hb]
    trivial
  · have h1 : ∀ i < n, ∃ x, f' i = .ok x := fun i hi => by
      cases q : f' i with
      | error e => exact absurd ⟨i, hi, e, q⟩ hf
      | ok x => exact ⟨x, rfl⟩
    obtain ⟨x0, -⟩ := h1 0 h0
    haveI : Inhabited α := ⟨x0⟩
    choose! v hv using h1
    have h2 : ∀ i < n, f i = .ok (v (unsh n k i)) := fun i hi => by
      have := h (unsh n k i) (unsh_lt h0)
      rw [sh_unsh h0 hi] at this
      obtain ⟨a, e1, e2⟩ := this.ok' (hv _ (unsh_lt h0))
      rw [e1, e2]
    rw [push_ok h2, push_ok hv]
    exact Rot.of_tab fun i hi => by rw [unsh_sh h0 hi]

theorem sum_of_push [AddCommMonoid α] (n : ℕ) (f : ℕ → M α) :
    forLoop n (fun i p => do let q ← f i; .ok (p + q)) 0 = (do let l ← forLoop n (fun i (l : List α) => do let x ← f i; .ok (l ++ [x])) []; .ok l.sum : M α) := by
  induction n with
  | zero => rfl
  | succ n ih =>
    rw [forLoop_succ, ih, forLoop_succ]
    cases forLoop n (fun i (l : List α) => (do let x ← f i; .ok (l ++ [x]) : M (List α))) [] with
    | error e => rfl
    | ok l =>
      rw [M_bind_ok, M_bind_ok, M_bind_ok]
      cases f n with
      | error e => rfl
      | ok x =>
        rw [M_bind_ok, M_bind_ok, M_bind_ok, List.sum_append, List.sum_singleton]

/-- Loops that add up. -/
theorem sum [AddCommMonoid α] {f f' : ℕ → M α} (h : ∀ i < n, Alike (· = ·) (f (sh n k i)) (f' i)) :
    Alike (· = ·) (forLoop n (fun i p => do let q ← f i; .ok (p + q)) 0) (forLoop n (fun i p => do let q ← f' i; .ok (p + q)) 0) := by
  rw [sum_of_push, sum_of_push]
  refine (push h).bind fun a b _ _ hab => ?_
  exact hab.sum.symm

theorem mapM_eq (l : List α) (f : α → M β) : l.mapM f = forLoop l.length (fun i (r : List β) => do let x ← (Transfinite.vget l i >>= f); .ok (r ++ [x])) [] := by
  induction l using List.reverseRecOn with
  | nil => rfl
  | append_singleton l a ih =>
    rw [List.mapM_append, ih, List.length_append, List.length_singleton, forLoop_succ]
    have : forLoop l.length (fun i (r : List β) => do let x ← (Transfinite.vget (l ++ [a]) i >>= f); .ok (r ++ [x])) [] =
        forLoop l.length (fun i (r : List β) => do let x ← (Transfinite.vget l i >>= f); .ok (r ++ [x])) [] := by
      refine forLoop_congr _ fun i s hi => ?_
      unfold Transfinite.vget
      rw [List.getElem?_append_left hi]
    rw [this]
    cases forLoop l.length (fun i (r : List β) => (do let x ← (Transfinite.vget l i >>= f); .ok (r ++ [x]) : M (List β))) [] with
    | error e => rfl
    | ok r =>
      have : Transfinite.vget (l ++ [a]) l.length = .ok a := by
        unfold Transfinite.vget
        simp
      rw [M_bind_ok, M_bind_ok, this, M_bind_ok]
      simp only [List.mapM_cons, List.mapM_nil]
      cases f a <;> rfl

theorem mapM {l l' : List α} (h : Rot n k l l') {f f' : α → M β} (hf : ∀ x, Alike (· = ·) (f x) (f' x)) : Alike (Rot n k) (l.mapM f) (l'.mapM f') := by
  rcases h.len with e | e
  · rw [mapM_eq, mapM_eq, h.length, e]
    refine push fun i hi => ?_
    rw [h.vget hi]
    exact (refl _).bindEq fun a _ _ => hf a
  · rw [h.eq, e]
    exact Rot.nil

end Alike

end Transfinite
