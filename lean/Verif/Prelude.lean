import Mathlib.Algebra.Order.Field.Basic
import Mathlib.Algebra.BigOperators.Intervals
import Mathlib.Algebra.BigOperators.Group.Finset.Basic
import Mathlib.Tactic.Ring
import Mathlib.Tactic.Linarith
import Mathlib.Tactic.FieldSimp
import Mathlib.Tactic.NormNum

/-!
# Prelude: outcomes of C++ code, checked accesses and loops

The C++ code is modelled by total functions into `M α = Except Fault α`.
Out-of-range accesses, divisions by zero, thrown exceptions and failed assertions are distinct
outcomes, so a theorem whose conclusion is `f x = .ok y` also claims that none of them happens.
-/

namespace Transfinite

universe u

/-- Abnormal outcomes of the modelled code. -/
inductive Fault where
  /-- `operator[]` outside of the vector (undefined behaviour in C++) -/
  | oob
  /-- floating-point division by zero (the C++ code would continue with inf/nan) -/
  | divZero
  /-- dereferencing an empty `shared_ptr` (undefined behaviour in C++) -/
  | nullPtr
  /-- a `throw` in the code -/
  | exception
  /-- a failing `assert` -/
  | assertion
  /-- a loop that does not terminate -/
  | diverge
  /-- a conversion of a number to an integer type that cannot hold it (unspecified result in C++) -/
  | overflow
  deriving DecidableEq, Repr

/-- Computations of the modelled code. -/
abbrev M (α : Type*) := Except Fault α

/-- Checked `v[i]` (reading). -/
def vget {α : Type*} (l : List α) (i : ℕ) : M α :=
  match l[i]? with
  | some a => .ok a
  | none => .error .oob

/-- Checked `v[i] = a` (writing). -/
def vset {α : Type*} (l : List α) (i : ℕ) (a : α) : M (List α) :=
  if i < l.length then .ok (l.set i a) else .error .oob

/-- Checked floating-point division. -/
def fdiv {K : Type*} [Field K] [DecidableEq K] (x y : K) : M K :=
  if y = 0 then .error .divZero else .ok (x / y)

/-- `for (size_t i = 0; i < n; ++i) body(i)` acting on a state. -/
def forLoop {σ : Type*} (n : ℕ) (body : ℕ → σ → M σ) (s : σ) : M σ :=
  match n with
  | 0 => .ok s
  | k + 1 => do
    let s' ← forLoop k body s
    body k s'

/-- `Domain::next(i, j)` / `Surface::next(i, j)`: domain.hh / surface.cc `(i + j) % n_`. -/
def nextIx (n i : ℕ) (j : ℕ := 1) : ℕ := (i + j) % n

/-- `Domain::prev(i, j)` / `Surface::prev(i, j)`: `(i + n_ - j) % n_`. -/
def prevIx (n i : ℕ) (j : ℕ := 1) : ℕ := (i + n - j) % n

section lemmas

variable {α σ : Type*}

@[simp] theorem M_bind_ok {α β : Type u} (a : α) (f : α → M β) :
    ((Except.ok a : M α) >>= f) = f a := rfl

@[simp] theorem M_bind_error {α β : Type u} (e : Fault) (f : α → M β) :
    ((Except.error e : M α) >>= f) = Except.error e := rfl

@[simp] theorem M_pure {α : Type*} (a : α) : (pure a : M α) = Except.ok a := rfl

@[simp] theorem M_map_ok {α β : Type u} (a : α) (f : α → β) :
    (f <$> (Except.ok a : M α)) = Except.ok (f a) := rfl

theorem vget_of_lt {l : List α} {i : ℕ} (h : i < l.length) : vget l i = .ok l[i] := by
  simp [vget, h]

theorem vget_eq_ok {l : List α} {i : ℕ} {a : α} : vget l i = .ok a ↔ l[i]? = some a := by
  unfold vget; cases l[i]? <;> simp

theorem vget_oob {l : List α} {i : ℕ} (h : l.length ≤ i) : vget l i = .error .oob := by
  simp [vget, h]

theorem vget_ofFn_range {n i : ℕ} (f : ℕ → α) (h : i < n) :
    vget ((List.range n).map f) i = .ok (f i) := by
  simp [vget, h]

@[simp] theorem vget_map {α β : Type u} (l : List α) (f : α → β) (i : ℕ) :
    vget (l.map f) i = f <$> vget l i := by
  unfold vget; simp only [List.getElem?_map]; cases l[i]? <;> rfl

theorem vset_of_lt {l : List α} {i : ℕ} (h : i < l.length) (a : α) :
    vset l i a = .ok (l.set i a) := by simp [vset, h]

theorem fdiv_of_ne {K : Type*} [Field K] [DecidableEq K] {x y : K} (h : y ≠ 0) :
    fdiv x y = .ok (x / y) := by simp [fdiv, h]

@[simp] theorem fdiv_zero {K : Type*} [Field K] [DecidableEq K] (x : K) :
    fdiv x 0 = .error .divZero := by simp [fdiv]

@[simp] theorem forLoop_zero (body : ℕ → σ → M σ) (s : σ) : forLoop 0 body s = .ok s := rfl

theorem forLoop_succ (n : ℕ) (body : ℕ → σ → M σ) (s : σ) :
    forLoop (n + 1) body s = (forLoop n body s >>= body n) := rfl

/-- Invariant rule for loops: if the invariant is kept by each step (which must not fail),
the loop succeeds and the invariant holds at the end. -/
theorem forLoop_inv {n : ℕ} {body : ℕ → σ → M σ} {s : σ} (I : ℕ → σ → Prop) (h0 : I 0 s)
    (hs : ∀ k s, k < n → I k s → ∃ s', body k s = .ok s' ∧ I (k + 1) s') :
    ∃ s', forLoop n body s = .ok s' ∧ I n s' := by
  induction n with
  | zero => exact ⟨s, rfl, h0⟩
  | succ n ih =>
    obtain ⟨s1, e1, i1⟩ := ih (fun k s hk => hs k s (Nat.lt_succ_of_lt hk))
    obtain ⟨s2, e2, i2⟩ := hs n s1 (Nat.lt_succ_self n) i1
    exact ⟨s2, by rw [forLoop_succ, e1]; exact e2, i2⟩

/-- A loop whose state after `k` steps is known to be `f k`. -/
theorem forLoop_eq {n : ℕ} {body : ℕ → σ → M σ} {s : σ} (f : ℕ → σ) (h0 : f 0 = s)
    (hs : ∀ k, k < n → body k (f k) = .ok (f (k + 1))) :
    forLoop n body s = .ok (f n) := by
  obtain ⟨s', e, rfl⟩ := forLoop_inv (body := body) (s := s) (n := n) (fun k s => s = f k) h0.symm
    (by rintro k s hk rfl; exact ⟨_, hs k hk, rfl⟩)
  exact e

/-- Two loops with bodies that agree in range agree. -/
theorem forLoop_congr {n : ℕ} {b1 b2 : ℕ → σ → M σ} (s : σ) (h : ∀ k s, k < n → b1 k s = b2 k s) :
    forLoop n b1 s = forLoop n b2 s := by
  induction n with
  | zero => rfl
  | succ n ih =>
    rw [forLoop_succ, forLoop_succ, ih (fun k s hk => h k s (Nat.lt_succ_of_lt hk))]
    congr 1; funext s; exact h n s (Nat.lt_succ_self n)

/-- Accumulating loop `acc += f(i)` over an additive monoid. -/
theorem forLoop_sum {β : Type*} [AddCommMonoid β] (n : ℕ) (body : ℕ → β → M β) (f : ℕ → β) (s : β)
    (h : ∀ k s, k < n → body k s = .ok (s + f k)) :
    forLoop n body s = .ok (s + ∑ k ∈ Finset.range n, f k) := by
  apply forLoop_eq (fun m => s + ∑ k ∈ Finset.range m, f k)
  · simp
  · intro k hk; rw [h k _ hk, Finset.sum_range_succ, add_assoc]

/-- Loop `v.push_back(f(i))`. -/
theorem forLoop_push {β : Type*} (n : ℕ) (body : ℕ → List β → M (List β)) (f : ℕ → β) (s : List β)
    (h : ∀ k s, k < n → body k s = .ok (s ++ [f k])) :
    forLoop n body s = .ok (s ++ (List.range n).map f) := by
  apply forLoop_eq (fun m => s ++ (List.range m).map f)
  · simp
  · intro k hk; rw [h k _ hk, List.range_succ]; simp

theorem nextIx_lt {n i j : ℕ} (h : 0 < n) : nextIx n i j < n := Nat.mod_lt _ h
theorem prevIx_lt {n i j : ℕ} (h : 0 < n) : prevIx n i j < n := Nat.mod_lt _ h

theorem nextIx_eq {n i : ℕ} (h : i < n) : nextIx n i = if i + 1 = n then 0 else i + 1 := by
  unfold nextIx; split
  · subst_vars; simp
  · exact Nat.mod_eq_of_lt (by omega)

theorem prevIx_eq {n i : ℕ} (h : i < n) : prevIx n i = if i = 0 then n - 1 else i - 1 := by
  unfold prevIx; split
  · subst_vars; simp only [Nat.zero_add]; exact Nat.mod_eq_of_lt (by omega)
  · have : i + n - 1 = (i - 1) + n := by omega
    rw [this, Nat.add_mod_right]; exact Nat.mod_eq_of_lt (by omega)

theorem prevIx_nextIx {n i : ℕ} (h : i < n) : prevIx n (nextIx n i) = i := by
  have hn : nextIx n i < n := nextIx_lt (by omega)
  rw [prevIx_eq hn]; rw [nextIx_eq h] at *; split_ifs at * <;> omega

theorem nextIx_prevIx {n i : ℕ} (h : i < n) : nextIx n (prevIx n i) = i := by
  have hn : prevIx n i < n := prevIx_lt (by omega)
  rw [nextIx_eq hn]; rw [prevIx_eq h] at *; split_ifs at * <;> omega

end lemmas

end Transfinite
