import Verif.Spec.FileIO
import Verif.Props.GenBezierIO
import Verif.Props.SPatch
import Verif.Props.SuperD
import Verif.Props.Utilities
import Mathlib.Algebra.Order.Antidiag.FinsuppEquiv

/-! # Reading tokens -/

namespace Transfinite

open Spec

section general

variable {α : Type} {T : Type}

theorem vset_drop {l : List α} {j : ℕ} {x : α} (xs : List α) (hj : j < l.length) (hx : xs[j]? = some x) :
    vset (xs.take j ++ l.drop j) j x = .ok (xs.take (j + 1) ++ l.drop (j + 1)) := by
  obtain ⟨hlt, rfl⟩ := List.getElem?_eq_some_iff.mp hx
  have hk : (xs.take j).length = j := by rw [List.length_take]; omega
  rw [vset_of_lt (by rw [List.length_append, List.length_drop, hk]; omega)]
  congr 1
  rw [List.set_append_right _ _ (by rw [hk]), hk, Nat.sub_self, List.drop_eq_getElem_cons hj, List.set_cons_zero, ← List.take_append_getElem hlt, List.append_assoc]
  rfl

/-- A vector is read when every element is read. -/
theorem readVec_eq {rd : α → IStream T → M (α × IStream T)} {l xs : List α} {s : ℕ → IStream T} (hl : l.length = xs.length)
    (h : ∀ j x old, xs[j]? = some x → rd old (s j) = .ok (x, s (j + 1))) : readVec rd l (s 0) = .ok (xs, s xs.length) := by
  unfold readVec
  rw [forLoop_eq (fun j => (xs.take j ++ l.drop j, s j)) (by simp)]
  · rw [hl, List.take_length, ← hl, List.drop_length, List.append_nil]
  · intro j hj
    have hx : xs[j]? = some (xs[j]'(by omega)) := List.getElem?_eq_getElem _
    have hlen : j < (xs.take j ++ l.drop j).length := by rw [List.length_append, List.length_take, List.length_drop]; omega
    obtain ⟨o, ho⟩ : ∃ o, vget (xs.take j ++ l.drop j) j = .ok o := ⟨_, vget_of_lt hlen⟩
    dsimp only
    rw [ho, M_bind_ok, h j _ o hx, M_bind_ok]
    dsimp only
    rw [vset_drop xs hj hx, M_bind_ok]

/-- A vector is read from the blocks of its elements. -/
theorem readVec_blocks {A : List T → α → Prop} {rd : α → IStream T → M (α × IStream T)}
    (h : ∀ b x old rest, A b x → rd old ⟨b ++ rest, false⟩ = .ok (x, ⟨rest, false⟩)) {ts : List T} {l xs : List α} (hb : Blocks A ts xs) (hl : l.length = xs.length) (rest : List T) :
    readVec rd l ⟨ts ++ rest, false⟩ = .ok (xs, ⟨rest, false⟩) := by
  obtain ⟨bs, rfl, hf⟩ := hb
  have hlen := hf.length_eq
  have := readVec_eq (rd := rd) (l := l) (xs := xs) (s := fun j => ⟨(bs.drop j).flatten ++ rest, false⟩) hl fun j x old hx => by
    obtain ⟨hj, rfl⟩ := List.getElem?_eq_some_iff.mp hx
    rw [List.drop_eq_getElem_cons (by omega), List.flatten_cons, List.append_assoc]
    exact h _ _ _ _ (hf.get (by omega) hj)
  simpa [← hlen] using this

/-- Numbers are blocks of one token. -/
theorem blocks_single {R : T → α → Prop} {ts : List T} {xs : List α} (h : List.Forall₂ R ts xs) : Blocks (fun b x => ∃ t, b = [t] ∧ R t x) ts xs := by
  refine ⟨ts.map fun t => [t], by clear h; induction ts with | nil => rfl | cons t ts ih => rw [List.map_cons, List.flatten_cons, ← ih]; rfl, ?_⟩
  induction h with
  | nil => exact .nil
  | cons h _ ih => exact .cons ⟨_, rfl, h⟩ ih

/-- The elements of a vector are read as long as `rd` does not fail. -/
theorem readVec_total {rd : α → IStream T → α × IStream T} (l : List α) (s : IStream T) : ∃ xs s', readVec (fun o s => .ok (rd o s)) l s = .ok (xs, s') ∧ xs.length = l.length := by
  unfold readVec
  obtain ⟨r, h1, h2⟩ := forLoop_inv (n := l.length) (body := fun j (st : List α × IStream T) => do
    let old ← vget st.1 j
    let r ← (Except.ok (rd old st.2) : M _)
    let l ← vset st.1 j r.1
    .ok (l, r.2)) (s := (l, s)) (fun _ st => st.1.length = l.length) rfl fun j st hj hs => by
      rw [vget_of_lt (by omega), M_bind_ok, M_bind_ok, vset_of_lt (by omega), M_bind_ok]
      exact ⟨_, rfl, by rw [List.length_set]; exact hs⟩
  exact ⟨r.1, r.2, h1, h2⟩

/-- A stream that gives no more tokens. -/
def IStream.Dead (s : IStream T) : Prop := s.fail = true ∨ s.toks = []

theorem readTok_dead {read : T → Option α} {zero old : α} {s : IStream T} (h : s.Dead) : ∃ s', readTok read zero old s = (old, s') ∧ s'.Dead := by
  unfold readTok
  rcases h with h | h
  · rw [if_pos h]; exact ⟨_, rfl, Or.inl h⟩
  · split
    · exact ⟨_, rfl, Or.inr h⟩
    · rw [h]; exact ⟨_, rfl, Or.inr rfl⟩

/-- A vector does not change when there are no more tokens. -/
theorem readVec_dead {rd : α → IStream T → α × IStream T} (h : ∀ o s, s.Dead → ∃ s', rd o s = (o, s') ∧ s'.Dead) (l : List α) {s : IStream T} (hs : s.Dead) :
    ∃ s', readVec (fun o s => .ok (rd o s)) l s = .ok (l, s') ∧ s'.Dead := by
  unfold readVec
  obtain ⟨r, h1, h2, h3⟩ := forLoop_inv (n := l.length) (body := fun j (st : List α × IStream T) => do
    let old ← vget st.1 j
    let r ← (Except.ok (rd old st.2) : M _)
    let l ← vset st.1 j r.1
    .ok (l, r.2)) (s := (l, s)) (fun _ st => st.1 = l ∧ st.2.Dead) ⟨rfl, hs⟩ fun j st hj ⟨e, hs⟩ => by
      obtain ⟨s', e', hd⟩ := h (l[j]) st.2 hs
      rw [e, vget_of_lt hj, M_bind_ok, M_bind_ok, e', vset_of_lt (by omega), M_bind_ok]
      exact ⟨_, rfl, List.set_getElem_self hj, hd⟩
  exact ⟨r.2, by rw [h1, ← h2], h3⟩

theorem resizeVec_length (zero : α) (l : List α) (n : ℕ) : (resizeVec zero l n).length = n := by
  unfold resizeVec
  rw [List.length_append, List.length_take, List.length_replicate]
  omega

theorem resizeVec_self (zero : α) (l : List α) : resizeVec zero l l.length = l := by
  unfold resizeVec
  simp

end general

section points

variable {K : Type} [Field K] [LinearOrder K] [Libm K] {T : Type} {io : Fmt K T}

theorem readNum_block {b : List T} {x old : K} {rest : List T} (h : ∃ t, b = [t] ∧ io.readNum t = some x) : readTok io.readNum 0 old ⟨b ++ rest, false⟩ = (x, ⟨rest, false⟩) := by
  obtain ⟨t, rfl, h⟩ := h
  exact GB.readTok_cons h

theorem readPoint_block {b : List T} {p old : P3 K} {rest : List T} (h : IsPoint io b p) : readPoint io old ⟨b ++ rest, false⟩ = (p, ⟨rest, false⟩) := by
  unfold IsPoint Nums at h
  cases h with
  | cons h1 h => cases h with
    | cons h2 h => cases h with
      | cons h3 h =>
        cases h
        unfold readPoint
        simp only [List.cons_append, List.nil_append, GB.readTok_cons h1, GB.readTok_cons h2, GB.readTok_cons h3]

theorem readPoint_dead {p : P3 K} {s : IStream T} (h : s.Dead) : ∃ s', readPoint io p s = (p, s') ∧ s'.Dead := by
  unfold readPoint
  obtain ⟨s1, e1, h1⟩ := readTok_dead (read := io.readNum) (zero := 0) (old := p.x) h
  obtain ⟨s2, e2, h2⟩ := readTok_dead (read := io.readNum) (zero := 0) (old := p.y) h1
  obtain ⟨s3, e3, h3⟩ := readTok_dead (read := io.readNum) (zero := 0) (old := p.z) h2
  refine ⟨s3, ?_, h3⟩
  dsimp only
  rw [e1, e2, e3]

/-- The variables of `readLOP` after curve `c`. -/
def LopState.Holds (st : LopState K T) (c : LopCurve K) : Prop := st.deg = c.deg ∧ st.nk = c.knots.length ∧ st.knots = c.knots ∧ st.nc = c.cpts.length ∧ st.cpts = c.cpts

theorem lopStep_block {b : List T} {c : LopCurve K} (h : IsCurve io b c) {rest : List T} {st : LopState K T} (hf : st.f = ⟨b ++ rest, false⟩) :
    ∃ st', lopStep io st = .ok st' ∧ st'.result = st.result ++ [c] ∧ st'.f = ⟨rest, false⟩ ∧ st'.Holds c := by
  obtain ⟨td, tk, tn, ks, ps, rfl, h1, h2, h3, h4, h5⟩ := h
  unfold lopStep
  dsimp only
  rw [hf, List.cons_append, List.cons_append, GB.readTok_cons h1, GB.readTok_cons h2]
  dsimp only
  rw [List.append_assoc, readVec_blocks (fun b x old rest hb => congrArg Except.ok (readNum_block hb)) (blocks_single h3) (resizeVec_length _ _ _), M_bind_ok]
  dsimp only
  rw [List.cons_append, GB.readTok_cons h4]
  dsimp only
  rw [readVec_blocks (fun b x old rest hb => congrArg Except.ok (readPoint_block hb)) h5 (resizeVec_length _ _ _), M_bind_ok]
  exact ⟨_, rfl, rfl, rfl, rfl, rfl, rfl, rfl, rfl⟩

theorem lopStep_total (st : LopState K T) : ∃ st', lopStep io st = .ok st' ∧ ∃ c, st'.result = st.result ++ [c] := by
  unfold lopStep
  dsimp only
  obtain ⟨xs, s1, e1, _⟩ := readVec_total (rd := readTok io.readNum 0) (resizeVec 0 st.knots (readTok io.readNat 0 st.nk (readTok io.readNat 0 st.deg st.f).2).1) (readTok io.readNat 0 st.nk (readTok io.readNat 0 st.deg st.f).2).2
  rw [e1, M_bind_ok]
  dsimp only
  obtain ⟨ys, s2, e2, _⟩ := readVec_total (rd := readPoint io) (resizeVec 0 st.cpts (readTok io.readNat 0 st.nc s1).1) (readTok io.readNat 0 st.nc s1).2
  rw [e2, M_bind_ok]
  exact ⟨_, rfl, _, rfl⟩

theorem lopStep_dead {c : LopCurve K} {st : LopState K T} (hs : st.f.Dead) (hc : st.Holds c) : ∃ st', lopStep io st = .ok st' ∧ st'.result = st.result ++ [c] ∧ st'.f.Dead ∧ st'.Holds c := by
  obtain ⟨c1, c2, c3, c4, c5⟩ := hc
  unfold lopStep
  dsimp only
  obtain ⟨s1, e1, h1⟩ := readTok_dead (read := io.readNat) (zero := 0) (old := st.deg) hs
  obtain ⟨s2, e2, h2⟩ := readTok_dead (read := io.readNat) (zero := 0) (old := st.nk) h1
  rw [e1]
  dsimp only
  rw [e2]
  dsimp only
  obtain ⟨s3, e3, h3⟩ := readVec_dead (rd := readTok io.readNum 0) (fun o s hs => readTok_dead hs) (resizeVec 0 st.knots st.nk) h2
  rw [e3, M_bind_ok]
  dsimp only
  obtain ⟨s4, e4, h4⟩ := readTok_dead (read := io.readNat) (zero := 0) (old := st.nc) h3
  rw [e4]
  dsimp only
  obtain ⟨s5, e5, h5⟩ := readVec_dead (rd := readPoint io) (fun o s hs => readPoint_dead hs) (resizeVec 0 st.cpts st.nc) h4
  rw [e5, M_bind_ok, c1, c2, c3, c4, c5, resizeVec_self, resizeVec_self]
  exact ⟨_, rfl, rfl, h5, rfl, rfl, rfl, rfl, rfl⟩

theorem lopLoop_blocks {cs : List (LopCurve K)} {bs : List (List T)} (h : List.Forall₂ (IsCurve io) bs cs) {rest : List T} {st : LopState K T} (hf : st.f = ⟨bs.flatten ++ rest, false⟩) :
    ∃ st', forLoop cs.length (fun _ st => lopStep io st) st = .ok st' ∧ st'.result = st.result ++ cs ∧ st'.f = ⟨rest, false⟩ ∧ ∀ c, cs.getLast? = some c → st'.Holds c := by
  induction h generalizing st with
  | nil => exact ⟨st, rfl, by simp, hf, by simp⟩
  | @cons b c bs cs h _ ih =>
    obtain ⟨st1, e1, r1, f1, l1⟩ := lopStep_block h (rest := bs.flatten ++ rest) (st := st) (by rw [hf, List.flatten_cons, List.append_assoc])
    obtain ⟨st2, e2, r2, f2, l2⟩ := ih f1
    refine ⟨st2, ?_, by rw [r2, r1, List.append_assoc]; rfl, f2, fun d hd => ?_⟩
    · rw [List.length_cons, forLoop_front, e1, M_bind_ok, e2]
    · cases cs with
      | nil =>
        cases e2
        cases hd
        exact l1
      | cons c' cs => exact l2 d (by rwa [List.getLast?_cons_cons] at hd)

theorem lopLoop_dead {c : LopCurve K} (m : ℕ) {st : LopState K T} (hs : st.f.Dead) (hc : st.Holds c) :
    ∃ st', forLoop m (fun _ st => lopStep io st) st = .ok st' ∧ st'.result = st.result ++ List.replicate m c := by
  induction m generalizing st with
  | zero => exact ⟨st, rfl, by simp⟩
  | succ m ih =>
    obtain ⟨st1, e1, r1, f1, l1⟩ := lopStep_dead (io := io) hs hc
    obtain ⟨st2, e2, r2⟩ := ih f1 l1
    refine ⟨st2, ?_, ?_⟩
    · rw [forLoop_front, e1, M_bind_ok, e2]
    · rw [r2, r1, List.append_assoc, List.replicate_succ]; rfl

theorem lopLoop_total (m : ℕ) (st : LopState K T) : ∃ st', forLoop m (fun _ st => lopStep io st) st = .ok st' ∧ st'.result.length = st.result.length + m := by
  induction m generalizing st with
  | zero => exact ⟨st, rfl, rfl⟩
  | succ m ih =>
    obtain ⟨st1, e1, c, r1⟩ := lopStep_total (io := io) st
    obtain ⟨st2, e2, r2⟩ := ih st1
    refine ⟨st2, ?_, ?_⟩
    · rw [forLoop_front, e1, M_bind_ok, e2]
    · rw [r2, r1, List.length_append, List.length_singleton]; omega

end points

end Transfinite
