import Verif.Props.Parameterization

/-! # Properties C18 and C61: polar parameterization and bisections -/

namespace Transfinite

open Spec Param Domain

section field
variable {K : Type} [Field K] [LinearOrder K] [IsStrictOrderedRing K]

/-! ## C18 -/

/-- C18: for parameter lines 0 and 1 the inverse gives the points of the two sides at vertex `i`. -/
theorem C18_ends [Libm K] {ε : K} (hε : 0 < ε) (hε1 : ε < 1) (q0 : P2 K) (d : Domain K) (i : ℕ) (t : K) :
    polarInverse ε q0 d i ⟨0, t⟩ = d.edgePoint i t ∧
    polarInverse ε q0 d i ⟨1, t⟩ = d.edgePoint ((i + 1) % d.vertices.length) (1 - t) := by
  unfold polarInverse
  constructor
  · simp [hε]
  · have : ¬ (1 : K) < ε := not_lt.mpr hε1.le
    simp [this, hε, nextIx]

/-- C18: the bisection. After `k` steps the bracket has width `2^-k`, the function is above the target
at its lower end and not above the target at its upper end (unless these ends were never moved), and
the current point is one of the ends. -/
theorem C18_bisection (f : P2 K → M K) (p q q0 : P2 K) (target : K) {k : ℕ} {lo hi : K} {r : P2 K}
    (h : polarBisect f k p q target q0 = .ok (lo, hi, r)) :
    0 ≤ lo ∧ lo < hi ∧ hi ≤ 1 ∧ hi - lo = 1 / 2 ^ k ∧
      (lo = 0 ∨ ∃ y, f ((1 - lo) • p + lo • q) = .ok y ∧ target < y) ∧
      (hi = 1 ∨ ∃ y, f ((1 - hi) • p + hi • q) = .ok y ∧ y ≤ target) ∧
      (k = 0 ∨ r = (1 - lo) • p + lo • q ∧ 0 < lo ∨ r = (1 - hi) • p + hi • q ∧ hi < 1) := by
  unfold polarBisect at h
  induction k generalizing lo hi r with
  | zero =>
    have := Except.ok.inj h
    simp only [Prod.mk.injEq] at this
    obtain ⟨rfl, rfl, rfl⟩ := this
    simp
  | succ k ih =>
    rw [forLoop_succ] at h
    generalize hst : forLoop k _ _ = st at h ih
    cases st with
    | error e => simp at h
    | ok st =>
      obtain ⟨lo', hi', r'⟩ := st
      obtain ⟨a, b, c, w, l, u, _⟩ := ih rfl
      rw [M_bind_ok] at h
      dsimp only at h
      cases hf : f ((1 - (lo' + hi') / 2) • p + ((lo' + hi') / 2) • q) with
      | error e => rw [hf] at h; simp at h
      | ok y =>
        rw [hf, M_bind_ok] at h
        have hw : (hi' - lo') / 2 = 1 / 2 ^ (k + 1) := by rw [w, pow_succ]; field_simp
        split_ifs at h with ht
        · have := Except.ok.inj h
          simp only [Prod.mk.injEq] at this
          obtain ⟨rfl, rfl, rfl⟩ := this
          refine ⟨by linarith, by linarith, c, by rw [← hw]; ring, Or.inr ⟨y, hf, ht⟩, u, Or.inr (Or.inl ⟨rfl, by linarith⟩)⟩
        · have := Except.ok.inj h
          simp only [Prod.mk.injEq] at this
          obtain ⟨rfl, rfl, rfl⟩ := this
          refine ⟨a, by linarith, by linarith, by rw [← hw]; ring, l, Or.inr ⟨y, hf, not_lt.mp ht⟩, Or.inr (Or.inr ⟨rfl, by linarith⟩)⟩

/-! ## C61 -/

/-- C61: the bisection of the circular parameterization stays in its bracket, whatever the function
is (it may even return NaNs). -/
theorem C61_in_bracket (ε : K) (f : K → M (Option K)) {k : ℕ} {xl xh xm r : K} (hl : xl ≤ xm) (hh : xm ≤ xh)
    (h : bisect ε f k xl xh xm = .ok r) : xl ≤ r ∧ r ≤ xh := by
  induction k generalizing xl xh xm with
  | zero => obtain rfl := Except.ok.inj h; exact ⟨hl, hh⟩
  | succ k ih =>
    have m1 : xl ≤ (xl + xh) / 2 := by linarith
    have m2 : (xl + xh) / 2 ≤ xh := by linarith
    unfold bisect at h
    dsimp only at h
    split at h
    · obtain rfl := Except.ok.inj h; exact ⟨m1, m2⟩
    · cases ha : f xl with
      | error e => rw [ha] at h; simp at h
      | ok a =>
        cases hb : f ((xl + xh) / 2) with
        | error e => rw [ha, hb] at h; simp at h
        | ok b =>
          rw [ha, hb] at h
          simp only [M_bind_ok] at h
          split at h
          · split_ifs at h
            · have := ih m1 le_rfl h; exact ⟨this.1, this.2.trans m2⟩
            · have := ih le_rfl m2 h; exact ⟨m1.trans this.1, this.2⟩
            · obtain rfl := Except.ok.inj h; exact ⟨m1, m2⟩
          · obtain rfl := Except.ok.inj h; exact ⟨m1, m2⟩

/-- A bracket `[a,b]` in which `f` changes its sign. -/
def SignChange (f : K → K) (a b : K) : Prop := f a * f b < 0

/-- C61: if the function changes its sign in the initial bracket then the result is a zero, or it is
an end of a bracket `[a,b]` inside of the initial one in which the function still changes its sign;
either all `k` steps were done and the width of this bracket is `2^-k` times the original, or the
step to the result was smaller than `ε` relative to it. -/
theorem C61_sign_change (ε : K) (f : K → K) {k : ℕ} {xl xh xm r : K} (hlh : xl ≤ xh)
    (hs : SignChange f xl xh) (hm : xm = xl ∨ xm = xh)
    (h : bisect ε (fun x => .ok (some (f x))) k xl xh xm = .ok r) :
    f r = 0 ∨ ∃ a b, xl ≤ a ∧ a ≤ b ∧ b ≤ xh ∧ SignChange f a b ∧
      ((b - a = (xh - xl) / 2 ^ k ∧ (r = a ∨ r = b)) ∨
       (r = (a + b) / 2 ∧ r ≠ 0 ∧ b - a ≤ 2 * ε * |r|)) := by
  induction k generalizing xl xh xm with
  | zero =>
    obtain rfl := Except.ok.inj h
    exact Or.inr ⟨xl, xh, le_rfl, hlh, le_rfl, hs, Or.inl ⟨by simp, hm⟩⟩
  | succ k ih =>
    unfold bisect at h
    dsimp only at h
    split at h
    · rename_i hc
      obtain rfl := Except.ok.inj h
      refine Or.inr ⟨xl, xh, le_rfl, hlh, le_rfl, hs, Or.inr ⟨rfl, hc.1, ?_⟩⟩
      obtain ⟨h0, h1⟩ := hc
      rw [abs_div, div_lt_iff₀ (abs_pos.mpr h0)] at h1
      have : |(xl + xh) / 2 - xm| = (xh - xl) / 2 := by
        rcases hm with rfl | rfl
        · rw [abs_of_nonneg (by linarith)]; ring
        · rw [abs_of_nonpos (by linarith)]; ring
      rw [this] at h1
      linarith
    · simp only [M_bind_ok] at h
      have m1 : xl ≤ (xl + xh) / 2 := by linarith
      have m2 : (xl + xh) / 2 ≤ xh := by linarith
      split_ifs at h with t1 t2
      · rcases ih m1 t1 (Or.inr rfl) h with q | ⟨a, b, q1, q2, q3, q4, q5⟩
        · exact Or.inl q
        · refine Or.inr ⟨a, b, q1, q2, q3.trans m2, q4, ?_⟩
          rcases q5 with ⟨q5, q6⟩ | q5
          · left; refine ⟨?_, q6⟩; rw [q5, pow_succ]; field_simp; ring
          · right; exact q5
      · have hs' : SignChange f ((xl + xh) / 2) xh := by
          unfold SignChange at *
          rcases mul_neg_iff.mp hs with ⟨a, b⟩ | ⟨a, b⟩
          · have : 0 < f ((xl + xh) / 2) := (pos_iff_pos_of_mul_pos t2).mp a
            exact mul_neg_of_pos_of_neg this b
          · have : f ((xl + xh) / 2) < 0 := (neg_iff_neg_of_mul_pos t2).mp a
            exact mul_neg_of_neg_of_pos this b
        rcases ih m2 hs' (Or.inl rfl) h with q | ⟨a, b, q1, q2, q3, q4, q5⟩
        · exact Or.inl q
        · refine Or.inr ⟨a, b, m1.trans q1, q2, q3, q4, ?_⟩
          rcases q5 with ⟨q5, q6⟩ | q5
          · left; refine ⟨?_, q6⟩; rw [q5, pow_succ]; field_simp; ring
          · right; exact q5
      · left
        obtain rfl := Except.ok.inj h
        have : f xl * f ((xl + xh) / 2) = 0 := le_antisymm (not_lt.mp t2) (not_lt.mp t1)
        rcases mul_eq_zero.mp this with q | q
        · unfold SignChange at hs; rw [q, zero_mul] at hs; exact absurd hs (lt_irrefl _)
        · exact q

/-- The hypotheses are satisfiable: a linear function on the bracket used by the code. -/
example : SignChange (fun x : ℚ => x - 1/3) 0 (4/5) := by unfold SignChange; norm_num

end field

end Transfinite
