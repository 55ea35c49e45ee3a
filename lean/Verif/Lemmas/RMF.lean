import Verif.Model.RMF
import Verif.Lemmas.Lists

/-! Lemmas on the rotation minimizing frames. -/

namespace Transfinite

open RMF

section vec
variable {K : Type} [Field K]

/-- Reflection in the plane perpendicular to `v`. -/
def reflect (v x : P3 K) : P3 K := x - (2 * P3.dot v x / P3.dot v v) • v

theorem reflect_dot {v : P3 K} (hv : P3.dot v v ≠ 0) (x y : P3 K) :
    P3.dot (reflect v x) (reflect v y) = P3.dot x y := by
  unfold reflect
  simp only [P3.dot_sub_left, P3.dot_sub_right, P3.dot_smul_left, P3.dot_smul_right]
  rw [P3.dot_comm x v]
  field_simp
  ring

/-- Reflection in the bisector plane of two vectors of the same length. -/
theorem reflect_swap {a b : P3 K} (h : P3.dot a a = P3.dot b b) (hv : P3.dot (b - a) (b - a) ≠ 0) :
    reflect (b - a) a = b := by
  have e : 2 * P3.dot (b - a) a = -P3.dot (b - a) (b - a) := by
    simp only [P3.dot_sub_left, P3.dot_sub_right]
    rw [P3.dot_comm a b]
    linear_combination -h
  unfold reflect
  rw [e, neg_div, div_self hv]
  module

end vec

theorem P3.dot_self_nonneg (a : P3 ℝ) : 0 ≤ P3.dot a a := by
  unfold P3.dot; nlinarith [mul_self_nonneg a.x, mul_self_nonneg a.y, mul_self_nonneg a.z]

theorem P3.eq_zero_of_dot_self {a : P3 ℝ} (h : P3.dot a a = 0) : a = 0 := by
  unfold P3.dot at h
  have hx : a.x = 0 := by nlinarith [mul_self_nonneg a.x, mul_self_nonneg a.y, mul_self_nonneg a.z]
  have hy : a.y = 0 := by nlinarith [mul_self_nonneg a.x, mul_self_nonneg a.y, mul_self_nonneg a.z]
  have hz : a.z = 0 := by nlinarith [mul_self_nonneg a.x, mul_self_nonneg a.y, mul_self_nonneg a.z]
  exact P3.ext hx hy hz

theorem P3.cauchy_schwarz (a b : P3 ℝ) : P3.dot a b ^ 2 ≤ P3.dot a a * P3.dot b b := by
  unfold P3.dot
  nlinarith [sq_nonneg (a.x * b.y - a.y * b.x), sq_nonneg (a.x * b.z - a.z * b.x), sq_nonneg (a.y * b.z - a.z * b.y)]

theorem P3.norm_mul_self (a : P3 ℝ) : a.norm * a.norm = P3.dot a a := Real.mul_self_sqrt a.dot_self_nonneg

theorem P3.norm_eq_zero {a : P3 ℝ} : a.norm = 0 ↔ a = 0 := by
  constructor
  · intro h
    apply P3.eq_zero_of_dot_self
    rw [← P3.norm_mul_self, h, zero_mul]
  · rintro rfl
    unfold P3.norm
    rw [P3.dot_zero_left]; exact Real.sqrt_zero

theorem P3.norm_nonneg (a : P3 ℝ) : 0 ≤ a.norm := Real.sqrt_nonneg _

theorem P3.norm_pos {a : P3 ℝ} (h : a ≠ 0) : 0 < a.norm :=
  lt_of_le_of_ne a.norm_nonneg (fun e => h (P3.norm_eq_zero.mp e.symm))

theorem P3.normalize_ok {a : P3 ℝ} (h : a ≠ 0) : a.normalize = .ok (a.norm⁻¹ • a) := by
  unfold P3.normalize; rw [if_neg (P3.norm_pos h).ne']

theorem P3.normalize_unit {a b : P3 ℝ} (h : a.normalize = .ok b) : a ≠ 0 ∧ b = a.norm⁻¹ • a ∧ P3.dot b b = 1 := by
  unfold P3.normalize at h
  split at h
  · cases h
  · rename_i hn
    cases h
    refine ⟨fun e => hn (P3.norm_eq_zero.mpr e), rfl, ?_⟩
    rw [P3.dot_smul_left, P3.dot_smul_right, ← P3.norm_mul_self]
    field_simp

namespace RMF

/-- A frame with unit vectors. -/
structure IsUnit (f : Frame ℝ) : Prop where
  n : P3.dot f.n f.n = 1
  d : P3.dot f.d f.d = 1

/-- The possible results of one step. -/
theorem nextFrame_cases {ε : ℝ} (hε : 0 < ε) {c : Curve ℝ} {f g : Frame ℝ} {u : ℝ} (h : nextFrame ε c f u = .ok g) :
    c.der u ≠ 0 ∧
    ((P3.dot (c.pt u - f.p) (c.pt u - f.p) < ε ∧ g = f) ∨
     (ε ≤ P3.dot (c.pt u - f.p) (c.pt u - f.p) ∧ g.u = u ∧ g.s = f.s + c.arc f.u u ∧ g.p = c.pt u ∧ (c.der u).normalize = .ok g.d ∧
      ((P3.dot (g.d - reflect (c.pt u - f.p) f.d) (g.d - reflect (c.pt u - f.p) f.d) < ε ∧ g.n = reflect (c.pt u - f.p) f.n) ∨
       (ε ≤ P3.dot (g.d - reflect (c.pt u - f.p) f.d) (g.d - reflect (c.pt u - f.p) f.d) ∧
        g.n = reflect (g.d - reflect (c.pt u - f.p) f.d) (reflect (c.pt u - f.p) f.n))))) := by
  have refl_eq : ∀ (v x : P3 ℝ), x - P3.dot v x • ((2 / P3.dot v v) • v) = reflect v x := by
    intro v x
    unfold reflect
    rw [smul_smul, show P3.dot v x * (2 / P3.dot v v) = 2 * P3.dot v x / P3.dot v v by ring]
  unfold nextFrame at h
  cases e : (c.der u).normalize with
  | error x => rw [e] at h; cases h
  | ok t =>
    refine ⟨(P3.normalize_unit e).1, ?_⟩
    rw [e] at h
    simp only [M_bind_ok] at h
    unfold P3.normSqr at h
    split at h
    · rename_i hc; cases h; exact Or.inl ⟨hc, rfl⟩
    · rename_i hc
      have hc1 : P3.dot (c.pt u - f.p) (c.pt u - f.p) ≠ 0 := by linarith
      rw [fdiv_of_ne hc1] at h
      simp only [M_bind_ok] at h
      rw [refl_eq, refl_eq] at h
      right
      refine ⟨not_lt.mp hc, ?_⟩
      split at h
      · rename_i hc2
        cases h
        exact ⟨rfl, rfl, rfl, rfl, Or.inl ⟨hc2, rfl⟩⟩
      · rename_i hc2
        have hc3 : P3.dot (t - reflect (c.pt u - f.p) f.d) (t - reflect (c.pt u - f.p) f.d) ≠ 0 := by linarith
        rw [fdiv_of_ne hc3] at h
        simp only [M_bind_ok] at h
        rw [refl_eq] at h
        cases h
        exact ⟨rfl, rfl, rfl, rfl, Or.inr ⟨not_lt.mp hc2, rfl⟩⟩

theorem nextFrame_unit {ε : ℝ} (hε : 0 < ε) {c : Curve ℝ} {f g : Frame ℝ} {u : ℝ} (h : nextFrame ε c f u = .ok g) (hf : IsUnit f) :
    IsUnit g ∧ |P3.dot g.n g.d - P3.dot f.n f.d| ≤ Real.sqrt ε := by
  obtain ⟨_, ⟨_, rfl⟩ | ⟨hc, _, _, _, hd, hn⟩⟩ := nextFrame_cases hε h
  · exact ⟨hf, by rw [sub_self, abs_zero]; exact Real.sqrt_nonneg _⟩
  · have ht := (P3.normalize_unit hd).2.2
    have hv : P3.dot (c.pt u - f.p) (c.pt u - f.p) ≠ 0 := by linarith
    have e1 := reflect_dot hv f.n f.n
    have e2 := reflect_dot hv f.d f.d
    have e3 := reflect_dot hv f.n f.d
    rw [hf.n] at e1
    rw [hf.d] at e2
    generalize reflect (c.pt u - f.p) f.n = nL at *
    generalize reflect (c.pt u - f.p) f.d = dL at *
    rcases hn with ⟨hc2, hn⟩ | ⟨hc2, hn⟩
    · refine ⟨⟨by rw [hn]; exact e1, ht⟩, ?_⟩
      have cs := P3.cauchy_schwarz nL (g.d - dL)
      rw [e1, one_mul] at cs
      have : P3.dot g.n g.d - P3.dot f.n f.d = P3.dot nL (g.d - dL) := by
        rw [hn, P3.dot_sub_right, e3]
      rw [this]
      exact Real.abs_le_sqrt (by linarith)
    · have hv2 : P3.dot (g.d - dL) (g.d - dL) ≠ 0 := by linarith
      have e4 := reflect_dot hv2 nL nL
      have e5 := reflect_dot hv2 nL dL
      rw [reflect_swap (by rw [e2, ht]) hv2] at e5
      refine ⟨⟨by rw [hn, e4, e1], ht⟩, ?_⟩
      rw [hn, e5, e3, sub_self, abs_zero]; exact Real.sqrt_nonneg _

/-- An exact step: neither of the tolerances is used. -/
theorem nextFrame_exact {ε : ℝ} (hε : 0 < ε) {c : Curve ℝ} {f g : Frame ℝ} {u : ℝ} (h : nextFrame ε c f u = .ok g) (hf : IsUnit f)
    (h2 : ε ≤ P3.dot (g.d - reflect (c.pt u - f.p) f.d) (g.d - reflect (c.pt u - f.p) f.d) ∨ g.d = reflect (c.pt u - f.p) f.d) :
    P3.dot g.n g.d = P3.dot f.n f.d := by
  obtain ⟨_, ⟨_, rfl⟩ | ⟨hc, _, _, _, hd, hn⟩⟩ := nextFrame_cases hε h
  · rfl
  · have ht := (P3.normalize_unit hd).2.2
    have hv : P3.dot (c.pt u - f.p) (c.pt u - f.p) ≠ 0 := by linarith
    have e1 := reflect_dot hv f.n f.n
    have e2 := reflect_dot hv f.d f.d
    have e3 := reflect_dot hv f.n f.d
    rw [hf.n] at e1
    rw [hf.d] at e2
    generalize reflect (c.pt u - f.p) f.n = nL at *
    generalize reflect (c.pt u - f.p) f.d = dL at *
    rcases hn with ⟨hc2, hn⟩ | ⟨hc2, hn⟩
    · rcases h2 with q | q
      · linarith
      · rw [hn, q, e3]
    · have hv2 : P3.dot (g.d - dL) (g.d - dL) ≠ 0 := by linarith
      have e5 := reflect_dot hv2 nL dL
      rw [reflect_swap (by rw [e2, ht]) hv2] at e5
      rw [hn, e5, e3]

/-- Rodrigues' formula. -/
theorem rotate_eq (d n : P3 ℝ) (θ : ℝ) :
    rotate d θ n = Real.cos θ • n + Real.sin θ • P3.cross d n + ((1 - Real.cos θ) * P3.dot d n) • d := by
  unfold rotate
  ext <;> simp only [P3.cross, P3.dot, P3.add_x, P3.add_y, P3.add_z, P3.smul_x, P3.smul_y, P3.smul_z] <;>
    simp only [Libm.cos, Libm.sin] <;> ring

theorem cross_dot_cross (a b : P3 ℝ) : P3.dot (P3.cross a b) (P3.cross a b) = P3.dot a a * P3.dot b b - P3.dot a b ^ 2 := by
  simp only [P3.cross, P3.dot]; ring

theorem rotate_unit {d n : P3 ℝ} (hd : P3.dot d d = 1) (hn : P3.dot n n = 1) (θ : ℝ) :
    P3.dot (rotate d θ n) (rotate d θ n) = 1 ∧ P3.dot (rotate d θ n) d = P3.dot n d := by
  rw [rotate_eq]
  have cs := Real.sin_sq_add_cos_sq θ
  have c1 := P3.dot_cross_self_left d n
  have c2 := P3.dot_cross_self_right d n
  have c3 := cross_dot_cross d n
  rw [hd, hn] at c3
  have e := P3.dot_comm d n
  have c1' : P3.dot (P3.cross d n) d = 0 := by rw [P3.dot_comm]; exact c1
  have c2' : P3.dot (P3.cross d n) n = 0 := by rw [P3.dot_comm]; exact c2
  simp only [P3.dot_add_left, P3.dot_add_right, P3.dot_smul_left, P3.dot_smul_right]
  rw [c1, c2, c1', c2', c3, hd, hn, ← e]
  generalize P3.dot d n = δ
  generalize Real.sin θ = S at *
  generalize Real.cos θ = C at *
  constructor
  · linear_combination (1 - δ ^ 2) * cs
  · ring

/-- The rotation by the (signed) angle takes `n` to `m`, if both are perpendicular to the axis. -/
theorem rotate_hits {d n m : P3 ℝ} (hd : P3.dot d d = 1) (hn : P3.dot n n = 1) (hm : P3.dot m m = 1)
    (hnd : P3.dot n d = 0) (hmd : P3.dot m d = 0) {a : ℝ}
    (ha : a = if P3.dot (P3.cross (n - m) m) d < 0 then -Real.arccos (Domain.clamp (P3.dot m n) (-1) 1)
      else Real.arccos (Domain.clamp (P3.dot m n) (-1) 1)) :
    rotate d a n = m := by
  have hcs := P3.cauchy_schwarz m n
  rw [hm, hn, one_mul] at hcs
  have hb : -1 ≤ P3.dot m n ∧ P3.dot m n ≤ 1 := ⟨by nlinarith, by nlinarith⟩
  have hcl : Domain.clamp (P3.dot m n) (-1) 1 = P3.dot m n := by
    unfold Domain.clamp; rw [min_eq_left hb.2, max_eq_right hb.1]
  rw [hcl] at ha
  have hcr : P3.dot (P3.cross (n - m) m) d = P3.dot m (P3.cross d n) := by
    simp only [P3.cross, P3.dot, P3.sub_x, P3.sub_y, P3.sub_z]; ring
  rw [hcr] at ha
  set k := P3.dot m n with hk
  set w := P3.dot m (P3.cross d n) with hw
  -- the two coordinates of m
  have hkw : k ^ 2 + w ^ 2 = 1 := by
    have : w ^ 2 = P3.dot d d * (P3.dot n n * P3.dot m m - k ^ 2) - P3.dot d n * (P3.dot d n * P3.dot m m - k * P3.dot m d)
        + P3.dot m d * (P3.dot d n * k - P3.dot n n * P3.dot m d) := by
      rw [hw, hk]; simp only [P3.cross, P3.dot]; ring
    rw [this, P3.dot_comm d n, hnd, hmd, hd, hn, hm]; ring
  have hcos : Real.cos a = k := by
    rw [ha]; split
    · rw [Real.cos_neg, Real.cos_arccos hb.1 hb.2]
    · rw [Real.cos_arccos hb.1 hb.2]
  have hsin : Real.sin a = w := by
    have hs : Real.sqrt (1 - k ^ 2) = |w| := by
      rw [show 1 - k ^ 2 = w ^ 2 by linarith]; exact Real.sqrt_sq_eq_abs w
    rw [ha]; split
    · rename_i hlt
      rw [Real.sin_neg, Real.sin_arccos, hs, abs_of_neg hlt, neg_neg]
    · rename_i hge
      rw [Real.sin_arccos, hs, abs_of_nonneg (not_lt.mp hge)]
  rw [rotate_eq, hcos, hsin, P3.dot_comm d n, hnd, mul_zero, zero_smul, add_zero]
  -- the difference has zero length
  have : P3.dot (k • n + w • P3.cross d n - m) (k • n + w • P3.cross d n - m) = 0 := by
    simp only [P3.dot_sub_left, P3.dot_sub_right, P3.dot_add_left, P3.dot_add_right, P3.dot_smul_left, P3.dot_smul_right]
    rw [P3.dot_comm n m, P3.dot_comm (P3.cross d n) m, P3.dot_comm (P3.cross d n) n, P3.dot_cross_self_right, cross_dot_cross,
      P3.dot_comm d n, hnd, hd, hn, hm, ← hk, ← hw]
    linear_combination (-1 : ℝ) * hkw
  exact sub_eq_zero.mp (P3.eq_zero_of_dot_self this)

end RMF

end Transfinite
