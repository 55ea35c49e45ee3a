import Verif.Lemmas.BCurve
import Verif.Lemmas.RMF
import Mathlib.Analysis.SpecialFunctions.Trigonometric.Inverse

/-! # Lemmas for `fitClassA` -/

namespace Transfinite

namespace RMF

theorem rotate_add_vec (d m n : P3 ℝ) (θ : ℝ) : rotate d θ (m + n) = rotate d θ m + rotate d θ n := by
  unfold rotate
  ext <;> simp only [P3.add_x, P3.add_y, P3.add_z] <;> ring

theorem rotate_smul (d n : P3 ℝ) (θ c : ℝ) : rotate d θ (c • n) = c • rotate d θ n := by
  unfold rotate
  ext <;> simp only [P3.smul_x, P3.smul_y, P3.smul_z] <;> ring

theorem rotate_self {d : P3 ℝ} (hd : P3.dot d d = 1) (θ : ℝ) : rotate d θ d = d := by
  rw [rotate_eq, hd, mul_one]
  have : P3.cross d d = 0 := by ext <;> simp [P3.cross] <;> ring
  rw [this, smul_zero, add_zero, ← add_smul, add_sub_cancel, one_smul]

theorem rotate_zero (d n : P3 ℝ) : rotate d 0 n = n := by
  rw [rotate_eq, Real.cos_zero, Real.sin_zero]; simp

theorem cross_cross {d : P3 ℝ} (hd : P3.dot d d = 1) (n : P3 ℝ) : P3.cross d (P3.cross d n) = P3.dot d n • d - n := by
  have e : P3.cross d (P3.cross d n) = P3.dot d n • d - P3.dot d d • n := by
    ext <;> simp only [P3.cross, P3.dot, P3.sub_x, P3.sub_y, P3.sub_z, P3.smul_x, P3.smul_y, P3.smul_z] <;> ring
  rw [e, hd, one_smul]

theorem rotate_rotate {d : P3 ℝ} (hd : P3.dot d d = 1) (α β : ℝ) (n : P3 ℝ) : rotate d α (rotate d β n) = rotate d (α + β) n := by
  rw [rotate_eq d n β, rotate_add_vec, rotate_add_vec, rotate_smul, rotate_smul, rotate_smul, rotate_self hd, rotate_eq d n α, rotate_eq d (P3.cross d n) α,
    rotate_eq, cross_cross hd, P3.dot_cross_self_left, Real.cos_add, Real.sin_add]
  module

theorem rotate_iterate {d : P3 ℝ} (hd : P3.dot d d = 1) (θ : ℝ) (k : ℕ) (n : P3 ℝ) : (rotate d θ)^[k] n = rotate d (k * θ) n := by
  induction k generalizing n with
  | zero => simp [rotate_zero]
  | succ k ih => rw [Function.iterate_succ_apply, ih, rotate_rotate hd]; congr 1; push_cast; ring

theorem rotate_dot {d : P3 ℝ} (hd : P3.dot d d = 1) (θ : ℝ) (n : P3 ℝ) : P3.dot (rotate d θ n) (rotate d θ n) = P3.dot n n := by
  rw [rotate_eq]
  have cs := Real.sin_sq_add_cos_sq θ
  have c1 := P3.dot_cross_self_left d n
  have c2 := P3.dot_cross_self_right d n
  have c3 := cross_dot_cross d n
  simp only [P3.dot_add_left, P3.dot_add_right, P3.dot_smul_left, P3.dot_smul_right]
  rw [P3.dot_comm (P3.cross d n) n, P3.dot_comm (P3.cross d n) d, c1, c2, c3, P3.dot_comm n d, hd]
  generalize P3.dot d n = δ
  generalize P3.dot n n = ν
  generalize Real.sin θ = S at *
  generalize Real.cos θ = C at *
  linear_combination (ν - δ ^ 2) * cs

end RMF

namespace BCurve

open RMF

theorem apply_smul (A : ClassA ℝ) (c : ℝ) (v : P3 ℝ) : A.apply (c • v) = c • A.apply v := by
  unfold ClassA.apply; rw [rotate_smul, smul_comm]

theorem apply_iterate_smul (A : ClassA ℝ) (c : ℝ) (k : ℕ) (v : P3 ℝ) : A.apply^[k] (c • v) = c • A.apply^[k] v := by
  induction k generalizing v with
  | zero => rfl
  | succ k ih => rw [Function.iterate_succ_apply, apply_smul, ih, Function.iterate_succ_apply]

theorem apply_iterate (A : ClassA ℝ) (hA : P3.dot A.axis A.axis = 1) (k : ℕ) (v : P3 ℝ) : A.apply^[k] v = A.s ^ k • rotate A.axis (k * A.theta) v := by
  rw [← rotate_iterate hA]
  induction k generalizing v with
  | zero => simp
  | succ k ih => rw [Function.iterate_succ_apply', ih, apply_smul, Function.iterate_succ_apply', pow_succ, mul_smul]; rfl

/-- The vertices generated by a Class A matrix. -/
noncomputable def vertex (A : ClassA ℝ) (p v : P3 ℝ) : ℕ → P3 ℝ
  | 0 => p
  | i + 1 => vertex A p v i + A.apply^[i] v

theorem vertex_smul (A : ClassA ℝ) (p v : P3 ℝ) (q : ℝ) (i : ℕ) : vertex A p (q • v) i = p + q • (vertex A p v i - p) := by
  induction i with
  | zero => simp [vertex]
  | succ i ih => simp only [vertex]; rw [ih, apply_iterate_smul]; module

theorem generate_eq {n : ℕ} (hn : 1 ≤ n) (f : ℕ → P3 ℝ) (p v : P3 ℝ) (A : ClassA ℝ) :
    generateClassA n (tab (n + 1) f) p v A = .ok (tab (n + 1) (vertex A p v)) := by
  unfold generateClassA
  rw [vset_tab _ _ (by omega), M_bind_ok, vset_tab _ _ (by omega), M_bind_ok]
  have : forLoop (n - 1) (fun k (st : List (P3 ℝ) × P3 ℝ) => do
      let next := A.apply st.2
      let c ← vget st.1 (k + 1)
      let cp ← vset st.1 (k + 2) (c + next)
      .ok (cp, next)) (tab (n + 1) (Function.update (Function.update f 0 p) 1 (p + v)), v) =
      .ok (tab (n + 1) fun i => if i ≤ n - 1 + 1 then vertex A p v i else f i, A.apply^[n - 1] v) := by
    apply forLoop_eq (fun m => (tab (n + 1) fun i => if i ≤ m + 1 then vertex A p v i else f i, A.apply^[m] v))
    · congr 1
      refine tab_congr fun i hi => ?_
      rcases i with _ | _ | i
      · simp [vertex]
      · simp [vertex]
      · simp
    · intro k hk
      dsimp only
      rw [vget_tab _ (by omega), M_bind_ok, vset_tab _ _ (by omega), M_bind_ok, if_pos le_rfl, Function.iterate_succ_apply']
      congr 2
      refine tab_congr fun i hi => ?_
      by_cases h : i = k + 2
      · subst h
        rw [Function.update_self, if_pos (by omega)]
        simp only [vertex]
        rw [Function.iterate_succ_apply']
      · rw [Function.update_of_ne h]
        by_cases h2 : i ≤ k + 1
        · rw [if_pos h2, if_pos (by omega)]
        · rw [if_neg h2, if_neg (by omega)]
  rw [this, M_bind_ok]
  dsimp only
  congr 1
  exact tab_congr fun i hi => if_pos (by omega)

theorem generate_zero (cp : List (P3 ℝ)) (hc : cp.length = 1) (p v : P3 ℝ) (A : ClassA ℝ) : generateClassA 0 cp p v A = .error .oob := by
  unfold generateClassA
  rw [vset_of_lt (by omega), M_bind_ok]
  unfold vset
  rw [if_neg (by simp; omega)]
  rfl

/-- Either an outcome or a division by zero. -/
def OkOrDiv {α : Type} (r : M α) : Prop := (∃ a, r = .ok a) ∨ r = .error .divZero

theorem OkOrDiv.ok {α : Type} (a : α) : OkOrDiv (.ok a : M α) := Or.inl ⟨a, rfl⟩

theorem OkOrDiv.bind {α β : Type} {r : M α} {f : α → M β} (h : OkOrDiv r) (hf : ∀ a, r = .ok a → OkOrDiv (f a)) : OkOrDiv (r >>= f) := by
  rcases h with ⟨a, e⟩ | e
  · rw [e, M_bind_ok]; exact hf a e
  · rw [e]; exact Or.inr rfl

theorem OkOrDiv.normalize (a : P3 ℝ) : OkOrDiv a.normalize := by
  unfold P3.normalize
  split
  · exact Or.inr rfl
  · exact Or.inl ⟨_, rfl⟩

theorem OkOrDiv.fdiv (a b : ℝ) : OkOrDiv (fdiv a b) := by
  unfold Transfinite.fdiv
  split
  · exact Or.inr rfl
  · exact Or.inl ⟨_, rfl⟩

theorem setup_total (v0 v1 : P3 ℝ) (degree : ℕ) (phi s : ℝ) : OkOrDiv (setupMatrix v0 v1 degree phi s) := by
  unfold setupMatrix
  exact (OkOrDiv.normalize _).bind fun _ _ => (OkOrDiv.normalize _).bind fun _ _ => (OkOrDiv.normalize _).bind fun _ _ => (OkOrDiv.normalize _).bind fun _ _ => OkOrDiv.ok _

theorem eval_total {n : ℕ} (hn : 1 ≤ n) (f : ℕ → P3 ℝ) (pa pb v0 : P3 ℝ) (A : ClassA ℝ) : OkOrDiv (evalMatrix n (tab (n + 1) f) pa pb v0 A) := by
  unfold evalMatrix
  rw [generate_eq hn, M_bind_ok, vget_tab _ (by omega), M_bind_ok, vget_tab _ (by omega), M_bind_ok]
  exact (OkOrDiv.normalize _).bind fun _ _ => (OkOrDiv.normalize _).bind fun _ _ => OkOrDiv.ok _

theorem eval_ok {n : ℕ} (hn : 1 ≤ n) {f : ℕ → P3 ℝ} {pa pb v0 : P3 ℝ} {A : ClassA ℝ} {r : ℝ × List (P3 ℝ)} (h : evalMatrix n (tab (n + 1) f) pa pb v0 A = .ok r) :
    r.2 = tab (n + 1) (vertex A pa v0) ∧ vertex A pa v0 n ≠ pa ∧ pb ≠ pa ∧
      r.1 * ((vertex A pa v0 n - pa).norm * (pb - pa).norm) = P3.dot (vertex A pa v0 n - pa) (pb - pa) - (vertex A pa v0 n - pa).norm * (pb - pa).norm := by
  unfold evalMatrix at h
  rw [generate_eq hn, M_bind_ok, vget_tab _ (by omega), M_bind_ok, vget_tab _ (by omega), M_bind_ok] at h
  obtain ⟨u1, e1, h⟩ := bind_ok h
  obtain ⟨u2, e2, h⟩ := bind_ok h
  obtain rfl := (Except.ok.inj h).symm
  obtain ⟨n1, rfl, _⟩ := P3.normalize_unit e1
  obtain ⟨n2, rfl, _⟩ := P3.normalize_unit e2
  refine ⟨rfl, fun e => n1 (by rw [e]; exact sub_self _), fun e => n2 (by rw [e]; exact sub_self _), ?_⟩
  dsimp only
  rw [P3.dot_smul_left, P3.dot_smul_right]
  have q1 := (P3.norm_pos n1).ne'
  have q2 := (P3.norm_pos n2).ne'
  change vertex A pa v0 n - pa ≠ 0 at n1
  change (vertex A pa v0 n - pa).norm ≠ 0 at q1
  change ((vertex A pa v0 n - pa).norm⁻¹ * ((pb - pa).norm⁻¹ * P3.dot (vertex A pa v0 n - pa) (pb - pa)) - 1) * _ = _
  field_simp

theorem finish_eq {n : ℕ} (hn : 1 ≤ n) (pa pb v0 : P3 ℝ) (A : ClassA ℝ) (h : vertex A pa v0 n ≠ pa) :
    finishClassA n (tab (n + 1) (vertex A pa v0)) pa pb v0 A =
      .ok ⟨n, tab (n + 1) (Function.update (vertex A pa (((pb - pa).norm / (vertex A pa v0 n - pa).norm) • v0)) n pb)⟩ := by
  unfold finishClassA
  rw [vget_tab _ (by omega), M_bind_ok, vget_tab _ (by omega), M_bind_ok]
  have : (vertex A pa v0 n - vertex A pa v0 0).norm ≠ 0 := fun e => h (sub_eq_zero.mp (P3.norm_eq_zero.mp e))
  rw [fdiv_of_ne this, M_bind_ok, generate_eq hn, M_bind_ok, vset_tab _ _ (by omega), M_bind_ok]
  rfl

/-- What the matrix does: `degree - 1` applications take the first direction to a multiple of the last one. -/
theorem setup_spec {v0 v1 : P3 ℝ} {degree : ℕ} {phi s : ℝ} {A : ClassA ℝ} (h : setupMatrix v0 v1 degree phi s = .ok A) :
    P3.dot A.axis A.axis = 1 ∧ A.s = s ∧ P3.dot A.axis (v1 - v0) = 0 ∧
      (2 ≤ degree → P3.dot v0 v0 = 1 → P3.dot v1 v1 = 1 → 0 ≤ Real.cos phi → A.apply^[degree - 1] v0 = s ^ (degree - 1) • v1) := by
  unfold setupMatrix at h
  obtain ⟨e, he, h⟩ := bind_ok h
  obtain ⟨a, ha, h⟩ := bind_ok h
  obtain ⟨w0, hw0, h⟩ := bind_ok h
  obtain ⟨w1, hw1, h⟩ := bind_ok h
  obtain rfl := (Except.ok.inj h).symm
  obtain ⟨ne, ee, ue⟩ := P3.normalize_unit he
  obtain ⟨na, ea, ua⟩ := P3.normalize_unit ha
  obtain ⟨n0, e0, u0⟩ := P3.normalize_unit hw0
  obtain ⟨n1, e1, u1⟩ := P3.normalize_unit hw1
  have hec : P3.dot e (P3.cross v0 v1) = 0 := by
    rw [ee, P3.dot_smul_left, P3.dot_sub_left, P3.dot_cross_self_left, P3.dot_cross_self_right]; simp
  have hrot : rotate e phi (P3.cross v0 v1) = Real.cos phi • P3.cross v0 v1 + Real.sin phi • P3.cross e (P3.cross v0 v1) := by
    rw [rotate_eq, hec, mul_zero, zero_smul, add_zero]
  have hae : P3.dot a e = 0 := by
    rw [ea, hrot, P3.dot_smul_left, P3.dot_add_left, P3.dot_smul_left, P3.dot_smul_left, P3.dot_comm _ e, hec, P3.dot_comm _ e, P3.dot_cross_self_left]
    simp
  have hv : v1 - v0 = (v1 - v0).norm • e := by
    rw [ee, smul_smul, mul_inv_cancel₀ (P3.norm_pos ne).ne', one_smul]
  have had : P3.dot a (v1 - v0) = 0 := by rw [hv, P3.dot_smul_right, hae, mul_zero]
  refine ⟨ua, rfl, had, fun hd k0 k1 hc => ?_⟩
  rw [apply_iterate _ ua]
  dsimp only
  congr 1
  have hdeg : ((degree - 1 : ℕ) : ℝ) ≠ 0 := by
    have : degree - 1 ≠ 0 := by omega
    exact_mod_cast this
  rw [mul_div_cancel₀ _ hdeg]
  -- the common height and radius
  have hh : P3.dot v1 a = P3.dot v0 a := by
    rw [P3.dot_sub_right, P3.dot_comm a v1, P3.dot_comm a v0] at had; linarith
  set g := P3.dot v0 a with hg
  have hx0 : P3.dot (v0 - g • a) (v0 - g • a) = 1 - g ^ 2 := by
    simp only [P3.dot_sub_left, P3.dot_sub_right, P3.dot_smul_left, P3.dot_smul_right]
    rw [P3.dot_comm a v0, ← hg, ua, k0]; ring
  have hx1 : P3.dot (v1 - g • a) (v1 - g • a) = 1 - g ^ 2 := by
    simp only [P3.dot_sub_left, P3.dot_sub_right, P3.dot_smul_left, P3.dot_smul_right]
    rw [P3.dot_comm a v1, hh, ua, k1]; ring
  rw [hh] at e1 n1
  have hr : (v1 - g • a).norm = (v0 - g • a).norm := by unfold P3.norm; rw [hx0, hx1]
  have hrpos := P3.norm_pos n0
  rw [hr] at e1
  set r := (v0 - g • a).norm with hrdef
  have f0 : v0 = g • a + r • w0 := by
    rw [e0, smul_smul, mul_inv_cancel₀ hrpos.ne', one_smul, add_sub_cancel]
  have f1 : v1 = g • a + r • w1 := by
    rw [e1, smul_smul, mul_inv_cancel₀ hrpos.ne', one_smul, add_sub_cancel]
  have p0 : P3.dot w0 a = 0 := by
    rw [e0, P3.dot_smul_left, P3.dot_sub_left, P3.dot_smul_left, ua, ← hg]; ring
  have p1 : P3.dot w1 a = 0 := by
    rw [e1, P3.dot_smul_left, P3.dot_sub_left, P3.dot_smul_left, ua, hh]; ring
  have hpos : 0 ≤ P3.dot (P3.cross (w0 - w1) w1) a := by
    have q1 : P3.dot (P3.cross (w0 - w1) w1) a = r⁻¹ ^ 2 * P3.dot (P3.cross v0 v1) a := by
      have : P3.dot (P3.cross v0 v1) a = r ^ 2 * P3.dot (P3.cross (w0 - w1) w1) a := by
        rw [f0, f1]
        simp only [P3.cross, P3.dot, P3.add_x, P3.add_y, P3.add_z, P3.sub_x, P3.sub_y, P3.sub_z, P3.smul_x, P3.smul_y, P3.smul_z]; ring
      rw [this]
      field_simp
    have q2 : P3.dot (P3.cross v0 v1) a = (rotate e phi (P3.cross v0 v1)).norm⁻¹ * (Real.cos phi * P3.dot (P3.cross v0 v1) (P3.cross v0 v1)) := by
      rw [ea, hrot, P3.dot_smul_right, P3.dot_add_right, P3.dot_smul_right, P3.dot_smul_right, P3.dot_cross_self_right]
      ring
    rw [q1, q2]
    have := P3.dot_self_nonneg (P3.cross v0 v1)
    have := P3.norm_nonneg (rotate e phi (P3.cross v0 v1))
    positivity
  have hcl : min (max (P3.dot w0 w1) (-1)) 1 = Domain.clamp (P3.dot w1 w0) (-1) 1 := by
    unfold Domain.clamp
    rw [P3.dot_comm w1 w0]
    rcases le_total (P3.dot w0 w1) (-1) with q | q
    · rw [max_eq_right q, min_eq_left (by linarith), min_eq_left (by linarith), max_eq_left q]
    · rw [max_eq_left q, max_eq_right (le_min q (by norm_num))]
  have hit := rotate_hits ua u0 u1 p0 p1 (a := Real.arccos (min (max (P3.dot w0 w1) (-1)) 1)) (by rw [if_neg (not_lt.mpr hpos), hcl])
  change rotate a (Real.arccos (min (max (P3.dot w0 w1) (-1)) 1)) v0 = v1
  rw [f0, rotate_add_vec, rotate_smul, rotate_smul, rotate_self ua, hit, ← f1]

end BCurve

end Transfinite
