import Verif.Model.DemoTangent
import Verif.Spec.DemoTangent
import Verif.Props.Fences

/-! # Lemmas on the tangential test -/

namespace Transfinite

open Spec Set Filter Topology Real

namespace Demo

section perp

variable {D : Domain ℝ} {n : ℕ} {v : ℕ → P2 ℝ} {i : ℕ}

theorem norm2_pos {a : P2 ℝ} (h : a ≠ 0) : 0 < a.norm := by
  refine Real.sqrt_pos.mpr ?_
  unfold P2.dot
  by_contra hc
  have h1 : a.x = 0 := by nlinarith [mul_self_nonneg a.x, mul_self_nonneg a.y]
  have h2 : a.y = 0 := by nlinarith [mul_self_nonneg a.x, mul_self_nonneg a.y]
  exact h (by ext <;> assumption)

theorem side_norm_pos (hd : ConvexDomain D n v) (hi : i < n) : 0 < (v i - v ((i + n - 1) % n)).norm :=
  norm2_pos (sub_ne_zero.mpr (hd.side_ne hi))

theorem sidePerp_eq (hd : ConvexDomain D n v) (hi : i < n) : sidePerp D i = .ok (innerNormal n v i) := by
  have hp : (i + n - 1) % n < n := Nat.mod_lt _ (by omega)
  unfold sidePerp
  rw [hd.vget_vertex hi, M_bind_ok, hd.n_eq, hd.vget_vertex hp, M_bind_ok]
  have hneg : P2.dot (D.center - v i) ⟨(v i - v ((i + n - 1) % n)).y, -(v i - v ((i + n - 1) % n)).x⟩ < 0 := by
    have := hd.inside i hi
    unfold leftOf area2 at this
    simp only [P2.dot, P2.sub_x, P2.sub_y]
    nlinarith only [this]
  dsimp only
  rw [if_pos hneg]
  have e : (-(⟨(v i - v ((i + n - 1) % n)).y, -(v i - v ((i + n - 1) % n)).x⟩ : P2 ℝ)) =
      ⟨-(v i - v ((i + n - 1) % n)).y, (v i - v ((i + n - 1) % n)).x⟩ := by ext <;> simp
  rw [e]
  have hn : P2.norm (⟨-(v i - v ((i + n - 1) % n)).y, (v i - v ((i + n - 1) % n)).x⟩ : P2 ℝ) = (v i - v ((i + n - 1) % n)).norm := by
    unfold P2.norm P2.dot
    congr 1
    ring
  unfold P2.normalize innerNormal
  rw [hn, if_neg (side_norm_pos hd hi).ne']

theorem left_perp (j : ℕ) (p w : P2 ℝ) (t : ℝ) : leftOf n v j (p + t • w) = leftOf n v j p + t * inward n v j w := by
  unfold leftOf area2 inward
  simp only [P2.add_x, P2.add_y, P2.smul_x, P2.smul_y, P2.sub_x, P2.sub_y]
  ring

theorem inward_normal (hd : ConvexDomain D n v) (hi : i < n) : inward n v i (innerNormal n v i) = (v i - v ((i + n - 1) % n)).norm := by
  have h := side_norm_pos hd hi
  have e : (v i - v ((i + n - 1) % n)).norm * (v i - v ((i + n - 1) % n)).norm = P2.dot (v i - v ((i + n - 1) % n)) (v i - v ((i + n - 1) % n)) :=
    Real.mul_self_sqrt (add_nonneg (mul_self_nonneg _) (mul_self_nonneg _))
  unfold inward innerNormal
  simp only [P2.smul_x, P2.smul_y]
  unfold P2.dot at e
  field_simp
  nlinarith only [e]

theorem left_other (hd : ConvexDomain D n v) (hi : i < n) {s : ℝ} (s0 : 0 < s) (s1 : s < 1) {j : ℕ} (hj : j < n) (hji : j ≠ i) :
    0 < leftOf n v j (sidePoint n v i s) := by
  have hp : (i + n - 1) % n < n := Nat.mod_lt _ (by omega)
  have hn := hd.hn
  have aff : leftOf n v j (sidePoint n v i s) = (1 - s) * leftOf n v j (v ((i + n - 1) % n)) + s * leftOf n v j (v i) := by
    unfold leftOf area2 sidePoint
    simp only [P2.add_x, P2.add_y, P2.smul_x, P2.smul_y]
    ring
  have nonneg : ∀ k < n, 0 ≤ leftOf n v j (v k) := by
    intro k hk
    by_cases a : k = j
    · rw [a]; unfold leftOf area2; ring_nf; exact le_rfl
    · by_cases b : k = (j + n - 1) % n
      · rw [b]; unfold leftOf area2; ring_nf; exact le_rfl
      · exact (hd.convex j hj k hk a b).le
  rw [aff]
  by_cases b : i = (j + n - 1) % n
  · have q1 : (i + n - 1) % n ≠ j := by
      rw [b]
      intro q
      have := Param.next_ne_prev hn hi
      have e1 : (i + 1) % n = j := by rw [b]; exact nextIx_prevIx hj
      rw [← b] at q
      exact this (e1.trans q.symm)
    have q2 : (i + n - 1) % n ≠ (j + n - 1) % n := by
      rw [← b]; exact Param.prev_ne (by omega) hi
    have := hd.convex j hj _ hp q1 q2
    have := nonneg i hi
    have : 0 < 1 - s := by linarith
    positivity
  · have := hd.convex j hj i hi (Ne.symm hji) b
    have := nonneg _ hp
    have : 0 < 1 - s := by linarith
    positivity

/-- The path of the test into the domain. -/
theorem perp_path (hd : ConvexDomain D n v) (hi : i < n) {s : ℝ} (s0 : 0 < s) (s1 : s < 1) :
    DomainPath n v i s (fun t => sidePoint n v i s + t • innerNormal n v i) (innerNormal n v i) ∧ 0 < inward n v i (innerNormal n v i) := by
  have lin : ∀ a b : ℝ, RightDer (fun t => a + t * b) b := fun a b => by
    have := ((hasDerivWithinAt_id (0 : ℝ) (Ici 0)).mul_const b).const_add a
    unfold RightDer
    simpa using this
  have hin := inward_normal hd hi
  refine ⟨⟨by simp, lin _ _, lin _ _, ?_⟩, by rw [hin]; exact side_norm_pos hd hi⟩
  have far : ∀ j < n, ∀ᶠ t : ℝ in nhdsWithin 0 (Ici 0), 0 ≤ leftOf n v j (sidePoint n v i s + t • innerNormal n v i) := by
    intro j hj
    by_cases a : j = i
    · filter_upwards [self_mem_nhdsWithin] with t t0
      rw [left_perp, a, leftOf_sidePoint, hin, zero_add]
      exact mul_nonneg t0 (side_norm_pos hd hi).le
    · have h := left_other hd hi s0 s1 hj a
      have c : Tendsto (fun t : ℝ => leftOf n v j (sidePoint n v i s) + t * inward n v j (innerNormal n v i)) (nhdsWithin 0 (Ici 0))
          (𝓝 (leftOf n v j (sidePoint n v i s) + 0 * inward n v j (innerNormal n v i))) := by
        refine Tendsto.mono_left ?_ nhdsWithin_le_nhds
        exact (tendsto_const_nhds).add ((tendsto_id).mul_const _)
      filter_upwards [c.eventually (lt_mem_nhds (by simpa using h))] with t ht
      rw [left_perp]
      exact ht.le
  have := (Filter.eventually_all_finset (Finset.range n)).mpr fun j hj => far j (Finset.mem_range.mp hj)
  filter_upwards [this] with t ht j hj
  exact ht j (Finset.mem_range.mpr hj)

end perp

/-! ### Limits -/

section limit

private theorem slope {f : ℝ → ℝ} {f' : ℝ} (h : RightDer f f') : Tendsto (fun t => t⁻¹ * (f t - f 0)) (𝓝[>] 0) (𝓝 f') := by
  unfold RightDer at h
  rw [hasDerivWithinAt_iff_tendsto_slope] at h
  have e : Ici (0 : ℝ) \ {0} = Ioi 0 := by
    ext x
    simp [lt_iff_le_and_ne, eq_comm]
  rw [e] at h
  refine h.congr fun t => ?_
  simp [slope_def_field, div_eq_inv_mul]

theorem cosAngle_smul {a b : P3 ℝ} {t : ℝ} (h : 0 < t) : cosAngle (t • a) b = cosAngle a b := by
  have e : (t • a).norm = t * a.norm := by
    unfold P3.norm
    have : P3.dot (t • a) (t • a) = t ^ 2 * P3.dot a a := by
      simp only [P3.dot, P3.smul_x, P3.smul_y, P3.smul_z]; ring
    rw [this]
    change Real.sqrt _ = t * Real.sqrt _
    rw [Real.sqrt_mul (by positivity), Real.sqrt_sq h.le]
  unfold cosAngle
  rw [e, P3.dot_smul_left, mul_inv]
  field_simp

theorem normalize_dot {a : P3 ℝ} (h : a ≠ 0) (b : P3 ℝ) : ∃ u, a.normalize = .ok u ∧ P3.dot u b = cosAngle a b :=
  ⟨_, P3.normalize_ok h, by rw [P3.dot_smul_left]; rfl⟩

/-- The angle of a fixed vector and the normal vectors estimated by smaller and smaller steps. -/
theorem angle_limit {X : ℝ → P3 ℝ} {X' a N : P3 ℝ} (hX : RightDer3 X X') (h0 : P3.cross a X' ≠ 0) :
    (∀ᶠ t in 𝓝[>] (0 : ℝ), P3.cross a (X t - X 0) ≠ 0) ∧
      Tendsto (fun t => Real.arccos (cosAngle (P3.cross a (X t - X 0)) N)) (𝓝[>] 0) (𝓝 (Real.arccos (cosAngle (P3.cross a X') N))) := by
  set g : ℝ → P3 ℝ := fun t => P3.cross a (t⁻¹ • (X t - X 0)) with hg
  obtain ⟨d1, d2, d3⟩ := hX
  have k1 := slope d1
  have k2 := slope d2
  have k3 := slope d3
  have gx : Tendsto (fun t => (g t).x) (𝓝[>] 0) (𝓝 (P3.cross a X').x) := (k3.const_mul a.y).sub (k2.const_mul a.z)
  have gy : Tendsto (fun t => (g t).y) (𝓝[>] 0) (𝓝 (P3.cross a X').y) := (k1.const_mul a.z).sub (k3.const_mul a.x)
  have gz : Tendsto (fun t => (g t).z) (𝓝[>] 0) (𝓝 (P3.cross a X').z) := (k2.const_mul a.x).sub (k1.const_mul a.y)
  have gd : ∀ b : P3 ℝ, Tendsto (fun t => P3.dot (g t) b) (𝓝[>] 0) (𝓝 (P3.dot (P3.cross a X') b)) := fun b =>
    ((gx.mul_const b.x).add (gy.mul_const b.y)).add (gz.mul_const b.z)
  have gn : Tendsto (fun t => (g t).norm) (𝓝[>] 0) (𝓝 (P3.cross a X').norm) := by
    refine (Real.continuous_sqrt.tendsto _).comp ?_
    exact ((gx.mul gx).add (gy.mul gy)).add (gz.mul gz)
  have hpos := P3.norm_pos h0
  have gc : Tendsto (fun t => cosAngle (g t) N) (𝓝[>] 0) (𝓝 (cosAngle (P3.cross a X') N)) := (gn.inv₀ hpos.ne').mul (gd N)
  have scale : ∀ t, 0 < t → P3.cross a (X t - X 0) = t • g t := by
    intro t ht
    rw [hg]
    ext <;> simp [P3.cross] <;> field_simp
  constructor
  · filter_upwards [gn.eventually (lt_mem_nhds hpos), self_mem_nhdsWithin] with t h1 (h2 : 0 < t) h3
    rw [scale t h2] at h3
    have e : g t = 0 := by
      have := congrArg (fun x => t⁻¹ • x) h3
      simpa [smul_smul, h2.ne'] using this
    rw [e] at h1
    have z : (0 : P3 ℝ).norm = 0 := by
      change Real.sqrt _ = 0
      simp [P3.dot]
    rw [z] at h1
    exact lt_irrefl _ h1
  · refine ((Real.continuous_arccos.tendsto _).comp gc).congr' ?_
    filter_upwards [self_mem_nhdsWithin] with t (ht : 0 < t)
    change Real.arccos (cosAngle (g t) N) = _
    rw [scale t ht, cosAngle_smul ht]

end limit

/-! ### The maximum of the samples -/

theorem max_loop {n m : ℕ} {A : ℕ → ℕ → ℝ → Prop} {I : Patch ℝ → Prop} {step : ℕ → ℕ → ℝ × Patch ℝ → M (ℝ × Patch ℝ)}
    (hstep : ∀ i < n, ∀ j < m, ∀ st st', I st.2 → step i j st = .ok st' → I st'.2 ∧ ∃ a, A i j a ∧ st'.1 = max st.1 a) {P P' : Patch ℝ} {e : ℝ} (hP : I P)
    (h : forLoop n (fun i st => forLoop m (fun j st => step i j st) st) (0, P) = .ok (e, P')) :
    I P' ∧ (∀ i < n, ∀ j < m, ∃ a ≤ e, A i j a) ∧ (e = 0 ∨ ∃ i < n, ∃ j < m, A i j e) := by
  let Tst : (ℕ → ℕ → Prop) → ℝ × Patch ℝ → Prop := fun D st => I st.2 ∧ (∀ i j, D i j → ∃ a ≤ st.1, A i j a) ∧ (st.1 = 0 ∨ ∃ i j, D i j ∧ A i j st.1)
  have inner : ∀ i < n, ∀ k ≤ m, ∀ D st st', Tst D st → forLoop k (fun j st => step i j st) st = .ok st' → Tst (fun a b => D a b ∨ (a = i ∧ b < k)) st' := by
    intro i hi k
    induction k with
    | zero =>
      intro _ D st st' h0 h1
      cases h1
      exact ⟨h0.1, fun a b hab => h0.2.1 a b (hab.resolve_right (by omega)), h0.2.2.imp_right fun ⟨a, b, q, q'⟩ => ⟨a, b, Or.inl q, q'⟩⟩
    | succ k ih =>
      intro hk D st st' h0 h1
      rw [forLoop_succ] at h1
      obtain ⟨s1, e1, h1⟩ := bind_ok h1
      obtain ⟨t1, t2, t3⟩ := ih (by omega) D st s1 h0 e1
      obtain ⟨p1, a, p2, p3⟩ := hstep i hi k (by omega) s1 st' t1 h1
      refine ⟨p1, ?_, ?_⟩
      · intro x y hxy
        by_cases q : D x y ∨ (x = i ∧ y < k)
        · obtain ⟨b, b1, b2⟩ := t2 x y q
          exact ⟨b, by rw [p3]; exact le_max_of_le_left b1, b2⟩
        · have : x = i ∧ y = k := by
            rcases hxy with hxy | ⟨hx, hy⟩
            · exact absurd (Or.inl hxy) q
            · exact ⟨hx, by by_contra hne; exact q (Or.inr ⟨hx, by omega⟩)⟩
          obtain ⟨rfl, rfl⟩ := this
          exact ⟨a, by rw [p3]; exact le_max_right _ _, p2⟩
      · rcases le_total s1.1 a with q | q
        · right
          exact ⟨i, k, Or.inr ⟨rfl, by omega⟩, by rw [p3, max_eq_right q]; exact p2⟩
        · rw [p3, max_eq_left q]
          refine t3.imp_right fun ⟨x, y, d, d'⟩ => ⟨x, y, ?_, d'⟩
          exact d.imp_right fun ⟨h1, h2⟩ => ⟨h1, by omega⟩
  have outer : ∀ k ≤ n, ∀ st', forLoop k (fun i st => forLoop m (fun j st => step i j st) st) (0, P) = .ok st' → Tst (fun a b => a < k ∧ b < m) st' := by
    intro k
    induction k with
    | zero =>
      intro _ st' h1
      cases h1
      exact ⟨hP, fun i j h => by omega, Or.inl rfl⟩
    | succ k ih =>
      intro hk st' h1
      rw [forLoop_succ] at h1
      obtain ⟨s1, e1, h1⟩ := bind_ok h1
      obtain ⟨t1, t2, t3⟩ := inner k (by omega) m le_rfl _ s1 st' (ih (by omega) s1 e1) h1
      exact ⟨t1, fun a b q => t2 a b (by omega), t3.imp_right fun ⟨a, b, q, q'⟩ => ⟨a, b, by omega, q'⟩⟩
  obtain ⟨t1, t2, t3⟩ := outer n le_rfl _ h
  exact ⟨t1, fun i hi j hj => t2 i j ⟨hi, hj⟩, t3.imp_right fun ⟨a, b, q, q'⟩ => ⟨a, q.1, b, q.2, q'⟩⟩

end Demo

end Transfinite
