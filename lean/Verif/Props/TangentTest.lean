import Verif.Lemmas.DemoTangent
import Verif.Props.MeshEval
import Verif.Props.GenBezierTangent
import Verif.Lemmas.GBFit

/-! # C96: the tangential test of the test program -/

namespace Transfinite

open Spec Set Filter Topology Real

namespace Demo

variable {ε δ : ℝ} {kind : PatchKind} {n : ℕ} {c : ℕ → Curve ℝ} {P P' : Patch ℝ} {v : ℕ → P2 ℝ} {T : ℕ → ℝ → P3 ℝ} {i : ℕ} {s : ℝ}

/-- At the parameter `s` of side `i` the angle `a` is found: between the normal fence and the vector perpendicular to the boundary curve and to the
difference of two points of the surface, those of the side and of the point at the distance `step` from the side. -/
def AngleAt (ε step : ℝ) (P : Patch ℝ) (n : ℕ) (v : ℕ → P2 ℝ) (c : ℕ → Curve ℝ) (i : ℕ) (s a : ℝ) : Prop :=
  ∃ p q Q Q' r N, P.eval ε (sidePoint n v i s) = .ok (p, Q) ∧ P.eval ε (sidePoint n v i s + step • innerNormal n v i) = .ok (q, Q') ∧
    vget P.surf.ribbons i = .ok r ∧ r.normal ε s = .ok N ∧ P3.cross ((c i).der s) (q - p) ≠ 0 ∧
    a = arccos (cosAngle (P3.cross ((c i).der s) (q - p)) N)

private theorem loop_curve (h : UpdatedLoop ε kind n c P) (hn : 3 ≤ n) (hd : ConvexDomain P.dom.dom n v) :
    Patch.ParamOk ε P ∧ ∀ i < n, ∀ r, vget P.surf.ribbons i = .ok r → r.curve = c i := by
  obtain ⟨_, F, ha⟩ := h.agreed hn
  refine ⟨ha.inv.param.resolve_left (by rw [hd.n_eq]; omega), fun i hi r hr => ?_⟩
  obtain ⟨x, hx⟩ := ha.surf
  rw [hx.ribs, vget_tab _ hi] at hr
  cases hr
  exact (hx.ready i hi).basic.2.1

private theorem normalize_ne {a u : P3 ℝ} (h : a.normalize = .ok u) : a ≠ 0 ∧ u = a.norm⁻¹ • a := by
  unfold P3.normalize at h
  split_ifs at h with q
  refine ⟨fun e => q ?_, (Except.ok.inj h).symm⟩
  rw [e]
  change Real.sqrt _ = 0
  simp [P3.dot]

/-- The angle computed in one sample. -/
theorem angle_iff (hn : 3 ≤ n) (h : UpdatedLoop ε kind n c P) (hd : ConvexDomain P.dom.dom n v) (hi : i < n) {Q : Patch ℝ} (hq : Patch.Queried ε P Q)
    (step s : ℝ) :
    (∀ a, AngleAt ε step P n v c i s a → ∃ Q', tangentialAngle ε step i s Q = .ok (a, Q')) ∧
      ∀ x, tangentialAngle ε step i s Q = .ok x → Patch.Queried ε P x.2 ∧ AngleAt ε step P n v c i s x.1 := by
  obtain ⟨hp, hc⟩ := loop_curve h hn hd
  have unfold1 : tangentialAngle ε step i s Q = (do
      let p ← Q.eval ε (sidePoint n v i s)
      let q ← p.2.eval ε (sidePoint n v i s + step • innerNormal n v i)
      let r ← vget q.2.surf.ribbons i
      let surfNormal ← (P3.cross (r.curve.der s) (q.1 - p.1)).normalize
      let normal ← r.normal ε s
      Except.ok (Libm.acos (P3.dot surfNormal normal), q.2)) := by
    unfold tangentialAngle
    rw [hq.dom, sidePerp_eq hd hi, M_bind_ok, hd.edgePoint hi, M_bind_ok]
  rw [unfold1]
  constructor
  · rintro a ⟨p, q, Q1, Q2, r, N, e1, e2, e3, e4, e5, rfl⟩
    obtain ⟨R1, f1⟩ := (hq.eval_iff hp _ _).mpr ⟨Q1, e1⟩
    have q1 := hq.trans (Patch.eval_queried f1)
    obtain ⟨R2, f2⟩ := (q1.eval_iff hp _ _).mpr ⟨Q2, e2⟩
    have q2 := q1.trans (Patch.eval_queried f2)
    refine ⟨R2, ?_⟩
    rw [f1, M_bind_ok]
    dsimp only
    rw [f2, M_bind_ok]
    dsimp only at q2 ⊢
    rw [q2.surf, e3, M_bind_ok, hc i hi r e3]
    obtain ⟨u, u1, u2⟩ := normalize_dot e5 N
    rw [u1, M_bind_ok, e4, M_bind_ok, u2]
    rfl
  · intro x hx
    obtain ⟨⟨p, R1⟩, f1, hx⟩ := bind_ok hx
    obtain ⟨⟨q, R2⟩, f2, hx⟩ := bind_ok hx
    obtain ⟨r, e3, hx⟩ := bind_ok hx
    obtain ⟨u, e5, hx⟩ := bind_ok hx
    obtain ⟨N, e4, hx⟩ := bind_ok hx
    cases hx
    have q1 := hq.trans (Patch.eval_queried f1)
    have q2 := q1.trans (Patch.eval_queried f2)
    obtain ⟨Q1, e1⟩ := (hq.eval_iff hp _ _).mp ⟨R1, f1⟩
    obtain ⟨Q2, e2⟩ := (q1.eval_iff hp _ _).mp ⟨R2, f2⟩
    dsimp only at e3 e5 q2
    rw [q2.surf] at e3
    rw [hc i hi r e3] at e5
    obtain ⟨n1, n2⟩ := normalize_ne e5
    refine ⟨q2, p, q, Q1, Q2, r, N, e1, e2, e3, e4, n1, ?_⟩
    rw [n2, P3.dot_smul_left]
    rfl

/-- C96: what the tangential error is: the largest of the angles found at the 41 parameters of each side. -/
theorem C96_meaning (hn : 3 ≤ n) (h : UpdatedLoop ε kind n c P) (hd : ConvexDomain P.dom.dom n v) {step e : ℝ}
    (he : tangentialError ε step P = .ok (e, P')) :
    (∀ i < n, ∀ j ≤ 40, ∃ a ≤ e, AngleAt ε step P n v c i ((j : ℕ) / 40) a) ∧ ∃ i < n, ∃ j ≤ 40, AngleAt ε step P n v c i ((j : ℕ) / 40) e := by
  unfold tangentialError at he
  rw [hd.n_eq] at he
  obtain ⟨_, t1, t2⟩ := max_loop (A := fun i j a => AngleAt ε step P n v c i ((j : ℕ) / 40) a) (I := Patch.Queried ε P)
    (step := fun i j st => tangentialStep ε step i j st) (by
    intro i hi j _ st st' hq hs
    unfold tangentialStep at hs
    rw [fdiv_of_ne (by norm_num), M_bind_ok] at hs
    obtain ⟨x, e1, hs⟩ := bind_ok hs
    cases hs
    obtain ⟨k1, k2⟩ := (angle_iff hn h hd hi hq step _).2 x e1
    exact ⟨k1, x.1, k2, rfl⟩) (Patch.Queried.refl ε P) he
  have first : ∀ i < n, ∀ j ≤ 40, ∃ a ≤ e, AngleAt ε step P n v c i ((j : ℕ) / 40) a := fun i hi j hj => t1 i hi j (by omega)
  refine ⟨first, ?_⟩
  rcases t2 with t2 | ⟨i, hi, j, hj, t⟩
  · obtain ⟨a, ha, q⟩ := first 0 (by omega) 0 (by omega)
    have nn : 0 ≤ a := by
      obtain ⟨_, _, _, _, _, _, _, _, _, _, _, rfl⟩ := q
      exact arccos_nonneg _
    have : a = e := le_antisymm ha (by rw [t2]; exact nn)
    exact ⟨0, by omega, 0, by omega, by rw [← this]; exact q⟩
  · exact ⟨i, hi, j, by omega, t⟩

private theorem cross_smul_add (a b : P3 ℝ) (α β : ℝ) : P3.cross a (α • a + β • b) = β • P3.cross a b := by
  ext <;> simp [P3.cross] <;> ring

/-- The limit of the angles. -/
private theorem limit (hn : 3 ≤ n) (h : UpdatedLoop ε kind n c P) (hd : ConvexDomain P.dom.dom n v) (ht : TangentAt ε P n v c T δ i s) (hi : i < n)
    (s0 : 0 < s) (s1 : s < 1) {r : Ribbon ℝ} (hr : vget P.surf.ribbons i = .ok r) {N : P3 ℝ} (hN : r.normal ε s = .ok N)
    (h0 : ∀ e, Close δ e 0 → P3.cross ((c i).der s) (T i s + e) ≠ 0) :
    ∃ (A : ℝ → ℝ) (e : P3 ℝ), Close δ e 0 ∧ (∀ᶠ t in 𝓝[>] (0 : ℝ), ∃ Q, tangentialAngle ε t i s P = .ok (A t, Q)) ∧
      Tendsto A (𝓝[>] 0) (𝓝 (arccos (cosAngle (P3.cross ((c i).der s) (T i s + e)) N))) := by
  obtain ⟨p1, p2⟩ := perp_path hd hi s0 s1
  obtain ⟨X, α, β, e, k1, k2, k3, k4, _, k6⟩ := ht _ _ p1
  have hβ := k6 p2
  have hcr := cross_smul_add ((c i).der s) (T i s + e) α β
  have hne : P3.cross ((c i).der s) (α • (c i).der s + β • (T i s + e)) ≠ 0 := by
    rw [hcr]
    exact smul_ne_zero hβ.ne' (h0 e k4)
  obtain ⟨l1, l2⟩ := angle_limit (N := N) k3 hne
  rw [hcr, cosAngle_smul hβ] at l2
  refine ⟨_, e, k4, ?_, l2⟩
  have k0 : ∃ Q, P.eval ε (sidePoint n v i s) = .ok (X 0, Q) := by
    obtain ⟨Q, hQ⟩ := k1.self_of_nhdsWithin (by simp)
    rw [zero_smul, add_zero] at hQ
    exact ⟨Q, hQ⟩
  obtain ⟨Q0, hQ0⟩ := k0
  filter_upwards [l1, k1.filter_mono (nhdsWithin_mono _ Ioi_subset_Ici_self)] with t t1 ⟨Q, t2⟩
  exact (angle_iff hn h hd hi (Patch.Queried.refl ε P) t s).1 _ ⟨X 0, X t, Q0, Q, r, N, hQ0, t2, hr, hN, t1, rfl⟩

/-- The angle between the normal vector and a plane that is nearly perpendicular to it. -/
private theorem cos_bound {a b e N : P3 ℝ} (ha : a ≠ 0) (hN : P3.dot N N = 1) (haN : P3.dot a N = 0) (hbN : P3.dot b N = 0) {m : ℝ}
    (hm : m * a.norm ≤ P3.dot (P3.cross a b) N) (he : Close δ e 0) (hδ : 2 * δ < m) :
    P3.cross a (b + e) ≠ 0 ∧ (m - 2 * δ) / (m + 2 * δ) ≤ cosAngle (P3.cross a (b + e)) N := by
  have d0 := he.nonneg
  have a0 := P3.norm_pos ha
  have aa := P3.norm_mul_self a
  set A := a.norm
  set μ := P3.dot (P3.cross a b) N with hμ
  have sq : ∀ x : ℝ, |x - 0| ≤ δ → x * x ≤ δ * δ := fun x hx => by
    rw [sub_zero] at hx
    rw [← abs_mul_abs_self x]
    exact mul_le_mul hx hx (abs_nonneg _) d0
  have ee : P3.dot e e ≤ (2 * δ) ^ 2 := by
    have k1 := sq _ he.1
    have k2 := sq _ he.2.1
    have k3 := sq _ he.2.2
    unfold P3.dot
    nlinarith only [k1, k2, k3, mul_self_nonneg δ]
  set f := P3.cross a e with hf
  have lag : ∀ x y : P3 ℝ, P3.dot (P3.cross x y) (P3.cross x y) + P3.dot x y ^ 2 = P3.dot x x * P3.dot y y := by
    intro x y
    simp only [P3.dot, P3.cross]
    ring
  have cs : ∀ x y : P3 ℝ, P3.dot x y ^ 2 ≤ P3.dot x x * P3.dot y y := by
    intro x y
    have := lag x y
    have := P3.dot_self_nonneg (P3.cross x y)
    linarith
  set F := 2 * δ * A with hF
  have F0 : 0 ≤ F := by positivity
  have ff : P3.dot f f ≤ F ^ 2 := by
    have k := lag a e
    have k1 := sq_nonneg (P3.dot a e)
    have k2 := mul_le_mul_of_nonneg_left ee (P3.dot_self_nonneg a)
    have : F ^ 2 = P3.dot a a * (2 * δ) ^ 2 := by rw [← aa, hF]; ring
    rw [this]
    linarith
  have fN : P3.dot f N ^ 2 ≤ F ^ 2 := by
    have := cs f N
    rw [hN, mul_one] at this
    linarith
  have fN' := abs_le_of_sq_le_sq' fN F0
  have cx : P3.cross a b = μ • N := by
    have h1 := haN
    have h2 := hbN
    have h3 := hN
    rw [hμ]
    unfold P3.dot at h1 h2 h3
    ext
    · simp only [P3.cross, P3.dot, P3.smul_x]
      linear_combination (-(a.y * b.z - a.z * b.y)) * h3 + (N.y * b.z - N.z * b.y) * h1 - (N.y * a.z - N.z * a.y) * h2
    · simp only [P3.cross, P3.dot, P3.smul_y]
      linear_combination (-(a.z * b.x - a.x * b.z)) * h3 + (N.z * b.x - N.x * b.z) * h1 - (N.z * a.x - N.x * a.z) * h2
    · simp only [P3.cross, P3.dot, P3.smul_z]
      linear_combination (-(a.x * b.y - a.y * b.x)) * h3 + (N.x * b.y - N.y * b.x) * h1 - (N.x * a.y - N.y * a.x) * h2
  set w := P3.cross a (b + e) with hw
  have we : w = μ • N + f := by
    rw [← cx, hw, hf]
    ext <;> simp [P3.cross] <;> ring
  have wN : P3.dot w N = μ + P3.dot f N := by
    have := hN
    rw [we]
    simp only [P3.dot, P3.add_x, P3.add_y, P3.add_z, P3.smul_x, P3.smul_y, P3.smul_z] at this ⊢
    linear_combination μ * this
  have m0 : 0 < m := by linarith
  have μF : F < μ := by
    have : 2 * δ * A < m * A := mul_lt_mul_of_pos_right hδ a0
    linarith
  have w0 : w ≠ 0 := by
    intro q
    rw [q] at wN
    have : P3.dot (0 : P3 ℝ) N = 0 := by simp [P3.dot]
    linarith [fN'.1]
  refine ⟨w0, ?_⟩
  have wpos := P3.norm_pos w0
  have ww : w.norm ≤ μ + F := by
    have k := P3.norm_mul_self w
    have k2 : P3.dot w w = μ ^ 2 + 2 * μ * P3.dot f N + P3.dot f f := by
      have := hN
      rw [we]
      simp only [P3.dot, P3.add_x, P3.add_y, P3.add_z, P3.smul_x, P3.smul_y, P3.smul_z] at this ⊢
      linear_combination μ ^ 2 * this
    have k3 : μ * P3.dot f N ≤ μ * F := mul_le_mul_of_nonneg_left fN'.2 (by linarith)
    refine abs_le_of_sq_le_sq' (a := w.norm) (b := μ + F) ?_ (by linarith) |>.2
    nlinarith only [k, k2, k3, ff]
  unfold cosAngle
  rw [wN, ← div_eq_inv_mul, div_le_div_iff₀ (by linarith) wpos]
  have k1 : (m - 2 * δ) * w.norm ≤ (m - 2 * δ) * (μ + F) := mul_le_mul_of_nonneg_left ww (by linarith)
  have k2 : (μ - F) * (m + 2 * δ) ≤ (μ + P3.dot f N) * (m + 2 * δ) := mul_le_mul_of_nonneg_right (by linarith [fN'.1]) (by linarith)
  have k3 : (m - 2 * δ) * (μ + F) ≤ (μ - F) * (m + 2 * δ) := by
    have : δ * (m * A) ≤ δ * μ := mul_le_mul_of_nonneg_left hm d0
    rw [hF]
    nlinarith only [this]
  linarith

/-- C96: as the step of the test gets smaller, the angle found inside of a side tends to a limit whose cosine is at least `(m - 2δ) / (m + 2δ)`, where `m` is the
distance of the cross derivative from the tangent of the curve and `δ` is the error of the twists. -/
theorem C96_limit (hn : 3 ≤ n) (h : UpdatedLoop ε kind n c P) (hd : ConvexDomain P.dom.dom n v) (ht : TangentAt ε P n v c T δ i s) (hi : i < n)
    (s0 : 0 < s) (s1 : s < 1) {r : Ribbon ℝ} (hr : vget P.surf.ribbons i = .ok r) {N : P3 ℝ} (hN : r.normal ε s = .ok N) (hu : P3.dot N N = 1)
    (hc : P3.dot ((c i).der s) N = 0) (hT : P3.dot (T i s) N = 0) (h0 : (c i).der s ≠ 0) {m : ℝ}
    (hm : m * ((c i).der s).norm ≤ P3.dot (P3.cross ((c i).der s) (T i s)) N) (hδ : 2 * δ < m) :
    ∃ (A : ℝ → ℝ) (θ : ℝ), (∀ᶠ t in 𝓝[>] (0 : ℝ), ∃ Q, tangentialAngle ε t i s P = .ok (A t, Q)) ∧ Tendsto A (𝓝[>] 0) (𝓝 θ) ∧
      0 ≤ θ ∧ θ ≤ arccos ((m - 2 * δ) / (m + 2 * δ)) := by
  obtain ⟨A, e, k1, k2, k3⟩ := limit hn h hd ht hi s0 s1 hr hN fun e he => (cos_bound h0 hu hc hT hm he hδ).1
  exact ⟨A, _, k2, k3, arccos_nonneg _, arccos_le_arccos (cos_bound h0 hu hc hT hm k1 hδ).2⟩

/-- C96: without twist errors the limit is 0. -/
theorem C96_exact (hn : 3 ≤ n) (h : UpdatedLoop ε kind n c P) (hd : ConvexDomain P.dom.dom n v) (ht : TangentAt ε P n v c T 0 i s) (hi : i < n)
    (s0 : 0 < s) (s1 : s < 1) {r : Ribbon ℝ} (hr : vget P.surf.ribbons i = .ok r) {N : P3 ℝ} (hN : r.normal ε s = .ok N) (hu : P3.dot N N = 1)
    (hc : P3.dot ((c i).der s) N = 0) (hT : P3.dot (T i s) N = 0) (hm : 0 < P3.dot (P3.cross ((c i).der s) (T i s)) N) :
    ∃ A : ℝ → ℝ, (∀ᶠ t in 𝓝[>] (0 : ℝ), ∃ Q, tangentialAngle ε t i s P = .ok (A t, Q)) ∧ Tendsto A (𝓝[>] 0) (𝓝 0) := by
  have h0 : (c i).der s ≠ 0 := by
    intro q
    rw [q] at hm
    simp [P3.dot, P3.cross] at hm
  have a0 := P3.norm_pos h0
  obtain ⟨A, θ, k1, k2, k3, k4⟩ := C96_limit (m := P3.dot (P3.cross ((c i).der s) (T i s)) N / ((c i).der s).norm) hn h hd ht hi s0 s1 hr hN hu hc hT h0
    (by rw [div_mul_cancel₀ _ a0.ne']) (by rw [mul_zero]; positivity)
  have q : P3.dot (P3.cross ((c i).der s) (T i s)) N / ((c i).der s).norm ≠ 0 := (div_pos hm a0).ne'
  rw [mul_zero, sub_zero, add_zero, div_self q, arccos_one] at k4
  have : θ = 0 := le_antisymm k4 k3
  rw [this] at k2
  exact ⟨A, k1, k2⟩

/-- C96: with a normal fence of the opposite orientation the same surface is reported to be wrong: the angle tends to π. -/
theorem C96_reversed (hn : 3 ≤ n) (h : UpdatedLoop ε kind n c P) (hd : ConvexDomain P.dom.dom n v) (ht : TangentAt ε P n v c T 0 i s) (hi : i < n)
    (s0 : 0 < s) (s1 : s < 1) {r : Ribbon ℝ} (hr : vget P.surf.ribbons i = .ok r) {N : P3 ℝ} (hN : r.normal ε s = .ok N) (hu : P3.dot N N = 1)
    (hc : P3.dot ((c i).der s) N = 0) (hT : P3.dot (T i s) N = 0) (hm : P3.dot (P3.cross ((c i).der s) (T i s)) N < 0) :
    ∃ A : ℝ → ℝ, (∀ᶠ t in 𝓝[>] (0 : ℝ), ∃ Q, tangentialAngle ε t i s P = .ok (A t, Q)) ∧ Tendsto A (𝓝[>] 0) (𝓝 π) := by
  have h0 : (c i).der s ≠ 0 := by
    intro q
    rw [q] at hm
    simp [P3.dot, P3.cross] at hm
  have a0 := P3.norm_pos h0
  have neg : ∀ x : P3 ℝ, P3.dot x (-N) = -P3.dot x N := fun x => by simp only [P3.dot, P3.neg_x, P3.neg_y, P3.neg_z]; ring
  have hu' : P3.dot (-N) (-N) = 1 := by rw [← hu]; simp only [P3.dot, P3.neg_x, P3.neg_y, P3.neg_z]; ring
  have hpos : 0 < P3.dot (P3.cross ((c i).der s) (T i s)) (-N) := by rw [neg]; linarith
  have key : ∀ e, Close 0 e 0 → P3.cross ((c i).der s) (T i s + e) ≠ 0 ∧ 1 ≤ cosAngle (P3.cross ((c i).der s) (T i s + e)) (-N) := by
    intro e he
    have := cos_bound (m := P3.dot (P3.cross ((c i).der s) (T i s)) (-N) / ((c i).der s).norm) h0 hu' (by rw [neg, hc, neg_zero]) (by rw [neg, hT, neg_zero])
      (by rw [div_mul_cancel₀ _ a0.ne']) he (by rw [mul_zero]; positivity)
    rwa [mul_zero, sub_zero, add_zero, div_self (div_pos hpos a0).ne'] at this
  obtain ⟨A, e, k1, k2, k3⟩ := limit hn h hd ht hi s0 s1 hr hN fun e he => (key e he).1
  have k4 := (key e k1).2
  have : cosAngle (P3.cross ((c i).der s) (T i s + e)) (-N) = -cosAngle (P3.cross ((c i).der s) (T i s + e)) N := by
    unfold cosAngle
    rw [neg]
    ring
  rw [this] at k4
  rw [arccos_of_le_neg_one (by linarith)] at k3
  exact ⟨A, k2, k3⟩

/-- C96: in a corner whose angle is acute the test leaves the domain: the second point of the sample `j = 0` is not in the polygon for any step. -/
theorem C96_corner {D : Domain ℝ} (hd : ConvexDomain D n v) (hi : i < n) {step : ℝ} (hs : 0 < step)
    (hacute : P2.dot (v ((i + n - 1) % n) - v (((i + n - 1) % n + n - 1) % n)) (v i - v ((i + n - 1) % n)) < 0) :
    ¬InsideClosed n v (sidePoint n v i 0 + step • innerNormal n v i) := by
  intro q
  have hp : (i + n - 1) % n < n := Nat.mod_lt _ (by omega)
  have := q _ hp
  have e0 : leftOf n v ((i + n - 1) % n) (sidePoint n v i 0) = 0 := by
    unfold leftOf area2 sidePoint
    simp
    ring
  rw [left_perp, e0, zero_add] at this
  have a0 := side_norm_pos hd hi
  have e1 : inward n v ((i + n - 1) % n) (innerNormal n v i) =
      (v i - v ((i + n - 1) % n)).norm⁻¹ * P2.dot (v ((i + n - 1) % n) - v (((i + n - 1) % n + n - 1) % n)) (v i - v ((i + n - 1) % n)) := by
    unfold inward innerNormal
    simp only [P2.dot, P2.smul_x, P2.smul_y, P2.sub_x, P2.sub_y]
    ring
  rw [e1] at this
  have := mul_neg_of_pos_of_neg hs (mul_neg_of_pos_of_neg (inv_pos.mpr a0) hacute)
  linarith

/-- C96: this is the case for the regular triangle, on which three-sided surfaces (except for the side-based ones) are defined. -/
theorem C96_triangle {ρ φ : ℝ} (hρ : 0 < ρ) {D : Domain ℝ} (hd : ConvexDomain D 3 (regularVertex 3 ρ φ)) (hi : i < 3) {step : ℝ} (hs : 0 < step) :
    ¬InsideClosed 3 (regularVertex 3 ρ φ) (sidePoint 3 (regularVertex 3 ρ φ) i 0 + step • innerNormal 3 (regularVertex 3 ρ φ) i) := by
  refine C96_corner hd hi hs ?_
  have e : ∀ k : ℕ, regularVertex 3 ρ φ (k % 3) = ρ • circ (φ + 2 * π / 3 * k) := fun k => by
    have := regularVertex_mod (n := 3) (by norm_num) ρ φ k
    exact_mod_cast this
  have c3 : cos (2 * π / 3) = -1 / 2 := by
    rw [show 2 * π / 3 = π - π / 3 by ring, cos_pi_sub, cos_pi_div_three]; norm_num
  have e1 : regularVertex 3 ρ φ ((i + 3 - 1) % 3) = ρ • circ (φ + 2 * π / 3 * (i + 2 : ℕ)) := e (i + 2)
  have e2 : regularVertex 3 ρ φ (((i + 3 - 1) % 3 + 3 - 1) % 3) = ρ • circ (φ + 2 * π / 3 * (i + 4 : ℕ)) := by
    rw [← e (i + 4)]
    congr 1
    omega
  have e3 : regularVertex 3 ρ φ i = ρ • circ (φ + 2 * π / 3 * (i + 3 : ℕ)) := by
    rw [← e (i + 3)]
    congr 1
    omega
  rw [e1, e2, e3]
  set x := φ + 2 * π / 3 * (i + 3 : ℕ) with hx
  have x1 : φ + 2 * π / 3 * (i + 2 : ℕ) = x - 2 * π / 3 := by rw [hx]; push_cast; ring
  have x2 : φ + 2 * π / 3 * (i + 4 : ℕ) = x + 2 * π / 3 := by rw [hx]; push_cast; ring
  rw [x1, x2]
  have t := sin_sq_add_cos_sq x
  have t3 := sin_sq_add_cos_sq (2 * π / 3)
  rw [c3] at t3
  simp only [P2.dot, P2.sub_x, P2.sub_y, P2.smul_x, P2.smul_y, circ, cos_add, cos_sub, sin_add, sin_sub, c3]
  have : 0 < ρ * ρ := mul_pos hρ hρ
  have key : (ρ * (cos x * (-1 / 2) + sin x * sin (2 * π / 3)) - ρ * (cos x * (-1 / 2) - sin x * sin (2 * π / 3))) *
        (ρ * cos x - ρ * (cos x * (-1 / 2) + sin x * sin (2 * π / 3))) +
      (ρ * (sin x * (-1 / 2) - cos x * sin (2 * π / 3)) - ρ * (sin x * (-1 / 2) + cos x * sin (2 * π / 3))) *
        (ρ * sin x - ρ * (sin x * (-1 / 2) - cos x * sin (2 * π / 3))) = -(3 / 2) * (ρ * ρ) := by
    linear_combination (-2 * sin (2 * π / 3) ^ 2 * ρ ^ 2) * t - 2 * ρ ^ 2 * t3
  rw [key]
  linarith

/-! ### Generalized Bézier surfaces -/

private theorem bezierCurve_der (arc : List (P3 ℝ) → ℝ → ℝ → ℝ) {d : ℕ} (hd : 1 ≤ d) (p : ℕ → P3 ℝ) (u : ℝ) :
    (bezierCurve arc (tab (d + 1) p)).der u = bezierDer d p u := by
  unfold bezierCurve bezierDer
  dsimp only
  rw [length_tab, Nat.add_sub_cancel, show d + 1 - 2 = d - 1 by omega]
  unfold bezier
  rw [Finset.smul_sum]
  apply Finset.sum_congr rfl
  intro j hj
  rw [Finset.mem_range] at hj
  rw [smul_comm]
  dsimp only
  have g : ∀ k ≤ d, (tab (d + 1) p).getD k 0 = p k := fun k hk => by simp [tab, List.getD, show k < d + 1 by omega]
  rw [g _ (by omega), g _ (by omega)]

private theorem innerCurve_eq (arc : List (P3 ℝ) → ℝ → ℝ → ℝ) {G : GB ℝ} {d : ℕ} {cp : ℕ → ℕ → ℕ → P3 ℝ} (hG : G.degree = d) (hd : 3 ≤ d)
    (hcp : GB.HasPoints G n d cp) (hi : i < n) : innerCurve arc G i = .ok (bezierCurve arc (tab (d + 1) fun j => cp i j 1)) := by
  unfold innerCurve
  rw [hG]
  have e := forLoop_push (d + 1) (fun j (l : List (P3 ℝ)) => do
    let p ← G.controlPoint i j 1
    Except.ok (l ++ [p])) (fun j => cp i j 1) [] fun j l hj => by rw [hcp i hi j (by omega) 1 (by omega), M_bind_ok]
  rw [e, M_bind_ok]
  rfl

private theorem eval_curves {G : GB ℝ} {uv : P2 ℝ} {r : P3 ℝ × GB ℝ} (h : G.eval ε uv = .ok r) : r.2.curves = G.curves := by
  unfold GB.eval at h
  obtain ⟨x, _, h⟩ := bind_ok h
  obtain ⟨p, _, h⟩ := bind_ok h
  cases h
  rfl

/-- C96: for generalized Bézier surfaces the angle tends to 0. -/
theorem C96_bezier {arc : List (P3 ℝ) → ℝ → ℝ → ℝ} {d g l : ℕ} {G : GB ℝ} {before later : List (GB.Call ℝ)} (hε : 0 < ε) (hn : 3 ≤ n) (hd : 3 ≤ d)
    (h : (GB.new .side g l).run ε arc (before ++ .loop :: later) = .ok G) (hb : ∀ x ∈ before, x.regular = true) (hl : ∀ x ∈ later, x.query = true)
    (hGn : G.n = n) (hGd : G.degree = d) {cp : ℕ → ℕ → ℕ → P3 ℝ} (hcp : GB.HasPoints G n d cp) (hi : i < n) (s0 : ε < s) (s1 : ε < 1 - s)
    (hne : P3.cross (bezierDer d (fun j => cp i j 0) s) (bezier d (fun j => cp i j 1) s - bezier d (fun j => cp i j 0) s) ≠ 0) :
    ∃ A : ℝ → ℝ, (∀ᶠ t in 𝓝[>] (0 : ℝ), ∃ Q, bezierAngle ε arc t i s G = .ok (A t, Q)) ∧ Tendsto A (𝓝[>] 0) (𝓝 0) := by
  have hreg : ∀ x ∈ before ++ .loop :: later, x.regular = true := by
    intro x hx
    rcases List.mem_append.mp hx with q | q
    · exact hb x q
    · rcases List.mem_cons.mp q with rfl | q
      · rfl
      · have := hl x q
        cases x <;> first | rfl | cases this
  have hu : GB.Usable ε arc .side n d (before ++ .loop :: later) G := by
    refine ⟨g, l, before, later, rfl, h, fun x hx => ?_, fun x hx => ?_, hGn, hGd⟩
    · have := hb x hx
      cases x <;> first | rfl | cases this
    · have := hl x hx
      cases x <;> first | rfl | cases this
  obtain ⟨F, hF, hcons⟩ := hu.consistent hn hreg
  have hcur : G.curves = tab n fun i => bezierCurve arc (tab (d + 1) fun j => cp i j 0) := by
    obtain ⟨G0, e0, e1⟩ := GB.run_split h
    unfold GB.run at e1
    obtain ⟨G1, e1, e2⟩ := bind_ok e1
    have e1 : G0.setupLoop arc = .ok G1 := e1
    have k1 := GB.setupLoop_keeps e1
    obtain ⟨k2, k3, k4, k5⟩ := GB.run_query hl e2
    have n0 : G0.n = n := by rw [← k1.n_eq, ← k4, hGn]
    have d0 : G0.degree = d := by rw [← k1.degree, ← k5, hGd]
    rcases GB.run_netOk hb (GB.new_netOk _ g l) e0 with ⟨h0, _⟩ | ⟨F, hF, hcons⟩
    · omega
    rw [n0, d0] at hF hcons
    rw [k2, GB.loop_curves hF (by omega) hcons e1]
    refine tab_congr fun i hi => ?_
    congr 1
    refine tab_congr fun j hj => ?_
    have e : G.controlPoint i j 0 = .ok (F i j 0) := by
      unfold GB.controlPoint
      rw [k3, k1.nets]
      exact hF.cpt hi (by omega) (by omega)
    exact Except.ok.inj (e.symm.trans (hcp i hi j (by omega) 0 (by omega)))
  have t0 : 0 < s := hε.trans s0
  have t1 : s < 1 := by linarith
  -- the point of the side
  obtain ⟨v0, hv0, _⟩ := GB.C95_tangent hε hn hd hu hreg hcp hi s0 s1
  obtain ⟨uv, cp', G1, u1, u2, u3⟩ := GB.C42_side hε (by linarith) hn (by omega) hu hi s0.le (by linarith)
  have huv : uv = sidePoint n v0 i s := Except.ok.inj (u1.symm.trans (hv0.edgePoint hi s))
  have hbez : bezier d cp' s = bezier d (fun j => cp i j 0) s := by
    unfold bezier
    apply Finset.sum_congr rfl
    intro j hj
    rw [Finset.mem_range] at hj
    have := (u2 j (by omega)).symm.trans (hcp i hi j (by omega) 0 (by omega))
    rw [Except.ok.inj this]
  rw [hbez] at u3
  have same := GB.eval_keeps u3
  have hinv := (hu.state (by omega)).1
  obtain ⟨_, hdom⟩ := GB.eval_inv u3 hinv
  have hu1 := hu.snoc (c := .eval uv) rfl (show G.step ε arc (.eval uv) = .ok G1 by
    change (do let r ← G.eval ε uv; Except.ok r.2) = _
    rw [u3, M_bind_ok]) same.n_eq same.degree
  have hreg1 : ∀ x ∈ (before ++ .loop :: later) ++ [.eval uv], x.regular = true := by
    intro x hx
    rcases List.mem_append.mp hx with q | q
    · exact hreg x q
    · rw [List.mem_singleton.mp q]; rfl
  have hcp1 : GB.HasPoints G1 n d cp := by
    intro i hi j hj k hk
    have := hcp i hi j hj k hk
    unfold GB.controlPoint at this ⊢
    rw [same.nets]
    exact this
  obtain ⟨v, hv, hder⟩ := GB.C95_tangent hε hn hd hu1 hreg1 hcp1 hi s0 s1
  have hv' : ConvexDomain G.dom.dom n v := by
    have e : G1.dom = G.dom := hdom
    rw [← e]
    exact hv
  have side_eq : sidePoint n v0 i s = sidePoint n v i s := Except.ok.inj ((hv0.edgePoint hi s).symm.trans (hv'.edgePoint hi s))
  obtain ⟨p1, p2⟩ := perp_path hv hi t0 t1
  obtain ⟨X, α, β, k1, k2, k3, _, k6⟩ := hder _ _ p1
  have hβ := k6 p2
  have dpos : (0 : ℝ) < d := by exact_mod_cast (show 0 < d by omega)
  set a := bezierDer d (fun j => cp i j 0) s with ha
  set w := bezier d (fun j => cp i j 1) s - bezier d (fun j => cp i j 0) s with hw
  have hcr : P3.cross a (α • a + β • rowDer d (fun j => cp i j 0) (fun j => cp i j 1) s) = (β * d) • P3.cross a w := by
    rw [cross_smul_add]
    unfold rowDer
    rw [← hw]
    ext <;> simp [P3.cross] <;> ring
  have hbd : 0 < β * d := mul_pos hβ dpos
  have hne' : P3.cross a (α • a + β • rowDer d (fun j => cp i j 0) (fun j => cp i j 1) s) ≠ 0 := by
    rw [hcr]; exact smul_ne_zero hbd.ne' hne
  set N : P3 ℝ := (P3.cross a w).norm⁻¹ • P3.cross a w with hN
  obtain ⟨l1, l2⟩ := angle_limit (N := N) k3 hne'
  have one : cosAngle (P3.cross a w) N = 1 := by
    have q := P3.norm_pos hne
    have q2 := P3.norm_mul_self (P3.cross a w)
    unfold cosAngle
    rw [hN, P3.dot_smul_right, ← q2]
    field_simp
  rw [hcr, cosAngle_smul hbd, one, arccos_one] at l2
  refine ⟨_, ?_, l2⟩
  filter_upwards [l1, k1.filter_mono (nhdsWithin_mono _ Ioi_subset_Ici_self)] with t t1 ⟨Q, t2⟩
  have hQ := eval_curves t2
  refine ⟨Q, ?_⟩
  unfold bezierAngle
  rw [innerCurve_eq arc hGd hd hcp hi, M_bind_ok, sidePerp_eq hv' hi, M_bind_ok, u1, M_bind_ok, u3, M_bind_ok]
  dsimp only
  rw [huv, side_eq, t2, M_bind_ok]
  dsimp only
  rw [hQ, eval_curves u3, hcur, vget_tab _ hi, M_bind_ok, GB.bezierCurve_pt, GB.bezierCurve_pt, bezierCurve_der arc (by omega)]
  rw [k2] at t1 ⊢
  obtain ⟨u, w1, w2⟩ := normalize_dot t1 N
  rw [w1, M_bind_ok, P3.normalize_ok hne, M_bind_ok, w2]
  rfl

/-! ### Examples -/

/-- The square with the normals (0,0,1) and handlers (1,2,3): the angle tends to 0 in the middle of the lower side, and to π in the middle of the upper side,
where the handler is directed outwards. -/
example : ∃ P A A', UpdatedLoop (1 / 10000) .sideBased 4 squareLoop P ∧ (∀ᶠ t in 𝓝[>] (0 : ℝ), ∃ Q, tangentialAngle (1 / 10000) t 0 (1 / 2) P = .ok (A t, Q)) ∧
    Tendsto A (𝓝[>] 0) (𝓝 0) ∧ (∀ᶠ t in 𝓝[>] (0 : ℝ), ∃ Q, tangentialAngle (1 / 10000) t 2 (1 / 2) P = .ok (A' t, Q)) ∧ Tendsto A' (𝓝[>] 0) (𝓝 π) := by
  obtain ⟨P, T, T', h1, h2, h3, h4⟩ := square_fenced .sideBased rfl
  obtain ⟨hk, F, ha⟩ := h1.agreed (by norm_num)
  obtain ⟨d, e, hd⟩ := square_angular
  have e' := ha.angular (by rw [hk]; rfl)
  rw [e] at e'
  have e' := Except.ok.inj e'
  rw [e'] at hd
  have tan : ∀ i, (i = 0 ∨ i = 2) → TangentAt (1 / 10000) P 4 squareVertex squareLoop T 0 i (1 / 2) := by
    intro i hi
    refine C76_side (by norm_num) h1 h2 hd (by omega) (by norm_num) (by norm_num) (ε' := 1 / 100) (by norm_num) ?_ ?_
    · left
      rcases hi with rfl | rfl <;> norm_num [leftOf, area2, squareVertex, P2.dot]
    · intro j hj hji k hk
      rcases hi with rfl | rfl <;>
        interval_cases j <;> first | (exact absurd rfl hji) | (interval_cases k <;> norm_num [leftOf, area2, squareVertex, sidePoint])
  obtain ⟨q, q0, _, hT, r, r1, r2⟩ := h4 0 (by norm_num)
  obtain ⟨q', q0', _, hT', r', r1', r2'⟩ := h4 2 (by norm_num)
  have nrm : ∀ {r : Ribbon ℝ}, r.fence = some (fun _ => ⟨0, 0, 1⟩) → r.normal (1 / 10000) (1 / 2) = .ok ⟨0, 0, 1⟩ := by
    intro r hr
    unfold Ribbon.normal
    rw [hr]
  have d0 : (squareLoop 0).der (1 / 2) = ⟨10, 0, 0⟩ := by ext <;> norm_num [squareLoop, segment]
  have d2 : (squareLoop 2).der (1 / 2) = ⟨-10, 0, 0⟩ := by ext <;> norm_num [squareLoop, segment]
  obtain ⟨A, k1, k2⟩ := C96_exact (by norm_num) h1 hd (tan 0 (Or.inl rfl)) (by norm_num) (by norm_num) (by norm_num) r1 (nrm r2) (by norm_num [P3.dot])
    (by rw [d0]; norm_num [P3.dot]) (h3 0 (by norm_num) _ (by norm_num) (by norm_num)) (by rw [d0, hT]; norm_num [P3.dot, P3.cross]; linarith)
  obtain ⟨A', k1', k2'⟩ := C96_reversed (by norm_num) h1 hd (tan 2 (Or.inr rfl)) (by norm_num) (by norm_num) (by norm_num) r1' (nrm r2') (by norm_num [P3.dot])
    (by rw [d2]; norm_num [P3.dot]) (h3 2 (by norm_num) _ (by norm_num) (by norm_num)) (by rw [d2, hT']; norm_num [P3.dot, P3.cross]; linarith)
  exact ⟨P, A, A', h1, k1, k2, k1', k2'⟩

/-- The corner-based surface on the same square: the angle tends to one of at most arccos(5/6). -/
example : ∃ P A θ, UpdatedLoop (1 / 10000) .cornerBased 4 squareLoop P ∧ (∀ᶠ t in 𝓝[>] (0 : ℝ), ∃ Q, tangentialAngle (1 / 10000) t 0 (1 / 2) P = .ok (A t, Q)) ∧
    Tendsto A (𝓝[>] 0) (𝓝 θ) ∧ θ ≤ arccos (5 / 6) := by
  obtain ⟨P, T, T', h1, h2, h3, h4⟩ := square_fenced .cornerBased rfl
  have s1 : sin (2 * π / (4 : ℕ)) = 1 := by rw [show 2 * π / ((4 : ℕ) : ℝ) = π / 2 by push_cast; ring, sin_pi_div_two]
  obtain ⟨v, hd, ht⟩ := C77_side (by norm_num) h1 h2 (i := 0) (s := 1 / 2) (by norm_num) (by rw [s1]; norm_num) (by rw [s1]; norm_num)
  obtain ⟨q, q0, qq, hT, r, r1, r2⟩ := h4 0 (by norm_num)
  have q2 : 2.65 ≤ q := by nlinarith
  have d0 : (squareLoop 0).der (1 / 2) = ⟨10, 0, 0⟩ := by ext <;> norm_num [squareLoop, segment]
  have dn : (⟨10, 0, 0⟩ : P3 ℝ).norm = 10 := norm_ten (by norm_num [P3.dot])
  obtain ⟨A, θ, k1, k2, _, k4⟩ := C96_limit (m := 5) (by norm_num) h1 hd ht (by norm_num) (by norm_num) (by norm_num) r1
    (show r.normal (1 / 10000) (1 / 2) = .ok ⟨0, 0, 1⟩ by unfold Ribbon.normal; rw [r2]) (by norm_num [P3.dot])
    (by rw [d0]; norm_num [P3.dot]) (h3 0 (by norm_num) _ (by norm_num) (by norm_num)) (by rw [d0]; exact fun h => by simpa using congrArg P3.x h)
    (by rw [d0, hT, dn]; norm_num [P3.dot, P3.cross]; linarith) (by norm_num)
  refine ⟨P, A, θ, h1, k1, k2, k4.trans (arccos_le_arccos (by norm_num))⟩

/-- A triangular generalized Bézier surface of degree 3 to which `C96_bezier` applies. -/
example (hε : 0 < ε) (hε1 : ε < 1 / 2) (arc : List (P3 ℝ) → ℝ → ℝ → ℝ) : ∃ G A, (GB.new .side 0 0).run ε arc
      (GB.Call.init 3 3 :: ([(⟨0, 1, 0⟩, ⟨1, 0, 0⟩), (⟨0, 2, 0⟩, ⟨2, 0, 0⟩), (⟨0, 3, 0⟩, ⟨3, 0, 0⟩), (⟨0, 1, 1⟩, ⟨1, 1, 0⟩), (⟨0, 2, 1⟩, ⟨2, 1, 0⟩)] :
        List (Name × P3 ℝ)).map (fun x => GB.Call.set x.1.side x.1.col x.1.row x.2) ++ [.loop]) = .ok G ∧
    (∀ᶠ t in 𝓝[>] (0 : ℝ), ∃ Q, bezierAngle ε arc t 0 (1 / 2) G = .ok (A t, Q)) ∧ Tendsto A (𝓝[>] 0) (𝓝 0) := by
  set w : List (Name × P3 ℝ) := [(⟨0, 1, 0⟩, ⟨1, 0, 0⟩), (⟨0, 2, 0⟩, ⟨2, 0, 0⟩), (⟨0, 3, 0⟩, ⟨3, 0, 0⟩), (⟨0, 1, 1⟩, ⟨1, 1, 0⟩), (⟨0, 2, 1⟩, ⟨2, 1, 0⟩)] with hw
  have hr : ∀ x ∈ w, x.1.InRange 3 3 := by
    intro x hx
    simp only [hw, List.mem_cons, List.not_mem_nil, or_false] at hx
    rcases hx with rfl | rfl | rfl | rfl | rfl <;> simp [Name.InRange]
  have e0 : (GB.new (.side : GBKind ℝ) 0 0).step ε arc (.init 3 3) = .ok ((GB.new .side 0 0).initBase 3 3) := rfl
  obtain ⟨G1, e1, _, h1⟩ := GB.writes_run (ε := ε) (arc := arc) hr (GB.initBase_net (G := GB.new .side 0 0) (n := 3) (d := 3) (by simp [GB.new]))
  obtain ⟨G2, e2⟩ := GB.setupLoop_total (arc := arc) h1 (by norm_num) (by norm_num)
  have h2 := (GB.setupLoop_keeps e2).hasNet h1
  have hrun : (GB.new .side 0 0).run ε arc (.init 3 3 :: (w.map fun x => GB.Call.set x.1.side x.1.col x.1.row x.2) ++ .loop :: []) = .ok G2 := by
    refine GB.run_join (G1 := G1) ?_ ?_
    · unfold GB.run
      rw [e0, M_bind_ok, e1]
    · unfold GB.run
      rw [show G1.step ε arc .loop = .ok G2 from e2, M_bind_ok]
      rfl
  obtain ⟨A, k1, k2⟩ := C96_bezier hε (n := 3) (d := 3) (by norm_num) le_rfl hrun (by
      intro x hx
      rcases List.mem_cons.mp hx with rfl | hx
      · rfl
      · obtain ⟨y, _, rfl⟩ := List.mem_map.mp hx
        rfl) (by simp) h2.n_eq h2.degree (cp := fun i j k => netValue 3 3 w ⟨i, j, k⟩) (fun i hi j hj k hk => (h2.cpt hi hj hk).trans rfl) (i := 0) (by norm_num)
    (s := 1 / 2) hε1 (by linarith) (by
      intro q
      have := congrArg P3.z q
      norm_num [P3.cross, bezierDer, bezier, Finset.sum_range_succ, bern, Nat.choose, netValue, hw, SamePoint, AtCorner] at this)
  exact ⟨G2, A, hrun, k1, k2⟩

end Demo

end Transfinite
