import Verif.Lemmas.Ribbon
import Verif.Props.RMF

/-! # C22-C25: ribbons -/

namespace Transfinite

open Ribbon

/-! ### C22: cross derivatives lie in the tangent plane -/

/-- C22: for both kinds of compatible ribbons, every handler, multiplier and parameter, the cross derivative is
perpendicular to the normal there, when the normal has unit length. -/
theorem C22_perpendicular {K : Type} [Field K] [LinearOrder K] [Libm K] {ε : K} {r : Ribbon K}
    (hk : r.kind = .compatible ∨ r.kind = .handler) {s : K} {n c : P3 K} (hn : normal ε r s = .ok n)
    (hu : P3.dot n n = 1) (hc : crossDerivative ε r s = .ok c) : P3.dot c n = 0 := by
  unfold crossDerivative at hc
  rcases hk with hk | hk
  · rw [hk] at hc
    dsimp only at hc
    unfold compatibleCross at hc
    rw [hn, M_bind_ok] at hc
    cases hc
    simp only [P3.dot_add_left, P3.dot_smul_left, project_perp hu, mul_zero, add_zero]
  · rw [hk] at hc
    dsimp only at hc
    unfold handlerCross at hc
    rw [hn, M_bind_ok] at hc
    cases hc
    simp only [P3.dot_add_left, P3.dot_smul_left, project_perp hu, mul_zero, add_zero]

/-- C22: after `update()`, when the normal fence is not overridden, the normal is always a unit vector and the cross
derivative is perpendicular to it (for every parameter where they are computed). -/
theorem C22_after_update {ε : ℝ} (hε : 0 < ε) {nb : Neighbors ℝ} {r r' : Ribbon ℝ}
    (hk : r.kind = .compatible ∨ r.kind = .handler) (hf : r.fence = none) (h : Ribbon.update ε nb r = .ok r') (s : ℝ) :
    (∀ n, normal ε r' s = .ok n → P3.dot n n = 1) ∧
    ∀ c, crossDerivative ε r' s = .ok c → ∃ n, normal ε r' s = .ok n ∧ P3.dot c n = 0 := by
  have hu := update_updated h (by rcases hk with h | h <;> rw [h] <;> simp)
  have hunit : ∀ n, normal ε r' s = .ok n → P3.dot n n = 1 := by
    intro n hn
    obtain ⟨a, b, h1, _, h3⟩ := hu.rmf
    unfold normal at hn
    rw [hu.fence, hf] at hn
    exact C21_unit hε (by simp [RMF.resolution]) (P3.normalize_unit h1).2.2 h3 hn
  refine ⟨hunit, ?_⟩
  intro c hc
  have hk' : r'.kind = .compatible ∨ r'.kind = .handler := by rw [hu.kind]; exact hk
  cases hn : normal ε r' s with
  | error e =>
    exfalso
    unfold crossDerivative at hc
    rcases hk' with hk | hk <;> rw [hk] at hc <;> dsimp only at hc
    · unfold compatibleCross at hc; rw [hn] at hc; cases hc
    · unfold handlerCross at hc; rw [hn] at hc; cases hc
  | ok n => exact ⟨n, rfl, C22_perpendicular hk' hn (hunit n hn) hc⟩

/-- C22: the cross derivative of the compatible ribbons is defined for every parameter in [0,1] (or above) where the tangent
does not vanish. -/
theorem C22_defined {ε : ℝ} (hε : 0 < ε) {nb : Neighbors ℝ} {r r' : Ribbon ℝ}
    (hk : r.kind = .compatible ∨ r.kind = .handler) (h : Ribbon.update ε nb r = .ok r') {s : ℝ}
    (h0 : 0 ≤ s) (hd : r.curve.der s ≠ 0) : ∃ c, crossDerivative ε r' s = .ok c := by
  have hu := update_updated h (by rcases hk with h | h <;> rw [h] <;> simp)
  have hn : ∃ n, normal ε r' s = .ok n := by
    unfold normal
    cases hf : r'.fence with
    | some f => exact ⟨_, rfl⟩
    | none =>
      obtain ⟨a, b, h1, _, h3⟩ := hu.rmf
      exact (C21_defined hε (by simp [RMF.resolution]) (P3.normalize_unit h1).2.2 h3).2 s h0 hd
  obtain ⟨n, hn⟩ := hn
  unfold crossDerivative
  rw [hu.kind]
  rcases hk with hk | hk <;> rw [hk] <;> dsimp only
  · unfold compatibleCross; rw [hn]; exact ⟨_, rfl⟩
  · unfold handlerCross; rw [hn]; exact ⟨_, rfl⟩

/-! ### C23: compatibility at the corners -/

private theorem perp_of_cross {a b n : P3 ℝ} (h : (P3.cross a b).normalize = .ok n) : P3.dot a n = 0 ∧ P3.dot b n = 0 := by
  obtain ⟨_, rfl, _⟩ := P3.normalize_unit h
  rw [P3.dot_smul_right, P3.dot_smul_right, P3.dot_cross_self_left, P3.dot_cross_self_right]
  simp

/-- The tangents kept by the compatible ribbons. -/
private theorem tangents {ε : ℝ} {nb : Neighbors ℝ} {r r' : Ribbon ℝ} (hk : r.kind = .compatible ∨ r.kind = .handler)
    (h : Ribbon.update ε nb r = .ok r') : r'.prevT = -nb.prev.der 1 ∧ r'.nextT = nb.next.der 0 := by
  unfold Ribbon.update at h
  rcases hk with hk | hk <;> rw [hk] at h <;> dsimp only at h
  · obtain ⟨_, _, _, _, _, _, rfl⟩ := baseUpdate_parts h
    exact ⟨rfl, rfl⟩
  · have := handlerUpdate_parts h
    exact ⟨this.2.1, this.2.2.1⟩

/-- C23, at the start: the cross derivative is minus the end derivative of the previous curve. -/
theorem C23_start {ε : ℝ} (hε : 0 < ε) {nb : Neighbors ℝ} {r r' : Ribbon ℝ}
    (hk : r.kind = .compatible ∨ r.kind = .handler) (hf : r.fence = none) (h : Ribbon.update ε nb r = .ok r') :
    crossDerivative ε r' 0 = .ok (-nb.prev.der 1) := by
  have hu := update_updated h (by rcases hk with h | h <;> rw [h] <;> simp)
  obtain ⟨a, b, h1, _, h3⟩ := hu.rmf
  have hn : normal ε r' 0 = .ok a := by
    unfold normal
    rw [hu.fence, hf]
    exact C20_start hε (by simp [RMF.resolution]) (P3.normalize_unit h1).2.2 h3
  obtain ⟨t1, t2⟩ := tangents hk h
  have hp : project a r'.prevT = r'.prevT := project_of_perp (by
    rw [t1, P3.dot_neg_left, (perp_of_cross h1).1, neg_zero])
  unfold crossDerivative
  rw [hu.kind]
  rcases hk with hk | hk <;> rw [hk] <;> dsimp only
  · unfold compatibleCross
    rw [hn, M_bind_ok, hp, t1]
    congr 1
    module
  · unfold handlerCross
    rw [hn, M_bind_ok, hp, t1]
    congr 1
    module

/-- The conditions under which the frame of a curve reaches its end normal exactly (see `C20_end`). -/
structure ExactCurve (ε : ℝ) (c : Curve ℝ) : Prop where
  der : ∀ k ≤ RMF.resolution, c.der (k / RMF.resolution) ≠ 0
  step : ∀ k < RMF.resolution, ExactStep ε c (k / RMF.resolution) ((k + 1 : ℕ) / RMF.resolution)
  arc : ∑ j ∈ Finset.range RMF.resolution, c.arc (j / RMF.resolution) ((j + 1 : ℕ) / RMF.resolution) ≠ 0

/-- A simple condition for `ExactStep`: the points are not closer than the tolerance, and the two tangents
(their sum) point forward along the chord. -/
theorem ExactStep.of_forward {ε : ℝ} {c : Curve ℝ} {a b : ℝ} (hε : 0 < ε)
    (h1 : ε ≤ P3.dot (c.pt b - c.pt a) (c.pt b - c.pt a))
    (h2 : ε * P3.dot (c.pt b - c.pt a) (c.pt b - c.pt a) ≤ P3.dot (unitTangent c a + unitTangent c b) (c.pt b - c.pt a) ^ 2) :
    ExactStep ε c a b := by
  refine ⟨h1, Or.inr ?_⟩
  generalize c.pt b - c.pt a = v at *
  generalize unitTangent c a = s at *
  generalize unitTangent c b = t at *
  have hv : P3.dot v v ≠ 0 := by linarith
  have hr : P3.dot (t - reflect v s) v = P3.dot (s + t) v := by
    unfold reflect
    simp only [P3.dot_sub_left, P3.dot_smul_left, P3.dot_add_left]
    rw [P3.dot_comm v s]
    field_simp
    ring
  have hcs := P3.cauchy_schwarz (t - reflect v s) v
  rw [hr] at hcs
  have hpos : 0 < P3.dot v v := by linarith
  by_contra hlt
  push Not at hlt
  nlinarith

private theorem res_cast : ((RMF.resolution : ℕ) : ℝ) ≠ 0 := by simp [RMF.resolution]

private theorem unit_perp_tangent {c : Curve ℝ} {u : ℝ} {n : P3 ℝ} (h : P3.dot (c.der u) n = 0) : P3.dot n (unitTangent c u) = 0 := by
  unfold unitTangent
  rw [P3.dot_smul_right, P3.dot_comm, h, mul_zero]

/-- The end normal is reached. -/
private theorem normal_one {ε : ℝ} (hε : 0 < ε) {nb : Neighbors ℝ} {r r' : Ribbon ℝ} (hu : Updated ε nb r r') (hf : r.fence = none)
    (hex : ExactCurve ε r.curve) : ∃ b, normal ε r' 1 = .ok b ∧ P3.dot b b = 1 ∧ P3.dot (r.curve.der 1) b = 0 ∧ P3.dot (nb.next.der 0) b = 0 := by
  obtain ⟨a, b, h1, h2, h3⟩ := hu.rmf
  refine ⟨b, ?_, (P3.normalize_unit h2).2.2, (perp_of_cross h2).1, (perp_of_cross h2).2⟩
  unfold normal
  rw [hu.fence, hf]
  dsimp only
  obtain ⟨x, e1, _, e2⟩ := C20_end hε (res := RMF.resolution) (by simp [RMF.resolution]) (P3.normalize_unit h1).2.2
    (unit_perp_tangent (perp_of_cross h1).2) (P3.normalize_unit h2).2.2 (unit_perp_tangent (perp_of_cross h2).1) hex.der hex.step hex.arc
  rw [h3] at e1
  cases e1
  exact e2

/-- C23, at the end: the cross derivative is the start derivative of the next curve (when the steps on
the curve are not within the tolerances of the frame computation). -/
theorem C23_end {ε : ℝ} (hε : 0 < ε) {nb : Neighbors ℝ} {r r' : Ribbon ℝ}
    (hk : r.kind = .compatible ∨ r.kind = .handler) (hf : r.fence = none) (hex : ExactCurve ε r.curve)
    (h : Ribbon.update ε nb r = .ok r') :
    crossDerivative ε r' 1 = .ok (nb.next.der 0) := by
  have hu := update_updated h (by rcases hk with h | h <;> rw [h] <;> simp)
  obtain ⟨b, hn, _, _, hb⟩ := normal_one hε hu hf hex
  obtain ⟨t1, t2⟩ := tangents hk h
  have hp : project b r'.nextT = r'.nextT := project_of_perp (by rw [t2, hb])
  unfold crossDerivative
  rw [hu.kind]
  rcases hk with hk | hk <;> rw [hk] <;> dsimp only
  · unfold compatibleCross
    rw [hn, M_bind_ok, hp, t2]
    congr 1
    module
  · unfold handlerCross
    rw [hn, M_bind_ok, hp, t2]
    congr 1
    module

/-- C23: `update()` of a compatible ribbon is defined when the end tangents of consecutive curves are not parallel and
the curve is not within the tolerances; with a handler set by the user also for the other kind. -/
theorem C23_defined {ε : ℝ} (hε : 0 < ε) {nb : Neighbors ℝ} {r : Ribbon ℝ}
    (hk : r.kind = .compatible ∨ r.kind = .handler ∧ r.handlerInit = true) (hex : ExactCurve ε r.curve)
    (hhalf : r.curve.der (1 / 2) ≠ 0)
    (hstart : P3.cross (nb.prev.der 1) (r.curve.der 0) ≠ 0) (hend : P3.cross (r.curve.der 1) (nb.next.der 0) ≠ 0) :
    ∃ r', Ribbon.update ε nb r = .ok r' := by
  have hbase : ∀ q : Ribbon ℝ, q.curve = r.curve → ∃ r', baseUpdate ε nb q = .ok r' := by
    intro q hq
    unfold baseUpdate
    rw [hq, P3.normalize_ok hstart, M_bind_ok, P3.normalize_ok hend, M_bind_ok]
    have e1 := P3.normalize_ok hstart
    have e2 := P3.normalize_ok hend
    obtain ⟨x, e, _⟩ := C20_end hε (res := RMF.resolution) (by simp [RMF.resolution]) (P3.normalize_unit e1).2.2
      (unit_perp_tangent (perp_of_cross e1).2) (P3.normalize_unit e2).2.2 (unit_perp_tangent (perp_of_cross e2).1) hex.der hex.step hex.arc
    rw [e]
    exact ⟨_, rfl⟩
  unfold Ribbon.update
  rcases hk with hk | ⟨hk, hi⟩ <;> rw [hk] <;> dsimp only
  · exact hbase _ rfl
  · unfold handlerUpdate
    obtain ⟨r1, e⟩ := hbase { r with prevT := -nb.prev.der 1, nextT := nb.next.der 0 } rfl
    have hu := baseUpdate_updated e
    unfold compatibleUpdate
    rw [e, M_bind_ok]
    have hn : ∃ n, normal ε r1 (1 / 2) = .ok n := by
      unfold normal
      cases hf : r1.fence with
      | some f => exact ⟨_, rfl⟩
      | none =>
        obtain ⟨a, b, h1, _, h3⟩ := hu.rmf
        exact (C21_defined hε (by simp [RMF.resolution]) (P3.normalize_unit h1).2.2 h3).2 _ (by norm_num) hhalf
    obtain ⟨n, hn⟩ := hn
    rw [hn, M_bind_ok]
    unfold effectiveHandler
    rw [hu.init, if_pos hi]
    exact ⟨_, rfl⟩

/-- A vector perpendicular to the unit vector `n`, in terms of a unit vector `t` perpendicular to `n` and of `n × t`. -/
private theorem basis {n t v : P3 ℝ} (hn : P3.dot n n = 1) (ht : P3.dot t t = 1) (hnt : P3.dot t n = 0) (hv : P3.dot v n = 0) :
    P3.dot v (P3.cross n t) • P3.cross n t + P3.dot v t • t = v := by
  have h1 : P3.dot (P3.dot v (P3.cross n t) • P3.cross n t + P3.dot v t • t - v) (P3.dot v (P3.cross n t) • P3.cross n t + P3.dot v t • t - v) = 0 := by
    have e1 : P3.dot (P3.cross n t) (P3.cross n t) = 1 := by
      rw [RMF.cross_dot_cross, hn, ht, P3.dot_comm, hnt]; norm_num
    have e2 : P3.dot (P3.cross n t) t = 0 := by rw [P3.dot_comm]; exact P3.dot_cross_self_right _ _
    have e3 : P3.dot v (P3.cross n t) ^ 2 = P3.dot v v * (P3.dot n n * P3.dot t t) - P3.dot v v * P3.dot n t ^ 2
        - P3.dot v n ^ 2 * P3.dot t t - P3.dot v t ^ 2 * P3.dot n n + 2 * P3.dot v n * P3.dot v t * P3.dot n t := by
      simp only [P3.dot, P3.cross]; ring
    rw [hn, ht, P3.dot_comm n t, hnt, hv] at e3
    simp only [P3.dot_add_left, P3.dot_add_right, P3.dot_sub_left, P3.dot_sub_right, P3.dot_smul_left, P3.dot_smul_right]
    rw [e1, ht, e2, P3.dot_comm t (P3.cross n t), e2, P3.dot_comm (P3.cross n t) v, P3.dot_comm t v]
    linear_combination -e3
  exact sub_eq_zero.mp (P3.eq_zero_of_dot_self h1)

private theorem smul_norm_cancel {v w : P3 ℝ} (h : vdiv v v.norm = .ok w) : v.norm • w = v := by
  unfold vdiv at h
  by_cases h0 : v.norm = 0
  · rw [h0, fdiv_zero] at h; cases h
  · rw [fdiv_of_ne h0] at h
    cases h
    rw [smul_smul, mul_one_div, div_self h0, one_smul]

private theorem perpCross_eq {ε s : ℝ} {R : Ribbon ℝ} {t n : P3 ℝ} (ht : (R.curve.der s).normalize = .ok t) (hn : normal ε R s = .ok n) :
    perpCross ε R s = .ok ((R.pn * (1 - s) + R.nn * s) •
      ((R.pa * 2 * (s - 1) * (s - 1 / 2) + R.na * 2 * s * (s - 1 / 2) - 4 * s * (s - 1)) • P3.cross n t +
        (R.pb * 2 * (s - 1) * (s - 1 / 2) + R.nb * 2 * s * (s - 1 / 2)) • t)) := by
  unfold perpCross
  rw [ht, M_bind_ok, hn]
  rfl

/-- C23 for the perpendicular ribbon: it has the same end values. -/
theorem C23_perpendicular {ε : ℝ} (hε : 0 < ε) {nb : Neighbors ℝ} {r r' : Ribbon ℝ}
    (hk : r.kind = .perpendicular) (hf : r.fence = none) (h : Ribbon.update ε nb r = .ok r') :
    crossDerivative ε r' 0 = .ok (-nb.prev.der 1) ∧
    (ExactCurve ε r.curve → crossDerivative ε r' 1 = .ok (nb.next.der 0)) := by
  have hu := update_updated h (by rw [hk]; simp)
  have h' := h
  unfold Ribbon.update at h
  rw [hk] at h
  dsimp only at h
  unfold perpUpdate at h
  obtain ⟨r1, h1, h⟩ := bind_ok h
  have hu1 := baseUpdate_updated h1
  obtain ⟨t0, ht0, h⟩ := bind_ok h
  obtain ⟨t1, ht1, h⟩ := bind_ok h
  obtain ⟨n0, hn0, h⟩ := bind_ok h
  obtain ⟨n1, hn1, h⟩ := bind_ok h
  obtain ⟨pt, hpt, h⟩ := bind_ok h
  obtain ⟨nt, hnt, h⟩ := bind_ok h
  cases h
  obtain ⟨a, b, e1, e2, e3⟩ := hu1.rmf
  rw [hu1.curve] at ht0 ht1
  have hn0' : n0 = a := by
    unfold normal at hn0
    rw [hu1.fence, hf] at hn0
    dsimp only at hn0
    rw [C20_start hε (by simp [RMF.resolution]) (P3.normalize_unit e1).2.2 e3] at hn0
    cases hn0
    rfl
  have hpt' := smul_norm_cancel hpt
  have hnt' := smul_norm_cancel hnt
  have hpperp : P3.dot pt n0 = 0 := by
    have : P3.dot ((-nb.prev.der 1).norm • pt) n0 = 0 := by
      rw [hpt', hn0', P3.dot_neg_left, (perp_of_cross e1).1, neg_zero]
    rw [P3.dot_smul_left] at this
    rcases mul_eq_zero.mp this with q | q
    · exfalso
      unfold vdiv at hpt
      rw [q, fdiv_zero] at hpt
      cases hpt
    · exact q
  have ht0' := P3.normalize_unit ht0
  have hperp0 : P3.dot t0 n0 = 0 := by
    rw [ht0'.2.1, P3.dot_smul_left, hn0', (perp_of_cross e1).2, mul_zero]
  constructor
  · unfold crossDerivative
    rw [hu.kind, hk]
    dsimp only
    refine (perpCross_eq (t := t0) (n := n0) ?_ ?_).trans ?_
    · change (r1.curve.der _).normalize = _
      rw [hu1.curve]; exact ht0
    · exact hn0
    congr 1
    dsimp only
    conv_rhs => rw [← hpt', ← basis (by rw [hn0']; exact (P3.normalize_unit e1).2.2) ht0'.2.2 hperp0 hpperp]
    module
  · intro hex
    obtain ⟨b', hb1, hb2, hb3, hb4⟩ := normal_one hε hu1 hf hex
    rw [hn1] at hb1
    cases hb1
    have hnperp : P3.dot nt n1 = 0 := by
      have : P3.dot ((nb.next.der 0).norm • nt) n1 = 0 := by rw [hnt', hb4]
      rw [P3.dot_smul_left] at this
      rcases mul_eq_zero.mp this with q | q
      · exfalso
        unfold vdiv at hnt
        rw [q, fdiv_zero] at hnt
        cases hnt
      · exact q
    have ht1' := P3.normalize_unit ht1
    have hperp1 : P3.dot t1 n1 = 0 := by
      rw [ht1'.2.1, P3.dot_smul_left, hb3, mul_zero]
    unfold crossDerivative
    rw [hu.kind, hk]
    dsimp only
    refine (perpCross_eq (t := t1) (n := n1) ?_ ?_).trans ?_
    · change (r1.curve.der _).normalize = _
      rw [hu1.curve]; exact ht1
    · exact hn1
    congr 1
    dsimp only
    conv_rhs => rw [← hnt', ← basis hb2 ht1'.2.2 hperp1 hnperp]
    module

/-! ### C24: base curve and controls -/

/-- C24: the base of the ribbon is its curve, for every kind of ribbon whose cross derivative is computed at `s`; the
experimental n-sided ribbon clamps the parameter. (For the Coons ribbon see `C25_bottom`.) -/
theorem C24_base {K : Type} [Field K] [LinearOrder K] [Libm K] {ε : K} {r : Ribbon K} {s : K} {c : P3 K}
    (hc : crossDerivative ε r s = .ok c) (hk : r.kind ≠ .coons) (hn : r.kind = .nsided → 0 ≤ s ∧ s ≤ 1) :
    Ribbon.eval ε r ⟨s, 0⟩ = .ok (r.curve.pt s) := by
  unfold Ribbon.eval
  split
  · rename_i h; exact absurd h hk
  · rename_i h
    unfold nsidedEval
    dsimp only
    rw [hc, M_bind_ok, zero_mul, zero_smul, add_zero]
    have : Domain.clamp s 0 1 = s := by
      unfold Domain.clamp
      rw [min_eq_left (hn h).2, max_eq_right (hn h).1]
    rw [this]
  · unfold baseEval
    dsimp only
    rw [hc, M_bind_ok, zero_smul, add_zero]

/-- The derivative of a ribbon in the `d` direction is its cross derivative: the ribbon is the ruled surface
`curve(s) + d * crossDerivative(s)`. -/
theorem C24_ruled {K : Type} [Field K] [LinearOrder K] [Libm K] {ε : K} {r : Ribbon K} {s d : K} {c : P3 K}
    (hc : crossDerivative ε r s = .ok c) (hk : r.kind ≠ .coons) (hn : r.kind ≠ .nsided) :
    Ribbon.eval ε r ⟨s, d⟩ = .ok (r.curve.pt s + d • c) := by
  unfold Ribbon.eval
  split
  · rename_i h; exact absurd h hk
  · rename_i h; exact absurd h hn
  · unfold baseEval
    dsimp only
    rw [hc, M_bind_ok]

/-- The control calls of a ribbon (through `Surface`, surface.cc 79-107). -/
inductive Ctl where
  | mult (m : ℝ)
  | handler (h : P3 ℝ)
  | reset

/-- The effect of a sequence of control calls. -/
noncomputable def runCtl (r : Ribbon ℝ) : List Ctl → M (Ribbon ℝ)
  | [] => .ok r
  | .mult m :: l => runCtl (r.setMultiplier m) l
  | .handler h :: l => do let r ← r.setHandler h; runCtl r l
  | .reset :: l => runCtl r.reset l

/-- Specification: the multiplier is the last one set after the last reset, and 1 if there is none. -/
def ctlMult (m : ℝ) : List Ctl → ℝ
  | [] => m
  | .mult m :: l => ctlMult m l
  | .handler _ :: l => ctlMult m l
  | .reset :: l => ctlMult 1 l

/-- Specification: the handler is the unit vector in the direction last set after the last reset, or none. -/
noncomputable def ctlHandler (h : Option (P3 ℝ)) : List Ctl → Option (P3 ℝ)
  | [] => h
  | .mult _ :: l => ctlHandler h l
  | .handler v :: l => ctlHandler (some (v.norm⁻¹ • v)) l
  | .reset :: l => ctlHandler none l

/-- C24: after any sequence of control calls with nonzero handlers, `multiplier()` and `handler()` give the last values set (the
handler with unit length) after the last `reset()`, and the rest of the ribbon is unchanged. -/
theorem C24_controls (r : Ribbon ℝ) (l : List Ctl) (hl : ∀ h, Ctl.handler h ∈ l → h ≠ 0) :
    ∃ r', runCtl r l = .ok r' ∧ r'.mult = ctlMult r.mult l ∧ r'.handler = ctlHandler r.handler l ∧
      r'.curve = r.curve ∧ r'.fence = r.fence ∧ r'.rmf = r.rmf ∧ r'.kind = r.kind := by
  induction l generalizing r with
  | nil => exact ⟨r, rfl, rfl, rfl, rfl, rfl, rfl, rfl⟩
  | cons c l ih =>
    have hl' : ∀ h, Ctl.handler h ∈ l → h ≠ 0 := fun h hh => hl h (List.mem_cons_of_mem _ hh)
    cases c with
    | mult m =>
      obtain ⟨r', e, a, b, c⟩ := ih (r.setMultiplier m) hl'
      exact ⟨r', e, a, b, c⟩
    | handler h =>
      have h0 := hl h (by simp)
      obtain ⟨r', e, a, b, c⟩ := ih { r with handlerV := h.norm⁻¹ • h, handlerInit := true } hl'
      refine ⟨r', ?_, a, b, c⟩
      unfold runCtl setHandler
      rw [P3.normalize_ok h0]
      exact e
    | reset =>
      obtain ⟨r', e, a, b, c⟩ := ih r.reset hl'
      exact ⟨r', e, a, b, c⟩

/-- A zero handler gives a division by zero (the normalization of a zero vector). -/
theorem C24_zero_handler (r : Ribbon ℝ) : r.setHandler 0 = .error .divZero := by
  unfold setHandler P3.normalize
  have : P3.norm (0 : P3 ℝ) = 0 := P3.norm_eq_zero.mpr rfl
  rw [this, if_pos rfl]
  rfl

/-- C24: in the middle of a ribbon updated with a handler `h`, the cross derivative is the projection of the handler on the
tangent plane times the multiplier times the mean length of the two end tangents. -/
theorem C24_middle {ε : ℝ} {nb : Neighbors ℝ} {r r' : Ribbon ℝ} (hk : r.kind = .handler) {h n : P3 ℝ} (hh : r.handler = some h)
    (hup : Ribbon.update ε nb r = .ok r') (hn : normal ε r' (1 / 2) = .ok n) :
    crossDerivative ε r' (1 / 2) =
      .ok ((r.mult * (((nb.prev.der 1).norm + (nb.next.der 0).norm) / 2)) • (h - P3.dot h n • n)) := by
  have hu := update_updated hup (by rw [hk]; simp)
  unfold Ribbon.update at hup
  rw [hk] at hup
  dsimp only at hup
  obtain ⟨_, t1, t2, h1, _, h3⟩ := handlerUpdate_parts hup
  have hi : r.handlerInit = true ∧ r.handlerV = h := by
    unfold handler at hh
    split at hh
    · rename_i q; exact ⟨q, Option.some.inj hh⟩
    · cases hh
  unfold crossDerivative
  rw [hu.kind, hk]
  dsimp only
  unfold handlerCross
  rw [hn, M_bind_ok, h3, h1 hi.1, hi.2, t1, t2]
  have hneg : (-nb.prev.der 1).norm = (nb.prev.der 1).norm := by
    unfold P3.norm
    rw [P3.dot_neg_left, P3.dot_neg_right, neg_neg]
  rw [hneg]
  congr 1
  unfold project
  simp only [P3.dot_smul_left]
  module

/-- C24: without a handler set by the user, `update()` takes a unit vector perpendicular to the middle normal (a multiple
of the projected bisector), and `handler()` does not report it. -/
theorem C24_default_handler {ε : ℝ} (hε : 0 < ε) {nb : Neighbors ℝ} {r r' : Ribbon ℝ} (hk : r.kind = .handler) (hh : r.handler = none)
    (hf : r.fence = none) (hup : Ribbon.update ε nb r = .ok r') :
    r'.handler = none ∧ P3.dot r'.handlerV r'.handlerV = 1 ∧ ∃ n, normal ε r' (1 / 2) = .ok n ∧ P3.dot r'.handlerV n = 0 := by
  have hu := update_updated hup (by rw [hk]; simp)
  have hi : r.handlerInit = false := by
    unfold handler at hh
    split at hh
    · cases hh
    · rename_i q; simpa using q
  have hunit := (C22_after_update hε (Or.inr hk) hf hup (1 / 2)).1
  unfold Ribbon.update at hup
  rw [hk] at hup
  dsimp only at hup
  obtain ⟨_, t1, t2, _, h2, _⟩ := handlerUpdate_parts hup
  obtain ⟨n, a, b, hn, _, _, hnorm⟩ := h2 hi
  have hv := P3.normalize_unit hnorm
  refine ⟨?_, hv.2.2, n, hn, ?_⟩
  · unfold handler
    rw [hu.init, hi]
    rfl
  · rw [hv.2.1, P3.dot_smul_left, project_perp (hunit n hn), mul_zero]

/-! ### C25: the Coons ribbon -/

private theorem clamp_zero : Domain.clamp (0 : ℝ) 0 1 = 0 := by simp [Domain.clamp]
private theorem clamp_one : Domain.clamp (1 : ℝ) 0 1 = 1 := by simp [Domain.clamp]
private theorem clamp_mem (x : ℝ) : 0 ≤ Domain.clamp x 0 1 ∧ Domain.clamp x 0 1 ≤ 1 := by
  unfold Domain.clamp
  exact ⟨le_max_left _ _, max_le (by norm_num) (min_le_right _ _)⟩
private theorem clamp_of_mem {x : ℝ} (h0 : 0 ≤ x) (h1 : x ≤ 1) : Domain.clamp x 0 1 = x := by
  unfold Domain.clamp
  rw [min_eq_left h1, max_eq_right h0]
private theorem clamp_sub (x : ℝ) : Domain.clamp (1 - Domain.clamp x 0 1) 0 1 = 1 - Domain.clamp x 0 1 := by
  have := clamp_mem x
  exact clamp_of_mem (by linarith) (by linarith)

/-- The neighbouring curves close up around the curve `c` head to tail; for three sides the previous and the next curve meet. -/
structure ClosedAround (nb : Neighbors ℝ) (c : Curve ℝ) : Prop where
  prev : nb.prev.pt 1 = c.pt 0
  next : c.pt 1 = nb.next.pt 0
  three : nb.three = true → nb.next.pt 1 = nb.prev.pt 0

theorem coons_parts {ε : ℝ} {nb : Neighbors ℝ} {r r' : Ribbon ℝ} (hk : r.kind = .coons) (h : Ribbon.update ε nb r = .ok r') :
    r'.kind = .coons ∧ r'.curve = r.curve ∧ r'.left = nb.prev ∧ r'.right = nb.next ∧ r'.bl = r.curve.pt 0 ∧ r'.br = r.curve.pt 1 ∧
    r'.tl = nb.prev.pt 0 ∧ r'.tr = nb.next.pt 1 ∧ r'.top = (if nb.three then [nb.prev.pt 0]
      else [nb.next.pt 1, nb.next.pt 1 + (1 / 3 : ℝ) • nb.next2.der 0, nb.prev.pt 0 - (1 / 3 : ℝ) • nb.prev2.der 1, nb.prev.pt 0]) := by
  unfold Ribbon.update at h
  rw [hk] at h
  dsimp only at h
  unfold coonsUpdate at h
  obtain ⟨a, b, c, h1, h2, h3, rfl⟩ := baseUpdate_parts h
  exact ⟨hk, rfl, rfl, rfl, rfl, rfl, rfl, rfl, rfl⟩

/-- The top curve is a Bézier curve from the end of the next to the start of the previous curve. -/
private theorem top_parts {ε : ℝ} {nb : Neighbors ℝ} {r r' : Ribbon ℝ} (hk : r.kind = .coons) (h : Ribbon.update ε nb r = .ok r')
    (hc : ClosedAround nb r.curve) :
    ∃ T : ℝ → P3 ℝ, (∀ u, bezierPt r'.top u = .ok (T u)) ∧ T 0 = nb.next.pt 1 ∧ T 1 = nb.prev.pt 0 := by
  have := (coons_parts hk h).2.2.2.2.2.2.2.2
  rw [this]
  by_cases h3 : nb.three = true
  · rw [if_pos h3]
    refine ⟨Spec.bezier 0 fun _ => nb.prev.pt 0, fun u => bezierPt_eq 0 (fun _ => nb.prev.pt 0) u, ?_, ?_⟩
    · rw [bezier_zero, hc.three h3]
    · rw [bezier_one]
  · rw [if_neg h3]
    set f : ℕ → P3 ℝ := fun i => if i = 0 then nb.next.pt 1 else if i = 1 then nb.next.pt 1 + (1 / 3 : ℝ) • nb.next2.der 0
      else if i = 2 then nb.prev.pt 0 - (1 / 3 : ℝ) • nb.prev2.der 1 else nb.prev.pt 0 with hf
    refine ⟨Spec.bezier 3 f, fun u => ?_, ?_, ?_⟩
    · rw [← bezierPt_eq 3 f u]
      rfl
    · rw [bezier_zero]; rfl
    · rw [bezier_one]; rfl

/-- C25, bottom: at `d = 0` the Coons ribbon is the boundary curve. -/
theorem C25_bottom {ε : ℝ} {nb : Neighbors ℝ} {r r' : Ribbon ℝ} (hk : r.kind = .coons) (h : Ribbon.update ε nb r = .ok r')
    (hc : ClosedAround nb r.curve) (s : ℝ) : Ribbon.eval ε r' ⟨s, 0⟩ = .ok (r.curve.pt (max 0 (min s 1))) := by
  obtain ⟨k, a1, a2, a3, a4, a5, a6, a7, _⟩ := coons_parts hk h
  obtain ⟨T, t0, t1, t2⟩ := top_parts hk h hc
  unfold Ribbon.eval
  rw [k]
  dsimp only
  unfold coonsEval
  dsimp only
  rw [t0, M_bind_ok, clamp_zero, sub_zero, clamp_one, a1, a2, a3, a4, a5, a6, a7, hc.prev, hc.next]
  congr 1
  change _ = r.curve.pt (Domain.clamp s 0 1)
  module

/-- C25, left: at `s = 0` it is the previous curve traversed backwards. -/
theorem C25_left {ε : ℝ} {nb : Neighbors ℝ} {r r' : Ribbon ℝ} (hk : r.kind = .coons) (h : Ribbon.update ε nb r = .ok r')
    (hc : ClosedAround nb r.curve) (d : ℝ) : Ribbon.eval ε r' ⟨0, d⟩ = .ok (nb.prev.pt (1 - max 0 (min d 1))) := by
  obtain ⟨k, a1, a2, a3, a4, a5, a6, a7, _⟩ := coons_parts hk h
  obtain ⟨T, t0, t1, t2⟩ := top_parts hk h hc
  unfold Ribbon.eval
  rw [k]
  dsimp only
  unfold coonsEval
  dsimp only
  rw [t0, M_bind_ok, clamp_sub, clamp_zero, sub_zero, clamp_one, t2, a1, a2, a3, a4, a5, a6, a7]
  congr 1
  change _ = nb.prev.pt (1 - Domain.clamp d 0 1)
  module

/-- C25, right: at `s = 1` it is the next curve. -/
theorem C25_right {ε : ℝ} {nb : Neighbors ℝ} {r r' : Ribbon ℝ} (hk : r.kind = .coons) (h : Ribbon.update ε nb r = .ok r')
    (hc : ClosedAround nb r.curve) (d : ℝ) : Ribbon.eval ε r' ⟨1, d⟩ = .ok (nb.next.pt (max 0 (min d 1))) := by
  obtain ⟨k, a1, a2, a3, a4, a5, a6, a7, _⟩ := coons_parts hk h
  obtain ⟨T, t0, t1, t2⟩ := top_parts hk h hc
  unfold Ribbon.eval
  rw [k]
  dsimp only
  unfold coonsEval
  dsimp only
  rw [t0, M_bind_ok, clamp_sub, clamp_one, sub_self, clamp_zero, t1, a1, a2, a3, a4, a5, a6, a7]
  congr 1
  change _ = nb.next.pt (Domain.clamp d 0 1)
  module

/-- C25, top: at `d = 1` it is the cubic curve that goes from the end of the next curve to the start of the previous one with the end
derivatives of the curves beyond them (traversed backwards as `s` grows), or a point for three sides. -/
theorem C25_top {ε : ℝ} {nb : Neighbors ℝ} {r r' : Ribbon ℝ} (hk : r.kind = .coons) (h : Ribbon.update ε nb r = .ok r')
    (s : ℝ) (h0 : 0 ≤ s) (h1 : s ≤ 1) :
    (nb.three = true → Ribbon.eval ε r' ⟨s, 1⟩ = .ok (nb.prev.pt 0)) ∧
    (nb.three = false → Ribbon.eval ε r' ⟨s, 1⟩ = .ok ((s ^ 2 * (3 - 2 * s)) • nb.next.pt 1 + ((1 - s) ^ 2 * (1 + 2 * s)) • nb.prev.pt 0 +
      (s ^ 2 * (1 - s)) • nb.next2.der 0 - (s * (1 - s) ^ 2) • nb.prev2.der 1)) := by
  obtain ⟨k, a1, a2, a3, a4, a5, a6, a7, a8⟩ := coons_parts hk h
  have hs1 : Domain.clamp (1 - s) 0 1 = 1 - s := clamp_of_mem (by linarith) (by linarith)
  have main : ∀ T, bezierPt r'.top (1 - s) = .ok T → Ribbon.eval ε r' ⟨s, 1⟩ = .ok T := by
    intro T hT
    unfold Ribbon.eval
    rw [k]
    dsimp only
    unfold coonsEval
    dsimp only
    rw [clamp_of_mem h0 h1, hs1, hT, M_bind_ok, clamp_one, sub_self, clamp_zero, a1, a2, a3, a4, a5, a6, a7]
    congr 1
    module
  constructor
  · intro h3
    apply main
    rw [a8, if_pos h3]
    refine (bezierPt_eq 0 (fun _ => nb.prev.pt 0) (1 - s)).trans ?_
    simp [Spec.bezier, Spec.bern]
  · intro h3
    apply main
    rw [a8, if_neg (by rw [h3]; simp)]
    set f : ℕ → P3 ℝ := fun i => if i = 0 then nb.next.pt 1 else if i = 1 then nb.next.pt 1 + (1 / 3 : ℝ) • nb.next2.der 0
      else if i = 2 then nb.prev.pt 0 - (1 / 3 : ℝ) • nb.prev2.der 1 else nb.prev.pt 0 with hf
    refine (show _ = bezierPt (tab 4 f) (1 - s) from rfl).trans ((bezierPt_eq 3 f (1 - s)).trans ?_)
    congr 1
    simp only [Spec.bezier, Spec.bern, Finset.sum_range_succ, Finset.sum_range_zero, hf]
    norm_num [Nat.choose]
    module

/-- C25: the Coons ribbon has a point for all parameters. -/
theorem C25_defined {ε : ℝ} {nb : Neighbors ℝ} {r r' : Ribbon ℝ} (hk : r.kind = .coons) (h : Ribbon.update ε nb r = .ok r')
    (hc : ClosedAround nb r.curve) (sd : P2 ℝ) : ∃ p, Ribbon.eval ε r' sd = .ok p := by
  obtain ⟨k, _⟩ := coons_parts hk h
  obtain ⟨T, t0, _⟩ := top_parts hk h hc
  unfold Ribbon.eval
  rw [k]
  dsimp only
  unfold coonsEval
  dsimp only
  rw [t0, M_bind_ok]
  exact ⟨_, rfl⟩

/-! ### Non-vacuity: straight segments -/

/-- The straight segment from `p` to `q`. -/
noncomputable def segment (p q : P3 ℝ) : Curve ℝ :=
  ⟨fun u => p + u • (q - p), fun _ => q - p, fun a b => (b - a) * (q - p).norm⟩

/-- Segments that are long enough compared to the tolerance are not affected by it. -/
theorem segment_exact {ε : ℝ} (hε : 0 < ε) (hε4 : ε ≤ 4) {p q : P3 ℝ} (h : 10000 * ε ≤ P3.dot (q - p) (q - p)) :
    ExactCurve ε (segment p q) := by
  have hne : q - p ≠ 0 := by
    intro h0
    rw [h0, P3.dot_zero_left] at h
    linarith
  have hd : ∀ a b, (segment p q).pt b - (segment p q).pt a = (b - a) • (q - p) := by
    intro a b
    unfold segment
    dsimp only
    module
  have hT : ∀ a, unitTangent (segment p q) a = (q - p).norm⁻¹ • (q - p) := fun a => rfl
  have hn := P3.norm_mul_self (q - p)
  have hnp := P3.norm_pos hne
  have hstep : ∀ k : ℕ, (((k + 1 : ℕ) : ℝ) / ((RMF.resolution : ℕ) : ℝ) - k / ((RMF.resolution : ℕ) : ℝ)) = 1 / 100 := by
    intro k
    unfold RMF.resolution
    push_cast
    ring
  refine ⟨fun _ _ => hne, ?_, ?_⟩
  · intro k hk
    apply ExactStep.of_forward hε
    · rw [hd, hstep, P3.dot_smul_left, P3.dot_smul_right]
      linarith
    · rw [hd, hstep, hT, hT]
      simp only [P3.dot_smul_left, P3.dot_smul_right, P3.dot_add_left]
      rw [← hn]
      field_simp
      nlinarith [mul_pos hnp hnp]
  · apply ne_of_gt
    apply Finset.sum_pos
    · intro j _
      unfold segment
      dsimp only
      rw [hstep]
      positivity
    · exact ⟨0, by simp [RMF.resolution]⟩

/-- The neighbours of the bottom side of a square (with sides of length 10). -/
noncomputable def squareNb : Neighbors ℝ :=
  ⟨segment ⟨0, 10, 0⟩ ⟨0, 0, 0⟩, segment ⟨10, 0, 0⟩ ⟨10, 10, 0⟩, segment ⟨10, 10, 0⟩ ⟨0, 10, 0⟩, segment ⟨10, 10, 0⟩ ⟨0, 10, 0⟩, false⟩

private theorem square_bottom_exact : ExactCurve (1 / 10000) (segment ⟨0, 0, 0⟩ ⟨10, 0, 0⟩) :=
  segment_exact (by norm_num) (by norm_num) (by norm_num [P3.dot])

private theorem square_corners : P3.cross (squareNb.prev.der 1) ((segment ⟨0, 0, 0⟩ ⟨10, 0, 0⟩).der 0) ≠ 0 ∧
    P3.cross ((segment ⟨0, 0, 0⟩ ⟨10, 0, 0⟩).der 1) (squareNb.next.der 0) ≠ 0 := by
  constructor <;> intro h <;> have := congrArg P3.z h <;> norm_num [squareNb, segment, P3.cross] at this

/-- A compatible ribbon of the square: `update()` succeeds, and C22, C23, C24 apply. -/
example : ∃ r', Ribbon.update (1 / 10000) squareNb (Ribbon.new .compatible (segment ⟨0, 0, 0⟩ ⟨10, 0, 0⟩)) = .ok r' ∧
    crossDerivative (1 / 10000) r' 0 = .ok ⟨0, 10, 0⟩ ∧ crossDerivative (1 / 10000) r' 1 = .ok ⟨0, 10, 0⟩ ∧
    (∃ c, crossDerivative (1 / 10000) r' (1 / 3) = .ok c ∧ ∃ n, normal (1 / 10000) r' (1 / 3) = .ok n ∧ P3.dot c n = 0) ∧
    Ribbon.eval (1 / 10000) r' ⟨0, 1⟩ = .ok ⟨0, 10, 0⟩ := by
  have hd : ∀ s, (segment ⟨0, 0, 0⟩ ⟨10, 0, 0⟩).der s ≠ 0 := by
    intro s h
    have := congrArg P3.x h
    norm_num [segment] at this
  obtain ⟨r', h⟩ := C23_defined (ε := 1 / 10000) (r := Ribbon.new .compatible (segment ⟨0, 0, 0⟩ ⟨10, 0, 0⟩)) (nb := squareNb) (by norm_num)
    (Or.inl rfl) square_bottom_exact (hd _) square_corners.1 square_corners.2
  have h0 := C23_start (by norm_num) (Or.inl rfl) rfl h
  have e0 : -squareNb.prev.der 1 = (⟨0, 10, 0⟩ : P3 ℝ) := by ext <;> norm_num [squareNb, segment]
  rw [e0] at h0
  refine ⟨r', h, h0, ?_, ?_, ?_⟩
  · rw [C23_end (by norm_num) (Or.inl rfl) rfl square_bottom_exact h]
    congr 1
    ext <;> norm_num [squareNb, segment]
  · obtain ⟨c, hc⟩ := C22_defined (by norm_num) (Or.inl rfl) h (s := 1 / 3) (by norm_num) (hd _)
    exact ⟨c, hc, (C22_after_update (by norm_num) (Or.inl rfl) rfl h _).2 c hc⟩
  · have hu := update_updated h (by simp [Ribbon.new])
    rw [C24_ruled h0 (by rw [hu.kind]; simp [Ribbon.new]) (by rw [hu.kind]; simp [Ribbon.new]), hu.curve]
    congr 1
    ext <;> norm_num [Ribbon.new, segment]

/-- A ribbon with a handler, set by a sequence of control calls, meets the hypotheses of `C24_middle`. -/
example : ∃ r r' n, runCtl (Ribbon.new .handler (segment ⟨0, 0, 0⟩ ⟨10, 0, 0⟩)) [.mult 5, .reset, .handler ⟨0, 2, 0⟩, .mult 3] = .ok r ∧
    r.mult = 3 ∧ Ribbon.update (1 / 10000) squareNb r = .ok r' ∧ normal (1 / 10000) r' (1 / 2) = .ok n ∧
    crossDerivative (1 / 10000) r' (1 / 2) = .ok ((3 * (((squareNb.prev.der 1).norm + (squareNb.next.der 0).norm) / 2)) •
      ((P3.norm (⟨0, 2, 0⟩ : P3 ℝ))⁻¹ • ⟨0, 2, 0⟩ - P3.dot ((P3.norm (⟨0, 2, 0⟩ : P3 ℝ))⁻¹ • ⟨0, 2, 0⟩) n • n)) := by
  have hd : ∀ s, (segment ⟨0, 0, 0⟩ ⟨10, 0, 0⟩).der s ≠ 0 := by
    intro s h
    have := congrArg P3.x h
    norm_num [segment] at this
  obtain ⟨r, e, e1, e2, e3, e4, _, e5⟩ := C24_controls (Ribbon.new .handler (segment ⟨0, 0, 0⟩ ⟨10, 0, 0⟩)) [.mult 5, .reset, .handler ⟨0, 2, 0⟩, .mult 3] (by
    intro h hh
    simp only [List.mem_cons, reduceCtorEq, Ctl.handler.injEq, false_or, List.not_mem_nil, or_false] at hh
    rw [hh]
    intro h0
    have := congrArg P3.y h0
    norm_num at this)
  have hk : r.kind = .handler := e5
  have hi : r.handlerInit = true := by
    by_contra hcon
    unfold Ribbon.handler at e2
    rw [if_neg hcon] at e2
    simp [ctlHandler] at e2
  obtain ⟨r', h⟩ := C23_defined (ε := 1 / 10000) (r := r) (nb := squareNb) (by norm_num)
    (Or.inr ⟨hk, hi⟩) (by rw [e3]; exact square_bottom_exact) (by rw [e3]; exact hd _) (by rw [e3]; exact square_corners.1) (by rw [e3]; exact square_corners.2)
  have hu := update_updated h (by rw [hk]; simp)
  have hn : ∃ n, normal (1 / 10000) r' (1 / 2) = .ok n := by
    obtain ⟨c, hc⟩ := C22_defined (by norm_num) (Or.inr hk) h (s := 1 / 2) (by norm_num) (by rw [e3]; exact hd _)
    obtain ⟨n, hn, _⟩ := (C22_after_update (by norm_num) (Or.inr hk) (by rw [e4]; rfl) h (1 / 2)).2 c hc
    exact ⟨n, hn⟩
  obtain ⟨n, hn⟩ := hn
  have := C24_middle hk e2 h hn
  rw [e1] at this
  exact ⟨r, r', n, e, e1, h, hn, this⟩

/-- A Coons ribbon of the square meets the hypotheses of C25. -/
example : ∃ r', Ribbon.update (1 / 10000) squareNb (Ribbon.new .coons (segment ⟨0, 0, 0⟩ ⟨10, 0, 0⟩)) = .ok r' ∧
    Ribbon.eval (1 / 10000) r' ⟨1 / 2, 0⟩ = .ok ⟨5, 0, 0⟩ ∧ Ribbon.eval (1 / 10000) r' ⟨0, 1 / 2⟩ = .ok ⟨0, 5, 0⟩ ∧
    Ribbon.eval (1 / 10000) r' ⟨1, 1 / 2⟩ = .ok ⟨10, 5, 0⟩ := by
  have hd : ∀ s, (segment ⟨0, 0, 0⟩ ⟨10, 0, 0⟩).der s ≠ 0 := by
    intro s h
    have := congrArg P3.x h
    norm_num [segment] at this
  have hup : ∃ r', Ribbon.update (1 / 10000) squareNb (Ribbon.new .coons (segment ⟨0, 0, 0⟩ ⟨10, 0, 0⟩)) = .ok r' := by
    obtain ⟨r', h⟩ := C23_defined (ε := 1 / 10000) (r := { Ribbon.new .compatible (segment ⟨0, 0, 0⟩ ⟨10, 0, 0⟩) with kind := .compatible }) (nb := squareNb) (by norm_num)
      (Or.inl rfl) square_bottom_exact (hd _) square_corners.1 square_corners.2
    obtain ⟨a, b, c, h1, h2, h3, _⟩ := baseUpdate_parts (show baseUpdate _ _ _ = _ from h)
    unfold Ribbon.update
    dsimp only [Ribbon.new]
    unfold coonsUpdate baseUpdate
    dsimp only
    have h1' : (P3.cross (squareNb.prev.der 1) ((segment ⟨0, 0, 0⟩ ⟨10, 0, 0⟩).der 0)).normalize = .ok a := h1
    have h2' : (P3.cross ((segment ⟨0, 0, 0⟩ ⟨10, 0, 0⟩).der 1) (squareNb.next.der 0)).normalize = .ok b := h2
    have h3' : RMF.update (1 / 10000) RMF.resolution (segment ⟨0, 0, 0⟩ ⟨10, 0, 0⟩) a b = .ok c := h3
    rw [h1', M_bind_ok, h2', M_bind_ok, h3']
    exact ⟨_, rfl⟩
  obtain ⟨r', h⟩ := hup
  have hc : ClosedAround squareNb (Ribbon.new .coons (segment ⟨0, 0, 0⟩ ⟨10, 0, 0⟩)).curve := by
    refine ⟨?_, ?_, by simp [squareNb]⟩ <;> ext <;> norm_num [squareNb, segment, Ribbon.new]
  refine ⟨r', h, ?_, ?_, ?_⟩
  · rw [C25_bottom rfl h hc]
    congr 1
    ext <;> norm_num [Ribbon.new, segment]
  · rw [C25_left rfl h hc]
    congr 1
    ext <;> norm_num [squareNb, segment]
  · rw [C25_right rfl h hc]
    congr 1
    ext <;> norm_num [squareNb, segment]

end Transfinite
