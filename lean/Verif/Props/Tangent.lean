import Verif.Lemmas.TangentPatch
import Verif.Props.Interpolation

/-! # C76-C81: tangent planes of the ribbon surfaces along their sides -/

namespace Transfinite

open Spec Set Filter Topology Real

/-! ### Specification -/

/-- An object with the curves `c` (and any normal fences), brought up to date by `update()` at some time after the last change
of the curves and the fences. -/
def UpdatedLoop (ε : ℝ) (kind : PatchKind) (n : ℕ) (c : ℕ → Curve ℝ) (P : Patch ℝ) : Prop :=
  ∃ before later P0 P1, (Patch.new kind).run ε before = .ok P0 ∧ P0.curves = tab n c ∧ P0.update ε = .ok P1 ∧
    (∀ x ∈ later, Patch.Call.keepsLoop x = true) ∧ P1.run ε later = .ok P

/-- The curves `c` are a closed differentiable loop, the cross derivatives of the ribbons of `P` are the differentiable functions `T`
(with the derivatives `T'`) that are the derivatives of the adjacent curves in the corners. The derivatives `T'` change by at most `δ` within
1/10000 of the ends of the sides. -/
structure SmoothRibbons (ε : ℝ) (n : ℕ) (c : ℕ → Curve ℝ) (T T' : ℕ → ℝ → P3 ℝ) (δ : ℝ) (P : Patch ℝ) : Prop where
  sides : 3 ≤ n
  closed : ∀ j < n, (c j).pt 1 = (c ((j + 1) % n)).pt 0
  curve : ∀ j < n, ∀ s, 0 ≤ s → s ≤ 1 → UnitDer (c j).pt ((c j).der s) s
  value : ∀ j < n, ∃ r, vget P.surf.ribbons j = .ok r ∧ ∀ s, 0 ≤ s → s ≤ 1 → r.crossDerivative ε s = .ok (T j s)
  cross : ∀ j < n, ∀ s, 0 ≤ s → s ≤ 1 → UnitDer (T j) (T' j s) s
  start : ∀ j < n, T j 0 = -(c ((j + n - 1) % n)).der 1
  fin : ∀ j < n, T j 1 = (c ((j + 1) % n)).der 0
  twist : ∀ j < n, ∀ s, 0 ≤ s → s ≤ 1 / 10000 → Close δ (T' j s) (T' j 0) ∧ Close δ (T' j (1 - s)) (T' j 1)

/-- Along every path of the polygon `v` that starts at the point `s` of side `i`, the surface starts at the point of the boundary curve, and
its derivative is a combination of the derivative of the curve and the cross derivative, with an error of at most `δ`. The factor of the
cross derivative is positive if the path leaves the side. -/
def TangentAt (ε : ℝ) (P : Patch ℝ) (n : ℕ) (v : ℕ → P2 ℝ) (c : ℕ → Curve ℝ) (T : ℕ → ℝ → P3 ℝ) (δ : ℝ) (i : ℕ) (s : ℝ) : Prop :=
  ∀ p w, DomainPath n v i s p w → ∃ (X : ℝ → P3 ℝ) (α β : ℝ) (e : P3 ℝ),
    (∀ᶠ t in nhdsWithin 0 (Set.Ici 0), ∃ P', P.eval ε (p t) = .ok (X t, P')) ∧ X 0 = (c i).pt s ∧
      RightDer3 X (α • (c i).der s + β • (T i s + e)) ∧ Close δ e 0 ∧ 0 ≤ β ∧ (0 < inward n v i w → 0 < β)

/-! ### Common steps -/

variable {ε δ : ℝ} {kind : PatchKind} {n : ℕ} {c : ℕ → Curve ℝ} {P : Patch ℝ} {T T' : ℕ → ℝ → P3 ℝ} {i : ℕ} {s : ℝ}

theorem UpdatedLoop.agreed (h : UpdatedLoop ε kind n c P) (hn : 3 ≤ n) : P.kind = kind ∧ ∃ F, Patch.Agreed ε P n c F := by
  obtain ⟨before, later, P0, P1, h1, h2, h4, h5, h6⟩ := h
  obtain ⟨hi, hk⟩ := Patch.run_inv (Patch.new_inv ε kind) h1
  have hlen : P0.surf.ribbons.length = n := by
    have := congrArg List.length h2
    simpa [Patch.curves] using this
  obtain ⟨r, hr⟩ := exists_tab' (l := P0.surf.ribbons) (by omega)
  rw [hlen] at hr
  have hmem : ∀ j < n, r j ∈ P0.surf.ribbons := by
    intro j hj
    rw [hr]; unfold tab
    exact List.mem_map.mpr ⟨j, List.mem_range.mpr hj, rfl⟩
  have hcurve : ∀ j < n, (r j).curve = c j := by
    intro j hj
    unfold Patch.curves at h2
    rw [hr] at h2
    have e := congrArg (fun l => l[j]?) h2
    simpa [tab, hj] using e
  have ha := Patch.update_agreed (F := fun j => (r j).fence) hi hr (fun j hj => ⟨hi.kinds _ (hmem j hj), hcurve j hj, rfl⟩) (by omega) h4
  refine ⟨?_, _, Patch.run_agreed (by omega) ha h5 h6⟩
  rw [(Patch.run_inv ha.inv h6).2, (Patch.updatedFrom hi h4).kind, hk]
  rfl

/-- What the theorems below need: the domain, the smooth surface, and the errors of the twists. -/
private theorem setup (h : UpdatedLoop ε kind n c P) (hs : SmoothRibbons ε n c T T' δ P) (hk : kind.ribbon = .handler) :
    P.kind = kind ∧ (∃ F, Patch.Agreed ε P n c F) ∧ ∃ w1 w2 : ℕ → P3 ℝ, Surf.Smooth ε P.surf n c T T' w1 w2 ∧
      ∀ j < n, Close δ (T' (nextIx n j) 0 - w2 j) 0 ∧ Close δ (-T' j 1 - w1 j) 0 := by
  obtain ⟨k, F, ha⟩ := h.agreed hs.sides
  obtain ⟨r, hr⟩ := ha.surf
  rw [k, hk] at hr
  refine ⟨k, ⟨F, ha⟩, hr.smooth hs.sides hs.closed ?_ hs.curve hs.cross hs.start hs.fin hs.twist⟩
  intro j hj
  obtain ⟨r', e, hv⟩ := hs.value j hj
  rw [hr.ribs, vget_tab _ hj] at e
  cases e
  exact hv

private theorem regularDomain {F : ℕ → Option (ℝ → P3 ℝ)} (h : Patch.Agreed ε P n c F) (hr : P.kind.regular = true) (hn : 3 ≤ n) :
    ∃ r φ, 1 ≤ r ∧ ConvexDomain P.dom.dom n (regularVertex n r φ) := by
  obtain ⟨vs, e1, e2⟩ := (h.inv.regular hr).resolve_left (by rw [h.dom hr]; omega)
  rw [h.dom hr] at e1
  obtain ⟨r, φ, hr, hd, _⟩ := regular_convex hn e1 e2
  exact ⟨r, φ, hr, hd⟩

private theorem along {F : ℕ → Option (ℝ → P3 ℝ)} (h : Patch.Agreed ε P n c F) {v : ℕ → P2 ℝ} (hd : ConvexDomain P.dom.dom n v)
    {p : ℝ → P2 ℝ} {f : ℝ → ℕ → P2 ℝ} {X : ℝ → P3 ℝ}
    (hf : ∀ o : Param.Obj ℝ, Param.update P.kind.param P.dom.dom = .ok o → ∀ᶠ t in near0, ∀ j < n, Param.mapRaw ε P.kind.param P.dom.dom o.mult j (p t) = .ok (f t j))
    (hX : ∀ᶠ t in near0, P.evalWith ε (tab n (f t)) = .ok (X t)) : ∀ᶠ t in near0, ∃ P', P.eval ε (p t) = .ok (X t, P') := by
  have hpar : Patch.ParamOk ε P := h.inv.param.resolve_left (by rw [hd.n_eq]; have := hd.hn; omega)
  obtain ⟨o0, ho0, _⟩ := Patch.maps_eq hpar 0
  filter_upwards [hf o0 ho0, hX] with t h1 h2
  obtain ⟨o, e⟩ := Patch.maps_of_raw hpar hd.length_eq (uv := p t) (f := f t) (fun o ho => by
    rw [ho0] at ho
    cases ho
    exact h1)
  exact ⟨_, Patch.eval_of e h2⟩

private theorem hermite_zero (s : ℝ) : hermite 0 s = (1 - s) ^ 2 * (1 + 2 * s) := by
  simp only [hermite, if_true]
  ring

/-! ### C76: side-based -/

/-- C76: the tangent planes of the side-based surface along its sides are exactly those of the ribbons (for convex angular domains, at points of
the sides away from the other sides by more than the tolerance). -/
theorem C76_side (hε : 0 < ε) (h : UpdatedLoop ε .sideBased n c P) (hs : SmoothRibbons ε n c T T' δ P) {v : ℕ → P2 ℝ}
    (hd : ConvexDomain P.dom.dom n v) (hi : i < n) (s0 : 0 < s) (s1 : s < 1) {ε' : ℝ} (hε' : ε < ε') (ht : SideTol ε' n v i s)
    (haway : ∀ j < n, j ≠ i → AwayFrom ε' n v j (sidePoint n v i s)) : TangentAt ε P n v c T 0 i s := by
  obtain ⟨hk, ⟨F, ha⟩, w1, w2, hsm, _⟩ := setup h hs rfl
  intro p w hp
  obtain ⟨mult, far, e, g1, _⟩ := C15_parallel hd ε
  obtain ⟨f, x, y, x', y', f1, f2, f3, f4, f5, f6, f7, f8, f9⟩ := Surf.parallel_path hd hε hi s0 s1 (by
      dsimp only
      unfold SideTol at ht
      dsimp only at ht
      rcases ht with ⟨a, b⟩ | ⟨a, b⟩
      · exact Or.inl ⟨a, by linarith⟩
      · exact Or.inr ⟨by linarith, by linarith⟩) (by
      intro j hj hji k hk
      obtain ⟨p1, ⟨k0, hk0, ek0⟩, p3⟩ := g1 j hj
      have q := haway j hj hji k0 hk0
      rw [← ek0] at q
      have q2 : ε * leftOf n v j (v k) ≤ ε * far j := mul_le_mul_of_nonneg_left (p3 k hk) hε.le
      have q3 : ε * far j < ε' * far j := mul_lt_mul_of_pos_right hε' p1
      linarith) hp e
  obtain ⟨X, hX, X0, dX⟩ := Surf.sideBased_der hsm hε hi f2 f3 f4 f5 f6 f7
  refine ⟨X, x', y', 0, along ha hd (f := f) ?_ ?_, X0, dX.congr_der (by rw [add_zero]), ⟨by simp, by simp, by simp⟩, f8, f9⟩
  · intro o ho
    rw [hk] at ho ⊢
    unfold Param.update at ho
    dsimp only [PatchKind.param] at ho
    rw [e, M_bind_ok] at ho
    cases ho
    exact f1
  · refine hX.mono fun t q => ?_
    unfold Patch.evalWith; rw [hk]; exact q

/-! ### C77: corner-based -/

/-- C77: the tangent planes of the corner-based surface along its sides are those of the ribbons, up to the error of the
finite differences in the corner twists. -/
theorem C77_side (hε : 0 < ε) (h : UpdatedLoop ε .cornerBased n c P) (hs : SmoothRibbons ε n c T T' δ P) (hi : i < n)
    (s0 : 3 * ε < s * sin (2 * π / n)) (s1 : 3 * ε < (1 - s) * sin (2 * π / n)) :
    ∃ v, ConvexDomain P.dom.dom n v ∧ TangentAt ε P n v c T δ i s := by
  have hn := hs.sides
  obtain ⟨sp1, sp2⟩ := sin_pi_div_pos hn
  have su := sin_le_one (2 * π / n)
  have t0 : 3 * ε < s := by
    have : 0 < s := by by_contra q; push Not at q; nlinarith
    nlinarith
  have t1 : 3 * ε < 1 - s := by
    have : 0 < 1 - s := by by_contra q; push Not at q; nlinarith
    nlinarith
  obtain ⟨hk, ⟨F, ha⟩, w1, w2, hsm, ht⟩ := setup h hs rfl
  obtain ⟨r, φ, r1, hd⟩ := regularDomain ha (by rw [hk]; rfl) hn
  refine ⟨_, hd, fun p w hp => ?_⟩
  obtain ⟨f, x', y', f1, f2, f3⟩ := Surf.bilinear_path (by linarith) hd hε hi (by linarith) (by linarith) hp
  obtain ⟨X, hX, X0, dX⟩ := Surf.cornerBased_der hsm hε hi t0 (by linarith) f2
  obtain ⟨b0, b1⟩ := Surf.endWeight_range s
  have a0 : 0 ≤ Surf.endWeight s * x' (nextIx n i) := mul_nonneg b0 f3.next
  have a1 : 0 ≤ -((1 - Surf.endWeight s) * x' (prevIx n i)) := by
    have := mul_nonneg (show 0 ≤ 1 - Surf.endWeight s by linarith) (show 0 ≤ -x' (prevIx n i) by linarith [f3.prev])
    linarith
  obtain ⟨e, he, q⟩ := Surf.twist_split (s := s) (S := P.surf) (w1 := w1) (w2 := w2) hi (by linarith) (by linarith) ht a0 a1
    (β := Surf.endWeight s * x' (nextIx n i) - (1 - Surf.endWeight s) * x' (prevIx n i)) (by nlinarith only [a0, a1, t0, t1, hε])
  refine ⟨X, _, _, e, along ha hd (f := f) ?_ ?_, X0, dX.congr_der (by rw [q, smul_add, add_assoc]), he, by linarith, ?_⟩
  · intro o _
    rw [hk]
    exact f1
  · refine hX.mono fun t q => ?_
    unfold Patch.evalWith; rw [hk]; exact q
  · intro hw
    obtain ⟨k1, k2, _⟩ := f3.strict hw
    have : 0 < Surf.endWeight s := by
      have : 0 < s := by linarith
      unfold Surf.endWeight
      positivity
    have := mul_pos this k1
    linarith

/-! ### C78: generalized Coons -/

/-- C78: the tangent planes of the generalized Coons surface along its sides are those of the ribbons, up to the error of the
finite differences in the corner twists. -/
theorem C78_side (hε : 0 < ε) (hεn : ε < sin (2 * π / n) * sin (π / n) / 2) (h : UpdatedLoop ε .generalizedCoons n c P)
    (hs : SmoothRibbons ε n c T T' δ P) (hi : i < n) (s0 : 3 * ε < s * sin (2 * π / n)) (s1 : 3 * ε < (1 - s) * sin (2 * π / n)) :
    ∃ v, ConvexDomain P.dom.dom n v ∧ TangentAt ε P n v c T δ i s := by
  have hn := hs.sides
  obtain ⟨sp1, sp2⟩ := sin_pi_div_pos hn
  have su := sin_le_one (2 * π / n)
  have t0 : 3 * ε < s := by
    have : 0 < s := by by_contra q; push Not at q; nlinarith
    nlinarith
  have t1 : 3 * ε < 1 - s := by
    have : 0 < 1 - s := by by_contra q; push Not at q; nlinarith
    nlinarith
  obtain ⟨hk, ⟨F, ha⟩, w1, w2, hsm, ht⟩ := setup h hs rfl
  obtain ⟨r, φ, r1, hd⟩ := regularDomain ha (by rw [hk]; rfl) hn
  refine ⟨_, hd, fun p w hp => ?_⟩
  obtain ⟨f, x', y', f1, f2, f3, f4, f5, f6, f7⟩ := Surf.interconnected_path (by linarith) hd hε hεn hi (by linarith) (by linarith) hp
  obtain ⟨X, hX, X0, dX⟩ := Surf.generalizedCoons_der hsm hε hi t0 (by linarith) f2 f4 f5 f6
  obtain ⟨b0, b1⟩ := Surf.endWeight_range s
  have xp : 0 ≤ -x' (prevIx n i) := by linarith [f3.prev]
  have a0 : 0 ≤ Surf.endWeight s * x' (nextIx n i) := mul_nonneg b0 f3.next
  have a1 : 0 ≤ -((1 - Surf.endWeight s) * x' (prevIx n i)) := by
    have := mul_nonneg (show 0 ≤ 1 - Surf.endWeight s by linarith) xp
    linarith
  have hw : (1 - s) * Surf.endWeight s ≤ 1 - hermite 0 s ∧ s * (1 - Surf.endWeight s) ≤ hermite 0 s := by
    have p0 : 0 < s := by linarith
    have p1 : 0 < 1 - s := by linarith
    have h2 : 0 < (1 - s) ^ 2 + s ^ 2 := by positivity
    rw [hermite_zero]
    unfold Surf.endWeight
    constructor
    · rw [mul_div_assoc', div_le_iff₀ h2]
      have := mul_nonneg (sq_nonneg s) (show 0 ≤ (3 - 2 * s) * ((1 - s) ^ 2 + s ^ 2) - (1 - s) by nlinarith only [p0, p1, mul_pos p0 p1])
      nlinarith only [this]
    · rw [one_sub_div h2.ne', mul_div_assoc', div_le_iff₀ h2]
      have := mul_nonneg (sq_nonneg (1 - s)) (show 0 ≤ (1 + 2 * s) * ((1 - s) ^ 2 + s ^ 2) - s by nlinarith only [p0, p1, mul_pos p0 p1])
      nlinarith only [this]
  obtain ⟨e, he, q⟩ := Surf.twist_split (s := s) (S := P.surf) (w1 := w1) (w2 := w2) hi (by linarith) (by linarith) ht a0 a1 (β := y' i) (by
    have k1 := mul_le_mul_of_nonneg_right hw.1 f3.next
    have k2 := mul_le_mul_of_nonneg_right hw.2 xp
    rw [f7]
    linarith only [k1, k2])
  refine ⟨X, _, _, e, along ha hd (f := f) ?_ ?_, X0, dX.congr_der (by rw [q, smul_add, add_assoc]), he, f3.self, fun hw => (f3.strict hw).2.2⟩
  · intro o _
    rw [hk]
    exact f1
  · refine hX.mono fun t q => ?_
    unfold Patch.evalWith; rw [hk]; exact q

/-! ### C79: composite ribbon -/

/-- C79: the tangent planes of the composite ribbon surface along its sides are those of the ribbons, up to the error of the
finite differences in the corner twists. -/
theorem C79_side (hε : 0 < ε) (h : UpdatedLoop ε .compositeRibbon n c P) (hs : SmoothRibbons ε n c T T' δ P) (hi : i < n)
    (s0 : 3 * ε < s) (s1 : 3 * ε < 1 - s) : ∃ v, ConvexDomain P.dom.dom n v ∧ TangentAt ε P n v c T δ i s := by
  have hn := hs.sides
  obtain ⟨hk, ⟨F, ha⟩, w1, w2, hsm, ht⟩ := setup h hs rfl
  obtain ⟨r, φ, r1, hd⟩ := regularDomain ha (by rw [hk]; rfl) hn
  refine ⟨_, hd, fun p w hp => ?_⟩
  obtain ⟨f1, x', y', hb⟩ := Surf.bary_path hd hε hi (by linarith) (by linarith) hp
  obtain ⟨X, hX, X0, dX⟩ := Surf.composite_der hsm hε hi s0 (by linarith) hb.path hb.le_one
  obtain ⟨b0, b1⟩ := Surf.endWeight_range s
  have f3 := hb.leaves
  have xp : 0 ≤ -x' (prevIx n i) := by linarith [f3.prev]
  have a0 : 0 ≤ Surf.endWeight s * x' (nextIx n i) := mul_nonneg b0 f3.next
  have a1 : 0 ≤ -((1 - Surf.endWeight s) * x' (prevIx n i)) := by
    have := mul_nonneg (show 0 ≤ 1 - Surf.endWeight s by linarith) xp
    linarith
  have p0 : 0 < s := by linarith
  have p1 : 0 < 1 - s := by linarith
  have h0 : 0 ≤ hermite 0 s ∧ hermite 0 s ≤ 1 ∧ hermite 0 (1 - s) = 1 - hermite 0 s := by
    simp only [hermite_zero]
    refine ⟨?_, ?_, by ring⟩
    · have := mul_nonneg (sq_nonneg (1 - s)) (show 0 ≤ 1 + 2 * s by linarith)
      nlinarith only [this]
    · have := mul_nonneg (sq_nonneg s) (show 0 ≤ 3 - 2 * s by linarith)
      nlinarith only [this]
  obtain ⟨h1, h2, h3⟩ := h0
  obtain ⟨e, he, q⟩ := Surf.twist_split (s := s) (S := P.surf) (w1 := w1) (w2 := w2) hi p0 (by linarith) ht
    (a := hermite 0 (1 - s) * (y' i + Surf.endWeight s * x' (nextIx n i)) / 2) (b := hermite 0 s * (y' i - (1 - Surf.endWeight s) * x' (prevIx n i)) / 2)
    (β := (y' i + Surf.endWeight s * x' (nextIx n i) - (1 - Surf.endWeight s) * x' (prevIx n i)) / 2)
    (by
      rw [h3]
      have := mul_nonneg (show 0 ≤ 1 - hermite 0 s by linarith) (add_nonneg f3.self a0)
      linarith)
    (by
      have := mul_nonneg h1 (add_nonneg f3.self a1)
      linarith)
    (by
      rw [h3]
      generalize Surf.endWeight s * x' (nextIx n i) = A at *
      have fs := f3.self
      generalize y' i = Y at *
      generalize hB : -((1 - Surf.endWeight s) * x' (prevIx n i)) = B at *
      rw [show (1 - Surf.endWeight s) * x' (prevIx n i) = -B by linarith]
      have k1 : (1 - s) * (1 - hermite 0 s) ≤ 1 - hermite 0 s := by nlinarith only [h2, p0]
      have k2 : s * hermite 0 s ≤ hermite 0 s := by nlinarith only [h1, p1]
      have k3 := mul_le_mul_of_nonneg_right k1 (add_nonneg fs a0)
      have k4 := mul_le_mul_of_nonneg_right k2 (add_nonneg fs a1)
      have k5 := mul_nonneg h1 a0
      have k6 := mul_nonneg (show 0 ≤ 1 - hermite 0 s by linarith) a1
      linarith only [k3, k4, k5, k6])
  refine ⟨X, _, _, e, along ha hd (f := fun t => Surf.baryF ε P.dom.dom (p t)) ?_ ?_, X0, dX.congr_der (by rw [q, smul_add, add_assoc]), he, by linarith [f3.self], ?_⟩
  · intro o _
    rw [hk]
    exact f1
  · refine hX.mono fun t q => ?_
    unfold Patch.evalWith; rw [hk]; exact q
  · intro hw
    obtain ⟨_, _, k3⟩ := f3.strict hw
    linarith

/-! ### C80: midpoint and midpoint Coons -/

/-- C80: the tangent planes of the midpoint surface along its sides are those of the ribbons, up to the error of the
finite differences in the corner twists, whatever midpoint is set. -/
theorem C80_midpoint (hε : 0 < ε) (h : UpdatedLoop ε .midpoint n c P) (hs : SmoothRibbons ε n c T T' δ P) (hi : i < n)
    (s0 : 3 * ε < s) (s1 : 3 * ε < 1 - s) : ∃ v, ConvexDomain P.dom.dom n v ∧ TangentAt ε P n v c T δ i s := by
  have hn := hs.sides
  obtain ⟨hk, ⟨F, ha⟩, w1, w2, hsm, ht⟩ := setup h hs rfl
  obtain ⟨r, φ, r1, hd⟩ := regularDomain ha (by rw [hk]; rfl) hn
  refine ⟨_, hd, fun p w hp => ?_⟩
  obtain ⟨f1, x', y', hb⟩ := Surf.bary_path hd hε hi (by linarith) (by linarith) hp
  have far : ∀ j < n, j ≠ i → j ≠ nextIx n i → j ≠ prevIx n i → Surf.Small fun t => hermite 0 (Surf.baryF ε P.dom.dom (p t) j).y := by
    intro j hj q1 q2 q3
    refine Surf.Small.herm (hb.dy j hj) (hb.farY j hj q1 q2 q3) ?_
    filter_upwards [hb.path.range, hb.le_one] with t k1 k2
    exact ⟨(k1 j hj).2, k2 j hj⟩
  obtain ⟨X, hX, X0, dX⟩ := Surf.midpoint_der hsm hε hi s0 (by linarith) hb.path hb.le_one far P.central
  have f3 := hb.leaves
  have xp : 0 ≤ -x' (prevIx n i) := by linarith [f3.prev]
  have p0 : 0 < s := by linarith
  have p1 : 0 < 1 - s := by linarith
  have h0 : 0 < hermite 0 s ∧ 0 < hermite 0 (1 - s) := by
    simp only [hermite_zero]
    constructor
    · have := mul_pos (pow_pos p1 2) (show 0 < 1 + 2 * s by linarith)
      nlinarith only [this]
    · have := mul_pos (pow_pos p0 2) (show 0 < 3 - 2 * s by linarith)
      nlinarith only [this]
  have a0 : 0 ≤ hermite 0 (1 - s) * x' (nextIx n i) := mul_nonneg h0.2.le f3.next
  have a1 : 0 ≤ -(hermite 0 s * x' (prevIx n i)) := by
    have := mul_nonneg h0.1.le xp
    linarith
  obtain ⟨e, he, q⟩ := Surf.twist_split (s := s) (S := P.surf) (w1 := w1) (w2 := w2) hi p0 (by linarith) ht a0 a1
    (β := hermite 0 (1 - s) * x' (nextIx n i) - hermite 0 s * x' (prevIx n i)) (by nlinarith only [a0, a1, p0, p1])
  refine ⟨X, _, _, e, along ha hd (f := fun t => Surf.baryF ε P.dom.dom (p t)) ?_ ?_, X0, dX.congr_der (by rw [q, smul_add, add_assoc]), he, by linarith, ?_⟩
  · intro o _
    rw [hk]
    exact f1
  · refine hX.mono fun t q => ?_
    unfold Patch.evalWith; rw [hk]; exact q
  · intro hw
    obtain ⟨k1, _, _⟩ := f3.strict hw
    have := mul_pos h0.2 k1
    linarith

/-- C80: the midpoint Coons surface. -/
theorem C80_midpointCoons (hε : 0 < ε) (hεn : ε < sin (2 * π / n) ^ 2 * sin (π / n) / 2) (h : UpdatedLoop ε .midpointCoons n c P)
    (hs : SmoothRibbons ε n c T T' δ P) (hi : i < n) (s0 : 3 * ε < s) (s1 : 3 * ε < 1 - s) :
    ∃ v, ConvexDomain P.dom.dom n v ∧ TangentAt ε P n v c T δ i s := by
  have hn := hs.sides
  obtain ⟨hk, ⟨F, ha⟩, w1, w2, hsm, ht⟩ := setup h hs rfl
  obtain ⟨r, φ, r1, hd⟩ := regularDomain ha (by rw [hk]; rfl) hn
  refine ⟨_, hd, fun p w hp => ?_⟩
  obtain ⟨f1, x', y', hb, f3, le1, yn, yp, far, nl, pl⟩ := Surf.constrained_path r1 hd hε hεn hi (by linarith) (by linarith) hp
  obtain ⟨X, hX, X0, dX⟩ := Surf.midpointCoons_der hsm hε hi s0 (by linarith) hb le1 yn yp far P.central
  have xp : 0 ≤ -x' (prevIx n i) := by linarith [f3.prev]
  have p0 : 0 < s := by linarith
  have p1 : 0 < 1 - s := by linarith
  have h0 : hermite 0 s = (1 - s) ^ 2 * (1 + 2 * s) ∧ hermite 0 (1 - s) = s ^ 2 * (3 - 2 * s) := by
    simp only [hermite_zero]
    exact ⟨trivial, by ring⟩
  have a0 : 0 ≤ hermite 0 (1 - s) * x' (nextIx n i) := by
    rw [h0.2]
    exact mul_nonneg (mul_nonneg (sq_nonneg _) (by linarith)) f3.next
  have a1 : 0 ≤ -(hermite 0 s * x' (prevIx n i)) := by
    rw [h0.1]
    have := mul_nonneg (mul_nonneg (sq_nonneg (1 - s)) (show 0 ≤ 1 + 2 * s by linarith)) xp
    linarith
  obtain ⟨e, he, q⟩ := Surf.twist_split (s := s) (S := P.surf) (w1 := w1) (w2 := w2) hi p0 (by linarith) ht a0 a1 (β := y' i) (by
    rw [h0.1, h0.2]
    have k1 := mul_le_mul_of_nonneg_left nl (show 0 ≤ (1 - s) * s * (3 - 2 * s) from mul_nonneg (mul_pos p1 p0).le (by linarith))
    have k2 := mul_le_mul_of_nonneg_left pl (show 0 ≤ (1 - s) * s * (1 + 2 * s) from mul_nonneg (mul_pos p1 p0).le (by linarith))
    have k3 : 4 * ((1 - s) * s) ≤ 1 := by nlinarith only [sq_nonneg (1 - 2 * s)]
    have k4 := mul_le_mul_of_nonneg_right k3 f3.self
    nlinarith only [k1, k2, k4])
  refine ⟨X, _, _, e, along ha hd (f := fun t => Surf.consF ε P.dom.dom (p t)) ?_ ?_, X0, dX.congr_der (by rw [q, smul_add, add_assoc]), he, f3.self, fun hw => (f3.strict hw).2.2⟩
  · intro o _
    rw [hk]
    exact f1
  · refine hX.mono fun t q => ?_
    unfold Patch.evalWith; rw [hk]; exact q

end Transfinite
