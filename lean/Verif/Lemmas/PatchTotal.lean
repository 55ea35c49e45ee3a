import Verif.Lemmas.Total
import Verif.Lemmas.Agreed

/-! `update()` and `eval()` of surface objects are defined. -/

namespace Transfinite

open Spec

variable {ε : ℝ} {n : ℕ} {c : ℕ → Curve ℝ}

namespace Ribbon

/-- What the update of a ribbon with neighbours `nb` needs (other than the handler): the curve is not within the tolerances,
and its end tangents are not parallel to those of the neighbours. -/
structure Updatable (ε : ℝ) (nb : Neighbors ℝ) (c : Curve ℝ) : Prop where
  exact : ExactCurve ε c
  half : c.der (1 / 2) ≠ 0
  start : P3.cross (nb.prev.der 1) (c.der 0) ≠ 0
  fin : P3.cross (c.der 1) (nb.next.der 0) ≠ 0

/-- The default handler is defined: the sum of the unit tangents of the neighbours is not parallel to the normal
vector at the middle. -/
def DefaultHandler (ε : ℝ) (nb : Neighbors ℝ) (r : Ribbon ℝ) : Prop :=
  ∀ q m, compatibleUpdate ε nb r = .ok q → normal ε q (1 / 2) = .ok m →
    ∀ t : ℝ, (nb.prev.der 1).norm⁻¹ • -nb.prev.der 1 + (nb.next.der 0).norm⁻¹ • nb.next.der 0 ≠ t • m

theorem norm_neg (a : P3 ℝ) : (-a).norm = a.norm := by
  unfold P3.norm P3.dot
  congr 1
  simp only [P3.neg_x, P3.neg_y, P3.neg_z]; ring

theorem vdiv_norm {a : P3 ℝ} (h : a ≠ 0) : vdiv a a.norm = .ok (a.norm⁻¹ • a) := by
  unfold vdiv
  rw [fdiv_of_ne (P3.norm_pos h).ne', M_bind_ok, one_div]

theorem handler_total (hε : 0 < ε) {nb : Neighbors ℝ} {r : Ribbon ℝ} (hk : r.kind = .handler) (hu : Updatable ε nb r.curve)
    (hh : r.handlerInit = true ∨ DefaultHandler ε nb r) : ∃ r', Ribbon.update ε nb r = .ok r' := by
  rcases hh with hh | hh
  · exact C23_defined hε (Or.inr ⟨hk, hh⟩) hu.exact hu.half hu.start hu.fin
  · by_cases hi : r.handlerInit = true
    · exact C23_defined hε (Or.inr ⟨hk, hi⟩) hu.exact hu.half hu.start hu.fin
    -- the same ribbon with a handler can be updated
    obtain ⟨r', e⟩ := C23_defined hε (r := { r with handlerInit := true, handlerV := ⟨1, 0, 0⟩ }) (Or.inr ⟨hk, rfl⟩) hu.exact hu.half hu.start hu.fin
    unfold Ribbon.update at e ⊢
    rw [hk]
    dsimp only at e ⊢
    rw [hk] at e
    dsimp only at e
    unfold handlerUpdate at e ⊢
    obtain ⟨q', e1, e⟩ := bind_ok e
    obtain ⟨m, e2, e⟩ := bind_ok e
    have hq : ∃ q, compatibleUpdate ε nb r = .ok q ∧ q.rmf = q'.rmf ∧ q.fence = q'.fence ∧ q.handlerInit = r.handlerInit ∧
        q.prevT = -nb.prev.der 1 ∧ q.nextT = nb.next.der 0 := by
      unfold compatibleUpdate baseUpdate at e1 ⊢
      dsimp only at e1 ⊢
      obtain ⟨a, k1, e1⟩ := bind_ok e1
      obtain ⟨b, k2, e1⟩ := bind_ok e1
      obtain ⟨f, k3, e1⟩ := bind_ok e1
      cases e1
      rw [k1, M_bind_ok, k2, M_bind_ok, k3, M_bind_ok]
      exact ⟨_, rfl, rfl, rfl, rfl, rfl, rfl⟩
    obtain ⟨q, k1, k2, k3, k4, k5, k6⟩ := hq
    have hm : normal ε q (1 / 2) = .ok m := by
      unfold normal at e2 ⊢
      rw [k3, k2]; exact e2
    have z1 : nb.prev.der 1 ≠ 0 := by
      intro h; apply hu.start; rw [h]; ext <;> simp [P3.cross]
    have z2 : nb.next.der 0 ≠ 0 := by
      intro h; apply hu.fin; rw [h]; ext <;> simp [P3.cross]
    have z1' : -nb.prev.der 1 ≠ 0 := neg_ne_zero.mpr z1
    rw [k1, M_bind_ok, hm, M_bind_ok]
    unfold effectiveHandler
    rw [k4, if_neg hi, k5, k6, vdiv_norm z1', M_bind_ok, vdiv_norm z2, M_bind_ok]
    have hne : project m ((-nb.prev.der 1).norm⁻¹ • -nb.prev.der 1 + (nb.next.der 0).norm⁻¹ • nb.next.der 0) ≠ 0 := by
      rw [norm_neg]
      intro h
      unfold project at h
      exact hh q m k1 hm _ (sub_eq_zero.mp h)
    rw [P3.normalize_ok hne, M_bind_ok]
    exact ⟨_, rfl⟩

theorem coons_total (hε : 0 < ε) {nb : Neighbors ℝ} {r : Ribbon ℝ} (hk : r.kind = .coons) (hu : Updatable ε nb r.curve) :
    ∃ r', Ribbon.update ε nb r = .ok r' := by
  obtain ⟨r', e⟩ := C23_defined hε (r := { r with kind := .compatible }) (Or.inl rfl) hu.exact hu.half hu.start hu.fin
  unfold Ribbon.update at e ⊢
  rw [hk]
  dsimp only at e ⊢
  unfold compatibleUpdate at e
  unfold coonsUpdate
  unfold baseUpdate at e ⊢
  dsimp only at e ⊢
  obtain ⟨a, k1, e1⟩ := bind_ok e
  obtain ⟨b, k2, e1⟩ := bind_ok e1
  obtain ⟨f, k3, e1⟩ := bind_ok e1
  rw [k1, M_bind_ok, k2, M_bind_ok, k3, M_bind_ok]
  exact ⟨_, rfl⟩

end Ribbon

namespace Surf

theorem updateAll_total (hε : 0 < ε) {k : RibbonKind} (hk : k = .handler ∨ k = .coons) {S : Surf ℝ} {r : ℕ → Ribbon ℝ}
    (hS : S.ribbons = tab n r) (hr : ∀ j < n, (r j).kind = k ∧ (r j).curve = c j) (hn : 3 ≤ n)
    (hu : ∀ j < n, Ribbon.Updatable ε (nbOf n c j) (c j)) (hd : ∀ j < n, ∀ s, 0 ≤ s → s ≤ 1 → (c j).der s ≠ 0)
    (hh : k = .handler → ∀ j < n, (r j).handlerInit = true ∨ Ribbon.DefaultHandler ε (nbOf n c j) (r j)) :
    ∃ S', S.updateAll ε = .ok S' := by
  have hnb : ∀ j < n, nbOf n (fun k => (r k).curve) j = nbOf n c j := fun j hj => nbOf_congr (fun k hk => (hr k hk).2) hj
  have h1 : ∀ j, ∃ r', j < n → Ribbon.update ε (nbOf n (fun k => (r k).curve) j) (r j) = .ok r' := by
    intro j
    by_cases hj : j < n
    · rw [hnb j hj]
      have hu' := hu j hj
      rw [← (hr j hj).2] at hu'
      rcases hk with hk | hk
      · obtain ⟨r', e⟩ := Ribbon.handler_total hε ((hr j hj).1.trans hk) hu' (hh hk j hj)
        exact ⟨r', fun _ => e⟩
      · obtain ⟨r', e⟩ := Ribbon.coons_total hε ((hr j hj).1.trans hk) hu'
        exact ⟨r', fun _ => e⟩
    · exact ⟨r j, fun q => absurd q hj⟩
  choose r' hr' using h1
  have hcross : ∀ j < n, ∀ s, 0 ≤ s → s ≤ 1 → ∃ x, Ribbon.crossDerivative ε (r' j) s = .ok x := by
    intro j hj s s0 s1
    rcases hk with hk | hk
    · exact C22_defined hε (Or.inr ((hr j hj).1.trans hk)) (hr' j hj) s0 (by rw [(hr j hj).2]; exact hd j hj s s0 s1)
    · refine ⟨0, ?_⟩
      unfold Ribbon.crossDerivative
      rw [(Ribbon.update_keeps (hr' j hj)).1, (hr j hj).1, hk]
  have h2 : ∀ j, ∃ q, j < n → cornerOf ε (tab n r') j = .ok q := by
    intro j
    by_cases hj : j < n
    · have hx : nextIx n j < n := nextIx_lt (by omega)
      obtain ⟨d1, e1⟩ := hcross j hj 1 (by norm_num) (by norm_num)
      obtain ⟨d2, e2⟩ := hcross j hj (1 - cornerStep) (by norm_num [cornerStep]) (by norm_num [cornerStep])
      obtain ⟨d3, e3⟩ := hcross _ hx 0 (by norm_num) (by norm_num)
      obtain ⟨d4, e4⟩ := hcross _ hx cornerStep (by norm_num [cornerStep]) (by norm_num [cornerStep])
      have hv : ∀ a : P3 ℝ, Ribbon.vdiv a cornerStep = .ok ((1 / cornerStep : ℝ) • a) := by
        intro a
        unfold Ribbon.vdiv
        rw [fdiv_of_ne (by norm_num [cornerStep]), M_bind_ok]
      have : ∃ q, cornerOf ε (tab n r') j = .ok q := by
        unfold cornerOf
        rw [length_tab, vget_tab _ hj, M_bind_ok, vget_tab _ hx, M_bind_ok, e1, M_bind_ok, e2, M_bind_ok, hv, M_bind_ok, e3, M_bind_ok, e4, M_bind_ok,
          hv, M_bind_ok]
        exact ⟨_, rfl⟩
      obtain ⟨q, hq⟩ := this
      exact ⟨q, fun _ => hq⟩
    · exact ⟨⟨0, 0, 0, 0, 0⟩, fun q => absurd q hj⟩
  choose q hq using h2
  exact ⟨_, (updateAll_iff hS).mpr ⟨r', q, hr', hq, rfl⟩⟩

end Surf

namespace Patch

theorem insideClosed_congr {v w : ℕ → P2 ℝ} (hn : 0 < n) (h : ∀ i < n, v i = w i) {uv : P2 ℝ} (hin : InsideClosed n v uv) : InsideClosed n w uv := by
  intro i hi
  have := hin i hi
  unfold leftOf at this ⊢
  rw [← h i hi, ← h _ (Nat.mod_lt _ hn)]
  exact this

/-- What the evaluation of a surface object uses of the update. -/
structure Sound (ε : ℝ) (P : Patch ℝ) (n : ℕ) (c : ℕ → Curve ℝ) : Prop where
  inv : Inv ε P
  length : P.surf.n = n
  dom : P.kind.regular = true → P.dom.dom.n = n
  compat : P.kind.ribbon = .handler → Surf.Compatible ε P.surf n c
  coons : P.kind = .c0Coons → ∀ j < n, ∃ r, vget P.surf.ribbons j = .ok r ∧ ∀ sd, ∃ q, r.eval ε sd = .ok q

theorem Sound.congr {P P' : Patch ℝ} (h : Sound ε P n c) (hi : Inv ε P') (h1 : P'.kind = P.kind)
    (h2 : P'.dom.dom = P.dom.dom) (h3 : P'.surf = P.surf) : Sound ε P' n c :=
  ⟨hi, by rw [h3]; exact h.length, by rw [h1, h2]; exact h.dom, by rw [h1, h3]; exact h.compat, by rw [h1, h3]; exact h.coons⟩

theorem Sound.regularDomain {P : Patch ℝ} (h : Sound ε P n c) (hr : P.kind.regular = true) (hn : 3 ≤ n) :
    ∃ r φ, 1 ≤ r ∧ ConvexDomain P.dom.dom n (regularVertex n r φ) := by
  obtain ⟨vs, e1, e2⟩ := (h.inv.regular hr).resolve_left (by rw [h.dom hr]; omega)
  rw [h.dom hr] at e1
  obtain ⟨r, φ, hr, hd, _⟩ := regular_convex hn e1 e2
  exact ⟨r, φ, hr, hd⟩

/-- The local parameters of a surface object at a point of its domain. -/
theorem Sound.params_total (hε : 0 < ε) (hε1 : ε ≤ 1) {P : Patch ℝ} (h : Sound ε P n c) (hn : 3 ≤ n) {v : ℕ → P2 ℝ}
    (hd : ConvexDomain P.dom.dom n v) {uv : P2 ℝ} (hin : InsideClosed n v uv) :
    ∃ (f : ℕ → P2 ℝ) (o : Param.Obj ℝ), Param.mapToRibbons ε P.kind.param uv P.param = .ok (tab n f, o) ∧ (∀ j < n, 0 ≤ (f j).y) ∧
      (P.kind ≠ .sideBased → ∀ j < n, 0 ≤ (f j).x ∧ (f j).x ≤ 1) ∧
      (P.kind ≠ .sideBased → P.kind ≠ .cornerBased → Surf.InSquare n f) := by
  have hpar : ParamOk ε P := h.inv.param.resolve_left (by rw [hd.n_eq]; have := hd.hn; omega)
  have reg : P.kind.regular = true → ∃ r φ, ConvexDomain P.dom.dom n (regularVertex n r φ) ∧ InsideClosed n (regularVertex n r φ) uv := by
    intro hr
    obtain ⟨r, φ, _, hd'⟩ := h.regularDomain hr hn
    refine ⟨r, φ, hd', insideClosed_congr (by omega) (fun i hi => ?_) hin⟩
    exact tab_inj (hd.vertices_eq.symm.trans hd'.vertices_eq) hi
  have main : ∃ f : ℕ → P2 ℝ, (∀ o : Param.Obj ℝ, Param.update P.kind.param P.dom.dom = .ok o → ∀ j < n,
      Param.mapRaw ε P.kind.param P.dom.dom o.mult j uv = .ok (f j)) ∧ (∀ j < n, 0 ≤ (f j).y) ∧
      (P.kind ≠ .sideBased → ∀ j < n, 0 ≤ (f j).x ∧ (f j).x ≤ 1) ∧
      (P.kind ≠ .sideBased → P.kind ≠ .cornerBased → Surf.InSquare n f) := by
    have bary : ∀ {f : ℕ → P2 ℝ}, Surf.InSquare n f → (∀ j < n, 0 ≤ (f j).y) ∧
      (P.kind ≠ .sideBased → ∀ j < n, 0 ≤ (f j).x ∧ (f j).x ≤ 1) ∧
      (P.kind ≠ .sideBased → P.kind ≠ .cornerBased → Surf.InSquare n f) := fun hs =>
      ⟨fun j hj => (hs j hj).2.2.1, fun _ j hj => ⟨(hs j hj).1, (hs j hj).2.1⟩, fun _ _ => hs⟩
    cases hk : P.kind with
    | sideBased =>
      obtain ⟨mult, far, e1, h1, h2, h3, h4⟩ := C15_parallel hd ε
      obtain ⟨f, hf⟩ := Param.choose_sides (n := n) (g := fun j => Param.parallelMap ε mult P.dom.dom j uv) (Q := fun _ p => 0 ≤ p.y) (by
        intro j hj
        obtain ⟨s, hs⟩ := h4 hε j hj uv
        exact ⟨_, h2 j hj uv s hs, div_nonneg (hin j hj) (h1 j hj).1.le⟩)
      refine ⟨f, fun o ho j hj => ?_, fun j hj => (hf j hj).2, fun h => absurd rfl h, fun h => absurd rfl h⟩
      unfold Param.update PatchKind.param at ho
      dsimp only at ho
      rw [e1, M_bind_ok] at ho
      cases ho
      exact (hf j hj).1
    | cornerBased =>
      obtain ⟨r, φ, hd', hin'⟩ := reg (by rw [hk]; rfl)
      obtain ⟨f, hf, hs⟩ := Param.bilinear_total hd' hε hin'
      exact ⟨f, fun o _ j hj => hf j hj, fun j hj => (hs j hj).2.2, fun _ j hj => ⟨(hs j hj).1, (hs j hj).2.1⟩, fun _ h => absurd rfl h⟩
    | generalizedCoons =>
      obtain ⟨r, φ, hd', hin'⟩ := reg (by rw [hk]; rfl)
      obtain ⟨f, hf, hs⟩ := Param.interconnected_total hd' hε hin'
      exact ⟨f, fun o _ j hj => hf j hj, by rw [← hk]; exact bary hs⟩
    | compositeRibbon =>
      obtain ⟨f, hf, hs⟩ := Param.bary_total hd hε hε1 hin
      exact ⟨f, fun o _ j hj => hf j hj, by rw [← hk]; exact bary hs⟩
    | midpoint =>
      obtain ⟨f, hf, hs⟩ := Param.bary_total hd hε hε1 hin
      exact ⟨f, fun o _ j hj => hf j hj, by rw [← hk]; exact bary hs⟩
    | midpointCoons =>
      obtain ⟨f, hf, hs⟩ := Param.constrained_total hd hε hε1 hin
      exact ⟨f, fun o _ j hj => hf j hj, by rw [← hk]; exact bary hs⟩
    | c0Coons =>
      obtain ⟨f, hf, hs⟩ := Param.bary_total hd hε hε1 hin
      exact ⟨f, fun o _ j hj => hf j hj, by rw [← hk]; exact bary hs⟩
  obtain ⟨f, hf, hs⟩ := main
  obtain ⟨o, e⟩ := maps_of_raw hpar hd.length_eq hf
  exact ⟨f, o, e, hs⟩

/-- What is assumed of the loop of curves. -/
structure GoodLoop (ε : ℝ) (n : ℕ) (c : ℕ → Curve ℝ) : Prop where
  sides : 3 ≤ n
  closed : ∀ j < n, (c j).pt 1 = (c ((j + 1) % n)).pt 0
  regular : ∀ j < n, ∀ s, 0 ≤ s → s ≤ 1 → (c j).der s ≠ 0
  exact : ∀ j < n, ExactCurve ε (c j)
  corner : ∀ j < n, P3.cross ((c j).der 1) ((c ((j + 1) % n)).der 0) ≠ 0

theorem GoodLoop.updatable (h : GoodLoop ε n c) {j : ℕ} (hj : j < n) : Ribbon.Updatable ε (Surf.nbOf n c j) (c j) := by
  have hn := h.sides
  refine ⟨h.exact j hj, h.regular j hj _ (by norm_num) (by norm_num), ?_, h.corner j hj⟩
  have := h.corner (prevIx n j) (prevIx_lt (by omega))
  change P3.cross _ ((c (nextIx n (prevIx n j))).der 0) ≠ 0 at this
  rwa [nextIx_prevIx hj] at this

theorem Sound.eval_total (hε : 0 < ε) (hε1 : ε ≤ 1) {P : Patch ℝ} (h : Sound ε P n c) (hl : 3 ≤ n) {v : ℕ → P2 ℝ}
    (hd : ConvexDomain P.dom.dom n v) {uv : P2 ℝ} (hin : InsideClosed n v uv) : ∃ p P', P.eval ε uv = .ok (p, P') := by
  obtain ⟨f, o, e, h1, h2, h3⟩ := h.params_total hε hε1 hl hd hin
  have hp : ∃ p, P.evalWith ε (tab n f) = .ok p := by
    unfold evalWith
    have comp := h.compat
    cases hk : P.kind with
    | sideBased => exact (comp (by rw [hk]; rfl)).sideBased_total hε h1
    | cornerBased => exact (comp (by rw [hk]; rfl)).cornerBased_total hε (h2 (by rw [hk]; simp))
    | generalizedCoons => exact (comp (by rw [hk]; rfl)).generalizedCoons_total hε (h3 (by rw [hk]; simp) (by rw [hk]; simp))
    | compositeRibbon => exact (comp (by rw [hk]; rfl)).composite_total hε (h3 (by rw [hk]; simp) (by rw [hk]; simp))
    | midpoint => exact (comp (by rw [hk]; rfl)).midpoint_total hε (h3 (by rw [hk]; simp) (by rw [hk]; simp)) _
    | midpointCoons => exact (comp (by rw [hk]; rfl)).midpointCoons_total hε (h3 (by rw [hk]; simp) (by rw [hk]; simp)) _
    | c0Coons =>
      exact Surf.c0Coons_total h.length (h.coons hk) f
  obtain ⟨p, hp⟩ := hp
  exact ⟨p, _, eval_of e hp⟩

theorem Sound.updateCentral_total (hε : 0 < ε) (hε1 : ε ≤ 1) {P : Patch ℝ} (h : Sound ε P n c) (hl : 3 ≤ n)
    (hk : P.kind = .midpoint ∨ P.kind = .midpointCoons) : ∃ P', P.updateCentral ε = .ok P' := by
  have hn := hl
  have hreg : P.kind.regular = true := by rcases hk with hk | hk <;> rw [hk] <;> rfl
  have hc := h.compat (by rcases hk with hk | hk <;> rw [hk] <;> rfl)
  obtain ⟨r, φ, _, hd⟩ := h.regularDomain hreg hn
  have hcen : InsideClosed n (regularVertex n r φ) P.dom.dom.center := fun i hi => (hd.inside i hi).le
  have h1 : ∃ m, P.currentMid ε = .ok m := by
    unfold currentMid
    split_ifs
    · exact ⟨_, rfl⟩
    · unfold defaultMidpoint
      obtain ⟨s, e⟩ := Surf.forLoop_add_total (n := n) (g := fun i p => do
        let q ← P.surf.sideInterpolant ε i (1 / 2) (1 / 2)
        .ok (p + q)) (fun i hi => by
          obtain ⟨q, hq⟩ := hc.side_ok hi (1 / 2) (d := 1 / 2) (by norm_num)
          exact ⟨q, fun p => by rw [hq, M_bind_ok]⟩) 0
      rw [h.length, e, M_bind_ok]
      unfold Ribbon.vdiv
      rw [fdiv_of_ne (by positivity), M_bind_ok]
      exact ⟨_, rfl⟩
  obtain ⟨m, h1⟩ := h1
  have hr : Sound ε { P with mid := m, central := 0 } n c := h.congr (h.inv.congr rfl rfl rfl h.inv.kinds) rfl rfl rfl
  obtain ⟨p, P2, h2⟩ := hr.eval_total hε hε1 hl hd hcen
  have hq := eval_queried h2
  have hr2 : Sound ε P2 n c := hr.congr (hq.inv hr.inv) hq.kind hq.dom hq.surf
  have hd2 : ConvexDomain P2.dom.dom n (regularVertex n r φ) := by rw [hq.dom]; exact hd
  have hdef : ∃ x, P2.deficiency ε P.dom.dom.center = .ok x := by
    obtain ⟨f, o, e, _, _, h3⟩ := hr2.params_total hε hε1 hn hd2 hcen
    have hk2 : P2.kind = P.kind := hq.kind
    obtain ⟨b, hb, _⟩ := C29_range hε (n := n) (by omega) (h3 (by rw [hk2]; rcases hk with hk | hk <;> rw [hk] <;> simp)
      (by rw [hk2]; rcases hk with hk | hk <;> rw [hk] <;> simp))
    unfold deficiency
    rw [e, M_bind_ok, hr2.length]
    dsimp only
    rw [hb, M_bind_ok]
    exact ⟨_, rfl⟩
  obtain ⟨x, hx⟩ := hdef
  unfold updateCentral
  rw [h1, M_bind_ok]
  dsimp only
  rw [h2, M_bind_ok]
  dsimp only
  rw [hx, M_bind_ok]
  split_ifs with ha
  · exact ⟨_, rfl⟩
  · unfold Ribbon.vdiv
    rw [fdiv_of_ne (by intro e; rw [e, abs_zero] at ha; exact ha hε), M_bind_ok, M_bind_ok]
    exact ⟨_, rfl⟩

theorem Sound.finish_total (hε : 0 < ε) (hε1 : ε ≤ 1) {P : Patch ℝ} (h : Sound ε P n c) (hl : 3 ≤ n) : ∃ P', P.finish ε = .ok P' := by
  unfold finish
  cases hk : P.kind with
  | midpoint => exact h.updateCentral_total hε hε1 hl (Or.inl hk)
  | midpointCoons => exact h.updateCentral_total hε hε1 hl (Or.inr hk)
  | _ => exact ⟨_, rfl⟩

theorem Ready.sound (hε : 0 < ε) {P : Patch ℝ} (h : Ready ε P n c) (hl : GoodLoop ε n c) : Sound ε P n c := by
  refine ⟨h.inv, h.length, h.dom, fun hk => ?_, fun hk j hj => ?_⟩
  · have hs := h.surf
    rw [hk] at hs
    exact hs.compatible hε hl.sides hl.closed hl.exact hl.regular
  · have hs := h.surf
    rw [hk] at hs
    obtain ⟨r, k1, _, _, _, k2⟩ := Surf.Ready.coons (show P.surf.Ready ε .coons n c from hs) hl.sides hl.closed j hj
    exact ⟨r, k1, k2⟩

theorem Ready.eval_total (hε : 0 < ε) (hε1 : ε ≤ 1) {P : Patch ℝ} (h : Ready ε P n c) (hl : GoodLoop ε n c) {v : ℕ → P2 ℝ}
    (hd : ConvexDomain P.dom.dom n v) {uv : P2 ℝ} (hin : InsideClosed n v uv) : ∃ p P', P.eval ε uv = .ok (p, P') :=
  (h.sound hε hl).eval_total hε hε1 hl.sides hd hin

theorem Ready.updateCentral_total (hε : 0 < ε) (hε1 : ε ≤ 1) {P : Patch ℝ} (h : Ready ε P n c) (hl : GoodLoop ε n c)
    (hk : P.kind = .midpoint ∨ P.kind = .midpointCoons) : ∃ P', P.updateCentral ε = .ok P' :=
  (h.sound hε hl).updateCentral_total hε hε1 hl.sides hk

theorem Ready.finish_total (hε : 0 < ε) (hε1 : ε ≤ 1) {P : Patch ℝ} (h : Ready ε P n c) (hl : GoodLoop ε n c) : ∃ P', P.finish ε = .ok P' :=
  (h.sound hε hl).finish_total hε hε1 hl.sides

theorem updateDomain_total {P : Patch ℝ} (hn : 3 ≤ n) (hlen : P.surf.n = n)
    (ha : P.kind = .sideBased → ∃ d v, Domain.angularUpdate P.curves = .ok d ∧ ConvexDomain d n v) : ∃ D, P.updateDomain = .ok D := by
  unfold updateDomain
  split_ifs with hr
  · by_cases h0 : P.dom.dom.n = n
    · unfold Domain.regularUpdate
      rw [hlen, if_pos h0, M_bind_ok, if_neg (by simp)]
      exact ⟨_, rfl⟩
    · obtain ⟨d, r, φ, _, e, hd, _⟩ := regular_normal hn P.dom.dom h0
      rw [hlen, e, M_bind_ok, if_pos rfl]
      have : ∃ o, Param.update (K := ℝ) P.kind.param d = .ok o := by
        unfold Param.update
        cases hk : P.kind with
        | sideBased => rw [hk] at hr; cases hr
        | _ => exact ⟨_, rfl⟩
      obtain ⟨o, ho⟩ := this
      rw [ho]
      exact ⟨_, rfl⟩
  · have hk : P.kind = .sideBased := by
      cases hk : P.kind with
      | sideBased => rfl
      | _ => rw [hk] at hr; exact absurd rfl hr
    obtain ⟨d, v, e, hd⟩ := ha hk
    obtain ⟨mult, _, e1, _⟩ := C15_parallel hd 1
    rw [e, M_bind_ok, hk]
    unfold Param.update PatchKind.param
    dsimp only
    rw [e1]
    exact ⟨_, rfl⟩

/-- The update works if the new ribbons fit together. -/
theorem update_total_of (hε : 0 < ε) (hε1 : ε ≤ 1) {P : Patch ℝ} (hi : Inv ε P) (hlink : P.linked = true) (hl : GoodLoop ε n c) {r : ℕ → Ribbon ℝ}
    (hS : P.surf.ribbons = tab n r) (hr : ∀ j < n, (r j).curve = c j)
    (ha : P.kind = .sideBased → ∃ d v, Domain.angularUpdate (tab n c) = .ok d ∧ ConvexDomain d n v)
    (hh : P.kind ≠ .c0Coons → ∀ j < n, (r j).handlerInit = true ∨ Ribbon.DefaultHandler ε (Surf.nbOf n c j) (r j))
    (hc : ∀ S, P.surf.updateAll ε = .ok S → (P.kind.ribbon = .handler → Surf.Compatible ε S n c) ∧
      (P.kind = .c0Coons → ∀ j < n, ∃ r, vget S.ribbons j = .ok r ∧ ∀ sd, ∃ q, r.eval ε sd = .ok q)) :
    ∃ P', P.update ε = .ok P' := by
  have hn := hl.sides
  have hlen : P.surf.n = n := by unfold Surf.n; rw [hS, length_tab]
  have hcur : P.curves = tab n c := by
    unfold curves
    rw [hS]
    unfold tab
    rw [List.map_map]
    exact List.map_congr_left fun j hj => hr j (List.mem_range.mp hj)
  obtain ⟨D, hD⟩ := updateDomain_total hn hlen (by rw [hcur]; exact ha)
  obtain ⟨hDi, k1, k2, k3, k4, k5, k6⟩ := updateDomain_inv hi hD
  have hmem : ∀ j < n, r j ∈ P.surf.ribbons := by
    intro j hj
    rw [hS]; unfold tab
    exact List.mem_map.mpr ⟨j, List.mem_range.mpr hj, rfl⟩
  obtain ⟨S, hSu⟩ := Surf.updateAll_total (c := c) hε (k := P.kind.ribbon) (by cases P.kind <;> simp [PatchKind.ribbon]) hS
    (fun j hj => ⟨hi.kinds _ (hmem j hj), hr j hj⟩) hn (fun j hj => hl.updatable hj) hl.regular (by
      intro hk
      apply hh
      intro h0
      rw [h0] at hk
      cases hk)
  obtain ⟨r', hr'⟩ := Surf.updateAll_agreed (F := fun j => (r j).fence) hS (fun j hj => ⟨hi.kinds _ (hmem j hj), hr j hj, rfl⟩) hSu
  unfold update
  rw [hD, M_bind_ok, if_pos (by rw [k3]; exact hlink), k2, hSu, M_bind_ok]
  have hsound : Sound ε { D with surf := S } n c := by
    refine ⟨hDi.congr rfl rfl rfl ?_, ?_, ?_, ?_, ?_⟩
    · intro q hq
      change q ∈ S.ribbons at hq
      rw [hr'.ribs] at hq
      unfold tab at hq
      obtain ⟨j, hj, rfl⟩ := List.mem_map.mp hq
      rw [(hr'.ready j (List.mem_range.mp hj)).basic.1]
      change _ = D.kind.ribbon
      rw [k1]
    · change S.n = n
      unfold Surf.n; rw [hr'.ribs, length_tab]
    · intro hk
      change D.dom.dom.n = n
      rw [updateDomain_regular hD (by change D.kind.regular = true at hk; rw [k1] at hk; exact hk), hlen]
    · intro hk
      change D.kind.ribbon = .handler at hk
      rw [k1] at hk
      exact (hc S hSu).1 hk
    · intro hk
      change D.kind = .c0Coons at hk
      rw [k1] at hk
      exact (hc S hSu).2 hk
  exact hsound.finish_total hε hε1 hn

theorem update_total (hε : 0 < ε) (hε1 : ε ≤ 1) {P : Patch ℝ} (hi : Inv ε P) (hlink : P.linked = true) (hl : GoodLoop ε n c) {r : ℕ → Ribbon ℝ}
    (hS : P.surf.ribbons = tab n r) (hr : ∀ j < n, (r j).curve = c j) (hf : ∀ j < n, (r j).fence = none)
    (ha : P.kind = .sideBased → ∃ d v, Domain.angularUpdate (tab n c) = .ok d ∧ ConvexDomain d n v)
    (hh : P.kind ≠ .c0Coons → ∀ j < n, (r j).handlerInit = true ∨ Ribbon.DefaultHandler ε (Surf.nbOf n c j) (r j)) :
    ∃ P', P.update ε = .ok P' := by
  refine update_total_of hε hε1 hi hlink hl hS hr ha hh fun S hSu => ?_
  have hSr : S.Ready ε P.kind.ribbon n c := Surf.updateAll_ready hS (fun j hj => ⟨hi.kinds _ (by
    rw [hS]; unfold tab
    exact List.mem_map.mpr ⟨j, List.mem_range.mpr hj, rfl⟩), hr j hj, hf j hj⟩) hSu
  refine ⟨fun hk => ?_, fun hk j hj => ?_⟩
  · rw [hk] at hSr
    exact hSr.compatible hε hl.sides hl.closed hl.exact hl.regular
  · rw [hk] at hSr
    obtain ⟨r, k1, _, _, _, k2⟩ := Surf.Ready.coons (show S.Ready ε .coons n c from hSr) hl.sides hl.closed j hj
    exact ⟨r, k1, k2⟩

/-- The default handler of side `j` of the loop is defined. -/
def HasDefault (ε : ℝ) (n : ℕ) (c : ℕ → Curve ℝ) (j : ℕ) : Prop :=
  Ribbon.DefaultHandler ε (Surf.nbOf n c j) (Ribbon.new .handler (c j))

theorem HasDefault.ribbon {j : ℕ} (h : HasDefault ε n c j) {r : Ribbon ℝ} (hc : r.curve = c j) (hf : r.fence = none) :
    Ribbon.DefaultHandler ε (Surf.nbOf n c j) r := by
  intro q m e1 e2
  unfold Ribbon.compatibleUpdate Ribbon.baseUpdate at e1
  dsimp only at e1
  rw [hc] at e1
  obtain ⟨a, k1, e1⟩ := bind_ok e1
  obtain ⟨b, k2, e1⟩ := bind_ok e1
  obtain ⟨f, k3, e1⟩ := bind_ok e1
  cases e1
  unfold Ribbon.normal at e2
  dsimp only at e2
  rw [hf] at e2
  dsimp only at e2
  refine h { Ribbon.new .handler (c j) with prevT := -(Surf.nbOf n c j).prev.der 1, nextT := (Surf.nbOf n c j).next.der 0, rmf := f } m ?_ e2
  unfold Ribbon.compatibleUpdate Ribbon.baseUpdate
  dsimp only [Ribbon.new]
  rw [k1, M_bind_ok, k2, M_bind_ok, k3, M_bind_ok]

/-- Every ribbon has a handler or a default handler (if the class uses them). -/
def Handlers (ε : ℝ) (n : ℕ) (c : ℕ → Curve ℝ) (P : Patch ℝ) : Prop :=
  P.kind = .c0Coons ∨ ∀ j r, vget P.surf.ribbons j = .ok r → r.handlerInit = true ∨ HasDefault ε n c j

end Patch

namespace Surf

theorem Ready.cross_total (hε : 0 < ε) {k : RibbonKind} (hk : k = .handler ∨ k = .coons) {S : Surf ℝ} (h : S.Ready ε k n c)
    (hd : ∀ j < n, ∀ s, 0 ≤ s → s ≤ 1 → (c j).der s ≠ 0) :
    ∃ r, S.ribbons = tab n r ∧ ∀ j < n, ∀ s, 0 ≤ s → s ≤ 1 → ∃ x, Ribbon.crossDerivative ε (r j) s = .ok x := by
  obtain ⟨r, h1, h2⟩ := h.ribs
  refine ⟨r, h1, ?_⟩
  intro j hj s s0 s1
  obtain ⟨r0, r1, k1, k2, k3, k4, k5⟩ := h2 j hj
  rw [k5, (Ribbon.controls_irrelevant ε r1 _ _ _).1]
  rcases hk with hk | hk
  · exact C22_defined hε (Or.inr (k1.trans hk)) k4 s0 (by rw [k2]; exact hd j hj s s0 s1)
  · refine ⟨0, ?_⟩
    unfold Ribbon.crossDerivative
    rw [(Ribbon.update_keeps k4).1, k1, hk]

theorem Ready.updateCorner_total (hε : 0 < ε) {k : RibbonKind} (hk : k = .handler ∨ k = .coons) {S : Surf ℝ} (h : S.Ready ε k n c)
    (hd : ∀ j < n, ∀ s, 0 ≤ s → s ≤ 1 → (c j).der s ≠ 0) {j : ℕ} (hj : j < n) : ∃ S', S.updateCorner ε j = .ok S' := by
  obtain ⟨r, h1, h2⟩ := h.cross_total hε hk hd
  obtain ⟨q, h3, h4⟩ := h.corners
  have hx : nextIx n j < n := nextIx_lt (by omega)
  obtain ⟨d1, e1⟩ := h2 j hj 1 (by norm_num) (by norm_num)
  obtain ⟨d2, e2⟩ := h2 j hj (1 - cornerStep) (by norm_num [cornerStep]) (by norm_num [cornerStep])
  obtain ⟨d3, e3⟩ := h2 _ hx 0 (by norm_num) (by norm_num)
  obtain ⟨d4, e4⟩ := h2 _ hx cornerStep (by norm_num [cornerStep]) (by norm_num [cornerStep])
  have hv : ∀ a : P3 ℝ, Ribbon.vdiv a cornerStep = .ok ((1 / cornerStep : ℝ) • a) := by
    intro a
    unfold Ribbon.vdiv
    rw [fdiv_of_ne (by norm_num [cornerStep]), M_bind_ok]
  unfold updateCorner cornerOf
  rw [h1, length_tab, vget_tab _ hj, M_bind_ok, vget_tab _ hx, M_bind_ok, e1, M_bind_ok, e2, M_bind_ok, hv, M_bind_ok, e3, M_bind_ok, e4, M_bind_ok,
    hv, M_bind_ok, M_bind_ok, h3, vset_tab _ _ hj, M_bind_ok]
  exact ⟨_, rfl⟩

theorem Ready.updateOne_total (hε : 0 < ε) {k : RibbonKind} (hk : k = .handler ∨ k = .coons) {S : Surf ℝ} (h : S.Ready ε k n c)
    (hl : Patch.GoodLoop ε n c) {j : ℕ} (hj : j < n)
    (hh : k = .handler → ∀ r, vget S.ribbons j = .ok r → r.handlerInit = true ∨ Patch.HasDefault ε n c j) : ∃ S', S.updateOne ε j = .ok S' := by
  have hn : S.n = n := by
    obtain ⟨r, h1, _⟩ := h.ribs
    unfold Surf.n; rw [h1, length_tab]
  have hu : ∃ rs, updateRibbon ε S.ribbons j = .ok rs := by
    obtain ⟨r, h1, h2⟩ := h.basic
    have hb := h2 j hj
    have : ∃ r', Ribbon.update ε (nbOf n c j) (r j) = .ok r' := by
      have hu := hl.updatable hj
      rw [← hb.2.1] at hu
      rcases hk with hk | hk
      · refine Ribbon.handler_total hε (hb.1.trans hk) hu ?_
        refine (hh hk (r j) (by rw [h1, vget_tab _ hj])).imp id fun q => ?_
        exact q.ribbon hb.2.1 hb.2.2
      · exact Ribbon.coons_total hε (hb.1.trans hk) hu
    obtain ⟨r', e⟩ := this
    rw [h1]
    exact ⟨_, (updateRibbon_iff hj).mpr ⟨r', by rw [nbOf_congr (fun k hk => (h2 k hk).2.1) hj]; exact e, rfl⟩⟩
  obtain ⟨rs, e⟩ := hu
  have h1 := updateRibbon_ready h hj e
  have hp : prevIx n j < n := prevIx_lt (by omega)
  obtain ⟨S1, e1⟩ := h1.updateCorner_total hε hk hl.regular hp
  obtain ⟨S2, e2⟩ := (updateCorner_ready h1 hp e1).updateCorner_total hε hk hl.regular hj
  unfold updateOne
  rw [e, M_bind_ok, hn, e1, M_bind_ok, e2]
  exact ⟨_, rfl⟩

end Surf

namespace Patch

theorem ribbon_cases (k : PatchKind) : k.ribbon = .handler ∨ k.ribbon = .coons := by cases k <;> simp [PatchKind.ribbon]

theorem Ready.update_total (hε : 0 < ε) (hε1 : ε ≤ 1) {P : Patch ℝ} (h : Ready ε P n c) (hl : GoodLoop ε n c) (hh : Handlers ε n c P)
    {v : ℕ → P2 ℝ} (hd : ConvexDomain P.dom.dom n v) : ∃ P', P.update ε = .ok P' := by
  obtain ⟨r, h1, h2⟩ := h.surf.basic
  refine Patch.update_total hε hε1 h.inv h.linked hl h1 (fun j hj => (h2 j hj).2.1) (fun j hj => (h2 j hj).2.2) ?_ ?_
  · intro hk
    exact ⟨_, v, h.angular (by rw [hk]; rfl), hd⟩
  · intro hk j hj
    refine (hh.resolve_left hk j (r j) (by rw [h1, vget_tab _ hj])).imp id fun q => ?_
    exact q.ribbon (h2 j hj).2.1 (h2 j hj).2.2

theorem Ready.updateDomain_same {P D : Patch ℝ} (h : Ready ε P n c) (hD : P.updateDomain = .ok D) : D.dom.dom = P.dom.dom := by
  cases hr : P.kind.regular with
  | true =>
    unfold updateDomain at hD
    rw [if_pos hr] at hD
    unfold Domain.regularUpdate at hD
    rw [if_pos (by rw [h.length]; exact h.dom hr), M_bind_ok, if_neg (by simp)] at hD
    cases hD
    rfl
  | false =>
    obtain ⟨r, h1, h2⟩ := h.surf.basic
    have e := updateDomain_angular hD hr
    rw [curves_tab h1 (fun j hj => (h2 j hj).2.1), h.angular hr] at e
    exact (Except.ok.inj e).symm

theorem Ready.updateSide_total (hε : 0 < ε) (hε1 : ε ≤ 1) {P : Patch ℝ} (h : Ready ε P n c) (hl : GoodLoop ε n c) (hh : Handlers ε n c P)
    {v : ℕ → P2 ℝ} (hd : ConvexDomain P.dom.dom n v) {i : ℕ} (hi : i < n) : ∃ P', P.updateSide ε i = .ok P' := by
  obtain ⟨r, h1, h2⟩ := h.surf.basic
  obtain ⟨D, hD⟩ := updateDomain_total hl.sides h.length (by
    intro hk
    refine ⟨_, v, ?_, hd⟩
    rw [curves_tab h1 (fun j hj => (h2 j hj).2.1)]
    exact h.angular (by rw [hk]; rfl))
  obtain ⟨hDi, k1, k2, k3, k4, k5, k6⟩ := updateDomain_inv h.inv hD
  obtain ⟨S, e⟩ := h.surf.updateOne_total hε (ribbon_cases _) hl hi (by
    intro hk r hr
    exact hh.resolve_left (by intro q; rw [q] at hk; cases hk) i r hr)
  have hS := Surf.updateOne_ready h.surf e
  have hs := h.updateDomain_same hD
  unfold updateSide
  rw [hD, M_bind_ok, if_pos (by rw [k3]; exact h.linked), k2, e, M_bind_ok]
  refine Ready.finish_total hε hε1 (n := n) (c := c) ⟨hDi.congr rfl rfl rfl ?_, ?_, ?_, ?_, ?_⟩ hl
  · obtain ⟨r', q1, q2⟩ := hS.basic
    intro q hq
    change q ∈ S.ribbons at hq
    rw [q1] at hq
    unfold tab at hq
    obtain ⟨j, hj, rfl⟩ := List.mem_map.mp hq
    rw [(q2 j (List.mem_range.mp hj)).1, k1]
  · change S.Ready ε D.kind.ribbon n c
    rw [k1]; exact hS
  · change D.kind.regular = true → D.dom.dom.n = n
    rw [k1, hs]; exact h.dom
  · exact k3.trans h.linked
  · change D.kind.regular = false → _ = Except.ok D.dom.dom
    rw [k1, hs]; exact h.angular

/-- The domain is kept by every call that keeps the loop. -/
theorem Ready.step_dom {P P' : Patch ℝ} (h : Ready ε P n c) {x : Call ℝ} (hx : x.keepsLoop = true) (e : P.step ε x = .ok P') :
    P'.dom.dom = P.dom.dom := by
  have form : ∀ {Q Q' : Patch ℝ}, (∃ R m x, Queried ε Q R ∧ Q' = { R with mid := m, central := x }) → Q'.dom.dom = Q.dom.dom := by
    rintro Q _ ⟨R, m, x, hq, rfl⟩
    exact hq.dom
  have onr : ∀ {i f}, P.onRibbon i f = .ok P' → P'.dom.dom = P.dom.dom := by
    intro i f h
    unfold onRibbon at h
    obtain ⟨r, e1, h⟩ := bind_ok h
    obtain ⟨r', e2, h⟩ := bind_ok h
    obtain ⟨rs, e3, h⟩ := bind_ok h
    cases h; rfl
  cases x with
  | gamma g => cases e; rfl
  | curve i c => cases hx
  | curves cs => cases hx
  | loop => cases hx
  | fence i f => cases hx
  | handler i v => exact onr e
  | mult i m => exact onr e
  | reset i => exact onr e
  | setMid p =>
    unfold step at e
    dsimp only at e
    split_ifs at e
    exact form (Q := { P with mid := p, midSet := true }) (updateCentral_form e)
  | unsetMid =>
    unfold step at e
    dsimp only at e
    split_ifs at e
    exact form (Q := { P with midSet := false }) (updateCentral_form e)
  | update =>
    unfold step update at e
    obtain ⟨D, e1, e⟩ := bind_ok e
    split_ifs at e
    obtain ⟨S, e2, e⟩ := bind_ok e
    have hs := h.updateDomain_same e1
    rw [form (Q := { D with surf := S }) (finish_form e)]
    exact hs
  | updateSide i =>
    unfold step updateSide at e
    obtain ⟨D, e1, e⟩ := bind_ok e
    split_ifs at e
    obtain ⟨S, e2, e⟩ := bind_ok e
    have hs := h.updateDomain_same e1
    rw [form (Q := { D with surf := S }) (finish_form e)]
    exact hs
  | eval uv => exact (query_queried rfl e).dom
  | mesh res => exact (query_queried rfl e).dom
  | domainParams res => exact (query_queried rfl e).dom
  | mapSide i uv => exact (query_queried rfl e).dom
  | mapSides uv => exact (query_queried rfl e).dom

/-- Which ribbons have a handler. -/
def inits (P : Patch ℝ) : List Bool := P.surf.ribbons.map (·.handlerInit)

theorem handlers_iff {P : Patch ℝ} : Handlers ε n c P ↔
    P.kind = .c0Coons ∨ ∀ j b, vget P.inits j = .ok b → b = true ∨ HasDefault ε n c j := by
  unfold Handlers inits
  refine or_congr Iff.rfl ⟨fun h j b e => ?_, fun h j r e => ?_⟩
  · rw [vget_eq_ok, List.getElem?_map, Option.map_eq_some_iff] at e
    obtain ⟨r, e, rfl⟩ := e
    exact h j r (vget_eq_ok.mpr e)
  · refine h j _ (vget_eq_ok.mpr ?_)
    rw [List.getElem?_map, vget_eq_ok.mp e]
    rfl

theorem map_vset {α β : Type} {f : α → β} {l l' : List α} {i : ℕ} {a b : α} (h1 : vget l i = .ok a) (h2 : vset l i b = .ok l') (h : f b = f a) :
    l'.map f = l.map f := by
  unfold vset at h2
  split_ifs at h2 with hi
  cases h2
  rw [vget_eq_ok] at h1
  rw [List.map_set]
  apply List.ext_getElem?
  intro k
  by_cases hk : i = k
  · subst hk
    rw [List.getElem?_set_self (by simpa using hi), List.getElem?_map, h1, h]
    rfl
  · rw [List.getElem?_set_ne hk]

theorem updateRibbon_inits {rs rs' : List (Ribbon ℝ)} {i : ℕ} (h : Surf.updateRibbon ε rs i = .ok rs') :
    rs'.map (·.handlerInit) = rs.map (·.handlerInit) := by
  unfold Surf.updateRibbon at h
  obtain ⟨nb, _, h⟩ := bind_ok h
  obtain ⟨r, e1, h⟩ := bind_ok h
  obtain ⟨r', e2, h⟩ := bind_ok h
  exact map_vset e1 h (Ribbon.update_keeps e2).2.2.2.2

theorem updateAll_inits {S S' : Surf ℝ} (h : S.updateAll ε = .ok S') :
    S'.ribbons.map (·.handlerInit) = S.ribbons.map (·.handlerInit) := by
  unfold Surf.updateAll at h
  obtain ⟨rs, e, h⟩ := bind_ok h
  have h1 := forLoop_inv' (fun rs : List (Ribbon ℝ) => rs.map (·.handlerInit) = S.ribbons.map (·.handlerInit)) rfl
    (fun _ _ _ a b => (updateRibbon_inits b).trans a) e
  unfold Surf.updateCorners at h
  exact forLoop_inv' (fun S' : Surf ℝ => S'.ribbons.map (·.handlerInit) = S.ribbons.map (·.handlerInit)) h1
    (fun _ _ _ a b => by rw [(updateCorner_ribbons b).1]; exact a) h

theorem updateOne_inits {S S' : Surf ℝ} {i : ℕ} (h : S.updateOne ε i = .ok S') :
    S'.ribbons.map (·.handlerInit) = S.ribbons.map (·.handlerInit) := by
  unfold Surf.updateOne at h
  obtain ⟨rs, e, h⟩ := bind_ok h
  obtain ⟨S1, e1, h⟩ := bind_ok h
  rw [(updateCorner_ribbons h).1, (updateCorner_ribbons e1).1]
  exact updateRibbon_inits e

theorem update_inits {P P' : Patch ℝ} (hi : Inv ε P) (h : P.update ε = .ok P') : P'.inits = P.inits ∧ P'.kind = P.kind := by
  have hu := updatedFrom hi h
  exact ⟨updateAll_inits hu.surf, hu.kind⟩

theorem handlers_set {P P' : Patch ℝ} (h : Handlers ε n c P) {i : ℕ} {f : Ribbon ℝ → M (Ribbon ℝ)}
    (hf : ∀ r r', f r = .ok r' → r'.handlerInit = true ∨ r'.handlerInit = r.handlerInit ∨ HasDefault ε n c i) (e : P.onRibbon i f = .ok P') :
    Handlers ε n c P' := by
  unfold onRibbon at e
  obtain ⟨r, e1, e⟩ := bind_ok e
  obtain ⟨r', e2, e⟩ := bind_ok e
  obtain ⟨rs, e3, e⟩ := bind_ok e
  cases e
  refine h.imp id fun h j q hq => ?_
  change vget rs j = .ok q at hq
  unfold vset at e3
  split_ifs at e3 with hi
  cases e3
  rw [vget_eq_ok] at hq
  by_cases hij : i = j
  · subst hij
    rw [List.getElem?_set_self hi] at hq
    cases hq
    rcases hf _ _ e2 with q | q | q
    · exact Or.inl q
    · rw [q]; exact h i r e1
    · exact Or.inr q
  · rw [List.getElem?_set_ne hij] at hq
    exact h j q (vget_eq_ok.mpr hq)

/-- The calls that are allowed on a surface object with `n` sides, the loop `c` and the domain polygon `v`: sides are
numbered from 0 to `n-1`, handlers are not zero, points are in the domain (the boundary included), resolutions are positive;
`reset` only on sides that have a default handler. -/
def Allowed (ε : ℝ) (kind : PatchKind) (n : ℕ) (c : ℕ → Curve ℝ) (v : ℕ → P2 ℝ) : Call ℝ → Prop
  | .gamma _ => True
  | .curve _ _ => False
  | .curves _ => False
  | .loop => False
  | .handler i h => i < n ∧ h ≠ 0
  | .mult i _ => i < n
  | .fence _ _ => False
  | .reset i => i < n ∧ (kind = .c0Coons ∨ HasDefault ε n c i)
  | .setMid _ => kind = .midpoint ∨ kind = .midpointCoons
  | .unsetMid => kind = .midpoint ∨ kind = .midpointCoons
  | .update => True
  | .updateSide i => i < n
  | .eval uv => InsideClosed n v uv
  | .mesh res => 1 ≤ res
  | .domainParams res => 1 ≤ res
  | .mapSide i uv => i < n ∧ InsideClosed n v uv
  | .mapSides uv => InsideClosed n v uv

theorem Allowed.keepsLoop {kind : PatchKind} {v : ℕ → P2 ℝ} {x : Call ℝ} (h : Allowed ε kind n c v x) : x.keepsLoop = true := by
  cases x <;> first | rfl | exact absurd h not_false

theorem step_handlers {P P' : Patch ℝ} (hi : Inv ε P) (h : Handlers ε n c P) {v : ℕ → P2 ℝ} {x : Call ℝ} (hx : Allowed ε P.kind n c v x)
    (e : P.step ε x = .ok P') : Handlers ε n c P' := by
  have same : ∀ {Q : Patch ℝ}, Q.kind = P.kind → Q.inits = P.inits → Handlers ε n c Q := by
    intro Q h1 h2
    rw [handlers_iff] at h ⊢
    rw [h1, h2]; exact h
  have form : ∀ {Q Q' : Patch ℝ}, (∃ R m x, Queried ε Q R ∧ Q' = { R with mid := m, central := x }) → Q'.kind = Q.kind ∧ Q'.inits = Q.inits := by
    rintro Q _ ⟨R, m, x, hq, rfl⟩
    exact ⟨hq.kind, by unfold inits; rw [← hq.surf]⟩
  have query : ∀ {y : Call ℝ}, y.isQuery = true → P.step ε y = .ok P' → Handlers ε n c P' := by
    intro y hy e
    have hq := query_queried hy e
    exact same hq.kind (by unfold inits; rw [hq.surf])
  cases x with
  | gamma g => cases e; exact same rfl rfl
  | curve i c => cases hx
  | curves cs => cases hx
  | loop => cases hx
  | fence i f => cases hx
  | handler i v =>
    refine handlers_set h ?_ e
    intro r r' e
    unfold Ribbon.setHandler at e
    obtain ⟨_, _, e⟩ := bind_ok e
    cases e; exact Or.inl rfl
  | mult i m => exact handlers_set h (fun r r' e => by cases e; exact Or.inr (Or.inl rfl)) e
  | reset i =>
    rcases hx.2 with q | q
    · exact Or.inl ((step_inv hi e).2.trans q)
    · exact handlers_set h (fun r r' e => Or.inr (Or.inr q)) e
  | setMid p =>
    unfold step at e
    dsimp only at e
    split_ifs at e
    obtain ⟨h1, h2⟩ := form (Q := { P with mid := p, midSet := true }) (updateCentral_form e)
    exact same h1 h2
  | unsetMid =>
    unfold step at e
    dsimp only at e
    split_ifs at e
    obtain ⟨h1, h2⟩ := form (Q := { P with midSet := false }) (updateCentral_form e)
    exact same h1 h2
  | update =>
    obtain ⟨h1, h2⟩ := update_inits hi e
    exact same h2 h1
  | updateSide i =>
    have hk := (step_inv hi e).2
    unfold step updateSide at e
    obtain ⟨D, e1, e⟩ := bind_ok e
    split_ifs at e
    obtain ⟨S, e2, e⟩ := bind_ok e
    obtain ⟨h1, h2⟩ := form (Q := { D with surf := S }) (finish_form e)
    obtain ⟨_, _, k2, _⟩ := updateDomain_inv hi e1
    refine same hk (h2.trans ?_)
    unfold inits
    dsimp only
    rw [updateOne_inits e2, k2]
  | eval uv => exact query rfl e
  | mesh res => exact query rfl e
  | domainParams res => exact query rfl e
  | mapSide i uv => exact query rfl e
  | mapSides uv => exact query rfl e

end Patch

end Transfinite
