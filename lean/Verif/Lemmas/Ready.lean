import Verif.Lemmas.PatchUpdate

/-! Surfaces whose ribbons and corners are up to date, and the calls that keep them so. -/

namespace Transfinite

variable {K : Type} [Field K] [LinearOrder K] [Libm K]

/-- The ribbon `r` is the result of an update, except for the values of the controls. -/
def RibbonReady (ε : K) (nb : Neighbors K) (k : RibbonKind) (c : Curve K) (r : Ribbon K) : Prop :=
  ∃ r0 r1, r0.kind = k ∧ r0.curve = c ∧ r0.fence = none ∧ Ribbon.update ε nb r0 = .ok r1 ∧
    r = { r1 with mult := r.mult, handlerV := r.handlerV, handlerInit := r.handlerInit }

theorem RibbonReady.basic {ε : K} {nb : Neighbors K} {k : RibbonKind} {c : Curve K} {r : Ribbon K} (h : RibbonReady ε nb k c r) :
    r.kind = k ∧ r.curve = c ∧ r.fence = none := by
  obtain ⟨r0, r1, h1, h2, h3, h4, h5⟩ := h
  have := Ribbon.update_keeps h4
  rw [h5]
  exact ⟨this.1.trans h1, this.2.1.trans h2, this.2.2.1.trans h3⟩

/-- Cross derivatives and points of ribbons do not depend on the controls (before the next update). -/
theorem Ribbon.controls_irrelevant (ε : K) (r : Ribbon K) (m : K) (v : P3 K) (b : Bool) :
    (∀ s, Ribbon.crossDerivative ε { r with mult := m, handlerV := v, handlerInit := b } s = Ribbon.crossDerivative ε r s) ∧
    (∀ sd, Ribbon.eval ε { r with mult := m, handlerV := v, handlerInit := b } sd = Ribbon.eval ε r sd) := by
  have h : ∀ s, Ribbon.crossDerivative ε { r with mult := m, handlerV := v, handlerInit := b } s = Ribbon.crossDerivative ε r s := by
    intro s
    cases r with
    | mk kind => cases kind <;> rfl
  refine ⟨h, ?_⟩
  intro sd
  cases r with
  | mk kind => cases kind <;> rfl

/-- All ribbons and corners are up to date. -/
structure Surf.Ready (ε : K) (k : RibbonKind) (n : ℕ) (c : ℕ → Curve K) (S : Surf K) : Prop where
  ribs : ∃ r, S.ribbons = tab n r ∧ ∀ j < n, RibbonReady ε (Surf.nbOf n c j) k (c j) (r j)
  corners : ∃ q : ℕ → Corner K, S.corners = tab n q ∧
    ∀ j < n, ∃ t1 t2, q j = ⟨(c j).pt 1, -(c j).der 1, (c (nextIx n j)).der 0, t1, t2⟩

namespace Surf

theorem updateAll_ready {ε : K} {k : RibbonKind} {n : ℕ} {c : ℕ → Curve K} {S S' : Surf K} {r : ℕ → Ribbon K}
    (hS : S.ribbons = tab n r) (hr : ∀ j < n, (r j).kind = k ∧ (r j).curve = c j ∧ (r j).fence = none)
    (h : S.updateAll ε = .ok S') : S'.Ready ε k n c := by
  obtain ⟨r', q, h1, h2, rfl⟩ := (updateAll_iff hS).mp h
  have hnb : ∀ j < n, nbOf n (fun k => (r k).curve) j = nbOf n c j := fun j hj => nbOf_congr (fun k hk => (hr k hk).2.1) hj
  refine ⟨⟨r', rfl, fun j hj => ⟨r j, r' j, (hr j hj).1, (hr j hj).2.1, (hr j hj).2.2, ?_, rfl⟩⟩, ⟨q, rfl, fun j hj => ?_⟩⟩
  · rw [← hnb j hj]; exact h1 j hj
  · obtain ⟨t1, t2, e⟩ := cornerOf_tab hj (h2 j hj)
    have hx : nextIx n j < n := nextIx_lt (by omega)
    rw [(Ribbon.update_keeps (h1 j hj)).2.1, (hr j hj).2.1, (Ribbon.update_keeps (h1 _ hx)).2.1, (hr _ hx).2.1] at e
    exact ⟨t1, t2, e⟩

theorem Ready.basic {ε : K} {k : RibbonKind} {n : ℕ} {c : ℕ → Curve K} {S : Surf K} (h : S.Ready ε k n c) :
    ∃ r, S.ribbons = tab n r ∧ ∀ j < n, (r j).kind = k ∧ (r j).curve = c j ∧ (r j).fence = none := by
  obtain ⟨r, h1, h2⟩ := h.ribs
  exact ⟨r, h1, fun j hj => (h2 j hj).basic⟩

theorem vget_lt {α : Type} {l : List α} {i : ℕ} {a : α} (h : vget l i = .ok a) : i < l.length := by
  rw [vget_eq_ok] at h
  exact (List.getElem?_eq_some_iff.mp h).1

theorem updateCorner_ready {ε : K} {k : RibbonKind} {n : ℕ} {c : ℕ → Curve K} {S S' : Surf K} (h : S.Ready ε k n c) {i : ℕ}
    (hi : i < n) (e : S.updateCorner ε i = .ok S') : S'.Ready ε k n c := by
  obtain ⟨r, h1, h2⟩ := h.ribs
  obtain ⟨q, h3, h4⟩ := h.corners
  unfold updateCorner at e
  obtain ⟨x, e1, e⟩ := bind_ok e
  obtain ⟨cs, e2, e⟩ := bind_ok e
  cases e
  refine ⟨⟨r, h1, h2⟩, ?_⟩
  rw [h1] at e1
  obtain ⟨t1, t2, e3⟩ := cornerOf_tab hi e1
  rw [h3, vset_tab _ _ hi] at e2
  have hx : nextIx n i < n := nextIx_lt (by omega)
  rw [(h2 i hi).basic.2.1, (h2 _ hx).basic.2.1] at e3
  refine ⟨_, (Except.ok.inj e2).symm, fun j hj => ?_⟩
  by_cases hji : j = i
  · rw [hji, Function.update_self]; exact ⟨t1, t2, e3⟩
  · rw [Function.update_of_ne hji]; exact h4 j hj

theorem updateRibbon_ready {ε : K} {k : RibbonKind} {n : ℕ} {c : ℕ → Curve K} {S : Surf K} (h : S.Ready ε k n c) {i : ℕ} (hi : i < n)
    {rs : List (Ribbon K)} (e : updateRibbon ε S.ribbons i = .ok rs) : ({ S with ribbons := rs } : Surf K).Ready ε k n c := by
  obtain ⟨r, h1, h2⟩ := h.ribs
  rw [h1] at e
  obtain ⟨r', e3, rfl⟩ := (updateRibbon_iff hi).mp e
  refine ⟨⟨_, rfl, fun j hj => ?_⟩, h.corners⟩
  by_cases hji : j = i
  · rw [hji, Function.update_self]
    have hb := (h2 i hi).basic
    refine ⟨r i, r', hb.1, hb.2.1, hb.2.2, ?_, rfl⟩
    rw [← nbOf_congr (fun k hk => (h2 k hk).basic.2.1) hi]; exact e3
  · rw [Function.update_of_ne hji]; exact h2 j hj

theorem updateOne_ready {ε : K} {k : RibbonKind} {n : ℕ} {c : ℕ → Curve K} {S S' : Surf K} (h : S.Ready ε k n c) {i : ℕ}
    (e : S.updateOne ε i = .ok S') : S'.Ready ε k n c := by
  obtain ⟨r, h1, h2⟩ := h.ribs
  have hn : S.n = n := by unfold Surf.n; rw [h1, length_tab]
  unfold updateOne at e
  obtain ⟨rs, e1, e⟩ := bind_ok e
  obtain ⟨S1, e2, e4⟩ := bind_ok e
  have hi : i < n := by
    unfold updateRibbon at e1
    obtain ⟨_, _, e1⟩ := bind_ok e1
    obtain ⟨_, e3, _⟩ := bind_ok e1
    rw [h1] at e3
    simpa using vget_lt e3
  have hready := updateRibbon_ready h hi e1
  rw [hn] at e2
  exact updateCorner_ready (updateCorner_ready hready (prevIx_lt (by omega)) e2) hi e4

end Surf

namespace Patch

/-- The calls that change neither the boundary nor the normal fences. -/
def Call.keepsLoop : Call K → Bool
  | .curve _ _ => false
  | .curves _ => false
  | .loop => false
  | .fence _ _ => false
  | _ => true

/-- A surface object that has been updated, for the curves `c`. -/
structure Ready (ε : K) (P : Patch K) (n : ℕ) (c : ℕ → Curve K) : Prop where
  inv : Inv ε P
  surf : P.surf.Ready ε P.kind.ribbon n c
  dom : P.kind.regular = true → P.dom.dom.n = n
  linked : P.linked = true
  angular : P.kind.regular = false → Domain.angularUpdate (tab n c) = .ok P.dom.dom

theorem Ready.length {ε : K} {P : Patch K} {n : ℕ} {c : ℕ → Curve K} (h : Ready ε P n c) : P.surf.n = n := by
  obtain ⟨r, h1, _⟩ := h.surf.ribs
  unfold Surf.n
  rw [h1, length_tab]

theorem Ready.congr {ε : K} {P P' : Patch K} {n : ℕ} {c : ℕ → Curve K} (h : Ready ε P n c) (hi : Inv ε P') (h1 : P'.kind = P.kind)
    (h2 : P'.dom.dom = P.dom.dom) (h3 : P'.surf = P.surf) (h4 : P'.linked = P.linked) : Ready ε P' n c :=
  ⟨hi, by rw [h1, h3]; exact h.surf, by rw [h1, h2]; exact h.dom, by rw [h4]; exact h.linked, by rw [h1, h2]; exact h.angular⟩

theorem form_ready {ε : K} {P P' : Patch K} {n : ℕ} {c : ℕ → Curve K} (hp : Ready ε P n c)
    (h : ∃ Q m x, Queried ε P Q ∧ P' = { Q with mid := m, central := x }) : Ready ε P' n c := by
  have hi := form_inv hp.inv h
  obtain ⟨Q, m, x, hq, rfl⟩ := h
  exact hp.congr hi hq.kind hq.dom hq.surf hq.linked

theorem onRibbon_ready {ε : K} {P P' : Patch K} {n : ℕ} {c : ℕ → Curve K} (hp : Ready ε P n c) {i : ℕ} {f : Ribbon K → M (Ribbon K)}
    (hf : ∀ r r', f r = .ok r' → r' = { r with mult := r'.mult, handlerV := r'.handlerV, handlerInit := r'.handlerInit })
    (h : P.onRibbon i f = .ok P') : Ready ε P' n c := by
  have hi := onRibbon_inv hp.inv (fun r r' e => by rw [hf r r' e]) h
  obtain ⟨r, h1, h2⟩ := hp.surf.ribs
  unfold onRibbon at h
  obtain ⟨a, e1, h⟩ := bind_ok h
  obtain ⟨a', e2, h⟩ := bind_ok h
  obtain ⟨rs, e3, h⟩ := bind_ok h
  cases h
  refine ⟨hi, ⟨?_, hp.surf.corners⟩, hp.dom, hp.linked, hp.angular⟩
  rw [h1] at e1 e3
  have hin : i < n := by simpa using Surf.vget_lt e1
  rw [vget_tab _ hin] at e1
  cases e1
  rw [vset_tab _ _ hin] at e3
  refine ⟨_, (Except.ok.inj e3).symm, fun j hj => ?_⟩
  by_cases hji : j = i
  · rw [hji, Function.update_self]
    obtain ⟨r0, r1, k1, k2, k3, k4, k5⟩ := h2 i hin
    refine ⟨r0, r1, k1, k2, k3, k4, ?_⟩
    have e := hf _ _ e2
    rw [k5] at e
    exact e
  · rw [Function.update_of_ne hji]; exact h2 j hj

theorem curves_tab {P : Patch K} {n : ℕ} {c : ℕ → Curve K} {r : ℕ → Ribbon K} (hS : P.surf.ribbons = tab n r)
    (hr : ∀ j < n, (r j).curve = c j) : P.curves = tab n c := by
  unfold curves
  rw [hS]
  unfold tab
  rw [List.map_map]
  exact List.map_congr_left fun j hj => hr j (List.mem_range.mp hj)

theorem update_linked {ε : K} {P P' : Patch K} (h : P.update ε = .ok P') : P'.linked = true := by
  obtain ⟨D, S, e1, hl, e2, e3⟩ := update_parts h
  obtain ⟨Q, m, c, hq, rfl⟩ := finish_form e3
  exact hq.linked.trans hl

theorem update_ready {ε : K} {P P' : Patch K} {n : ℕ} {c : ℕ → Curve K} {r : ℕ → Ribbon K} (hp : Inv ε P)
    (hS : P.surf.ribbons = tab n r) (hr : ∀ j < n, (r j).kind = P.kind.ribbon ∧ (r j).curve = c j ∧ (r j).fence = none)
    (hn : n ≠ 0) (h : P.update ε = .ok P') : Ready ε P' n c := by
  have hu := updatedFrom hp h
  have hlen : P.surf.n = n := by unfold Surf.n; rw [hS, length_tab]
  refine ⟨hu.inv, by rw [hu.kind]; exact Surf.updateAll_ready hS hr hu.surf, ?_, update_linked h, ?_⟩
  swap
  · intro hk
    rw [hu.kind] at hk
    rw [← hu.angular hk, curves_tab hS (fun j hj => (hr j hj).2.1)]
  intro hk
  rw [hu.kind] at hk
  obtain ⟨vs, e1, e2⟩ := hu.regular hk (by rw [hlen]; exact hn)
  rw [updateFrom_n e2, regularVertices_length e1, hlen]

theorem step_ready {ε : K} {P P' : Patch K} {n : ℕ} {c : ℕ → Curve K} (hn : n ≠ 0) (hp : Ready ε P n c) {x : Call K} (hx : x.keepsLoop = true)
    (h : P.step ε x = .ok P') : Ready ε P' n c := by
  have hi := (step_inv hp.inv h).1
  have query : ∀ {c' : Call K}, c'.isQuery = true → P.step ε c' = .ok P' → Ready ε P' n c := by
    intro c' hc h
    have hq := query_queried hc h
    exact hp.congr hi hq.kind hq.dom hq.surf hq.linked
  cases x with
  | gamma g => cases h; exact ⟨hi, ⟨hp.surf.ribs, hp.surf.corners⟩, hp.dom, hp.linked, hp.angular⟩
  | curve i c => cases hx
  | curves cs => cases hx
  | loop => cases hx
  | handler i v =>
    refine onRibbon_ready hp ?_ h
    intro r r' e
    unfold Ribbon.setHandler at e
    obtain ⟨_, _, e⟩ := bind_ok e
    cases e; rfl
  | mult i m => exact onRibbon_ready hp (fun r r' e => by cases e; rfl) h
  | fence i f => cases hx
  | reset i => exact onRibbon_ready hp (fun r r' e => by cases e; rfl) h
  | setMid p =>
    unfold step at h
    dsimp only at h
    split_ifs at h
    exact form_ready (P := { P with mid := p, midSet := true })
      (hp.congr (hp.inv.congr rfl rfl rfl hp.inv.kinds) rfl rfl rfl rfl) (updateCentral_form h)
  | unsetMid =>
    unfold step at h
    dsimp only at h
    split_ifs at h
    exact form_ready (P := { P with midSet := false })
      (hp.congr (hp.inv.congr rfl rfl rfl hp.inv.kinds) rfl rfl rfl rfl) (updateCentral_form h)
  | update =>
    obtain ⟨r, h1, h2⟩ := hp.surf.basic
    exact update_ready hp.inv h1 h2 hn h
  | updateSide i =>
    unfold step updateSide at h
    obtain ⟨P1, e1, h⟩ := bind_ok h
    obtain ⟨k1, k2, k3, k4, _⟩ := updateDomain_inv hp.inv e1
    split_ifs at h
    obtain ⟨S, e2, h⟩ := bind_ok h
    refine form_ready (P := { P1 with surf := S }) ⟨k1.congr rfl rfl rfl (updateOne_kinds k1.kinds e2), ?_, ?_, ?_, ?_⟩ (finish_form h)
    · change S.Ready ε P1.kind.ribbon n c
      rw [k3] at e2
      rw [k2]
      exact Surf.updateOne_ready hp.surf e2
    · intro hr
      change P1.dom.dom.n = n
      rw [updateDomain_regular e1 (by rw [← k2]; exact hr), hp.length]
    · change P1.linked = true
      rw [k4]; exact hp.linked
    · intro hr
      obtain ⟨r, h1, h2⟩ := hp.surf.basic
      rw [← curves_tab h1 (fun j hj => (h2 j hj).2.1)]
      change _ = Except.ok P1.dom.dom
      exact updateDomain_angular e1 (by rw [← k2]; exact hr)
  | eval uv => exact query rfl h
  | mesh res => exact query rfl h
  | domainParams res => exact query rfl h
  | mapSide i uv => exact query rfl h
  | mapSides uv => exact query rfl h

theorem run_ready {ε : K} {P P' : Patch K} {n : ℕ} {c : ℕ → Curve K} (hn : n ≠ 0) (hp : Ready ε P n c) {xs : List (Call K)}
    (hx : ∀ x ∈ xs, x.keepsLoop = true) (h : P.run ε xs = .ok P') : Ready ε P' n c := by
  induction xs generalizing P with
  | nil => cases h; exact hp
  | cons x xs ih =>
    unfold run at h
    obtain ⟨P1, e, h⟩ := bind_ok h
    exact ih (step_ready hn hp (hx x (by simp)) e) (fun y hy => hx y (List.mem_cons_of_mem _ hy)) h

end Patch

end Transfinite
