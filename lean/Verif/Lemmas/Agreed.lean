import Verif.Lemmas.Ready

/-! Surfaces with overridden normal fences, whose ribbons and corners are up to date. -/

namespace Transfinite

variable {K : Type} [Field K] [LinearOrder K] [Libm K]

/-- The ribbon `r` with the normal fence `F` is the result of an update, except for the values of the controls. -/
def RibbonFenced (ε : K) (nb : Neighbors K) (k : RibbonKind) (c : Curve K) (F : Option (K → P3 K)) (r : Ribbon K) : Prop :=
  ∃ r0 r1, r0.kind = k ∧ r0.curve = c ∧ r0.fence = F ∧ Ribbon.update ε nb r0 = .ok r1 ∧
    r = { r1 with mult := r.mult, handlerV := r.handlerV, handlerInit := r.handlerInit }

theorem RibbonFenced.basic {ε : K} {nb : Neighbors K} {k : RibbonKind} {c : Curve K} {F : Option (K → P3 K)} {r : Ribbon K}
    (h : RibbonFenced ε nb k c F r) : r.kind = k ∧ r.curve = c ∧ r.fence = F := by
  obtain ⟨r0, r1, h1, h2, h3, h4, h5⟩ := h
  have := Ribbon.update_keeps h4
  rw [h5]
  exact ⟨this.1.trans h1, this.2.1.trans h2, this.2.2.1.trans h3⟩

namespace Surf

/-- The data of a corner depend on the cross derivatives and the curves of two ribbons. -/
theorem cornerOf_crosses {ε : K} {n : ℕ} {r r' : ℕ → Ribbon K} {j : ℕ} (hj : j < n)
    (h : ∀ i, i = j ∨ i = nextIx n j → (r i).curve = (r' i).curve ∧ ∀ s, (r i).crossDerivative ε s = (r' i).crossDerivative ε s) :
    cornerOf ε (tab n r) j = cornerOf ε (tab n r') j := by
  unfold cornerOf
  have hx : nextIx n j < n := nextIx_lt (by omega)
  rw [length_tab, length_tab, vget_tab _ hj, vget_tab _ hj, vget_tab _ hx, vget_tab _ hx]
  simp only [M_bind_ok]
  rw [(h j (Or.inl rfl)).1, (h _ (Or.inr rfl)).1]
  simp only [(h j (Or.inl rfl)).2, (h _ (Or.inr rfl)).2]

/-- All ribbons and corners are up to date. -/
structure Agreed (ε : K) (k : RibbonKind) (n : ℕ) (c : ℕ → Curve K) (F : ℕ → Option (K → P3 K)) (S : Surf K) (r : ℕ → Ribbon K) : Prop where
  ribs : S.ribbons = tab n r
  ready : ∀ j < n, RibbonFenced ε (nbOf n c j) k (c j) (F j) (r j)
  corners : ∃ q : ℕ → Corner K, S.corners = tab n q ∧ ∀ j < n, cornerOf ε (tab n r) j = .ok (q j)

variable {ε : K} {k : RibbonKind} {n : ℕ} {c : ℕ → Curve K} {F : ℕ → Option (K → P3 K)} {S S' : Surf K} {r : ℕ → Ribbon K}

theorem updateAll_agreed (hS : S.ribbons = tab n r) (hr : ∀ j < n, (r j).kind = k ∧ (r j).curve = c j ∧ (r j).fence = F j)
    (h : S.updateAll ε = .ok S') : ∃ r', S'.Agreed ε k n c F r' := by
  obtain ⟨r', q, h1, h2, rfl⟩ := (updateAll_iff hS).mp h
  have hnb : ∀ j < n, nbOf n (fun k => (r k).curve) j = nbOf n c j := fun j hj => nbOf_congr (fun k hk => (hr k hk).2.1) hj
  refine ⟨r', rfl, fun j hj => ⟨r j, r' j, (hr j hj).1, (hr j hj).2.1, (hr j hj).2.2, ?_, rfl⟩, q, rfl, h2⟩
  rw [← hnb j hj]; exact h1 j hj

/-- Changes of the controls. -/
theorem Agreed.controls (h : S.Agreed ε k n c F r) {i : ℕ} (hi : i < n) {a : Ribbon K}
    (ha : a = { r i with mult := a.mult, handlerV := a.handlerV, handlerInit := a.handlerInit }) {S' : Surf K}
    (h1 : S'.ribbons = tab n (Function.update r i a)) (h2 : S'.corners = S.corners) : S'.Agreed ε k n c F (Function.update r i a) := by
  obtain ⟨q, k1, k2⟩ := h.corners
  refine ⟨h1, fun j hj => ?_, q, by rw [h2, k1], fun j hj => ?_⟩
  · by_cases hji : j = i
    · rw [hji, Function.update_self]
      obtain ⟨r0, r1, k1, k2, k3, k4, k5⟩ := h.ready i hi
      refine ⟨r0, r1, k1, k2, k3, k4, ?_⟩
      rw [k5] at ha
      exact ha
    · rw [Function.update_of_ne hji]; exact h.ready j hj
  · rw [← k2 j hj]
    refine cornerOf_crosses hj fun l _ => ?_
    by_cases hli : l = i
    · rw [hli, Function.update_self, ha]
      exact ⟨rfl, (Ribbon.controls_irrelevant ε (r i) _ _ _).1⟩
    · rw [Function.update_of_ne hli]
      exact ⟨rfl, fun _ => rfl⟩

theorem updateOne_agreed (h : S.Agreed ε k n c F r) {i : ℕ} (e : S.updateOne ε i = .ok S') : ∃ r', S'.Agreed ε k n c F r' := by
  have h1 := h.ribs
  have hn : S.n = n := by unfold Surf.n; rw [h1, length_tab]
  unfold updateOne at e
  obtain ⟨rs, e1, e⟩ := bind_ok e
  obtain ⟨S1, e2, e4⟩ := bind_ok e
  have hi : i < n := by
    unfold updateRibbon at e1
    obtain ⟨_, _, e1⟩ := bind_ok e1
    obtain ⟨_, e3, _⟩ := bind_ok e1
    rw [h1] at e3
    simpa using vget_lt e3
  have hp : prevIx n i < n := prevIx_lt (by omega)
  rw [h1] at e1
  obtain ⟨a, e5, rfl⟩ := (updateRibbon_iff hi).mp e1
  rw [hn] at e2
  obtain ⟨q, k1, k2⟩ := h.corners
  unfold updateCorner at e2 e4
  obtain ⟨x, g1, e2⟩ := bind_ok e2
  obtain ⟨cs, g2, e2⟩ := bind_ok e2
  cases e2
  obtain ⟨y, g3, e4⟩ := bind_ok e4
  obtain ⟨cs', g4, e4⟩ := bind_ok e4
  cases e4
  dsimp only at g1 g2 g3 g4
  rw [k1, vset_tab _ _ hp] at g2
  cases g2
  rw [vset_tab _ _ hi] at g4
  cases g4
  refine ⟨Function.update r i a, rfl, fun j hj => ?_, _, rfl, fun j hj => ?_⟩
  · by_cases hji : j = i
    · rw [hji, Function.update_self]
      have hb := (h.ready i hi).basic
      refine ⟨r i, a, hb.1, hb.2.1, hb.2.2, ?_, rfl⟩
      rw [← nbOf_congr (fun k hk => (h.ready k hk).basic.2.1) hi]; exact e5
    · rw [Function.update_of_ne hji]; exact h.ready j hj
  · by_cases hji : j = i
    · rw [hji, Function.update_self]
      exact g3
    · rw [Function.update_of_ne hji]
      by_cases hjp : j = prevIx n i
      · rw [hjp, Function.update_self]
        exact g1
      · rw [Function.update_of_ne hjp, ← k2 j hj]
        refine cornerOf_crosses hj fun l hl => ?_
        have hli : l ≠ i := by
          rcases hl with rfl | rfl
          · exact hji
          · intro q
            exact hjp (by rw [← q, prevIx_nextIx hj])
        rw [Function.update_of_ne hli]
        exact ⟨rfl, fun _ => rfl⟩

end Surf

namespace Patch

/-- A surface object that has been updated, for the curves `c` and the normal fences `F`. -/
structure Agreed (ε : K) (P : Patch K) (n : ℕ) (c : ℕ → Curve K) (F : ℕ → Option (K → P3 K)) : Prop where
  inv : Inv ε P
  surf : ∃ r, P.surf.Agreed ε P.kind.ribbon n c F r
  dom : P.kind.regular = true → P.dom.dom.n = n
  angular : P.kind.regular = false → Domain.angularUpdate (tab n c) = .ok P.dom.dom

variable {ε : K} {P P' : Patch K} {n : ℕ} {c : ℕ → Curve K} {F : ℕ → Option (K → P3 K)}

theorem Agreed.length (h : Agreed ε P n c F) : P.surf.n = n := by
  obtain ⟨r, h1⟩ := h.surf
  unfold Surf.n
  rw [h1.ribs, length_tab]

theorem Agreed.congr (h : Agreed ε P n c F) (hi : Inv ε P') (h1 : P'.kind = P.kind)
    (h2 : P'.dom.dom = P.dom.dom) (h3 : P'.surf = P.surf) : Agreed ε P' n c F :=
  ⟨hi, by rw [h1, h3]; exact h.surf, by rw [h1, h2]; exact h.dom, by rw [h1, h2]; exact h.angular⟩

theorem form_agreed (hp : Agreed ε P n c F) (h : ∃ Q m x, Queried ε P Q ∧ P' = { Q with mid := m, central := x }) : Agreed ε P' n c F := by
  have hi := form_inv hp.inv h
  obtain ⟨Q, m, x, hq, rfl⟩ := h
  exact hp.congr hi hq.kind hq.dom hq.surf

theorem onRibbon_agreed (hp : Agreed ε P n c F) {i : ℕ} {f : Ribbon K → M (Ribbon K)}
    (hf : ∀ r r', f r = .ok r' → r' = { r with mult := r'.mult, handlerV := r'.handlerV, handlerInit := r'.handlerInit })
    (h : P.onRibbon i f = .ok P') : Agreed ε P' n c F := by
  have hi := onRibbon_inv hp.inv (fun r r' e => by rw [hf r r' e]) h
  obtain ⟨r, h1⟩ := hp.surf
  unfold onRibbon at h
  obtain ⟨a, e1, h⟩ := bind_ok h
  obtain ⟨a', e2, h⟩ := bind_ok h
  obtain ⟨rs, e3, h⟩ := bind_ok h
  cases h
  rw [h1.ribs] at e1 e3
  have hin : i < n := by simpa using Surf.vget_lt e1
  rw [vget_tab _ hin] at e1
  cases e1
  rw [vset_tab _ _ hin] at e3
  exact ⟨hi, ⟨_, h1.controls hin (hf _ _ e2) (Except.ok.inj e3).symm rfl⟩, hp.dom, hp.angular⟩

theorem update_agreed {r : ℕ → Ribbon K} (hp : Inv ε P)
    (hS : P.surf.ribbons = tab n r) (hr : ∀ j < n, (r j).kind = P.kind.ribbon ∧ (r j).curve = c j ∧ (r j).fence = F j)
    (hn : n ≠ 0) (h : P.update ε = .ok P') : Agreed ε P' n c F := by
  have hu := updatedFrom hp h
  have hlen : P.surf.n = n := by unfold Surf.n; rw [hS, length_tab]
  refine ⟨hu.inv, by rw [hu.kind]; exact Surf.updateAll_agreed hS hr hu.surf, ?_, ?_⟩
  swap
  · intro hk
    rw [hu.kind] at hk
    rw [← hu.angular hk, curves_tab hS (fun j hj => (hr j hj).2.1)]
  intro hk
  rw [hu.kind] at hk
  obtain ⟨vs, e1, e2⟩ := hu.regular hk (by rw [hlen]; exact hn)
  rw [updateFrom_n e2, regularVertices_length e1, hlen]

theorem step_agreed (hn : n ≠ 0) (hp : Agreed ε P n c F) {x : Call K} (hx : x.keepsLoop = true)
    (h : P.step ε x = .ok P') : Agreed ε P' n c F := by
  have hi := (step_inv hp.inv h).1
  have query : ∀ {c' : Call K}, c'.isQuery = true → P.step ε c' = .ok P' → Agreed ε P' n c F := by
    intro c' hc h
    have hq := query_queried hc h
    exact hp.congr hi hq.kind hq.dom hq.surf
  cases x with
  | gamma g =>
    cases h
    obtain ⟨r, h1⟩ := hp.surf
    exact ⟨hi, ⟨r, h1.ribs, h1.ready, h1.corners⟩, hp.dom, hp.angular⟩
  | curve i c => cases hx
  | curves cs => cases hx
  | loop => cases hx
  | handler i v =>
    refine onRibbon_agreed hp ?_ h
    intro r r' e
    unfold Ribbon.setHandler at e
    obtain ⟨_, _, e⟩ := bind_ok e
    cases e; rfl
  | mult i m => exact onRibbon_agreed hp (fun r r' e => by cases e; rfl) h
  | fence i f => cases hx
  | reset i => exact onRibbon_agreed hp (fun r r' e => by cases e; rfl) h
  | setMid p =>
    unfold step at h
    dsimp only at h
    split_ifs at h
    exact form_agreed (P := { P with mid := p, midSet := true })
      (hp.congr (hp.inv.congr rfl rfl rfl hp.inv.kinds) rfl rfl rfl) (updateCentral_form h)
  | unsetMid =>
    unfold step at h
    dsimp only at h
    split_ifs at h
    exact form_agreed (P := { P with midSet := false })
      (hp.congr (hp.inv.congr rfl rfl rfl hp.inv.kinds) rfl rfl rfl) (updateCentral_form h)
  | update =>
    obtain ⟨r, h1⟩ := hp.surf
    exact update_agreed hp.inv h1.ribs (fun j hj => (h1.ready j hj).basic) hn h
  | updateSide i =>
    unfold step updateSide at h
    obtain ⟨P1, e1, h⟩ := bind_ok h
    obtain ⟨k1, k2, k3, k4, _⟩ := updateDomain_inv hp.inv e1
    split_ifs at h
    obtain ⟨S, e2, h⟩ := bind_ok h
    obtain ⟨r, h1⟩ := hp.surf
    refine form_agreed (P := { P1 with surf := S }) ⟨k1.congr rfl rfl rfl (updateOne_kinds k1.kinds e2), ?_, ?_, ?_⟩ (finish_form h)
    · change ∃ r, S.Agreed ε P1.kind.ribbon n c F r
      rw [k3] at e2
      rw [k2]
      exact Surf.updateOne_agreed h1 e2
    · intro hr
      change P1.dom.dom.n = n
      rw [updateDomain_regular e1 (by rw [← k2]; exact hr), hp.length]
    · intro hr
      rw [← curves_tab h1.ribs (fun j hj => (h1.ready j hj).basic.2.1)]
      change _ = Except.ok P1.dom.dom
      exact updateDomain_angular e1 (by rw [← k2]; exact hr)
  | eval uv => exact query rfl h
  | mesh res => exact query rfl h
  | domainParams res => exact query rfl h
  | mapSide i uv => exact query rfl h
  | mapSides uv => exact query rfl h

theorem run_agreed (hn : n ≠ 0) (hp : Agreed ε P n c F) {xs : List (Call K)}
    (hx : ∀ x ∈ xs, x.keepsLoop = true) (h : P.run ε xs = .ok P') : Agreed ε P' n c F := by
  induction xs generalizing P with
  | nil => cases h; exact hp
  | cons x xs ih =>
    unfold run at h
    obtain ⟨P1, e, h⟩ := bind_ok h
    exact ih (step_agreed hn hp (hx x (by simp)) e) (fun y hy => hx y (List.mem_cons_of_mem _ hy)) h

end Patch

end Transfinite
