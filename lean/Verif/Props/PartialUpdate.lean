import Verif.Lemmas.Sync
import Verif.Props.Midpoint

/-! # C38: `update(i)` and `update()` after changes of ribbon controls -/

namespace Transfinite

open Spec

namespace Patch

section generic

variable {K : Type} [Field K] [LinearOrder K] [Libm K]

/-- Calls that change no curve, and the ribbon controls (handler, multiplier, normal fence, and their reset) of the
sides in `L` only. -/
def Call.within (L : List ℕ) : Call K → Prop
  | .curve _ _ => False
  | .curves _ => False
  | .loop => False
  | .handler i _ => i ∈ L
  | .mult i _ => i ∈ L
  | .fence i _ => i ∈ L
  | .reset i => i ∈ L
  | _ => True

/-- Two objects that differ at most in the contents of caches. -/
structure Same (P P' : Patch K) : Prop where
  kind : P'.kind = P.kind
  surf : P'.surf = P.surf
  linked : P'.linked = P.linked
  midSet : P'.midSet = P.midSet
  mid : P'.mid = P.mid
  central : P'.central = P.central
  dom : P'.dom.dom = P.dom.dom

/-! ### Helper lemmas -/

theorem onRibbon_synced {ε : K} {P P' : Patch K} {n : ℕ} {L : List ℕ} (hs : P.surf.SyncedBut ε n {j | j ∈ L}) {i : ℕ} (hi : i ∈ L)
    {f : Ribbon K → M (Ribbon K)} (hf : ∀ r r', f r = .ok r' → r'.curve = r.curve) (h : P.onRibbon i f = .ok P') :
    P'.surf.SyncedBut ε n {j | j ∈ L} := by
  unfold onRibbon at h
  obtain ⟨a, e1, h1⟩ := bind_ok h
  obtain ⟨a', e2, h2⟩ := bind_ok h1
  obtain ⟨rs, e3, h3⟩ := bind_ok h2
  rw [← Except.ok.inj h3]
  have hin : i < n := by
    have := Surf.vget_lt e1
    rwa [show P.surf.ribbons.length = n from hs.n_eq] at this
  refine (hs.edit hin e1 (hf _ _ e2) e3).mono ?_
  intro j hj
  rcases Set.mem_insert_iff.mp hj with rfl | hj
  · exact hi
  · exact hj

theorem finish_surf {ε : K} {X P' : Patch K} (h : X.finish ε = .ok P') : P'.surf = X.surf := by
  obtain ⟨Q, m, c, hq, rfl⟩ := finish_form h
  exact hq.surf

theorem updateSide_parts {ε : K} {P P' : Patch K} {i : ℕ} (h : P.updateSide ε i = .ok P') :
    ∃ D S, P.updateDomain = .ok D ∧ D.linked = true ∧ D.surf.updateOne ε i = .ok S ∧ finish ε { D with surf := S } = .ok P' := by
  unfold updateSide at h
  obtain ⟨D, e1, h1⟩ := bind_ok h
  split_ifs at h1 with hl
  obtain ⟨S, e2, h2⟩ := bind_ok h1
  exact ⟨D, S, e1, hl, e2, h2⟩

theorem updateOne_lt {ε : K} {S S' : Surf K} {i : ℕ} (h : S.updateOne ε i = .ok S') : i < S.n := by
  unfold Surf.updateOne at h
  obtain ⟨rs, e1, _⟩ := bind_ok h
  unfold Surf.updateRibbon at e1
  obtain ⟨_, _, e2⟩ := bind_ok e1
  obtain ⟨_, e3, _⟩ := bind_ok e2
  exact Surf.vget_lt e3

theorem update_synced {ε : K} {P P' : Patch K} (hp : Inv ε P) (h : P.update ε = .ok P') : P'.surf.SyncedBut ε P.surf.n ∅ := by
  obtain ⟨D, S, e1, hl, e2, e3⟩ := update_parts h
  rw [finish_surf e3]
  obtain ⟨_, _, k3, _⟩ := updateDomain_inv hp e1
  rw [k3] at e2
  by_cases hn : P.surf.n = 0
  · have h0 : P.surf.ribbons = tab P.surf.n (fun _ => Ribbon.new .dummy ⟨fun _ => 0, fun _ => 0, fun _ _ => 0⟩) := by
      rw [hn]; exact List.eq_nil_of_length_eq_zero hn
    exact Surf.updateAll_synced h0 e2
  · obtain ⟨r, hr⟩ := exists_tab' (l := P.surf.ribbons) (Nat.pos_of_ne_zero hn)
    exact Surf.updateAll_synced hr e2

theorem step_synced {ε : K} {P P' : Patch K} {n : ℕ} {L : List ℕ} (hp : Inv ε P) (hs : P.surf.SyncedBut ε n {j | j ∈ L}) {x : Call K}
    (hx : x.within L) (h : P.step ε x = .ok P') : P'.surf.SyncedBut ε n {j | j ∈ L} := by
  have query : ∀ {y : Call K}, y.isQuery = true → P.step ε y = .ok P' → P'.surf.SyncedBut ε n {j | j ∈ L} := by
    intro y hy h
    rw [(query_queried hy h).surf]; exact hs
  have central : ∀ {X : Patch K}, X.surf = P.surf → X.updateCentral ε = .ok P' → P'.surf.SyncedBut ε n {j | j ∈ L} := by
    intro X hX h
    obtain ⟨Q, m, c, hq, rfl⟩ := updateCentral_form h
    change Q.surf.SyncedBut _ _ _
    rw [hq.surf, hX]; exact hs
  cases x with
  | gamma g => cases h; exact hs
  | curve i c => exact absurd hx id
  | curves cs => exact absurd hx id
  | loop => exact absurd hx id
  | handler i v =>
    refine onRibbon_synced hs hx ?_ h
    intro r r' e
    unfold Ribbon.setHandler at e
    obtain ⟨_, _, e'⟩ := bind_ok e
    rw [← Except.ok.inj e']
  | mult i m => exact onRibbon_synced hs hx (fun r r' e => by rw [← Except.ok.inj e]; rfl) h
  | fence i f => exact onRibbon_synced hs hx (fun r r' e => by rw [← Except.ok.inj e]; rfl) h
  | reset i => exact onRibbon_synced hs hx (fun r r' e => by rw [← Except.ok.inj e]; rfl) h
  | setMid p =>
    unfold step at h
    dsimp only at h
    split_ifs at h
    exact central (X := { P with mid := p, midSet := true }) rfl h
  | unsetMid =>
    unfold step at h
    dsimp only at h
    split_ifs at h
    exact central (X := { P with midSet := false }) rfl h
  | update =>
    have := update_synced hp h
    rw [hs.n_eq] at this
    exact this.mono (Set.empty_subset _)
  | updateSide i =>
    obtain ⟨D, S, e1, hl, e2, e3⟩ := updateSide_parts (show P.updateSide ε i = .ok P' from h)
    rw [finish_surf e3]
    obtain ⟨_, _, k3, _⟩ := updateDomain_inv hp e1
    rw [k3] at e2
    have hi := updateOne_lt e2
    rw [hs.n_eq] at hi
    exact (hs.updateOne hi e2).mono Set.diff_subset
  | eval uv => exact query rfl h
  | mesh res => exact query rfl h
  | domainParams res => exact query rfl h
  | mapSide i uv => exact query rfl h
  | mapSides uv => exact query rfl h

theorem run_synced {ε : K} {P P' : Patch K} {n : ℕ} {L : List ℕ} (hp : Inv ε P) (hs : P.surf.SyncedBut ε n {j | j ∈ L}) {xs : List (Call K)}
    (hx : ∀ x ∈ xs, x.within L) (h : P.run ε xs = .ok P') : P'.surf.SyncedBut ε n {j | j ∈ L} := by
  induction xs generalizing P with
  | nil => cases h; exact hs
  | cons x xs ih =>
    unfold run at h
    obtain ⟨P1, e1, h1⟩ := bind_ok h
    exact ih (step_inv hp e1).1 (step_synced hp hs (hx x (by simp)) e1) (fun y hy => hx y (List.mem_cons_of_mem _ hy)) h1

/-- The domain belongs to the present curves. -/
def DomOk (P : Patch K) : Prop :=
  (P.kind.regular = true → P.dom.dom.n = P.surf.n) ∧ (P.kind.regular = false → Domain.angularUpdate P.curves = .ok P.dom.dom)

/-- What can be observed of the local parameters does not depend on the caches. -/
theorem maps_same {ε : K} {P P' : Patch K} (hp : ParamOk ε P) (hp' : ParamOk ε P') (hk : P'.kind = P.kind) (hd : P'.dom.dom = P.dom.dom)
    (uv : P2 K) : Prod.fst <$> Param.mapToRibbons ε P'.kind.param uv P'.param = Prod.fst <$> Param.mapToRibbons ε P.kind.param uv P.param := by
  obtain ⟨o, h1, h2⟩ := maps_eq hp uv
  obtain ⟨o', h3, h4⟩ := maps_eq hp' uv
  rw [hk, hd, h1] at h3
  have e := Except.ok.inj h3
  rw [h2, h4, hk, hd, e]

omit [Field K] [LinearOrder K] [Libm K] in
theorem fst_map_ok {α β : Type} {x y : M (α × β)} (h : Prod.fst <$> x = Prod.fst <$> y) {a : α × β} (hx : y = .ok a) :
    ∃ b, x = .ok (a.1, b) := by
  rw [hx] at h
  cases hy : x with
  | error e => rw [hy] at h; cases h
  | ok z =>
    rw [hy] at h
    exact ⟨z.2, by rw [← Except.ok.inj h]⟩

theorem evalWith_same {ε : K} {P P' : Patch K} (h1 : P'.kind = P.kind) (h2 : P'.surf = P.surf) (h3 : P'.central = P.central) (l : List (P2 K)) :
    P'.evalWith ε l = P.evalWith ε l := by
  unfold evalWith
  rw [h1, h2, h3]

/-- Points of two objects that differ in caches only. -/
theorem eval_same {ε : K} {P P' : Patch K} (h : Same P P') (hp : ParamOk ε P) (hp' : ParamOk ε P') (uv : P2 K) :
    Prod.fst <$> P'.eval ε uv = Prod.fst <$> P.eval ε uv := by
  have hm := maps_same hp hp' h.kind h.dom uv
  unfold eval
  cases hx : Param.mapToRibbons ε P.kind.param uv P.param with
  | error e =>
    rw [hx] at hm
    cases hy : Param.mapToRibbons ε P'.kind.param uv P'.param with
    | error e' => rw [hy] at hm; cases hm; rfl
    | ok z => rw [hy] at hm; cases hm
  | ok a =>
    obtain ⟨b, hb⟩ := fst_map_ok hm hx
    rw [hb, M_bind_ok, M_bind_ok]
    dsimp only
    rw [evalWith_same h.kind h.surf h.central]
    cases P.evalWith ε a.1 with
    | error e => rfl
    | ok p => rfl

theorem deficiency_same {ε : K} {P P' : Patch K} (h1 : P'.kind = P.kind) (h2 : P'.surf = P.surf) (hd : P'.dom.dom = P.dom.dom)
    (hp : ParamOk ε P) (hp' : ParamOk ε P') (uv : P2 K) : Prod.fst <$> P'.deficiency ε uv = Prod.fst <$> P.deficiency ε uv := by
  have hm := maps_same hp hp' h1 hd uv
  unfold deficiency
  cases hx : Param.mapToRibbons ε P.kind.param uv P.param with
  | error e =>
    rw [hx] at hm
    cases hy : Param.mapToRibbons ε P'.kind.param uv P'.param with
    | error e' => rw [hy] at hm; cases hm; rfl
    | ok z => rw [hy] at hm; cases hm
  | ok a =>
    obtain ⟨b, hb⟩ := fst_map_ok hm hx
    rw [hb, M_bind_ok, M_bind_ok]
    dsimp only
    rw [h2]
    cases Surf.blendCornerDeficient ε P.surf.n a.1 with
    | error e => rfl
    | ok p => rfl

/-- `updateCentralControlPoint()` depends neither on the caches nor on the previous control point, and on the midpoint only
when it has been set. -/
theorem updateCentral_same {ε : K} {X Y X' : Patch K} (h1 : Y.kind = X.kind) (h2 : Y.surf = X.surf) (h3 : Y.linked = X.linked)
    (h4 : Y.midSet = X.midSet) (h5 : X.midSet = true → Y.mid = X.mid) (h6 : Y.dom.dom = X.dom.dom) (hX : ParamOk ε X) (hY : ParamOk ε Y)
    (h : X.updateCentral ε = .ok X') : ∃ Y', Y.updateCentral ε = .ok Y' ∧ Same X' Y' ∧ ParamOk ε X' ∧ ParamOk ε Y' := by
  unfold updateCentral at h ⊢
  obtain ⟨m, e0, g0⟩ := bind_ok h
  obtain ⟨s, e1, g1⟩ := bind_ok g0
  obtain ⟨f, e2, g2⟩ := bind_ok g1
  have f0 : Y.currentMid ε = .ok m := by
    unfold currentMid at e0 ⊢
    rw [h4, h2]
    split_ifs at e0 ⊢ with hm
    · rw [h5 hm]; exact e0
    · exact e0
  rw [f0, M_bind_ok]
  dsimp only at e1 e2 g2 ⊢
  have pX : ParamOk ε ({ X with mid := m, central := 0 } : Patch K) := hX
  have pY : ParamOk ε ({ Y with mid := m, central := 0 } : Patch K) := hY
  have sm : Same ({ X with mid := m, central := 0 } : Patch K) ({ Y with mid := m, central := 0 } : Patch K) :=
    ⟨h1, h2, h3, h4, rfl, rfl, h6⟩
  obtain ⟨b, f1⟩ := fst_map_ok (eval_same sm pX pY X.dom.dom.center) e1
  rw [h6, f1, M_bind_ok]
  dsimp only
  have q1 := eval_queried e1
  have q1' := eval_queried f1
  obtain ⟨b2, f2⟩ := fst_map_ok (deficiency_same (P := s.2) (P' := b) (by rw [q1.kind, q1'.kind]; exact h1) (by rw [q1.surf, q1'.surf]; exact h2)
    (by rw [q1.dom, q1'.dom]; exact h6) (q1.paramOk pX) (q1'.paramOk pY) X.dom.dom.center) e2
  rw [f2, M_bind_ok]
  dsimp only
  have q := q1.trans (deficiency_queried e2)
  have q' := q1'.trans (deficiency_queried f2)
  dsimp only at q'
  have fin : ∀ c : P3 K, Same ({ f.2 with central := c } : Patch K) ({ b2 with central := c } : Patch K) ∧
      ParamOk ε ({ f.2 with central := c } : Patch K) ∧ ParamOk ε ({ b2 with central := c } : Patch K) := by
    intro c
    refine ⟨⟨?_, ?_, ?_, ?_, ?_, rfl, ?_⟩, q.paramOk pX, q'.paramOk pY⟩
    · exact (q'.kind.trans h1).trans q.kind.symm
    · exact (q'.surf.trans h2).trans q.surf.symm
    · exact (q'.linked.trans h3).trans q.linked.symm
    · exact (q'.midSet.trans h4).trans q.midSet.symm
    · exact q'.mid.trans q.mid.symm
    · exact (q'.dom.trans h6).trans q.dom.symm
  split_ifs at g2 ⊢ with hd
  · rw [← Except.ok.inj g2]
    exact ⟨_, rfl, fin m⟩
  · obtain ⟨c, e3, g3⟩ := bind_ok g2
    rw [← Except.ok.inj g3, e3, M_bind_ok]
    exact ⟨_, rfl, fin c⟩

theorem finish_other {ε : K} {X : Patch K} (hk : ¬X.Mid) : X.finish ε = .ok X := by
  unfold Mid at hk
  push Not at hk
  unfold finish
  cases hx : X.kind with
  | midpoint => exact absurd hx hk.1
  | midpointCoons => exact absurd hx hk.2
  | sideBased => rfl
  | cornerBased => rfl
  | generalizedCoons => rfl
  | compositeRibbon => rfl
  | c0Coons => rfl

theorem finish_same {ε : K} {X Y X' : Patch K} (h1 : Y.kind = X.kind) (h2 : Y.surf = X.surf) (h3 : Y.linked = X.linked)
    (h4 : Y.midSet = X.midSet) (h5 : X.midSet = true → Y.mid = X.mid) (h6 : Y.dom.dom = X.dom.dom) (hX : ParamOk ε X) (hY : ParamOk ε Y)
    (h7 : ¬X.Mid → Y.mid = X.mid ∧ Y.central = X.central)
    (h : X.finish ε = .ok X') : ∃ Y', Y.finish ε = .ok Y' ∧ Same X' Y' ∧ ParamOk ε X' ∧ ParamOk ε Y' := by
  by_cases hk : X.Mid
  · have fx : X.finish ε = X.updateCentral ε := by
      unfold finish
      rcases hk with hk | hk <;> rw [hk]
    have fy : Y.finish ε = Y.updateCentral ε := by
      unfold finish
      rcases hk with hk | hk <;> rw [h1, hk]
    rw [fx] at h
    rw [fy]
    exact updateCentral_same h1 h2 h3 h4 h5 h6 hX hY h
  · have hk' : ¬Y.Mid := by unfold Mid; rw [h1]; exact hk
    rw [finish_other hk] at h
    have e := Except.ok.inj h
    refine ⟨Y, finish_other hk', ?_, ?_, hY⟩
    · rw [← e]; exact ⟨h1, h2, h3, h4, (h7 hk).1, (h7 hk).2, h6⟩
    · rw [← e]; exact hX

theorem updateDomain_param {ε : K} {P D : Patch K} (hp : Inv ε P) (hn : P.surf.n ≠ 0) (h : P.updateDomain = .ok D) : ParamOk ε D := by
  cases hr : P.kind.regular with
  | true =>
    have := (updateDomain_inv hp h).1.param
    rw [updateDomain_regular h hr] at this
    exact this.resolve_left hn
  | false =>
    unfold updateDomain at h
    rw [if_neg (by rw [hr]; simp)] at h
    obtain ⟨d, e, h1⟩ := bind_ok h
    obtain ⟨o, e3, h2⟩ := bind_ok h1
    rw [← Except.ok.inj h2]
    exact ⟨o, [], e3, by simp, rfl⟩

/-- `updateDomain` keeps a domain that belongs to the curves. -/
theorem updateDomain_dom {P D : Patch K} (hd : P.DomOk) (h : P.updateDomain = .ok D) : D.dom.dom = P.dom.dom := by
  cases hr : P.kind.regular with
  | true =>
    unfold updateDomain at h
    rw [if_pos hr] at h
    obtain ⟨r, e, h1⟩ := bind_ok h
    unfold Domain.regularUpdate at e
    rw [if_pos (hd.1 hr)] at e
    rw [← Except.ok.inj e] at h1
    dsimp only at h1
    rw [if_neg (by simp)] at h1
    rw [← Except.ok.inj h1]
  | false =>
    have := updateDomain_angular h hr
    rw [hd.2 hr] at this
    exact (Except.ok.inj this).symm

/-- and it succeeds then. -/
theorem updateDomain_ok {ε : K} {P : Patch K} (hpar : ParamOk ε P) (hd : P.DomOk) :
    ∃ D, P.updateDomain = .ok D := by
  cases hr : P.kind.regular with
  | true =>
    unfold updateDomain Domain.regularUpdate
    rw [if_pos hr, if_pos (hd.1 hr), M_bind_ok]
    dsimp only
    rw [if_neg (by simp)]
    exact ⟨_, rfl⟩
  | false =>
    obtain ⟨o, _, e, _⟩ := hpar
    unfold updateDomain
    rw [if_neg (by rw [hr]; simp), hd.2 hr, M_bind_ok, e, M_bind_ok]
    exact ⟨_, rfl⟩

/-- The state between calls that keep the curves, from the first update on. -/
structure Settled (ε : K) (c : List (Curve K)) (P : Patch K) : Prop where
  inv : Inv ε P
  dom : P.DomOk
  param : ParamOk ε P
  linked : P.linked = true
  curves : P.curves = c

theorem Settled.n {ε : K} {c : List (Curve K)} {P : Patch K} (h : Settled ε c P) : P.surf.n = c.length := by
  rw [← h.curves]
  unfold Patch.curves Surf.n
  rw [List.length_map]

theorem Settled.congr {ε : K} {c : List (Curve K)} {P P' : Patch K} (h : Settled ε c P) (hi : Inv ε P') (h1 : P'.kind = P.kind)
    (h2 : P'.dom.dom = P.dom.dom) (hp : ParamOk ε P') (h3 : P'.linked = P.linked) (h4 : P'.curves = P.curves) : Settled ε c P' := by
  have hn : P'.surf.n = P.surf.n := by
    have := congrArg List.length h4
    unfold Patch.curves at this
    rwa [List.length_map, List.length_map] at this
  exact ⟨hi, ⟨by rw [h1, h2, hn]; exact h.dom.1, by rw [h1, h2, h4]; exact h.dom.2⟩, hp, by rw [h3]; exact h.linked, by rw [h4]; exact h.curves⟩

theorem form_settled {ε : K} {c : List (Curve K)} {P P' : Patch K} (hp : Settled ε c P)
    (h : ∃ Q m x, Queried ε P Q ∧ P' = { Q with mid := m, central := x }) : Settled ε c P' := by
  have hi := form_inv hp.inv h
  obtain ⟨Q, m, x, hq, rfl⟩ := h
  exact hp.congr hi hq.kind hq.dom (hq.paramOk hp.param) hq.linked (by unfold Patch.curves; rw [hq.surf])

theorem onRibbon_settled {ε : K} {cv : List (Curve K)} {P P' : Patch K} (hp : Settled ε cv P) {i : ℕ} {f : Ribbon K → M (Ribbon K)}
    (hf : ∀ r r', f r = .ok r' → r'.kind = r.kind ∧ r'.curve = r.curve) (h : P.onRibbon i f = .ok P') : Settled ε cv P' := by
  have hi := onRibbon_inv hp.inv (fun r r' e => (hf r r' e).1) h
  unfold onRibbon at h
  obtain ⟨a, e1, h1⟩ := bind_ok h
  obtain ⟨a', e2, h2⟩ := bind_ok h1
  obtain ⟨rs, e3, h3⟩ := bind_ok h2
  have e := Except.ok.inj h3
  have hc : rs.map (·.curve) = P.surf.ribbons.map (·.curve) := by
    unfold vset at e3
    split_ifs at e3 with hl
    rw [← Except.ok.inj e3, List.map_set, (hf _ _ e2).2]
    rw [vget_eq_ok] at e1
    apply List.ext_getElem?
    intro j
    rw [List.getElem?_set]
    split_ifs with hj hj'
    · rw [List.getElem?_map, ← hj, e1]; rfl
    · rw [List.length_map] at hj'; exact absurd hl hj'
    · rfl
  rw [← e] at hi ⊢
  exact hp.congr hi rfl rfl hp.param rfl hc

theorem updateDomain_settled {ε : K} {P D : Patch K} (hp : Inv ε P) (hn : P.surf.n ≠ 0) (h : P.updateDomain = .ok D) (hl : D.linked = true) :
    Settled ε P.curves D := by
  obtain ⟨k1, k2, k3, k4, _⟩ := updateDomain_inv hp h
  have hc : D.curves = P.curves := by unfold Patch.curves; rw [k3]
  refine ⟨k1, ⟨fun hr => ?_, fun hr => ?_⟩, updateDomain_param hp hn h, hl, hc⟩
  · rw [updateDomain_regular h (by rw [← k2]; exact hr), k3]
  · rw [hc]; exact updateDomain_angular h (by rw [← k2]; exact hr)

theorem updateAll_curves {ε : K} {S S' : Surf K} (h : S.updateAll ε = .ok S') : S'.ribbons.map (·.curve) = S.ribbons.map (·.curve) := by
  by_cases hn : S.ribbons.length = 0
  · have h0 : S.ribbons = tab 0 (fun _ => Ribbon.new .dummy ⟨fun _ => 0, fun _ => 0, fun _ _ => 0⟩) := List.eq_nil_of_length_eq_zero hn
    obtain ⟨r', q, _, _, rfl⟩ := (Surf.updateAll_iff h0).mp h
    rw [h0]; rfl
  · obtain ⟨r, hr⟩ := exists_tab' (l := S.ribbons) (Nat.pos_of_ne_zero hn)
    obtain ⟨r', q, h1, _, rfl⟩ := (Surf.updateAll_iff hr).mp h
    have e : S.ribbons.map (·.curve) = (tab S.ribbons.length r).map (·.curve) := congrArg _ hr
    rw [e]
    unfold tab
    rw [List.map_map, List.map_map]
    refine List.map_congr_left fun j hj => ?_
    exact (Ribbon.update_keeps (h1 j (List.mem_range.mp hj))).2.1

theorem updateOne_curves {ε : K} {S S' : Surf K} {n : ℕ} {I : Set ℕ} (hs : S.SyncedBut ε n I) {i : ℕ} (hi : i < n) (h : S.updateOne ε i = .ok S') :
    S'.ribbons.map (·.curve) = S.ribbons.map (·.curve) := by
  obtain ⟨r, q, h1, h2, _⟩ := hs
  have hS : S = ⟨S.useGamma, tab n r, tab n q⟩ := by cases S; subst h1 h2; rfl
  rw [hS] at h ⊢
  obtain ⟨r', k1, k2, e1, e2, e3, rfl⟩ := (Surf.updateOne_iff hi).mp h
  unfold tab
  rw [List.map_map, List.map_map]
  exact List.map_congr_left fun j hj => Surf.curves_update e1 j (List.mem_range.mp hj)

theorem updated_settled {ε : K} {P P' : Patch K} (hp : Inv ε P) (hn : P.surf.n ≠ 0) (h : P.update ε = .ok P') : Settled ε P.curves P' := by
  obtain ⟨D, S, e1, hl, e2, e3⟩ := update_parts h
  have hD := updateDomain_settled hp hn e1 hl
  obtain ⟨k1, k2, k3, k4, _⟩ := updateDomain_inv hp e1
  refine form_settled (P := { D with surf := S }) ?_ (finish_form e3)
  refine hD.congr (k1.congr rfl rfl rfl (updateAll_kinds k1.kinds e2)) rfl rfl hD.param rfl (updateAll_curves e2)

theorem updatedSide_settled {ε : K} {P P' : Patch K} {n : ℕ} {I : Set ℕ} (hp : Inv ε P) (hs : P.surf.SyncedBut ε n I) {i : ℕ}
    (h : P.updateSide ε i = .ok P') : Settled ε P.curves P' := by
  obtain ⟨D, S, e1, hl, e2, e3⟩ := updateSide_parts h
  obtain ⟨k1, k2, k3, k4, _⟩ := updateDomain_inv hp e1
  have hi : i < n := by
    have := updateOne_lt e2
    rwa [k3, hs.n_eq] at this
  have hD := updateDomain_settled hp (by rw [hs.n_eq]; omega) e1 hl
  rw [← k3] at hs
  refine form_settled (P := { D with surf := S }) ?_ (finish_form e3)
  exact hD.congr (k1.congr rfl rfl rfl (updateOne_kinds k1.kinds e2)) rfl rfl hD.param rfl (updateOne_curves hs hi e2)

theorem step_settled {ε : K} {c : List (Curve K)} {P P' : Patch K} {n : ℕ} {L : List ℕ} (hp : Settled ε c P) (hc : c ≠ [])
    (hs : P.surf.SyncedBut ε n {j | j ∈ L}) {x : Call K} (hx : x.within L) (h : P.step ε x = .ok P') : Settled ε c P' := by
  have hi := (step_inv hp.inv h).1
  have hn : P.surf.n ≠ 0 := by rw [hp.n]; exact fun e => hc (List.eq_nil_of_length_eq_zero e)
  have query : ∀ {y : Call K}, y.isQuery = true → P.step ε y = .ok P' → Settled ε c P' := by
    intro y hy h
    have hq := query_queried hy h
    exact hp.congr hi hq.kind hq.dom (hq.paramOk hp.param) hq.linked (by unfold Patch.curves; rw [hq.surf])
  cases x with
  | gamma g => cases h; exact hp.congr hi rfl rfl hp.param rfl rfl
  | curve i c => exact absurd hx id
  | curves cs => exact absurd hx id
  | loop => exact absurd hx id
  | handler i v =>
    refine onRibbon_settled hp ?_ h
    intro r r' e
    unfold Ribbon.setHandler at e
    obtain ⟨_, _, e'⟩ := bind_ok e
    rw [← Except.ok.inj e']
    exact ⟨rfl, rfl⟩
  | mult i m => exact onRibbon_settled hp (fun r r' e => by rw [← Except.ok.inj e]; exact ⟨rfl, rfl⟩) h
  | fence i f => exact onRibbon_settled hp (fun r r' e => by rw [← Except.ok.inj e]; exact ⟨rfl, rfl⟩) h
  | reset i => exact onRibbon_settled hp (fun r r' e => by rw [← Except.ok.inj e]; exact ⟨rfl, rfl⟩) h
  | setMid p =>
    unfold step at h
    dsimp only at h
    split_ifs at h
    exact form_settled (P := { P with mid := p, midSet := true })
      (hp.congr (hp.inv.congr rfl rfl rfl hp.inv.kinds) rfl rfl hp.param rfl rfl) (updateCentral_form h)
  | unsetMid =>
    unfold step at h
    dsimp only at h
    split_ifs at h
    exact form_settled (P := { P with midSet := false })
      (hp.congr (hp.inv.congr rfl rfl rfl hp.inv.kinds) rfl rfl hp.param rfl rfl) (updateCentral_form h)
  | update => rw [← hp.curves]; exact updated_settled hp.inv hn h
  | updateSide i => rw [← hp.curves]; exact updatedSide_settled hp.inv hs h
  | eval uv => exact query rfl h
  | mesh res => exact query rfl h
  | domainParams res => exact query rfl h
  | mapSide i uv => exact query rfl h
  | mapSides uv => exact query rfl h

theorem run_settled {ε : K} {c : List (Curve K)} {P P' : Patch K} {n : ℕ} {L : List ℕ} (hp : Settled ε c P) (hc : c ≠ [])
    (hs : P.surf.SyncedBut ε n {j | j ∈ L}) {xs : List (Call K)} (hx : ∀ x ∈ xs, x.within L) (h : P.run ε xs = .ok P') : Settled ε c P' := by
  induction xs generalizing P with
  | nil => cases h; exact hp
  | cons x xs ih =>
    unfold run at h
    obtain ⟨P1, e1, h1⟩ := bind_ok h
    exact ih (step_settled hp hc hs (hx x (by simp)) e1) (step_synced hp.inv hs (hx x (by simp)) e1)
      (fun y hy => hx y (List.mem_cons_of_mem _ hy)) h1

/-- If `update()` of the ribbons and corners has the result of the last of several calls `update(i)`, so has `update()`. -/
theorem many_aux {ε : K} {c : List (Curve K)} {P Q : Patch K} {n : ℕ} {L : List ℕ} (hp : Settled ε c P) (hc : c ≠ [])
    (hs : P.surf.SyncedBut ε n {j | j ∈ L}) (hL : L ≠ []) (h : P.run ε (L.map Call.updateSide) = .ok Q) :
    ∃ Q', P.update ε = .ok Q' ∧ Same Q Q' ∧ ParamOk ε Q ∧ ParamOk ε Q' := by
  induction L generalizing P with
  | nil => exact absurd rfl hL
  | cons i L ih =>
    rw [List.map_cons] at h
    unfold run at h
    obtain ⟨P1, e1, h1⟩ := bind_ok h
    have e1' : P.updateSide ε i = .ok P1 := e1
    have s1 : Settled ε c P1 := step_settled hp hc hs (x := .updateSide i) trivial e1
    obtain ⟨D, S, a1, a2, a3, a4⟩ := updateSide_parts e1'
    obtain ⟨k1, k2, k3, k4, k5, k6, k7⟩ := updateDomain_inv hp.inv a1
    rw [k3] at a3
    have hi : i < n := by have := updateOne_lt a3; rwa [hs.n_eq] at this
    have y1 : P1.surf = S := finish_surf a4
    have sy : P1.surf.SyncedBut ε n {j | j ∈ L} := by
      rw [y1]
      refine (hs.updateOne hi a3).mono ?_
      rintro j ⟨hj, hji⟩
      rcases List.mem_cons.mp hj with rfl | hj
      · exact absurd rfl hji
      · exact hj
    have all : ∀ X, S.updateAll ε = .ok X ↔ P.surf.updateAll ε = .ok X := by
      obtain ⟨r, q, b1, b2, _⟩ := hs
      exact fun X => Surf.updateAll_updateOne b1 b2 hi a3
    have hn : P.surf.n ≠ 0 := by rw [hs.n_eq]; omega
    have dD := updateDomain_dom hp.dom a1
    have pD := updateDomain_param hp.inv hn a1
    by_cases hL' : L = []
    · subst hL'
      cases h1
      have sS : S.updateAll ε = .ok S := by
        rw [← y1]
        refine Surf.SyncedBut.updateAll (sy.mono ?_)
        intro j hj
        cases hj
      have f1 : P.update ε = finish ε { D with surf := S } := by
        unfold update
        rw [a1, M_bind_ok, if_pos a2, k3, (all S).mp sS, M_bind_ok]
      rw [f1]
      refine ⟨_, a4, ⟨rfl, rfl, rfl, rfl, rfl, rfl, rfl⟩, s1.param, s1.param⟩
    · obtain ⟨Q', u, v⟩ := ih s1 sy hL' h1
      obtain ⟨D1, S1, b1, b2, b3, b4⟩ := update_parts u
      obtain ⟨j1, j2, j3, j4, j5, j6, j7⟩ := updateDomain_inv s1.inv b1
      rw [j3, y1] at b3
      have b5 := (all S1).mp b3
      have hf := finish_form a4
      have md := step_mid e1 hp.inv
      have hn1 : P1.surf.n ≠ 0 := by rw [sy.n_eq]; omega
      have kk : P1.kind = P.kind := (step_inv hp.inv e1).2
      have f1 : P.update ε = finish ε { D with surf := S1 } := by
        unfold update
        rw [a1, M_bind_ok, if_pos a2, k3, b5, M_bind_ok]
      rw [f1]
      have hd : P1.dom.dom = P.dom.dom := by
        obtain ⟨Z, m, x, hq, rfl⟩ := hf
        exact hq.dom.trans dD
      have g := finish_same (X := { D1 with surf := S1 }) (Y := { D with surf := S1 }) (ε := ε) (X' := Q') (k2.trans (kk.symm.trans j2.symm)) rfl
        (a2.trans b2.symm) (k5.trans (md.1.symm.trans j5.symm)) ?_ ((dD.trans hd.symm).trans (updateDomain_dom s1.dom b1).symm)
        (show ParamOk ε D1 from updateDomain_param s1.inv hn1 b1) pD ?_ b4
      · obtain ⟨Y', g1, g2, g3, g4⟩ := g
        refine ⟨Y', g1, ?_, v.2.1, g4⟩
        have v1 := v.1
        exact ⟨g2.kind.trans v1.kind, g2.surf.trans v1.surf, g2.linked.trans v1.linked, g2.midSet.trans v1.midSet, g2.mid.trans v1.mid,
          g2.central.trans v1.central, g2.dom.trans v1.dom⟩
      · intro hm
        have hm' : P1.midSet = true := j5.symm.trans hm
        exact k6.trans ((md.2 hm').symm.trans j6.symm)
      · intro hk
        have hk0 : ¬(P.kind = .midpoint ∨ P.kind = .midpointCoons) := by
          rw [← kk, ← j2]; exact hk
        have hk1 : ¬({ D with surf := S } : Patch K).Mid := by
          unfold Mid
          change ¬(D.kind = .midpoint ∨ D.kind = .midpointCoons)
          rw [k2]; exact hk0
        have fx : P1 = { D with surf := S } := by
          rw [finish_other hk1] at a4
          exact (Except.ok.inj a4).symm
        have m1 : P1.mid = D.mid := by rw [fx]
        have m2 : P1.central = D.central := by rw [fx]
        exact ⟨m1.symm.trans j6.symm, m2.symm.trans j7.symm⟩

/-! ### C38 -/

/-- C38: after `update()`, if (besides queries and calls for the midpoint) only the controls of ribbon `i` are changed, `update(i)`
and `update()` have the same effect: both fail or both succeed with the same state. -/
theorem C38_one {ε : K} {kind : PatchKind} {cs xs : List (Call K)} {P0 P1 P2 : Patch K} {i : ℕ} (h0 : (Patch.new kind).run ε cs = .ok P0)
    (h1 : P0.step ε .update = .ok P1) (hx : ∀ x ∈ xs, x.within [i]) (h2 : P1.run ε xs = .ok P2) (hi : i < P2.curves.length) (Q : Patch K) :
    P2.step ε (.updateSide i) = .ok Q ↔ P2.step ε .update = .ok Q := by
  have v0 := (run_inv (new_inv ε kind) h0).1
  have v1 := (step_inv v0 h1).1
  have v2 := (run_inv v1 h2).1
  have s1 := update_synced v0 h1
  have s2 := run_synced v1 (s1.mono (Set.empty_subset {j | j ∈ [i]})) hx h2
  have hin : i < P0.surf.n := by
    unfold curves at hi
    rw [List.length_map] at hi
    rw [← s2.n_eq]; exact hi
  have s3 : P2.surf.SyncedBut ε P0.surf.n {i} := s2.mono (fun j hj => by simpa using hj)
  change P2.updateSide ε i = .ok Q ↔ P2.update ε = .ok Q
  unfold updateSide update
  cases hd : P2.updateDomain with
  | error e => exact Iff.rfl
  | ok D =>
    rw [M_bind_ok, M_bind_ok]
    obtain ⟨_, _, k3, _⟩ := updateDomain_inv v2 hd
    rw [k3]
    split_ifs with hl
    · constructor
      · intro h
        obtain ⟨S, e1, e2⟩ := bind_ok h
        rw [(s3.one_iff_all hin).mp e1, M_bind_ok]; exact e2
      · intro h
        obtain ⟨S, e1, e2⟩ := bind_ok h
        rw [(s3.one_iff_all hin).mpr e1, M_bind_ok]; exact e2
    · exact Iff.rfl

/-- C38, several sides: after `update()`, if only the controls of the ribbons in `L` are changed, calling `update(i)` for all of these, in
any order, gives the state that `update()` gives (up to the contents of caches), so that all points of the two surfaces are equal. -/
theorem C38_many {ε : K} {kind : PatchKind} {cs xs : List (Call K)} {P0 P1 P2 Q : Patch K} {L : List ℕ} (h0 : (Patch.new kind).run ε cs = .ok P0)
    (h1 : P0.step ε .update = .ok P1) (hx : ∀ x ∈ xs, x.within L) (h2 : P1.run ε xs = .ok P2) (hL : L ≠ [])
    (hQ : P2.run ε (L.map Call.updateSide) = .ok Q) :
    ∃ Q', P2.step ε .update = .ok Q' ∧ Same Q Q' ∧ ∀ uv, Prod.fst <$> Q'.eval ε uv = Prod.fst <$> Q.eval ε uv := by
  have v0 := (run_inv (new_inv ε kind) h0).1
  have v1 := (step_inv v0 h1).1
  have s1 := update_synced v0 h1
  have s1' := s1.mono (Set.empty_subset {j | j ∈ L})
  have s2 := run_synced v1 s1' hx h2
  have hn : P0.surf.n ≠ 0 := by
    obtain ⟨i, L', rfl⟩ := List.exists_cons_of_ne_nil hL
    rw [List.map_cons] at hQ
    unfold run at hQ
    obtain ⟨P3, e1, _⟩ := bind_ok hQ
    obtain ⟨D, S, a1, a2, a3, a4⟩ := updateSide_parts (show P2.updateSide ε i = .ok P3 from e1)
    have v2 := (run_inv v1 h2).1
    obtain ⟨_, _, k3, _⟩ := updateDomain_inv v2 a1
    have := updateOne_lt a3
    rw [k3, s2.n_eq] at this
    omega
  have hc : P0.curves ≠ [] := by
    intro e
    have := congrArg List.length e
    unfold curves at this
    rw [List.length_map] at this
    exact hn this
  have t1 := updated_settled v0 hn h1
  have t2 := run_settled t1 hc s1' hx h2
  obtain ⟨Q', u1, u2, u3, u4⟩ := many_aux t2 hc s2 hL hQ
  exact ⟨Q', u1, u2, fun uv => eval_same u2 u3 u4 uv⟩

end generic

/-! ### Examples -/

/-- C38_one applies to every class of surfaces on the square, with a new handler and multiplier of ribbon 1; both kinds of update succeed. -/
example (kind : PatchKind) : ∃ (cs : List (Call ℝ)) (P0 P1 P2 Q : Patch ℝ), (Patch.new kind).run (1 / 10000) cs = .ok P0 ∧ P0.step (1 / 10000) .update = .ok P1 ∧
    P1.run (1 / 10000) [.handler 1 ⟨0, 0, 1⟩, .mult 1 2] = .ok P2 ∧ P2.step (1 / 10000) (.updateSide 1) = .ok Q ∧ P2.step (1 / 10000) .update = .ok Q := by
  obtain ⟨P0, v, e0, u0, d0, -⟩ := square_built kind
  obtain ⟨P1, e1, u1, d1⟩ := C64_call (by norm_num) (by norm_num) square_good u0 d0 (x := .update) trivial
  rw [← d1] at d0
  obtain ⟨P2, e2, u2, d2⟩ := C64_history (by norm_num) (by norm_num) square_good u1 d0 (xs := [.handler 1 ⟨0, 0, 1⟩, .mult 1 2]) (by
    intro x hx
    simp only [List.mem_cons, List.not_mem_nil, or_false] at hx
    rcases hx with rfl | rfl
    · exact ⟨by norm_num, fun h => by simpa using congrArg P3.z h⟩
    · exact show 1 < 4 by norm_num)
  rw [← d2] at d0
  obtain ⟨Q, e3, u3, d3⟩ := C64_call (by norm_num) (by norm_num) square_good u2 d0 (x := .updateSide 1) (show 1 < 4 by norm_num)
  have hc : P2.curves.length = 4 := by
    unfold curves
    rw [List.length_map]
    exact (upToDate_ready u2.1 (by norm_num)).1.length
  refine ⟨_, P0, P1, P2, Q, e0, e1, e2, e3, (C38_one e0 e1 ?_ e2 (by rw [hc]; norm_num) Q).mp e3⟩
  intro x hx
  simp only [List.mem_cons, List.not_mem_nil, or_false] at hx
  rcases hx with rfl | rfl <;> exact List.mem_singleton.mpr rfl

/-- C38_many applies to every class of surfaces on the square, with new controls of ribbons 1 and 3. -/
example (kind : PatchKind) : ∃ (cs : List (Call ℝ)) (P0 P1 P2 Q Q' : Patch ℝ), (Patch.new kind).run (1 / 10000) cs = .ok P0 ∧ P0.step (1 / 10000) .update = .ok P1 ∧
    P1.run (1 / 10000) [.handler 1 ⟨0, 0, 1⟩, .mult 3 2] = .ok P2 ∧ P2.run (1 / 10000) [.updateSide 1, .updateSide 3] = .ok Q ∧
    P2.step (1 / 10000) .update = .ok Q' ∧ Same Q Q' := by
  obtain ⟨P0, v, e0, u0, d0, -⟩ := square_built kind
  obtain ⟨P1, e1, u1, d1⟩ := C64_call (by norm_num) (by norm_num) square_good u0 d0 (x := .update) trivial
  rw [← d1] at d0
  obtain ⟨P2, e2, u2, d2⟩ := C64_history (by norm_num) (by norm_num) square_good u1 d0 (xs := [.handler 1 ⟨0, 0, 1⟩, .mult 3 2]) (by
    intro x hx
    simp only [List.mem_cons, List.not_mem_nil, or_false] at hx
    rcases hx with rfl | rfl
    · exact ⟨by norm_num, fun h => by simpa using congrArg P3.z h⟩
    · exact show 3 < 4 by norm_num)
  rw [← d2] at d0
  obtain ⟨Q, e3, u3, d3⟩ := C64_history (by norm_num) (by norm_num) square_good u2 d0 (xs := [1, 3].map Call.updateSide) (by
    intro x hx
    simp only [List.map_cons, List.map_nil, List.mem_cons, List.not_mem_nil, or_false] at hx
    rcases hx with rfl | rfl
    · exact show 1 < 4 by norm_num
    · exact show 3 < 4 by norm_num)
  obtain ⟨Q', e4, s, -⟩ := C38_many (L := [1, 3]) e0 e1 (by
    intro x hx
    simp only [List.mem_cons, List.not_mem_nil, or_false] at hx
    rcases hx with rfl | rfl
    · exact show 1 ∈ [1, 3] by simp
    · exact show 3 ∈ [1, 3] by simp) e2 (by simp) e3
  exact ⟨_, P0, P1, P2, Q, Q', e0, e1, e2, e3, e4, s⟩

end Patch

end Transfinite
