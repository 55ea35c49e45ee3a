import Verif.Lemmas.Centre
import Verif.Props.Total

/-! # C36: the midpoint of the midpoint surfaces -/

namespace Transfinite

open Spec Real

namespace Patch

variable {K : Type} [Field K] [LinearOrder K] [Libm K]

/-- The two classes with a midpoint. -/
def Mid (P : Patch K) : Prop := P.kind = .midpoint ∨ P.kind = .midpointCoons

/-- `eval` of the midpoint classes depends affinely on the central control point. -/
theorem evalWith_central {ε : K} {P : Patch K} (hk : P.Mid) (l : List (P2 K)) {p : P3 K}
    (h : ({ P with central := 0 } : Patch K).evalWith ε l = .ok p) {b : List K} (hb : Surf.blendCornerDeficient ε P.surf.n l = .ok b) (c : P3 K) :
    ({ P with central := c } : Patch K).evalWith ε l = .ok (p + (1 - b.sum) • c) := by
  unfold evalWith at h ⊢
  rcases hk with hk | hk <;> rw [hk] at h ⊢ <;> dsimp only at h ⊢
  · unfold Surf.midpoint at h ⊢
    rw [hb, M_bind_ok] at h ⊢
    obtain ⟨q, h1, h2⟩ := bind_ok h
    rw [h1, M_bind_ok]
    have e := Except.ok.inj h2
    rw [← e, smul_zero, add_zero]
  · unfold Surf.midpointCoons at h ⊢
    rw [hb, M_bind_ok] at h ⊢
    obtain ⟨q, h1, h2⟩ := bind_ok h
    rw [h1, M_bind_ok]
    have e := Except.ok.inj h2
    rw [← e, smul_zero, add_zero]

/-- What `updateCentralControlPoint()` achieves. -/
theorem central_value {ε : K} {P P' : Patch K} (hk : P.Mid) (hp : ParamOk ε P) (h : P.updateCentral ε = .ok P')
    {l : List (P2 K)} (hl : ∃ o, Param.mapToRibbons ε P.kind.param P.dom.dom.center P.param = .ok (l, o))
    {b : List K} (hb : Surf.blendCornerDeficient ε P.surf.n l = .ok b) :
    ∃ m s, P.currentMid ε = .ok m ∧ ({ P with central := 0 } : Patch K).evalWith ε l = .ok s ∧
      P'.dom.dom = P.dom.dom ∧ ParamOk ε P' ∧
      (|1 - b.sum| < ε → ∃ Q, P'.eval ε P.dom.dom.center = .ok (s + (1 - b.sum) • m, Q)) ∧
      (ε ≤ |1 - b.sum| → 1 - b.sum ≠ 0 → ∃ Q, P'.eval ε P.dom.dom.center = .ok (m, Q)) := by
  unfold updateCentral at h
  obtain ⟨m, e0, h0⟩ := bind_ok h
  obtain ⟨s, e1, h1⟩ := bind_ok h0
  obtain ⟨f, e2, h2⟩ := bind_ok h1
  clear h h0 h1
  obtain ⟨o, hl⟩ := hl
  have q1 := eval_queried e1
  have q2 := deficiency_queried e2
  have p1 : ParamOk ε ({ P with mid := m, central := 0 } : Patch K) := hp
  have hs : ({ P with central := 0 } : Patch K).evalWith ε l = .ok s.1 := by
    unfold eval at e1
    change (Param.mapToRibbons ε P.kind.param P.dom.dom.center P.param >>= _) = _ at e1
    rw [hl, M_bind_ok] at e1
    obtain ⟨q, a1, a2⟩ := bind_ok e1
    rw [← Except.ok.inj a2]
    exact a1
  -- the local parameters in any later state
  have hmap : ∀ {P1 : Patch K}, Queried ε ({ P with mid := m, central := 0 } : Patch K) P1 →
      ∃ o, Param.mapToRibbons ε P1.kind.param P.dom.dom.center P1.param = .ok (l, o) := by
    intro P1 q
    obtain ⟨o1, a1, a2⟩ := maps_eq p1 P.dom.dom.center
    obtain ⟨o2, b1, b2⟩ := maps_eq (q.paramOk p1) P.dom.dom.center
    rw [q.kind, q.dom, a1] at b1
    cases b1
    rw [q.dom] at b2
    rw [show ({ P with mid := m, central := 0 } : Patch K).param = P.param from rfl] at a2
    change Prod.fst <$> Param.mapToRibbons ε P.kind.param P.dom.dom.center P.param = _ at a2
    rw [hl] at a2
    have b3 : Prod.fst <$> Param.mapToRibbons ε P1.kind.param P.dom.dom.center P1.param = .ok l := by
      rw [b2, q.kind]; exact a2.symm
    cases hx : Param.mapToRibbons ε P1.kind.param P.dom.dom.center P1.param with
    | error e => rw [hx] at b3; cases b3
    | ok x => rw [hx] at b3; exact ⟨x.2, by rw [← Except.ok.inj b3]⟩
  have hf : f.1 = 1 - b.sum := by
    unfold deficiency at e2
    obtain ⟨o', hm⟩ := hmap q1
    rw [show ({ P with mid := m, central := 0 } : Patch K).dom.dom = P.dom.dom from rfl] at e2
    rw [hm, M_bind_ok, q1.surf] at e2
    change (Surf.blendCornerDeficient ε P.surf.n l >>= _) = _ at e2
    rw [hb, M_bind_ok] at e2
    rw [← Except.ok.inj e2]
  have q := q1.trans q2
  have fin : ∀ c : P3 K, ∃ Q, ({ f.2 with central := c } : Patch K).eval ε P.dom.dom.center = .ok (s.1 + (1 - b.sum) • c, Q) := by
    intro c
    obtain ⟨o', hm⟩ := hmap q
    refine ⟨_, eval_of (P := { f.2 with central := c }) hm ?_⟩
    have hk' : f.2.Mid := by unfold Mid; rw [q.kind]; exact hk
    refine evalWith_central hk' l ?_ (by rw [q.surf]; exact hb) c
    have : ({ f.2 with central := 0 } : Patch K).evalWith ε l = ({ P with central := 0 } : Patch K).evalWith ε l := by
      unfold evalWith
      rw [show ({ f.2 with central := 0 } : Patch K).kind = P.kind from q.kind, show ({ f.2 with central := 0 } : Patch K).surf = P.surf from q.surf]
    rw [this, hs]
  have hp' : ∀ c : P3 K, ParamOk ε ({ f.2 with central := c } : Patch K) := fun c => q.paramOk p1
  rw [hf] at h2
  refine ⟨m, s.1, e0, hs, ?_, ?_, ?_, ?_⟩
  · split_ifs at h2
    · rw [← Except.ok.inj h2]; exact q.dom
    · obtain ⟨c, _, h3⟩ := bind_ok h2
      rw [← Except.ok.inj h3]; exact q.dom
  · split_ifs at h2
    · rw [← Except.ok.inj h2]; exact hp' _
    · obtain ⟨c, _, h3⟩ := bind_ok h2
      rw [← Except.ok.inj h3]; exact hp' _
  · intro hlt
    rw [if_pos hlt] at h2
    rw [← Except.ok.inj h2]
    exact fin m
  · intro hge hne
    rw [if_neg (not_lt.mpr hge)] at h2
    obtain ⟨c, h3, h4⟩ := bind_ok h2
    unfold Ribbon.vdiv at h3
    rw [fdiv_of_ne hne, M_bind_ok] at h3
    rw [← Except.ok.inj h4, ← Except.ok.inj h3]
    obtain ⟨Q, e⟩ := fin ((1 / (1 - b.sum)) • (m - s.1))
    refine ⟨Q, ?_⟩
    rw [e, smul_smul, mul_one_div_cancel hne, one_smul, add_sub_cancel]

/-- The calls ending with `updateCentralControlPoint()`. -/
def Call.refreshes : Call K → Bool
  | .setMid _ => true
  | .unsetMid => true
  | .update => true
  | .updateSide _ => true
  | _ => false

/-- The midpoint settings after a call: whether it is set, and its value. -/
def midAfter (s : Bool × P3 K) : Call K → Bool × P3 K
  | .setMid p => (true, p)
  | .unsetMid => (false, s.2)
  | _ => s

theorem refresh_parts {ε : K} {P P' : Patch K} {n : ℕ} {c : ℕ → Curve K} (hn : n ≠ 0) (hp : Ready ε P n c) (hk : P.Mid) {x : Call K}
    (hx : x.refreshes = true) (h : P.step ε x = .ok P') :
    ∃ X : Patch K, Ready ε X n c ∧ X.kind = P.kind ∧ X.updateCentral ε = .ok P' ∧ X.midSet = (midAfter (P.midSet, P.mid) x).1 ∧
      X.mid = (midAfter (P.midSet, P.mid) x).2 := by
  have fin : ∀ {Y : Patch K}, Y.kind = P.kind → Y.finish ε = Y.updateCentral ε := by
    intro Y hY
    unfold finish
    rcases hk with hk | hk <;> rw [hY, hk]
  cases x <;> simp only [Call.refreshes, Bool.false_eq_true] at hx
  case setMid p =>
    unfold step at h
    dsimp only at h
    rw [if_pos (show P.kind = .midpoint ∨ P.kind = .midpointCoons from hk)] at h
    exact ⟨{ P with mid := p, midSet := true }, hp.congr (hp.inv.congr rfl rfl rfl hp.inv.kinds) rfl rfl rfl rfl, rfl, h, rfl, rfl⟩
  case unsetMid =>
    unfold step at h
    dsimp only at h
    rw [if_pos (show P.kind = .midpoint ∨ P.kind = .midpointCoons from hk)] at h
    exact ⟨{ P with midSet := false }, hp.congr (hp.inv.congr rfl rfl rfl hp.inv.kinds) rfl rfl rfl rfl, rfl, h, rfl, rfl⟩
  case update =>
    obtain ⟨D, S, e1, hl, e2, e3⟩ := update_parts (show P.update ε = .ok P' from h)
    obtain ⟨k1, k2, k3, k4, k5, k6, _⟩ := updateDomain_inv hp.inv e1
    obtain ⟨r, h1, h2⟩ := hp.surf.basic
    refine ⟨{ D with surf := S }, ⟨k1.congr rfl rfl rfl (updateAll_kinds k1.kinds e2), ?_, ?_, hl, ?_⟩, k2, ?_, k5, k6⟩
    · change S.Ready ε D.kind.ribbon n c
      rw [k3] at e2
      rw [k2]
      exact Surf.updateAll_ready h1 h2 e2
    · intro hr
      change D.dom.dom.n = n
      rw [updateDomain_regular e1 (by rw [← k2]; exact hr), hp.length]
    · intro hr
      rw [← curves_tab h1 (fun j hj => (h2 j hj).2.1)]
      change _ = Except.ok D.dom.dom
      exact updateDomain_angular e1 (by rw [← k2]; exact hr)
    · rw [← fin (Y := { D with surf := S }) k2]; exact e3
  case updateSide i =>
    unfold step updateSide at h
    obtain ⟨P1, e1, h'⟩ := bind_ok h
    obtain ⟨k1, k2, k3, k4, k5, k6, _⟩ := updateDomain_inv hp.inv e1
    split_ifs at h' with hl
    obtain ⟨S, e2, h''⟩ := bind_ok h'
    refine ⟨{ P1 with surf := S }, ⟨k1.congr rfl rfl rfl (updateOne_kinds k1.kinds e2), ?_, ?_, hl, ?_⟩, k2, ?_, k5, k6⟩
    · change S.Ready ε P1.kind.ribbon n c
      rw [k3] at e2
      rw [k2]
      exact Surf.updateOne_ready hp.surf e2
    · intro hr
      change P1.dom.dom.n = n
      rw [updateDomain_regular e1 (by rw [← k2]; exact hr), hp.length]
    · intro hr
      obtain ⟨r, h1, h2⟩ := hp.surf.basic
      rw [← curves_tab h1 (fun j hj => (h2 j hj).2.1)]
      change _ = Except.ok P1.dom.dom
      exact updateDomain_angular e1 (by rw [← k2]; exact hr)
    · rw [← fin (Y := { P1 with surf := S }) k2]; exact h''

/-- The midpoint settings are those of the calls. -/
theorem step_mid {ε : K} {P P' : Patch K} {x : Call K} (h : P.step ε x = .ok P') (hp : Inv ε P) :
    P'.midSet = (midAfter (P.midSet, P.mid) x).1 ∧ (P'.midSet = true → P'.mid = (midAfter (P.midSet, P.mid) x).2) := by
  have central : ∀ {X : Patch K}, X.updateCentral ε = .ok P' → P'.midSet = X.midSet ∧ (X.midSet = true → P'.mid = X.mid) := by
    intro X h
    have h0 := h
    obtain ⟨Q, m, c, hq, hP⟩ := updateCentral_form h
    refine ⟨by rw [hP]; exact hq.midSet, ?_⟩
    intro hs
    unfold updateCentral at h0
    obtain ⟨m', e0, h1⟩ := bind_ok h0
    obtain ⟨s, e1, h2⟩ := bind_ok h1
    obtain ⟨f, e2, h3⟩ := bind_ok h2
    have hm : m' = X.mid := by
      unfold currentMid at e0
      rw [if_pos hs] at e0
      exact (Except.ok.inj e0).symm
    have q := (eval_queried e1).trans (deficiency_queried e2)
    split_ifs at h3
    · rw [← Except.ok.inj h3]; exact q.mid.trans hm
    · obtain ⟨c', _, h4⟩ := bind_ok h3
      rw [← Except.ok.inj h4]; exact q.mid.trans hm
  have fin : ∀ {X : Patch K}, X.finish ε = .ok P' → P'.midSet = X.midSet ∧ (X.midSet = true → P'.mid = X.mid) := by
    intro X h
    unfold finish at h
    split at h
    · exact central h
    · exact central h
    · rw [← Except.ok.inj h]; exact ⟨rfl, fun _ => rfl⟩
  have query : ∀ {y : Call K}, y.isQuery = true → P.step ε y = .ok P' → P'.midSet = P.midSet ∧ (P'.midSet = true → P'.mid = P.mid) := by
    intro y hy h
    have q := query_queried hy h
    exact ⟨q.midSet, fun _ => q.mid⟩
  have onr : ∀ {i f}, P.onRibbon i f = .ok P' → P'.midSet = P.midSet ∧ (P'.midSet = true → P'.mid = P.mid) := by
    intro i f h
    unfold onRibbon at h
    obtain ⟨_, _, h1⟩ := bind_ok h
    obtain ⟨_, _, h2⟩ := bind_ok h1
    obtain ⟨_, _, h3⟩ := bind_ok h2
    rw [← Except.ok.inj h3]
    exact ⟨rfl, fun _ => rfl⟩
  cases x with
  | gamma g => cases h; exact ⟨rfl, fun _ => rfl⟩
  | curve i c =>
    unfold step setCurve at h
    dsimp only at h
    split_ifs at h
    rw [← Except.ok.inj h]
    exact ⟨rfl, fun _ => rfl⟩
  | curves cs => cases h; exact ⟨rfl, fun _ => rfl⟩
  | loop =>
    unfold step setupLoop at h
    obtain ⟨_, _, h1⟩ := bind_ok h
    rw [← Except.ok.inj h1]
    exact ⟨rfl, fun _ => rfl⟩
  | handler i v => exact onr h
  | mult i m => exact onr h
  | fence i f => exact onr h
  | reset i => exact onr h
  | setMid p =>
    unfold step at h
    dsimp only at h
    split_ifs at h
    obtain ⟨a, b⟩ := central h
    exact ⟨a, fun _ => b rfl⟩
  | unsetMid =>
    unfold step at h
    dsimp only at h
    split_ifs at h
    obtain ⟨a, b⟩ := central h
    exact ⟨a, fun q => by rw [a] at q; cases q⟩
  | update =>
    obtain ⟨D, S, e1, hl, e2, e3⟩ := update_parts (show P.update ε = .ok P' from h)
    obtain ⟨_, _, _, _, k5, k6, _⟩ := updateDomain_inv hp e1
    obtain ⟨a, b⟩ := fin e3
    exact ⟨a.trans k5, fun q => (b (a ▸ q)).trans k6⟩
  | updateSide i =>
    unfold step updateSide at h
    obtain ⟨P1, e1, h'⟩ := bind_ok h
    obtain ⟨_, _, _, _, k5, k6, _⟩ := updateDomain_inv hp e1
    split_ifs at h' with hl
    obtain ⟨S, e2, h''⟩ := bind_ok h'
    obtain ⟨a, b⟩ := fin h''
    exact ⟨a.trans k5, fun q => (b (a ▸ q)).trans k6⟩
  | eval uv => exact query rfl h
  | mesh res => exact query rfl h
  | domainParams res => exact query rfl h
  | mapSide i uv => exact query rfl h
  | mapSides uv => exact query rfl h

/-- The midpoint set by the last `setMidpoint`/`unsetMidpoint` call of a history. -/
def lastMid : Option (P3 K) → List (Call K) → Option (P3 K)
  | o, [] => o
  | _, .setMid p :: xs => lastMid (some p) xs
  | _, .unsetMid :: xs => lastMid none xs
  | o, _ :: xs => lastMid o xs

/-- The members `midpoint_set_` and `midpoint_` agree with `o`. -/
def MidIs (P : Patch K) : Option (P3 K) → Prop
  | none => P.midSet = false
  | some p => P.midSet = true ∧ P.mid = p

theorem run_mid {ε : K} {P P' : Patch K} {xs : List (Call K)} (h : P.run ε xs = .ok P') (hp : Inv ε P) {o : Option (P3 K)} (ho : P.MidIs o) :
    P'.MidIs (lastMid o xs) := by
  induction xs generalizing P o with
  | nil => cases h; exact ho
  | cons x xs ih =>
    unfold run at h
    obtain ⟨P1, e1, h1⟩ := bind_ok h
    obtain ⟨a, b⟩ := step_mid e1 hp
    have hp1 := (step_inv hp e1).1
    have same : midAfter (P.midSet, P.mid) x = (P.midSet, P.mid) → P1.MidIs o := by
      intro q
      rw [q] at a b
      cases o with
      | none => exact a.trans ho
      | some p => exact ⟨a.trans ho.1, (b (a.trans ho.1)).trans ho.2⟩
    cases x with
    | setMid p => exact ih h1 hp1 (o := some p) ⟨a, b a⟩
    | unsetMid => exact ih h1 hp1 (o := none) a
    | _ => exact ih h1 hp1 (o := o) (same rfl)

end Patch

section real

open Patch

variable {ε : ℝ} {n : ℕ} {c : ℕ → Curve ℝ} {P P1 P2 : Patch ℝ}

/-- One minus the sum of the blends at the centre. -/
noncomputable def centreDeficiency (kind : PatchKind) (n : ℕ) : ℝ :=
  if kind = .midpoint then ((n : ℝ) - 2) * (n - 4) / n ^ 2 else coonsDeficiency n

private theorem centre_data (hε : 0 < ε) (hε1 : ε ≤ 1 / 3) (hε2 : ε ≤ 2 / n) (hn : 3 ≤ n) {X : Patch ℝ} (hr : Ready ε X n c) (hk : X.Mid) :
    ∃ l b, (∃ o, Param.mapToRibbons ε X.kind.param X.dom.dom.center X.param = .ok (l, o)) ∧
      Surf.blendCornerDeficient ε X.surf.n l = .ok b ∧ 1 - b.sum = centreDeficiency X.kind n := by
  have hreg : X.kind.regular = true := by rcases hk with hk | hk <;> rw [hk] <;> rfl
  have hn0 : (0 : ℝ) < n := by positivity
  have hn3 : (3 : ℝ) ≤ n := by exact_mod_cast hn
  obtain ⟨vs, e1, e2⟩ := (hr.inv.regular hreg).resolve_left (by rw [hr.dom hreg]; omega)
  rw [hr.dom hreg] at e1
  obtain ⟨r, φ, hr1, hd, hc⟩ := regular_convex hn e1 e2
  have hpar : ParamOk ε X := hr.inv.param.resolve_left (by rw [hd.n_eq]; omega)
  have t1 : (2 : ℝ) / n ≤ 2 / 3 := by
    rw [div_le_div_iff₀ hn0 (by norm_num)]; linarith
  rw [hc, hr.length]
  rcases hk with hk | hk
  · obtain ⟨o, e⟩ := maps_of_raw hpar hd.length_eq (uv := 0) (f := fun _ => ⟨1 / 2, 1 - 2 / n⟩) (by
      intro o _ j hj
      rw [hk]
      exact baryMap_centre (by linarith) hd (by linarith) hε2 hj)
    refine ⟨_, _, ⟨o, e⟩, deficient_const (by omega) (by linarith) (by linarith), ?_⟩
    rw [sum_tab, Finset.sum_const, Finset.card_range, nsmul_eq_mul]
    unfold centreDeficiency
    rw [if_pos hk]
    field_simp
    ring
  · obtain ⟨g1, g2⟩ := centreDist_ge hn
    obtain ⟨o, e⟩ := maps_of_raw hpar hd.length_eq (uv := 0) (f := fun _ => ⟨1 / 2, centreDist n⟩) (by
      intro o _ j hj
      rw [hk]
      exact constrained_centre (by linarith) hd hε1 hε2 hj)
    refine ⟨_, _, ⟨o, e⟩, deficient_const (by omega) (by linarith) (by linarith), ?_⟩
    rw [sum_tab, Finset.sum_const, Finset.card_range, nsmul_eq_mul]
    unfold centreDeficiency
    rw [if_neg (by rw [hk]; decide)]
    rfl

private theorem centreDeficiency_ge {kind : PatchKind} (hn : 3 ≤ n) (h4 : n ≠ 4) : 1 / 200 ≤ |centreDeficiency kind n| := by
  unfold centreDeficiency
  split_ifs
  · have hn0 : (0 : ℝ) < n := by positivity
    rcases Nat.lt_or_ge n 5 with h | h
    · have : n = 3 := by omega
      subst this
      norm_num [abs_of_neg]
    · have h5 : (5 : ℝ) ≤ n := by exact_mod_cast h
      rw [abs_of_nonneg (by have : (0 : ℝ) ≤ (n - 2) * (n - 4) := by nlinarith
                            positivity), div_le_div_iff₀ (by norm_num) (by positivity)]
      nlinarith
  · exact coonsDeficiency_ge hn h4

private theorem centreDeficiency_four (kind : PatchKind) : centreDeficiency kind 4 = 0 := by
  unfold centreDeficiency
  split_ifs
  · norm_num
  · exact coonsDeficiency_four

/-- The value at the centre. -/
def CentreValue (ε : ℝ) (P : Patch ℝ) (p : P3 ℝ) : Prop := ∃ Q, P.eval ε P.dom.dom.center = .ok (p, Q)

/-- The average of the points of the ribbons in their middle, at distance 1/2 (which is 1/4 after `gamma`). -/
def RibbonAverage (ε : ℝ) (P : Patch ℝ) (n : ℕ) (p : P3 ℝ) : Prop :=
  ∃ q : ℕ → P3 ℝ, (∀ i < n, ∃ r, vget P.surf.ribbons i = .ok r ∧ r.eval ε ⟨1 / 2, if P.surf.useGamma then 1 / 4 else 1 / 2⟩ = .ok (q i)) ∧
    p = (1 / (n : ℝ)) • ∑ i ∈ Finset.range n, q i

private theorem default_average (hn : 3 ≤ n) {X : Patch ℝ} (hlen : X.surf.n = n) {m : P3 ℝ} (h : defaultMidpoint ε X.surf = .ok m) :
    RibbonAverage ε X n m := by
  unfold defaultMidpoint at h
  obtain ⟨sum, h1, h2⟩ := bind_ok h
  rw [hlen] at h1 h2
  have hg : X.surf.gamma (1 / 2) = .ok (if X.surf.useGamma then 1 / 4 else 1 / 2) := by
    unfold Surf.gamma
    split_ifs
    · rw [fdiv_of_ne (by norm_num)]; norm_num
    · rfl
  have hside : ∀ i, X.surf.sideInterpolant ε i (1 / 2) (1 / 2) = (do
      let r ← vget X.surf.ribbons i
      r.eval ε ⟨1 / 2, if X.surf.useGamma then 1 / 4 else 1 / 2⟩) := by
    intro i
    unfold Surf.sideInterpolant
    rw [hg, M_bind_ok]
    have c1 : Domain.clamp (1 / 2 : ℝ) 0 1 = 1 / 2 := by norm_num [Domain.clamp]
    have c2 : max (if X.surf.useGamma then 1 / 4 else 1 / 2 : ℝ) 0 = if X.surf.useGamma then 1 / 4 else 1 / 2 := by
      split_ifs <;> norm_num
    rw [c1, c2]
  have main : ∀ k ≤ n, ∀ s, forLoop k (fun i (p : P3 ℝ) => do
      let q ← X.surf.sideInterpolant ε i (1 / 2) (1 / 2)
      .ok (p + q)) 0 = .ok s → ∃ q : ℕ → P3 ℝ, (∀ i < k, ∃ r, vget X.surf.ribbons i = .ok r ∧
        r.eval ε ⟨1 / 2, if X.surf.useGamma then 1 / 4 else 1 / 2⟩ = .ok (q i)) ∧ s = ∑ i ∈ Finset.range k, q i := by
    intro k
    induction k with
    | zero => intro _ s hs; exact ⟨fun _ => 0, by simp, by simpa [forLoop] using hs.symm⟩
    | succ k ih =>
      intro hk s hs
      rw [forLoop_succ] at hs
      obtain ⟨s', a1, a2⟩ := bind_ok hs
      obtain ⟨q', b1, b2⟩ := bind_ok a2
      obtain ⟨q, c1, c2⟩ := ih (by omega) s' a1
      rw [hside] at b1
      obtain ⟨r, d1, d2⟩ := bind_ok b1
      refine ⟨Function.update q k q', ?_, ?_⟩
      · intro i hi
        by_cases hik : i = k
        · subst hik
          rw [Function.update_self]
          exact ⟨r, d1, d2⟩
        · rw [Function.update_of_ne hik]
          exact c1 i (by omega)
      · rw [← Except.ok.inj b2, c2, Finset.sum_range_succ, Function.update_self]
        congr 1
        apply Finset.sum_congr rfl
        intro i hi
        rw [Function.update_of_ne (by have := Finset.mem_range.mp hi; omega)]
  obtain ⟨q, c1, c2⟩ := main n le_rfl sum h1
  unfold Ribbon.vdiv at h2
  rw [fdiv_of_ne (by positivity), M_bind_ok] at h2
  exact ⟨q, c1, by rw [← Except.ok.inj h2, c2]⟩

/-- Common part: a call that refreshes the central control point, then queries. -/
private theorem refreshed (hε : 0 < ε) (hε1 : ε ≤ 1 / 200) (hε2 : ε ≤ 2 / n) (hn : 3 ≤ n) {kind : PatchKind}
    (hk : kind = .midpoint ∨ kind = .midpointCoons) (h : UpToDate ε kind n c P) {x : Call ℝ} (hx : x.refreshes = true)
    (e : P.step ε x = .ok P1) {qs : List (Call ℝ)} (hqs : ∀ q ∈ qs, q.isQuery = true) (e' : P1.run ε qs = .ok P2) :
    ∃ (X : Patch ℝ) (m : P3 ℝ), X.currentMid ε = .ok m ∧ X.surf = P2.surf ∧ X.surf.n = n ∧ X.midSet = (midAfter (P.midSet, P.mid) x).1 ∧
      X.mid = (midAfter (P.midSet, P.mid) x).2 ∧
      (n ≠ 4 → CentreValue ε P2 m) ∧ (n = 4 → ∃ l s, (∃ o, Param.mapToRibbons ε X.kind.param X.dom.dom.center X.param = .ok (l, o)) ∧
        ({ X with central := 0 } : Patch ℝ).evalWith ε l = .ok s ∧ CentreValue ε P2 s) := by
  obtain ⟨hr, hk'⟩ := upToDate_ready h hn
  have hmid : P.Mid := by unfold Patch.Mid; rw [hk']; exact hk
  obtain ⟨X, r1, r2, r3, r4, r5⟩ := refresh_parts (by omega) hr hmid hx e
  have hX : X.Mid := by unfold Patch.Mid; rw [r2]; exact hmid
  obtain ⟨l, b, d1, d2, d3⟩ := centre_data hε (by linarith) hε2 hn r1 hX
  have hreg : X.kind.regular = true := by rcases hX with hk | hk <;> rw [hk] <;> rfl
  have hpar : ParamOk ε X := r1.inv.param.resolve_left (by rw [r1.dom hreg]; omega)
  obtain ⟨m, s, m1, m2, m3, m4, m5, m6⟩ := central_value hX hpar r3 d1 d2
  have q := queries_queried hqs e'
  have hs1 : P1.surf = X.surf := by
    obtain ⟨Q, _, _, hq, rfl⟩ := updateCentral_form r3
    exact hq.surf
  have value : ∀ p, (∃ Q, P1.eval ε X.dom.dom.center = .ok (p, Q)) → CentreValue ε P2 p := by
    intro p hp
    unfold CentreValue
    rw [q.dom, m3]
    exact (q.eval_iff m4 _ _).mpr hp
  refine ⟨X, m, m1, by rw [q.surf, hs1], r1.length, r4, r5, ?_, ?_⟩
  · intro h4
    have hge := centreDeficiency_ge (kind := X.kind) hn h4
    rw [← d3] at hge
    exact value m (m6 (by linarith) (fun q => by rw [q, abs_zero] at hge; linarith))
  · intro h4
    rw [h4, centreDeficiency_four] at d3
    refine ⟨l, s, d1, m2, value s ?_⟩
    have := m5 (by rw [d3, abs_zero]; exact hε)
    rwa [d3, zero_smul, add_zero] at this

/-- C36: after `setMidpoint(p)` the value at the centre is `p`, unless the loop has four sides. -/
theorem C36_set (hε : 0 < ε) (hε1 : ε ≤ 1 / 200) (hε2 : ε ≤ 2 / n) (hn : 3 ≤ n) (h4 : n ≠ 4) {kind : PatchKind}
    (hk : kind = .midpoint ∨ kind = .midpointCoons) (h : UpToDate ε kind n c P) {p : P3 ℝ} (e : P.step ε (.setMid p) = .ok P1)
    {qs : List (Call ℝ)} (hqs : ∀ q ∈ qs, q.isQuery = true) (e' : P1.run ε qs = .ok P2) : CentreValue ε P2 p := by
  obtain ⟨X, m, m1, _, _, m2, m3, m4, _⟩ := refreshed hε hε1 hε2 hn hk h rfl e hqs e'
  unfold currentMid at m1
  rw [if_pos (show X.midSet = true from m2)] at m1
  have : p = m := by rw [← Except.ok.inj m1, m3]; rfl
  rw [this]
  exact m4 h4

/-- C36: the midpoint is kept by later updates: if the last midpoint call of the whole history set `p`, then after `update()` or
`update(i)` the value at the centre is `p`. -/
theorem C36_kept (hε : 0 < ε) (hε1 : ε ≤ 1 / 200) (hε2 : ε ≤ 2 / n) (hn : 3 ≤ n) (h4 : n ≠ 4) {kind : PatchKind}
    (hk : kind = .midpoint ∨ kind = .midpointCoons) {cs : List (Call ℝ)} (hcs : (Patch.new kind).run ε cs = .ok P) (h : UpToDate ε kind n c P)
    {p : P3 ℝ} (hp : lastMid none cs = some p) {x : Call ℝ} (hx : x = .update ∨ ∃ i, x = .updateSide i) (e : P.step ε x = .ok P1)
    {qs : List (Call ℝ)} (hqs : ∀ q ∈ qs, q.isQuery = true) (e' : P1.run ε qs = .ok P2) : CentreValue ε P2 p := by
  have hm := run_mid hcs (new_inv ε kind) (o := none) rfl
  rw [hp] at hm
  have hx1 : x.refreshes = true := by rcases hx with rfl | ⟨i, rfl⟩ <;> rfl
  have hx2 : midAfter (P.midSet, P.mid) x = (P.midSet, P.mid) := by rcases hx with rfl | ⟨i, rfl⟩ <;> rfl
  obtain ⟨X, m, m1, _, _, m2, m3, m4, _⟩ := refreshed hε hε1 hε2 hn hk h hx1 e hqs e'
  rw [hx2] at m2 m3
  unfold currentMid at m1
  rw [if_pos (m2.trans hm.1)] at m1
  have : p = m := by rw [← Except.ok.inj m1, m3]; exact hm.2.symm
  rw [this]
  exact m4 h4

/-- C36: after `unsetMidpoint()`, or after an update when the midpoint is not set, the value at the centre is the average of the middle
points of the ribbons. -/
theorem C36_default (hε : 0 < ε) (hε1 : ε ≤ 1 / 200) (hε2 : ε ≤ 2 / n) (hn : 3 ≤ n) (h4 : n ≠ 4) {kind : PatchKind}
    (hk : kind = .midpoint ∨ kind = .midpointCoons) {cs : List (Call ℝ)} (hcs : (Patch.new kind).run ε cs = .ok P) (h : UpToDate ε kind n c P)
    {x : Call ℝ} (hx : x = .unsetMid ∨ (lastMid none cs = none ∧ (x = .update ∨ ∃ i, x = .updateSide i))) (e : P.step ε x = .ok P1)
    {qs : List (Call ℝ)} (hqs : ∀ q ∈ qs, q.isQuery = true) (e' : P1.run ε qs = .ok P2) :
    ∃ p, RibbonAverage ε P2 n p ∧ CentreValue ε P2 p := by
  have hm := run_mid hcs (new_inv ε kind) (o := none) rfl
  have hx1 : x.refreshes = true := by rcases hx with rfl | ⟨_, rfl | ⟨i, rfl⟩⟩ <;> rfl
  have hx2 : (midAfter (P.midSet, P.mid) x).1 = false := by
    rcases hx with rfl | ⟨hl, rfl | ⟨i, rfl⟩⟩
    · rfl
    · rw [hl] at hm; exact hm
    · rw [hl] at hm; exact hm
  obtain ⟨X, m, m1, ms, ml, m2, _, m4, _⟩ := refreshed hε hε1 hε2 hn hk h hx1 e hqs e'
  unfold currentMid at m1
  rw [m2, hx2] at m1
  have ha := default_average hn ml m1
  refine ⟨m, ?_, m4 h4⟩
  unfold RibbonAverage at ha ⊢
  rwa [ms] at ha

/-- C36: for four sides the midpoint setting has no effect on the value at the centre. -/
theorem C36_four (hε : 0 < ε) (hε1 : ε ≤ 1 / 200) {kind : PatchKind} (hk : kind = .midpoint ∨ kind = .midpointCoons)
    {c : ℕ → Curve ℝ} {P P1 P2 P1' P2' : Patch ℝ} (h : UpToDate ε kind 4 c P) {x y : Call ℝ} (hx : x = .unsetMid ∨ ∃ p, x = .setMid p)
    (hy : y = .unsetMid ∨ ∃ p, y = .setMid p) (e1 : P.step ε x = .ok P1) (e2 : P.step ε y = .ok P2)
    {qs qs' : List (Call ℝ)} (hqs : ∀ q ∈ qs, q.isQuery = true) (hqs' : ∀ q ∈ qs', q.isQuery = true)
    (e1' : P1.run ε qs = .ok P1') (e2' : P2.run ε qs' = .ok P2') : ∃ p, CentreValue ε P1' p ∧ CentreValue ε P2' p := by
  have step : ∀ {z : Call ℝ} {Q Q' : Patch ℝ} {qs : List (Call ℝ)}, (z = .unsetMid ∨ ∃ p, z = .setMid p) → P.step ε z = .ok Q →
      (∀ q ∈ qs, q.isQuery = true) → Q.run ε qs = .ok Q' → ∃ l s, (∃ o, Param.mapToRibbons ε P.kind.param P.dom.dom.center P.param = .ok (l, o)) ∧
        ({ P with central := 0 } : Patch ℝ).evalWith ε l = .ok s ∧ CentreValue ε Q' s := by
    intro z Q Q' qs hz e hqs e'
    obtain ⟨hr, hk'⟩ := upToDate_ready h (by norm_num)
    have hmid : P.kind = .midpoint ∨ P.kind = .midpointCoons := by rw [hk']; exact hk
    have hz' : ∃ X : Patch ℝ, X.updateCentral ε = .ok Q ∧ X.kind = P.kind ∧ X.dom = P.dom ∧ X.param = P.param ∧ X.surf = P.surf ∧
        X.linked = P.linked := by
      unfold Patch.step at e
      rcases hz with rfl | ⟨p, rfl⟩ <;> dsimp only at e <;> rw [if_pos hmid] at e
      · exact ⟨_, e, rfl, rfl, rfl, rfl, rfl⟩
      · exact ⟨_, e, rfl, rfl, rfl, rfl, rfl⟩
    obtain ⟨X, x0, x1, x2, x3, x4, x5⟩ := hz'
    have hX : Ready ε X 4 c := hr.congr (hr.inv.congr x1 x2 x3 (by rw [x4]; exact hr.inv.kinds)) x1 (by rw [x2]) x4 x5
    have hXm : X.Mid := by unfold Patch.Mid; rw [x1]; exact hmid
    obtain ⟨l, b, d1, d2, d3⟩ := centre_data hε (by linarith) (by norm_num; linarith) (by norm_num) hX hXm
    have hreg : X.kind.regular = true := by rcases hXm with hk | hk <;> rw [hk] <;> rfl
    have hpar : ParamOk ε X := hX.inv.param.resolve_left (by rw [hX.dom hreg]; norm_num)
    obtain ⟨m, s, m1, m2, m3, m4, m5, m6⟩ := central_value hXm hpar x0 d1 d2
    have q := queries_queried hqs e'
    rw [x1, x2, x3] at d1
    refine ⟨l, s, d1, ?_, ?_⟩
    · rw [← m2]
      unfold evalWith
      rw [show ({ X with central := 0 } : Patch ℝ).kind = P.kind from x1, show ({ X with central := 0 } : Patch ℝ).surf = P.surf from x4]
    · rw [centreDeficiency_four] at d3
      have := m5 (by rw [d3, abs_zero]; exact hε)
      rw [d3, zero_smul, add_zero] at this
      unfold CentreValue
      rw [q.dom, m3]
      exact (q.eval_iff m4 _ _).mpr this
  obtain ⟨l, s, ⟨o, a1⟩, a2, a3⟩ := step hx e1 hqs e1'
  obtain ⟨l', s', ⟨o', b1⟩, b2, b3⟩ := step hy e2 hqs' e2'
  rw [a1] at b1
  have hl := (Prod.mk.inj (Except.ok.inj b1)).1
  rw [← hl, a2] at b2
  rw [← Except.ok.inj b2] at b3
  exact ⟨s, a3, b3⟩

/-! ### Non-vacuity: a triangle -/

/-- The boundary curves of a right triangle. -/
noncomputable def triangleLoop : ℕ → Curve ℝ
  | 0 => segment ⟨0, 0, 0⟩ ⟨10, 0, 0⟩
  | 1 => segment ⟨10, 0, 0⟩ ⟨0, 10, 0⟩
  | _ => segment ⟨0, 10, 0⟩ ⟨0, 0, 0⟩

theorem triangle_good : GoodLoop (1 / 10000) 3 triangleLoop := by
  refine ⟨by norm_num, ?_, ?_, ?_, ?_⟩
  · intro j hj
    interval_cases j <;> (ext <;> norm_num [triangleLoop, segment])
  · intro j hj s _ _ h
    have h1 := congrArg P3.x h
    have h2 := congrArg P3.y h
    interval_cases j <;> first | (norm_num [triangleLoop, segment] at h1; done) | norm_num [triangleLoop, segment] at h2
  · intro j hj
    interval_cases j <;> exact segment_exact (by norm_num) (by norm_num) (by norm_num [P3.dot])
  · intro j hj h
    have h1 := congrArg P3.z h
    interval_cases j <;> norm_num [triangleLoop, segment, P3.cross] at h1

/-- The calls building a surface on the triangle, with the handler (1,2,3) on each side. -/
noncomputable def triangleCalls : List (Call ℝ) :=
  [.curves (tab 3 triangleLoop), .loop] ++ [.handler 0 ⟨1, 2, 3⟩, .handler 1 ⟨1, 2, 3⟩, .handler 2 ⟨1, 2, 3⟩] ++ [.update]

theorem triangle_built (kind : PatchKind) (hk : kind ≠ .sideBased) : ∃ P v, (Patch.new kind).run (1 / 10000) triangleCalls = .ok P ∧
    Usable (1 / 10000) kind 3 triangleLoop P ∧ ConvexDomain P.dom.dom 3 v := by
  have hne : (⟨1, 2, 3⟩ : P3 ℝ) ≠ 0 := fun h => by simpa using congrArg P3.x h
  exact C64_built (v := squareVertex) (by norm_num) (by norm_num) triangle_good kind (fun h => absurd h hk) (by
    intro x hx
    simp only [List.mem_cons, List.not_mem_nil, or_false] at hx
    rcases hx with rfl | rfl | rfl <;> exact ⟨trivial, by norm_num, hne⟩) (by
    right
    intro j hj
    right
    refine ⟨⟨1, 2, 3⟩, ?_⟩
    interval_cases j <;> simp)

/-- The hypotheses of C36_set, C36_kept and C36_default hold on the triangle, for any midpoint; the centre really moves. -/
example (kind : PatchKind) (hk : kind = .midpoint ∨ kind = .midpointCoons) (p : P3 ℝ) :
    ∃ P0 P1 P2 P3 P4, (Patch.new kind).run (1 / 10000) triangleCalls = .ok P0 ∧ P0.step (1 / 10000) (.setMid p) = .ok P1 ∧
      CentreValue (1 / 10000) P1 p ∧ P1.run (1 / 10000) [.handler 1 ⟨0, 0, 1⟩] = .ok P2 ∧ P2.step (1 / 10000) (.updateSide 1) = .ok P3 ∧
      CentreValue (1 / 10000) P3 p ∧ P3.step (1 / 10000) .unsetMid = .ok P4 ∧
      ∃ q, RibbonAverage (1 / 10000) P4 3 q ∧ CentreValue (1 / 10000) P4 q := by
  have hne : kind ≠ .sideBased := by rcases hk with rfl | rfl <;> decide
  obtain ⟨P0, v, e0, u0, d0⟩ := triangle_built kind hne
  obtain ⟨P1, e1, u1, d1⟩ := C64_call (by norm_num) (by norm_num) triangle_good u0 d0 (x := .setMid p) hk
  obtain ⟨P2, e2, u2, d2⟩ := C64_call (by norm_num) (by norm_num) triangle_good u1 (by rw [d1]; exact d0) (x := .handler 1 ⟨0, 0, 1⟩)
    ⟨by norm_num, fun h => by simpa using congrArg P3.z h⟩
  obtain ⟨P3, e3, u3, d3⟩ := C64_call (by norm_num) (by norm_num) triangle_good u2 (by rw [d2, d1]; exact d0) (x := .updateSide 1)
    (show 1 < 3 by norm_num)
  obtain ⟨P4, e4, u4, d4⟩ := C64_call (by norm_num) (by norm_num) triangle_good u3 (by rw [d3, d2, d1]; exact d0) (x := .unsetMid) hk
  have r2 := calls_append e0 (calls_append (calls_one e1) (calls_one e2))
  have r3 := calls_append r2 (calls_one e3)
  refine ⟨P0, P1, P2, P3, P4, e0, e1, ?_, calls_one e2, e3, ?_, e4, ?_⟩
  · exact C36_set (by norm_num) (by norm_num) (by norm_num) (by norm_num) (by norm_num) hk u0.1 e1 (qs := []) (by simp) rfl
  · exact C36_kept (by norm_num) (by norm_num) (by norm_num) (by norm_num) (by norm_num) hk r2 u2.1 rfl (Or.inr ⟨1, rfl⟩) e3 (qs := []) (by simp) rfl
  · exact C36_default (by norm_num) (by norm_num) (by norm_num) (by norm_num) (by norm_num) hk r3 u3.1 (Or.inl rfl) e4 (qs := []) (by simp) rfl

/-- The hypotheses of C36_four hold on the square. -/
example (kind : PatchKind) (hk : kind = .midpoint ∨ kind = .midpointCoons) (p q : P3 ℝ) :
    ∃ P P1 P2, UpToDate (1 / 10000) kind 4 squareLoop P ∧ P.step (1 / 10000) (.setMid p) = .ok P1 ∧ P.step (1 / 10000) (.setMid q) = .ok P2 ∧
      ∃ x, CentreValue (1 / 10000) P1 x ∧ CentreValue (1 / 10000) P2 x := by
  obtain ⟨P, v, -, u, d, -⟩ := square_built kind
  obtain ⟨P1, e1, -⟩ := C64_call (by norm_num) (by norm_num) square_good u d (x := .setMid p) hk
  obtain ⟨P2, e2, -⟩ := C64_call (by norm_num) (by norm_num) square_good u d (x := .setMid q) hk
  exact ⟨P, P1, P2, u.1, e1, e2, C36_four (by norm_num) (by norm_num) hk u.1 (Or.inr ⟨p, rfl⟩) (Or.inr ⟨q, rfl⟩) e1 e2 (qs := []) (qs' := [])
    (by simp) (by simp) rfl rfl⟩

end real

end Transfinite
