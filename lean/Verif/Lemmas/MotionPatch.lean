import Verif.Lemmas.Motion
import Verif.Lemmas.PatchRun

/-! Rigid motions of surface objects: any call on moved objects. -/

namespace Transfinite

open Spec

namespace Motion

variable {K : Type} [Field K] [LinearOrder K] [Libm K] [IsStrictOrderedRing K] {g : Motion K} {kind : RibbonKind} {S S' : Surf K}

/-! ### Updates of ribbons and corners -/

theorem cornerOf (ε : K) (hu : Used kind) {rs rs' : List (Ribbon K)} (h : List.Forall₂ (RibK g kind) rs rs') (i : ℕ) :
    Agree (Cor g) (Surf.cornerOf ε rs i) (Surf.cornerOf ε rs' i) := by
  unfold Surf.cornerOf
  rw [← h.length_eq]
  refine (Agree.vget h i).bind fun r r' _ _ hr => ?_
  refine (Agree.vget h _).bind fun q q' _ _ hq => ?_
  have ur : r.kind = .handler ∨ r.kind = .coons := by rw [hr.kind]; exact hu
  have uq : q.kind = .handler ∨ q.kind = .coons := by rw [hq.kind]; exact hu
  refine (rib_cross ε hr.rib ur _).bind fun a a' _ _ ha => ?_
  refine (rib_cross ε hr.rib ur _).bind fun b b' _ _ hb => ?_
  rw [ha, hb, ← map_sub]
  refine (vdiv _ _).bind fun t t' _ _ ht => ?_
  refine (rib_cross ε hq.rib uq _).bind fun c c' _ _ hc => ?_
  refine (rib_cross ε hq.rib uq _).bind fun d d' _ _ hd => ?_
  rw [hc, hd, ← map_sub]
  refine (vdiv _ _).bind fun t2 t2' _ _ ht2 => ?_
  constructor
  · dsimp only; rw [hr.rib.curve]; rfl
  · dsimp only; rw [hr.rib.curve]; exact (map_neg g.lin _).symm
  · dsimp only; rw [hq.rib.curve]; rfl
  · exact ht
  · exact ht2

theorem updateCorner (ε : K) (hu : Used kind) (h : Sf g kind S S') (i : ℕ) : Agree (fun a b => Sf g kind a b ∧ a.ribbons = S.ribbons) (S.updateCorner ε i) (S'.updateCorner ε i) := by
  unfold Surf.updateCorner
  refine (cornerOf ε hu h.ribbons i).bind fun c c' _ _ hc => ?_
  refine (Agree.vset h.corners i hc).bind fun l l' _ _ hl => ?_
  exact ⟨⟨h.gamma, h.ribbons, hl⟩, rfl⟩

theorem take_set {α : Type} {l : List α} {i : ℕ} (h : i < l.length) (a : α) : (l.set i a).take (i + 1) = l.take i ++ [a] := by
  rw [List.take_succ, List.take_set_of_le (le_refl i), List.getElem?_set_self h]
  rfl

/-- Only the surface without its corners is related. -/
structure Sf0 (g : Motion K) (kind : RibbonKind) (S S' : Surf K) : Prop where
  gamma : S'.useGamma = S.useGamma
  ribbons : List.Forall₂ (RibK g kind) S.ribbons S'.ribbons
  corners : S'.corners.length = S.corners.length

theorem updateCorners (ε : K) (hu : Used kind) (h : Sf0 g kind S S') : Agree (fun a b => Sf g kind a b ∧ a.ribbons = S.ribbons) (S.updateCorners ε) (S'.updateCorners ε) := by
  unfold Surf.updateCorners
  dsimp only
  have hn : S'.n = S.n := h.ribbons.length_eq.symm
  rw [hn]
  have hl : ∀ T : Surf K, (T.corners.take S.n ++ List.replicate (S.n - T.corners.length) (⟨0, 0, 0, 0, 0⟩ : Corner K)).length = S.n := by
    intro T
    rw [List.length_append, List.length_take, List.length_replicate]
    omega
  refine Agree.mono (Agree.loop (fun i a b => a.useGamma = S.useGamma ∧ b.useGamma = S.useGamma ∧ a.ribbons = S.ribbons ∧ b.ribbons = S'.ribbons ∧ a.corners.length = S.n ∧
    b.corners.length = S.n ∧ List.Forall₂ (Cor g) (a.corners.take i) (b.corners.take i)) ?_ fun i hi a b hab => ?_) fun a b hab => ?_
  · exact ⟨rfl, h.gamma, rfl, rfl, hl S, hl S', by rw [List.take_zero, List.take_zero]; exact List.Forall₂.nil⟩
  · obtain ⟨h1, h2, h3, h4, h5, h6, h7⟩ := hab
    unfold Surf.updateCorner
    rw [h3, h4]
    refine (cornerOf ε hu h.ribbons i).bind fun c c' _ _ hc => ?_
    unfold vset
    rw [if_pos (by omega), if_pos (by omega), M_bind_ok, M_bind_ok]
    refine ⟨h1, h2, rfl, rfl, by rw [List.length_set]; exact h5, by rw [List.length_set]; exact h6, ?_⟩
    dsimp only
    rw [take_set (by omega), take_set (by omega)]
    exact List.rel_append h7 (List.Forall₂.cons hc List.Forall₂.nil)
  · obtain ⟨h1, h2, h3, h4, h5, h6, h7⟩ := hab
    rw [List.take_of_length_le (by omega), List.take_of_length_le (by omega)] at h7
    exact ⟨⟨h2.trans h1.symm, by rw [h3, h4]; exact h.ribbons, h7⟩, h3⟩

theorem neighbors {rs rs' : List (Ribbon K)} (h : List.Forall₂ (RibK g kind) rs rs') (i : ℕ) : Agree (fun a b => b = nbs g a) (Surf.neighbors rs i) (Surf.neighbors rs' i) := by
  unfold Surf.neighbors
  dsimp only
  rw [← h.length_eq]
  refine (Agree.vget h _).bind fun a a' _ _ ha => ?_
  refine (Agree.vget h _).bind fun b b' _ _ hb => ?_
  refine (Agree.vget h _).bind fun c c' _ _ hc => ?_
  refine (Agree.vget h _).bind fun d d' _ _ hd => ?_
  rw [ha.rib.curve, hb.rib.curve, hc.rib.curve, hd.rib.curve]
  rfl

/-- Ribbon `i` is updated; the others do not change. -/
theorem updateRibbon (ε : K) (hu : Used kind) {rs rs' : List (Ribbon K)} (h : List.Forall₂ (RibK g kind) rs rs') (i : ℕ) :
    Agree (fun a b => List.Forall₂ (RibK g kind) a b ∧ ∃ r, (kind = .coons → r.top ≠ []) ∧ a = rs.set i r) (Surf.updateRibbon ε rs i) (Surf.updateRibbon ε rs' i) := by
  unfold Surf.updateRibbon
  refine (neighbors h i).bind fun a a' _ _ ha => ?_
  subst ha
  refine (Agree.vget h i).bind fun r r' _ _ hr => ?_
  refine (rib_update ε a hr.rib (by rw [hr.kind]; exact hu)).bind fun q q' e _ hq => ?_
  have hk : q.kind = r.kind := (Ribbon.update_keeps e).1
  refine (Agree.vset h i (⟨hq.1, hk.trans hr.kind⟩ : RibK g kind q q')).results.mono fun a b hab => ⟨hab.1, q, ?_, ?_⟩
  · rw [← hr.kind]
    exact hq.2
  · have := hab.2.1
    unfold vset at this
    split_ifs at this
    cases this
    rfl

theorem updateOne (ε : K) (hu : Used kind) (h : Sf g kind S S') (i : ℕ) : Agree (fun a b => Sf g kind a b ∧ (Tops kind S.ribbons → Tops kind a.ribbons)) (S.updateOne ε i) (S'.updateOne ε i) := by
  unfold Surf.updateOne
  refine (updateRibbon ε hu h.ribbons i).bind fun rs rs' _ _ hr => ?_
  obtain ⟨hr, r, h1, h2⟩ := hr
  rw [h.n]
  refine (updateCorner (S := { S with ribbons := rs }) (S' := { S' with ribbons := rs' }) ε hu ⟨h.gamma, hr, h.corners⟩ _).bind fun T T' _ _ hT => ?_
  refine (updateCorner ε hu hT.1 i).mono fun a b hab => ⟨hab.1, fun ht hk q hq => ?_⟩
  rw [hab.2, hT.2, h2] at hq
  rcases List.mem_or_eq_of_mem_set hq with hq | hq
  · exact ht hk q hq
  · rw [hq]
    exact h1 hk

theorem updateAll (ε : K) (hu : Used kind) (h : Sf g kind S S') : Agree (fun a b => Sf g kind a b ∧ Tops kind a.ribbons) (S.updateAll ε) (S'.updateAll ε) := by
  unfold Surf.updateAll
  rw [h.n]
  refine Agree.bind (r := fun a b => List.Forall₂ (RibK g kind) a b ∧ Tops kind a) ?_ fun rs rs' _ _ hr => ?_
  · refine Agree.mono (Agree.loop (fun i a b => List.Forall₂ (RibK g kind) a b ∧ a.length = S.n ∧ Tops kind (a.take i)) ⟨h.ribbons, rfl, ?_⟩ fun i hi a b hab => ?_) fun a b hab => ⟨hab.1, ?_⟩
    · intro _ r hr
      rw [List.take_zero] at hr
      cases hr
    · refine (updateRibbon ε hu hab.1 i).mono fun c d hcd => ⟨hcd.1, ?_⟩
      obtain ⟨_, r, h1, rfl⟩ := hcd
      refine ⟨by rw [List.length_set]; exact hab.2.1, fun hk q hq => ?_⟩
      rw [take_set (by rw [hab.2.1]; exact hi)] at hq
      rcases List.mem_append.mp hq with hq | hq
      · exact hab.2.2 hk q hq
      · rw [List.mem_singleton.mp hq]
        exact h1 hk
    · have := hab.2.2
      rwa [List.take_of_length_le hab.2.1.le] at this
  · refine (updateCorners (S := { S with ribbons := rs }) (S' := { S' with ribbons := rs' }) ε hu ⟨h.gamma, hr.1, h.corners.length_eq.symm⟩).mono fun a b hab => ⟨hab.1, ?_⟩
    rw [hab.2]
    exact hr.2

/-! ### Surface objects -/

/-- The surface classes with a central control point. -/
def HasMid (k : PatchKind) : Prop := k = .midpoint ∨ k = .midpointCoons

/-- The second object is the image of the first one; when `ok` holds, this includes the data computed by `update`. -/
structure Moved (g : Motion K) (ok : Prop) (P P' : Patch K) : Prop where
  kind : P'.kind = P.kind
  dom : P'.dom = P.dom
  param : P'.param = P.param
  linked : P'.linked = P.linked
  midSet : P'.midSet = P.midSet
  surf : Sf g P.kind.ribbon P.surf P'.surf
  mid : P.midSet = true → P'.mid = g.pt P.mid
  tops : ok → Tops P.kind.ribbon P.surf.ribbons
  central : ok → HasMid P.kind → P'.central = g.pt P.central

theorem used (k : PatchKind) : Used k.ribbon := by
  cases k <;> first | exact Or.inl rfl | exact Or.inr rfl

variable {ok : Prop} {P P' : Patch K}

theorem new_moved (g : Motion K) (k : PatchKind) : Moved g False (Patch.new k) (Patch.new k) :=
  ⟨rfl, rfl, rfl, rfl, rfl, ⟨rfl, List.Forall₂.nil, List.Forall₂.nil⟩, (fun h => by cases h), fun h => h.elim, fun h => h.elim⟩

theorem Moved.weak (h : Moved g ok P P') : Moved g False P P' := { h with tops := fun h => h.elim, central := fun h => h.elim }

theorem curves_eq (h : Moved g ok P P') : P'.curves = P.curves.map g.curve := by
  unfold Patch.curves
  have := h.surf.ribbons
  generalize P.surf.ribbons = l at this
  generalize P'.surf.ribbons = l' at this
  induction this with
  | nil => rfl
  | cons h _ ih =>
    rw [List.map_cons, List.map_cons, List.map_cons, ih, h.rib.curve]

theorem onRibbon (h : Moved g ok P P') (i : ℕ) {f f' : Ribbon K → M (Ribbon K)} (hf : ∀ r r', Rib g r r' → Agree (fun a b => Rib g a b ∧ a.kind = r.kind ∧ a.top = r.top) (f r) (f' r')) :
    Agree (Moved g ok) (P.onRibbon i f) (P'.onRibbon i f') := by
  unfold Patch.onRibbon
  refine (Agree.vget h.surf.ribbons i).bind fun r r' e _ hr => ?_
  refine (hf r r' hr.rib).bind fun a b _ _ hab => ?_
  refine (Agree.vset h.surf.ribbons i (⟨hab.1, hab.2.1.trans hr.kind⟩ : RibK g _ a b)).results.bind fun l l' _ _ hl => ?_
  refine ⟨h.kind, h.dom, h.param, h.linked, h.midSet, ⟨h.surf.gamma, hl.1, h.surf.corners⟩, h.mid, fun o hk q hq => ?_, h.central⟩
  rcases Patch.vset_mem hl.2.1 hq with rfl | hq
  · rw [hab.2.2]
    exact h.tops o hk r (vget_mem e)
  · exact h.tops o hk q hq

theorem updateDomain (h : Moved g ok P P') : Agree (fun Q Q' => Moved g ok Q Q' ∧ Q.kind = P.kind) P.updateDomain P'.updateDomain := by
  unfold Patch.updateDomain
  rw [h.kind, h.dom, h.surf.n, curves_eq h]
  split_ifs
  · refine Agree.same fun r _ => ?_
    split_ifs
    · refine Agree.same fun o _ => ?_
      exact ⟨⟨rfl, rfl, rfl, h.linked, h.midSet, h.surf, h.mid, h.tops, h.central⟩, rfl⟩
    · obtain ⟨⟩ := h
      constructor
      · constructor <;> first | rfl | assumption
      · rfl
  · refine (angularUpdate P.curves).bind fun d d' _ _ hd => ?_
    subst hd
    refine Agree.same fun o _ => ?_
    exact ⟨⟨rfl, rfl, rfl, h.linked, h.midSet, h.surf, h.mid, h.tops, h.central⟩, rfl⟩

/-- The total weight of the points in the evaluation of a surface. -/
def weight (ε : K) (P : Patch K) (sds : List (P2 K)) (w : K) : Prop :=
  match P.kind with
  | .sideBased => ∀ b, Surf.blendSideSingular ε sds = .ok b → ∑ j ∈ Finset.range P.surf.n, b.getD j 0 = w
  | .cornerBased => ∀ b, Surf.blendCorner ε P.surf.n sds = .ok b → ∑ j ∈ Finset.range P.surf.n, b.getD j 0 = w
  | .generalizedCoons => ∀ b, Surf.blendCorner ε P.surf.n sds = .ok b → ∑ j ∈ Finset.range P.surf.n, b.getD j 0 = w
  | .compositeRibbon => ∀ b, Surf.blendCorner ε P.surf.n sds = .ok b → ∑ j ∈ Finset.range P.surf.n, b.getD j 0 = w
  | .midpoint => w = 1
  | .midpointCoons => w = 1
  | .c0Coons => ∑ j ∈ Finset.range P.surf.n, (1 - (sds.getD j 0).y) / 2 = w

/-- Evaluation of a moved object. -/
theorem evalWith (ε : K) (h : Moved g ok P P') (sds : List (P2 K)) : Agree (fun p p' => ok → ∃ w, (weight ε P sds 1 → w = 1) ∧ W g w p p') (P.evalWith ε sds) (P'.evalWith ε sds) := by
  obtain ⟨k, d, o, S, li, ms, m, c⟩ := P
  obtain ⟨k', d', o', S', li', ms', m', c'⟩ := P'
  have hk : k' = k := h.kind
  subst hk
  have hs := h.surf
  dsimp only at hs
  unfold Patch.evalWith
  cases k' <;> dsimp only
  · refine (sideBased ε hs sds).results.mono fun p p' hp o => ?_
    have e := hp.2.1
    unfold Surf.sideBased at e
    obtain ⟨b, e, _⟩ := bind_ok e
    exact ⟨_, fun hw => hw b e, hp.1 b e⟩
  · refine (cornerBased ε hs sds).results.mono fun p p' hp o => ?_
    have e := hp.2.1
    unfold Surf.cornerBased at e
    obtain ⟨b, e, _⟩ := bind_ok e
    exact ⟨_, fun hw => hw b e, hp.1 b e⟩
  · refine (generalizedCoons ε hs sds).results.mono fun p p' hp o => ?_
    have e := hp.2.1
    unfold Surf.generalizedCoons at e
    obtain ⟨b, e, _⟩ := bind_ok e
    exact ⟨_, fun hw => hw b e, hp.1 b e⟩
  · refine (composite ε hs sds).results.mono fun p p' hp o => ?_
    have e := hp.2.1
    unfold Surf.composite at e
    obtain ⟨b, e, _⟩ := bind_ok e
    exact ⟨_, fun hw => hw b e, hp.1 b e⟩
  · refine (midpoint ε hs sds c c').1.mono fun p p' hp o => ⟨1, fun _ => rfl, hp ?_⟩
    rw [show c' = g.pt c from h.central o (Or.inl rfl)]
    exact W_pt c
  · refine (midpointCoons ε hs sds c c').1.mono fun p p' hp o => ⟨1, fun _ => rfl, hp ?_⟩
    rw [show c' = g.pt c from h.central o (Or.inr rfl)]
    exact W_pt c
  · refine (c0Coons ε hs sds).mono fun p p' hp o => ⟨_, fun hw => hw, hp (h.tops o)⟩

theorem Moved.param_set (h : Moved g ok P P') (o : Param.Obj K) : Moved g ok { P with param := o } { P' with param := o } :=
  ⟨h.kind, h.dom, rfl, h.linked, h.midSet, h.surf, h.mid, h.tops, h.central⟩

theorem Moved.dom_set (h : Moved g ok P P') (d : Domain.Cached (Domain K) K) : Moved g ok { P with dom := d } { P' with dom := d } :=
  ⟨h.kind, rfl, h.param, h.linked, h.midSet, h.surf, h.mid, h.tops, h.central⟩

/-- `eval`. -/
theorem eval (ε : K) (h : Moved g ok P P') (uv : P2 K) :
    Agree (fun x x' => Moved g ok x.2 x'.2 ∧ (ok → ∃ w, ((∀ r, Param.mapToRibbons ε P.kind.param uv P.param = .ok r → weight ε P r.1 1) → w = 1) ∧ W g w x.1 x'.1))
      (P.eval ε uv) (P'.eval ε uv) := by
  unfold Patch.eval
  rw [h.kind, h.param]
  refine Agree.same fun r hr => ?_
  refine (evalWith ε h r.1).bind fun p p' _ _ hp => ?_
  refine ⟨?_, fun o => ?_⟩
  · obtain ⟨⟩ := h
    constructor <;> first | rfl | assumption
  obtain ⟨w, h1, h2⟩ := hp o
  exact ⟨w, fun q => h1 (q r hr), h2⟩

theorem defaultMidpoint (ε : K) (h : Sf g .handler S S') : Agree (fun p p' => p' = g.pt p) (Patch.defaultMidpoint ε S) (Patch.defaultMidpoint ε S') := by
  unfold Patch.defaultMidpoint
  rw [h.n]
  refine Agree.bind (r := W g (S.n : K)) ?_ fun p p' _ _ hp => ?_
  · refine Agree.mono (Agree.loop (fun i p p' => W g (i : K) p p') (by unfold W; simp) fun i _ p p' hp => ?_) fun _ _ h => h
    refine (sideInterpolant ε (Or.inl rfl) h _ _ _).bind fun a a' _ _ ha => ?_
    refine (hp.add (ha fun h => by cases h)).eq ?_
    push_cast
    rfl
  · unfold Ribbon.vdiv
    refine Agree.same fun x hx => ?_
    unfold fdiv at hx
    split_ifs at hx with h0
    cases hx
    refine ((hp.smul _).eq ?_).pt
    rw [one_div, inv_mul_cancel₀ h0]

/-- A second query has the same result. -/
theorem maps_again {ε : K} {k : Param.Kind K} {uv : P2 K} {o : Param.Obj K} {r : List (P2 K) × Param.Obj K} (h : Param.mapToRibbons ε k uv o = .ok r) : Param.mapToRibbons ε k uv r.2 = .ok r := by
  have base : ∀ x, Param.mapToRibbonsBase ε k uv o = .ok x → Param.mapToRibbonsBase ε k uv x.2 = .ok x := by
    intro x hx
    unfold Param.mapToRibbonsBase at hx
    cases hf : Param.mapFind o.cache uv with
    | some l =>
      rw [hf] at hx
      cases hx
      unfold Param.mapToRibbonsBase
      rw [hf]
    | none =>
      rw [hf] at hx
      obtain ⟨y, _, hx⟩ := bind_ok hx
      cases hx
      unfold Param.mapToRibbonsBase
      have : Param.mapFind ((uv, y.1) :: y.2.cache) uv = some y.1 := by
        unfold Param.mapFind Param.ptLess
        rw [List.find?_cons_of_pos (by simp)]
        rfl
      dsimp only
      rw [this]
  unfold Param.mapToRibbons at h ⊢
  obtain ⟨x, e, h⟩ := bind_ok h
  have hb := base x e
  cases k <;> first
    | (cases h; rw [hb]; rfl)
    | (obtain ⟨s, e2, h⟩ := bind_ok h; cases h; dsimp only; rw [hb, M_bind_ok, e2, M_bind_ok])

/-- `updateCentralControlPoint`. -/
theorem updateCentral (ε : K) (h : Moved g ok P P') (hk : HasMid P.kind) : Agree (fun Q Q' => Moved g True Q Q' ∧ Q.kind = P.kind) (P.updateCentral ε) (P'.updateCentral ε) := by
  have hr : P.kind.ribbon = .handler := by
    rcases hk with hk | hk <;> rw [hk] <;> rfl
  have hs := h.surf
  rw [hr] at hs
  have ht : Tops P.kind.ribbon P.surf.ribbons := fun q => by rw [hr] at q; cases q
  have hm : Agree (fun p p' => p' = g.pt p) (P.currentMid ε) (P'.currentMid ε) := by
    unfold Patch.currentMid
    rw [h.midSet]
    split_ifs with q
    · exact h.mid q
    · exact defaultMidpoint ε hs
  unfold Patch.updateCentral
  refine hm.bind fun m m' _ _ hm => ?_
  subst hm
  have hsf := h.surf
  obtain ⟨k, d, o, S, li, ms, m0, c0⟩ := P
  obtain ⟨k', d', o', S', li', ms', m0', c0'⟩ := P'
  obtain ⟨hk1, hd1, ho1, hl1, hm1, -, -, -, -⟩ := h
  dsimp only at hk1 hd1 ho1 hl1 hm1 hk hr hs ht hsf
  subst hk1 hd1 ho1 hl1 hm1
  dsimp only
  -- the evaluation with a zero control point
  have he : Agree (fun x x' => ∃ r b, Param.mapToRibbons ε k'.param d'.dom.center o' = .ok r ∧ Surf.blendCornerDeficient ε S.n r.1 = .ok b ∧
      x.2 = ⟨k', d', r.2, S, li', ms', m, 0⟩ ∧ x'.2 = ⟨k', d', r.2, S', li', ms', g.pt m, 0⟩ ∧ W g b.sum x.1 x'.1)
      (Patch.eval ε d'.dom.center ⟨k', d', o', S, li', ms', m, 0⟩) (Patch.eval ε d'.dom.center ⟨k', d', o', S', li', ms', g.pt m, 0⟩) := by
    unfold Patch.eval
    dsimp only
    refine Agree.same fun r hr => ?_
    have : Agree (fun p p' => ∃ b, Surf.blendCornerDeficient ε S.n r.1 = .ok b ∧ W g b.sum p p')
        (Patch.evalWith ε ⟨k', d', o', S, li', ms', m, 0⟩ r.1) (Patch.evalWith ε ⟨k', d', o', S', li', ms', g.pt m, 0⟩ r.1) := by
      unfold Patch.evalWith
      dsimp only
      rcases hk with hk | hk <;> rw [hk] <;> dsimp only
      · refine (midpoint ε hs r.1 0 0).2.results.mono fun p p' hp => ?_
        have e := hp.2.1
        unfold Surf.midpoint at e
        obtain ⟨b, e, _⟩ := bind_ok e
        exact ⟨b, e, hp.1 b e⟩
      · refine (midpointCoons ε hs r.1 0 0).2.results.mono fun p p' hp => ?_
        have e := hp.2.1
        unfold Surf.midpointCoons at e
        obtain ⟨b, e, _⟩ := bind_ok e
        exact ⟨b, e, hp.1 b e⟩
    refine this.bind fun p p' _ _ hp => ?_
    obtain ⟨b, h1, h2⟩ := hp
    exact ⟨r, b, hr, h1, rfl, rfl, h2⟩
  refine he.bind fun x x' _ _ hx => ?_
  obtain ⟨r, b, e1, e2, h1, h2, h3⟩ := hx
  rw [h1, h2]
  have e3 := maps_again e1
  unfold Patch.deficiency
  dsimp only
  rw [e3, M_bind_ok, M_bind_ok, hs.n, e2, M_bind_ok, M_bind_ok, M_bind_ok, M_bind_ok]
  dsimp only
  have key : ∀ c c', c' = g.pt c → Moved g True (⟨k', d', r.2, S, li', ms', m, c⟩ : Patch K) ⟨k', d', r.2, S', li', ms', g.pt m, c'⟩ :=
    fun c c' hc => ⟨rfl, rfl, rfl, rfl, rfl, hsf, fun _ => rfl, fun _ => ht, fun _ _ => hc⟩
  split_ifs
  · exact ⟨key _ _ rfl, rfl⟩
  · unfold Ribbon.vdiv
    cases hx : fdiv 1 (1 - b.sum) with
    | error e => rfl
    | ok y =>
      refine ⟨key _ _ ?_, rfl⟩
      unfold fdiv at hx
      split_ifs at hx with h0
      cases hx
      refine ((((W_pt m).sub h3).smul _).eq ?_).pt
      rw [one_div, inv_mul_cancel₀ h0]

theorem finish (ε : K) (h : Moved g ok P P') (ho : Tops P.kind.ribbon P.surf.ribbons ∨ ok) : Agree (Moved g True) (P.finish ε) (P'.finish ε) := by
  unfold Patch.finish
  rw [h.kind]
  have ht : Tops P.kind.ribbon P.surf.ribbons := ho.elim id h.tops
  cases hk : P.kind
  case midpoint => exact (updateCentral ε h (Or.inl hk)).mono fun _ _ h => h.1
  case midpointCoons => exact (updateCentral ε h (Or.inr hk)).mono fun _ _ h => h.1
  all_goals exact ⟨h.kind, h.dom, h.param, h.linked, h.midSet, h.surf, h.mid, fun _ => ht, fun _ q => by rw [hk] at q; rcases q with q | q <;> cases q⟩

theorem finish_weak (ε : K) (h : Moved g ok P P') : Agree (Moved g ok) (P.finish ε) (P'.finish ε) := by
  unfold Patch.finish
  rw [h.kind]
  cases hk : P.kind
  case midpoint => exact (updateCentral ε h (Or.inl hk)).mono fun _ _ h => ⟨h.1.kind, h.1.dom, h.1.param, h.1.linked, h.1.midSet, h.1.surf, h.1.mid, fun _ => h.1.tops trivial, fun _ => h.1.central trivial⟩
  case midpointCoons => exact (updateCentral ε h (Or.inr hk)).mono fun _ _ h => ⟨h.1.kind, h.1.dom, h.1.param, h.1.linked, h.1.midSet, h.1.surf, h.1.mid, fun _ => h.1.tops trivial, fun _ => h.1.central trivial⟩
  all_goals exact h

/-! ### Calls -/

theorem update (ε : K) (h : Moved g ok P P') : Agree (Moved g True) (P.update ε) (P'.update ε) := by
  unfold Patch.update
  refine (updateDomain h).bind fun Q Q' _ _ hQ => ?_
  obtain ⟨hQ, _⟩ := hQ
  rw [hQ.linked]
  split_ifs
  · refine (updateAll ε (used _) hQ.surf).bind fun S S' _ _ hS => ?_
    refine finish (ok := False) ε ?_ (Or.inl hS.2)
    exact ⟨hQ.kind, hQ.dom, hQ.param, rfl, hQ.midSet, hS.1, hQ.mid, fun h => h.elim, fun h => h.elim⟩
  · rfl

theorem updateSide (ε : K) (h : Moved g ok P P') (i : ℕ) : Agree (Moved g ok) (P.updateSide ε i) (P'.updateSide ε i) := by
  unfold Patch.updateSide
  refine (updateDomain h).bind fun Q Q' _ _ hQ => ?_
  obtain ⟨hQ, _⟩ := hQ
  rw [hQ.linked]
  split_ifs
  · refine (updateOne ε (used _) hQ.surf i).bind fun S S' _ _ hS => ?_
    refine finish_weak ε ?_
    exact ⟨hQ.kind, hQ.dom, hQ.param, rfl, hQ.midSet, hS.1, hQ.mid, fun o => hS.2 (hQ.tops o), hQ.central⟩
  · rfl

/-- `eval(resolution)`. -/
theorem evalMesh (ε : K) (h : Moved g ok P P') (res : ℕ) :
    Agree (fun x x' => Moved g ok x.2 x'.2 ∧ x'.1.2 = x.1.2 ∧ x'.1.1.length = x.1.1.length) (P.evalMesh ε res) (P'.evalMesh ε res) := by
  unfold Patch.evalMesh
  rw [h.dom]
  refine Agree.same fun topo _ => Agree.same fun uvs _ => ?_
  refine Agree.bind (r := fun x x' => Moved g ok x.2 x'.2 ∧ x'.1.length = x.1.length) ?_ fun x x' _ _ hx => ⟨hx.1, rfl, hx.2⟩
  refine Agree.loop (fun _ (x x' : List (P3 K) × Patch K) => Moved g ok x.2 x'.2 ∧ x'.1.length = x.1.length) ⟨h.dom_set _, rfl⟩ fun i _ x x' hx => ?_
  refine Agree.same fun uv _ => ?_
  refine (eval ε hx.1 uv).bind fun y y' _ _ hy => ?_
  refine ⟨hy.1, ?_⟩
  dsimp only
  rw [List.length_append, List.length_append, hx.2]
  rfl

theorem setupLoop (h : Moved g ok P P') : Agree (Moved g ok) P.setupLoop P'.setupLoop := by
  unfold Patch.setupLoop
  rw [curves_eq h]
  refine (orientLoop P.curves).bind fun cs cs' _ _ hc => ?_
  subst hc
  have key : ∀ (l l' : List (Ribbon K)) (cs : List (Curve K)), List.Forall₂ (RibK g P.kind.ribbon) l l' →
      List.Forall₂ (RibK g P.kind.ribbon) (List.zipWith (fun (r : Ribbon K) c => { r with curve := c }) l cs) (List.zipWith (fun (r : Ribbon K) c => { r with curve := c }) l' (cs.map g.curve)) := by
    intro l l' cs hl
    induction hl generalizing cs with
    | nil => exact List.Forall₂.nil
    | cons h _ ih =>
      cases cs with
      | nil => exact List.Forall₂.nil
      | cons c cs => exact List.Forall₂.cons ⟨rib_curve h.rib c, h.kind⟩ (ih cs)
  refine ⟨h.kind, h.dom, h.param, rfl, h.midSet, ⟨h.surf.gamma, key _ _ cs h.surf.ribbons, h.surf.corners⟩, h.mid, fun o hk r hr => ?_, h.central⟩
  dsimp only at hr
  obtain ⟨q, c, hq, _, rfl⟩ : ∃ q c, q ∈ P.surf.ribbons ∧ c ∈ cs ∧ ({ q with curve := c } : Ribbon K) = r := by
    rw [← List.map_uncurry_zip_eq_zipWith] at hr
    obtain ⟨⟨q, c⟩, hm, rfl⟩ := List.mem_map.mp hr
    exact ⟨q, c, (List.of_mem_zip hm).1, (List.of_mem_zip hm).2, rfl⟩
  exact h.tops o hk q hq

theorem forall_append {α β : Type} {r : α → β → Prop} {a c : List α} {b d : List β} (h : List.Forall₂ r a b) (h' : List.Forall₂ r c d) : List.Forall₂ r (a ++ c) (b ++ d) :=
  List.rel_append h h'

/-- Any call on a moved object. -/
theorem step (ε : K) (h : Moved g ok P P') (c : Patch.Call K) (hc : ok → keepsCurves c = true) : Agree (Moved g ok) (P.step ε c) (P'.step ε (g.call c)) := by
  have hv := h
  cases c with
  | gamma b =>
    exact ⟨h.kind, h.dom, h.param, h.linked, h.midSet, ⟨rfl, h.surf.ribbons, h.surf.corners⟩, h.mid, h.tops, h.central⟩
  | curve i c =>
    change Agree _ (P.setCurve i c) (P'.setCurve i (g.curve c))
    unfold Patch.setCurve
    dsimp only
    rw [← h.surf.ribbons.length_eq, h.kind]
    split_ifs
    · rfl
    · refine ⟨rfl, h.dom, h.param, rfl, h.midSet, ⟨h.surf.gamma, ?_, h.surf.corners⟩, h.mid, (fun o => by cases hc o), h.central⟩
      refine forall_append (forall_append (List.forall₂_take i h.surf.ribbons) (List.Forall₂.cons ⟨rib_new _ c, rfl⟩ List.Forall₂.nil)) (List.forall₂_drop _ h.surf.ribbons)
  | curves cs =>
    refine ⟨h.kind, h.dom, h.param, rfl, h.midSet, ⟨h.surf.gamma, ?_, h.surf.corners⟩, h.mid, (fun o => by cases hc o), h.central⟩
    clear hc
    change List.Forall₂ _ (cs.map _) ((cs.map g.curve).map (Ribbon.new P'.kind.ribbon))
    rw [h.kind]
    induction cs with
    | nil => exact List.Forall₂.nil
    | cons c cs ih => exact List.Forall₂.cons ⟨rib_new _ c, rfl⟩ ih
  | loop => exact setupLoop h
  | handler i v =>
    refine onRibbon h i fun r r' hr => (rib_handler hr v).results.mono fun a b hab => ⟨hab.1, ?_⟩
    have e := hab.2.1
    unfold Ribbon.setHandler at e
    obtain ⟨_, _, e⟩ := bind_ok e
    cases e
    exact ⟨rfl, rfl⟩
  | mult i m => exact onRibbon h i fun r r' hr => ⟨rib_mult hr m, rfl, rfl⟩
  | fence i f => exact onRibbon h i fun r r' hr => ⟨rib_fence hr f, rfl, rfl⟩
  | reset i => exact onRibbon h i fun r r' hr => ⟨rib_reset hr, rfl, rfl⟩
  | setMid p =>
    change Agree _ (if _ then _ else _) (if _ then _ else _)
    rw [h.kind]
    split_ifs with hk
    · refine (updateCentral (ok := ok) (P := { P with mid := p, midSet := true }) (P' := { P' with mid := g.pt p, midSet := true }) ε
        ⟨h.kind, h.dom, h.param, h.linked, rfl, h.surf, fun _ => rfl, h.tops, h.central⟩ hk).mono fun a b hab => ?_
      obtain ⟨hab, _⟩ := hab
      exact { hab with tops := fun _ => hab.tops trivial, central := fun _ => hab.central trivial }
    · rfl
  | unsetMid =>
    change Agree _ (if _ then _ else _) (if _ then _ else _)
    rw [h.kind]
    split_ifs with hk
    · refine (updateCentral (ok := ok) (P := { P with midSet := false }) (P' := { P' with midSet := false }) ε
        ⟨h.kind, h.dom, h.param, h.linked, rfl, h.surf, (fun q => by cases q), h.tops, h.central⟩ hk).mono fun a b hab => ?_
      obtain ⟨hab, _⟩ := hab
      exact { hab with tops := fun _ => hab.tops trivial, central := fun _ => hab.central trivial }
    · rfl
  | update =>
    exact (update ε h).mono fun a b hab => { hab with tops := fun _ => hab.tops trivial, central := fun _ => hab.central trivial }
  | updateSide i => exact updateSide ε h i
  | eval uv => exact (eval ε h uv).bind fun a b _ _ hab => hab.1
  | mesh res => exact (evalMesh ε h res).bind fun a b _ _ hab => hab.1
  | domainParams res =>
    unfold Patch.step Motion.call
    dsimp only
    rw [h.dom]
    exact Agree.same fun r _ => h.dom_set r.2
  | mapSide i uv =>
    unfold Patch.step Motion.call
    dsimp only
    rw [h.kind, h.param]
    refine Agree.same fun r _ => ?_
    have := h.param_set r.2
    rwa [h.kind] at this
  | mapSides uv =>
    unfold Patch.step Motion.call
    dsimp only
    rw [h.kind, h.param]
    refine Agree.same fun r _ => ?_
    have := h.param_set r.2
    rwa [h.kind] at this

theorem run (ε : K) (h : Moved g ok P P') (cs : List (Patch.Call K)) (hc : ok → ∀ c ∈ cs, keepsCurves c = true) : Agree (Moved g ok) (P.run ε cs) (P'.run ε (cs.map g.call)) := by
  induction cs generalizing P P' with
  | nil => exact h
  | cons c cs ih =>
    rw [List.map_cons]
    unfold Patch.run
    refine (step ε h c fun o => hc o c (by simp)).bind fun a b _ _ hab => ?_
    exact ih hab fun o x hx => hc o x (List.mem_cons_of_mem _ hx)

theorem run_split {ε : K} {P Q : Patch K} {xs ys : List (Patch.Call K)} (h : P.run ε (xs ++ ys) = .ok Q) : ∃ R, P.run ε xs = .ok R ∧ R.run ε ys = .ok Q := by
  induction xs generalizing P with
  | nil => exact ⟨P, rfl, h⟩
  | cons x xs ih =>
    rw [List.cons_append] at h
    unfold Patch.run at h
    obtain ⟨T, e, h⟩ := bind_ok h
    obtain ⟨R, h1, h2⟩ := ih h
    refine ⟨R, ?_, h2⟩
    unfold Patch.run
    rw [e, M_bind_ok, h1]

end Motion

end Transfinite
