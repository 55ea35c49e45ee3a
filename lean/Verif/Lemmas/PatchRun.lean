import Verif.Model.Patch
import Verif.Lemmas.Loop
import Verif.Props.ParamCache

/-! Invariants of surface objects under any history of calls. -/

namespace Transfinite

namespace Patch

variable {K : Type} [Field K] [LinearOrder K] [Libm K]

/-- The parameterization has been updated with the present domain, and used since. -/
def ParamOk (ε : K) (P : Patch K) : Prop :=
  ∃ o cs, Param.update P.kind.param P.dom.dom = .ok o ∧ (∀ d, Param.Call.update d ∉ cs) ∧
    Param.run ε P.kind.param o cs = .ok P.param

/-- The cache of the domain is empty or the result of `parametersImpl` for the present domain. -/
def CacheOk (P : Patch K) : Prop := P.dom.cache = [] ∨ ∃ r, Domain.parametersImpl P.dom.dom r = .ok P.dom.cache

/-- What always holds for a surface object. -/
structure Inv (ε : K) (P : Patch K) : Prop where
  kinds : ∀ r ∈ P.surf.ribbons, r.kind = P.kind.ribbon
  param : P.dom.dom.n = 0 ∨ ParamOk ε P
  regular : P.kind.regular = true → P.dom.dom.n = 0 ∨ ∃ vs, Domain.regularVertices P.dom.dom.n = .ok vs ∧
    Domain.updateFrom vs 0 = .ok P.dom.dom
  cache : CacheOk P
  len : P.dom.dom.vertices.length = P.dom.dom.n

/-- `P'` differs from `P` in the caches only. -/
structure Queried (ε : K) (P P' : Patch K) : Prop where
  kind : P'.kind = P.kind
  surf : P'.surf = P.surf
  linked : P'.linked = P.linked
  midSet : P'.midSet = P.midSet
  mid : P'.mid = P.mid
  central : P'.central = P.central
  dom : P'.dom.dom = P.dom.dom
  cache : P'.dom.cache = P.dom.cache ∨ ∃ r, Domain.parametersImpl P.dom.dom r = .ok P'.dom.cache
  param : ∃ cs, (∀ d, Param.Call.update d ∉ cs) ∧ Param.run ε P.kind.param P.param cs = .ok P'.param

theorem run_append {ε : K} {k : Param.Kind K} {o o1 o2 : Param.Obj K} {cs cs' : List (Param.Call K)}
    (h1 : Param.run ε k o cs = .ok o1) (h2 : Param.run ε k o1 cs' = .ok o2) : Param.run ε k o (cs ++ cs') = .ok o2 := by
  induction cs generalizing o with
  | nil => cases h1; exact h2
  | cons c cs ih =>
    unfold Param.run at h1
    obtain ⟨o', e1, e2⟩ := bind_ok h1
    rw [List.cons_append]
    unfold Param.run
    rw [e1, M_bind_ok]
    exact ih e2

theorem Queried.refl (ε : K) (P : Patch K) : Queried ε P P :=
  ⟨rfl, rfl, rfl, rfl, rfl, rfl, rfl, Or.inl rfl, [], by simp, rfl⟩

theorem Queried.trans {ε : K} {P P' P'' : Patch K} (h : Queried ε P P') (h' : Queried ε P' P'') : Queried ε P P'' := by
  refine ⟨h'.kind.trans h.kind, h'.surf.trans h.surf, h'.linked.trans h.linked, h'.midSet.trans h.midSet, h'.mid.trans h.mid,
    h'.central.trans h.central, h'.dom.trans h.dom, ?_, ?_⟩
  · rcases h'.cache with e | ⟨r, e⟩
    · rw [e]; exact h.cache
    · rw [h.dom] at e; exact Or.inr ⟨r, e⟩
  · obtain ⟨cs, u, e⟩ := h.param
    obtain ⟨cs', u', e'⟩ := h'.param
    rw [h.kind] at e'
    refine ⟨cs ++ cs', fun d hd => ?_, run_append e e'⟩
    rcases List.mem_append.mp hd with q | q
    · exact u d q
    · exact u' d q

theorem Queried.paramOk {ε : K} {P P' : Patch K} (h : Queried ε P P') (hp : ParamOk ε P) : ParamOk ε P' := by
  obtain ⟨o, cs, e1, e2, e3⟩ := hp
  obtain ⟨cs', u', e'⟩ := h.param
  refine ⟨o, cs ++ cs', by rw [h.kind, h.dom]; exact e1, ?_, by rw [h.kind]; exact run_append e3 e'⟩
  intro d hd
  rcases List.mem_append.mp hd with q | q
  · exact e2 d q
  · exact u' d q

theorem Queried.inv {ε : K} {P P' : Patch K} (h : Queried ε P P') (hp : Inv ε P) : Inv ε P' := by
  refine ⟨?_, ?_, ?_, ?_, by rw [h.dom]; exact hp.len⟩
  · rw [h.surf, h.kind]; exact hp.kinds
  · rw [h.dom]; exact hp.param.imp id h.paramOk
  · rw [h.kind, h.dom]; exact hp.regular
  · unfold CacheOk
    rcases h.cache with e | ⟨r, e⟩
    · rw [e, h.dom]; exact hp.cache
    · rw [h.dom]; exact Or.inr ⟨r, e⟩

theorem maps_queried {ε : K} {P : Patch K} {uv : P2 K} {r : List (P2 K) × Param.Obj K}
    (h : Param.mapToRibbons ε P.kind.param uv P.param = .ok r) : Queried ε P { P with param := r.2 } := by
  refine ⟨rfl, rfl, rfl, rfl, rfl, rfl, rfl, Or.inl rfl, [.maps uv], by simp, ?_⟩
  unfold Param.run Param.step
  simp only [h, M_bind_ok]
  rfl

theorem map_queried {ε : K} {P : Patch K} {i : ℕ} {uv : P2 K} {r : P2 K × Param.Obj K}
    (h : Param.mapToRibbon ε P.kind.param i uv P.param = .ok r) : Queried ε P { P with param := r.2 } := by
  refine ⟨rfl, rfl, rfl, rfl, rfl, rfl, rfl, Or.inl rfl, [.map i uv], by simp, ?_⟩
  unfold Param.run Param.step
  simp only [h, M_bind_ok]
  rfl

theorem eval_queried {ε : K} {P : Patch K} {uv : P2 K} {x : P3 K × Patch K} (h : P.eval ε uv = .ok x) : Queried ε P x.2 := by
  unfold eval at h
  obtain ⟨r, e1, h⟩ := bind_ok h
  obtain ⟨p, e2, h⟩ := bind_ok h
  cases h
  exact maps_queried e1

theorem deficiency_queried {ε : K} {P : Patch K} {uv : P2 K} {x : K × Patch K} (h : P.deficiency ε uv = .ok x) : Queried ε P x.2 := by
  unfold deficiency at h
  obtain ⟨r, e1, h⟩ := bind_ok h
  obtain ⟨p, e2, h⟩ := bind_ok h
  cases h
  exact maps_queried e1

theorem params_queried {ε : K} {P : Patch K} {res : ℕ} {x : List (P2 K) × Domain.Cached (Domain K) K}
    (h : Domain.parameters (fun d => Domain.meshSize d.n) Domain.parametersImpl P.dom res = .ok x) :
    Queried ε P { P with dom := x.2 } := by
  unfold Domain.parameters at h
  split_ifs at h with hl
  · cases h; exact Queried.refl ε P
  · obtain ⟨ps, e, h⟩ := bind_ok h
    cases h
    exact ⟨rfl, rfl, rfl, rfl, rfl, rfl, rfl, Or.inr ⟨res, e⟩, [], by simp, rfl⟩

theorem loop_queried {ε : K} {l : List (P2 K)} {m : ℕ} {P : Patch K} {st : List (P3 K) × Patch K}
    (h : forLoop m (fun k (st : List (P3 K) × Patch K) => do
      let uv ← vget l k
      let x ← eval ε uv st.2
      .ok (st.1 ++ [x.1], x.2)) ([], P) = .ok st) : Queried ε P st.2 := by
  induction m generalizing st with
  | zero => cases h; exact Queried.refl ε P
  | succ m ih =>
    rw [forLoop_succ] at h
    obtain ⟨st', e, h⟩ := bind_ok h
    obtain ⟨uv, _, h⟩ := bind_ok h
    obtain ⟨x, e', h⟩ := bind_ok h
    cases h
    exact (ih e).trans (eval_queried e')

theorem evalMesh_queried {ε : K} {P : Patch K} {res : ℕ} {x} (h : P.evalMesh ε res = .ok x) : Queried ε P x.2 := by
  unfold evalMesh at h
  obtain ⟨_, _, h⟩ := bind_ok h
  obtain ⟨uvs, e1, h⟩ := bind_ok h
  obtain ⟨r, e2, h⟩ := bind_ok h
  cases h
  exact (params_queried e1).trans (loop_queried e2)

/-- The calls that can change nothing but the caches. -/
def Call.isQuery : Call K → Bool
  | .eval _ => true
  | .mesh _ => true
  | .domainParams _ => true
  | .mapSide _ _ => true
  | .mapSides _ => true
  | _ => false

theorem query_queried {ε : K} {P P' : Patch K} {c : Call K} (hc : c.isQuery = true) (h : P.step ε c = .ok P') : Queried ε P P' := by
  cases c <;> simp [Call.isQuery] at hc <;> unfold step at h <;> obtain ⟨r, e, h⟩ := bind_ok h <;> cases h
  · exact eval_queried e
  · exact evalMesh_queried e
  · exact params_queried e
  · exact map_queried e
  · exact maps_queried e

theorem queries_queried {ε : K} {P P' : Patch K} {cs : List (Call K)} (hc : ∀ c ∈ cs, c.isQuery = true)
    (h : P.run ε cs = .ok P') : Queried ε P P' := by
  induction cs generalizing P with
  | nil => cases h; exact Queried.refl ε _
  | cons c cs ih =>
    unfold run at h
    obtain ⟨P1, e, h⟩ := bind_ok h
    exact (query_queried (hc c (by simp)) e).trans (ih (fun c hm => hc c (List.mem_cons_of_mem _ hm)) h)

theorem Inv.congr {ε : K} {P P' : Patch K} (h : Inv ε P) (h1 : P'.kind = P.kind) (h2 : P'.dom = P.dom) (h3 : P'.param = P.param)
    (h4 : ∀ r ∈ P'.surf.ribbons, r.kind = P.kind.ribbon) : Inv ε P' := by
  refine ⟨by rw [h1]; exact h4, ?_, by rw [h1, h2]; exact h.regular, by unfold CacheOk; rw [h2]; exact h.cache,
    by rw [h2]; exact h.len⟩
  rw [h2]
  refine h.param.imp id ?_
  unfold ParamOk
  rw [h1, h2, h3]
  exact id

theorem new_inv (ε : K) (k : PatchKind) : Inv ε (Patch.new k) :=
  ⟨by simp [new], Or.inl rfl, fun _ => Or.inl rfl, Or.inl rfl, rfl⟩

theorem vset_mem {α : Type} {l l' : List α} {i : ℕ} {a b : α} (h : vset l i a = .ok l') (hb : b ∈ l') : b = a ∨ b ∈ l := by
  unfold vset at h
  split_ifs at h
  cases h
  rcases List.mem_or_eq_of_mem_set hb with q | q
  · exact Or.inr q
  · exact Or.inl q

theorem onRibbon_inv {ε : K} {P P' : Patch K} (hp : Inv ε P) {i : ℕ} {f : Ribbon K → M (Ribbon K)}
    (hf : ∀ r r', f r = .ok r' → r'.kind = r.kind) (h : P.onRibbon i f = .ok P') : Inv ε P' := by
  unfold onRibbon at h
  obtain ⟨r, e1, h⟩ := bind_ok h
  obtain ⟨r', e2, h⟩ := bind_ok h
  obtain ⟨rs, e3, h⟩ := bind_ok h
  cases h
  refine hp.congr rfl rfl rfl ?_
  intro q hq
  rcases vset_mem e3 hq with rfl | hq
  · rw [hf _ _ e2]; exact hp.kinds r (by rw [vget_eq_ok] at e1; exact List.mem_of_getElem? e1)
  · exact hp.kinds q hq

theorem updateFrom_n {vs : List (P2 K)} {c : P2 K} {d : Domain K} (h : Domain.updateFrom vs c = .ok d) : d.n = vs.length := by
  unfold Domain.updateFrom at h
  obtain ⟨fr, _, h⟩ := bind_ok h
  cases h
  rfl

theorem updateFrom_len {vs : List (P2 K)} {c : P2 K} {d : Domain K} (h : Domain.updateFrom vs c = .ok d) : d.vertices.length = d.n := by
  unfold Domain.updateFrom at h
  obtain ⟨fr, _, h⟩ := bind_ok h
  cases h
  rfl

theorem angular_len {cs : List (Curve K)} {d : Domain K} (h : Domain.angularUpdate cs = .ok d) : d.vertices.length = d.n := by
  have hu : ∀ {vs : List (P2 K)}, Domain.update vs = .ok d → d.vertices.length = d.n := by
    intro vs h
    unfold Domain.update at h
    obtain ⟨_, _, h⟩ := bind_ok h
    exact updateFrom_len h
  unfold Domain.angularUpdate at h
  obtain ⟨_, _, h⟩ := bind_ok h
  unfold Domain.angularUpdateFrom at h
  obtain ⟨_, _, h⟩ := bind_ok h
  obtain ⟨_, _, h⟩ := bind_ok h
  split_ifs at h
  · exact hu h
  · obtain ⟨_, _, h⟩ := bind_ok h
    exact hu h

theorem regularVertices_length {m : ℕ} {vs : List (P2 K)} (h : Domain.regularVertices m = .ok vs) : vs.length = m := by
  unfold Domain.regularVertices at h
  split_ifs at h with h4
  · cases h; simp [h4]
  · obtain ⟨a, _, h⟩ := bind_ok h
    rw [forLoop_push m _ (fun i : ℕ => (⟨Libm.cos (a * i), Libm.sin (a * i)⟩ : P2 K)) _ (fun _ _ _ => rfl)] at h
    cases h
    simp

theorem updateDomain_inv {ε : K} {P P' : Patch K} (hp : Inv ε P) (h : P.updateDomain = .ok P') :
    Inv ε P' ∧ P'.kind = P.kind ∧ P'.surf = P.surf ∧ P'.linked = P.linked ∧ P'.midSet = P.midSet ∧ P'.mid = P.mid ∧
      P'.central = P.central := by
  unfold updateDomain at h
  split_ifs at h with hr
  · obtain ⟨r, e, h⟩ := bind_ok h
    unfold Domain.regularUpdate at e
    split_ifs at e with hn
    · cases e
      cases h
      exact ⟨hp, rfl, rfl, rfl, rfl, rfl, rfl⟩
    · obtain ⟨vs, e1, e⟩ := bind_ok e
      obtain ⟨d, e2, e⟩ := bind_ok e
      cases e
      rw [if_pos rfl] at h
      obtain ⟨o, e3, h⟩ := bind_ok h
      cases h
      refine ⟨⟨hp.kinds, Or.inr ⟨o, [], e3, by simp, rfl⟩, fun _ => Or.inr ⟨vs, ?_, ?_⟩, Or.inl rfl, updateFrom_len e2⟩, rfl, rfl, rfl, rfl, rfl, rfl⟩
      · change Domain.regularVertices d.n = .ok vs
        rw [updateFrom_n e2, regularVertices_length e1]; exact e1
      · exact e2
  · obtain ⟨d, e, h⟩ := bind_ok h
    obtain ⟨o, e3, h⟩ := bind_ok h
    cases h
    exact ⟨⟨hp.kinds, Or.inr ⟨o, [], e3, by simp, rfl⟩, fun q => absurd q hr, Or.inl rfl, angular_len e⟩, rfl, rfl, rfl, rfl, rfl, rfl⟩

theorem updateCentral_form {ε : K} {P P' : Patch K} (h : P.updateCentral ε = .ok P') :
    ∃ Q m c, Queried ε P Q ∧ P' = { Q with mid := m, central := c } := by
  unfold updateCentral at h
  obtain ⟨m, _, h⟩ := bind_ok h
  obtain ⟨s, e1, h⟩ := bind_ok h
  obtain ⟨f, e2, h⟩ := bind_ok h
  have hq := (eval_queried e1).trans (deficiency_queried e2)
  have hq' : Queried ε P { f.2 with mid := P.mid, central := P.central } :=
    ⟨hq.kind, hq.surf, hq.linked, hq.midSet, rfl, rfl, hq.dom, hq.cache, hq.param⟩
  split_ifs at h
  · cases h
    exact ⟨_, _, _, hq', rfl⟩
  · obtain ⟨c, _, h⟩ := bind_ok h
    cases h
    exact ⟨_, _, _, hq', by rfl⟩

theorem finish_form {ε : K} {P P' : Patch K} (h : P.finish ε = .ok P') :
    ∃ Q m c, Queried ε P Q ∧ P' = { Q with mid := m, central := c } := by
  unfold finish at h
  split at h
  · exact updateCentral_form h
  · exact updateCentral_form h
  · cases h; exact ⟨P, P.mid, P.central, Queried.refl ε P, rfl⟩

theorem form_inv {ε : K} {P P' : Patch K} (hp : Inv ε P) (h : ∃ Q m c, Queried ε P Q ∧ P' = { Q with mid := m, central := c }) :
    Inv ε P' := by
  obtain ⟨Q, m, c, hq, rfl⟩ := h
  exact (hq.inv hp).congr rfl rfl rfl (hq.inv hp).kinds

theorem updateRibbon_kinds {ε : K} {k : RibbonKind} {rs rs' : List (Ribbon K)} {i : ℕ} (h0 : ∀ r ∈ rs, r.kind = k)
    (h : Surf.updateRibbon ε rs i = .ok rs') : ∀ r ∈ rs', r.kind = k := by
  unfold Surf.updateRibbon at h
  obtain ⟨nb, _, h⟩ := bind_ok h
  obtain ⟨r, e1, h⟩ := bind_ok h
  obtain ⟨r', e2, h⟩ := bind_ok h
  intro q hq
  rcases vset_mem h hq with rfl | hq
  · rw [(Ribbon.update_keeps e2).1]; exact h0 r (by rw [vget_eq_ok] at e1; exact List.mem_of_getElem? e1)
  · exact h0 q hq

theorem forLoop_inv' {α : Type} {m : ℕ} {f : ℕ → α → M α} {a b : α} (p : α → Prop) (h0 : p a)
    (hs : ∀ k x y, p x → f k x = .ok y → p y) (h : forLoop m f a = .ok b) : p b := by
  induction m generalizing b with
  | zero => cases h; exact h0
  | succ m ih =>
    rw [forLoop_succ] at h
    obtain ⟨x, e, h⟩ := bind_ok h
    exact hs _ _ _ (ih e) h

theorem updateCorner_ribbons {ε : K} {S S' : Surf K} {i : ℕ} (h : S.updateCorner ε i = .ok S') :
    S'.ribbons = S.ribbons ∧ S'.useGamma = S.useGamma := by
  unfold Surf.updateCorner at h
  obtain ⟨_, _, h⟩ := bind_ok h
  obtain ⟨_, _, h⟩ := bind_ok h
  cases h
  exact ⟨rfl, rfl⟩

theorem updateAll_kinds {ε : K} {k : RibbonKind} {S S' : Surf K} (h0 : ∀ r ∈ S.ribbons, r.kind = k)
    (h : S.updateAll ε = .ok S') : ∀ r ∈ S'.ribbons, r.kind = k := by
  unfold Surf.updateAll at h
  obtain ⟨rs, e, h⟩ := bind_ok h
  have h1 := forLoop_inv' (fun rs : List (Ribbon K) => ∀ r ∈ rs, r.kind = k) h0 (fun _ _ _ a b => updateRibbon_kinds a b) e
  unfold Surf.updateCorners at h
  exact forLoop_inv' (fun S : Surf K => ∀ r ∈ S.ribbons, r.kind = k) h1
    (fun _ _ _ a b => by rw [(updateCorner_ribbons b).1]; exact a) h

theorem updateOne_kinds {ε : K} {k : RibbonKind} {S S' : Surf K} {i : ℕ} (h0 : ∀ r ∈ S.ribbons, r.kind = k)
    (h : S.updateOne ε i = .ok S') : ∀ r ∈ S'.ribbons, r.kind = k := by
  unfold Surf.updateOne at h
  obtain ⟨rs, e, h⟩ := bind_ok h
  obtain ⟨S1, e1, h⟩ := bind_ok h
  rw [(updateCorner_ribbons h).1, (updateCorner_ribbons e1).1]
  exact updateRibbon_kinds h0 e

theorem step_inv {ε : K} {P P' : Patch K} {c : Call K} (hp : Inv ε P) (h : P.step ε c = .ok P') : Inv ε P' ∧ P'.kind = P.kind := by
  have query : ∀ {c : Call K}, c.isQuery = true → P.step ε c = .ok P' → Inv ε P' ∧ P'.kind = P.kind :=
    fun hc h => ⟨(query_queried hc h).inv hp, (query_queried hc h).kind⟩
  have onr : ∀ {i f}, (∀ r r', f r = .ok r' → r'.kind = r.kind) → P.onRibbon i f = .ok P' → Inv ε P' ∧ P'.kind = P.kind := by
    intro i f hf h
    refine ⟨onRibbon_inv hp hf h, ?_⟩
    unfold onRibbon at h
    obtain ⟨r, e1, h⟩ := bind_ok h
    obtain ⟨r', e2, h⟩ := bind_ok h
    obtain ⟨rs, e3, h⟩ := bind_ok h
    cases h; rfl
  have formk : ∀ {Q Q' : Patch K}, (∃ R m c, Queried ε Q R ∧ Q' = { R with mid := m, central := c }) → Q'.kind = Q.kind := by
    rintro Q _ ⟨R, m, c, hq, rfl⟩
    exact hq.kind
  cases c with
  | gamma g => cases h; exact ⟨hp.congr rfl rfl rfl hp.kinds, rfl⟩
  | curve i c =>
    unfold step setCurve at h
    dsimp only at h
    split_ifs at h
    cases h
    refine ⟨hp.congr rfl rfl rfl ?_, rfl⟩
    intro r hr
    simp only [List.mem_append, List.mem_singleton] at hr
    rcases hr with (q | rfl) | q
    · exact hp.kinds r (List.mem_of_mem_take q)
    · rfl
    · exact hp.kinds r (List.mem_of_mem_drop q)
  | curves cs =>
    cases h
    refine ⟨hp.congr rfl rfl rfl ?_, rfl⟩
    intro r hr
    obtain ⟨c, _, rfl⟩ := List.mem_map.mp hr
    rfl
  | loop =>
    unfold step setupLoop at h
    obtain ⟨cs, _, h⟩ := bind_ok h
    cases h
    refine ⟨hp.congr rfl rfl rfl ?_, rfl⟩
    intro r hr
    obtain ⟨k, hk, e⟩ := List.mem_iff_getElem.mp hr
    rw [List.getElem_zipWith] at e
    rw [← e]
    exact hp.kinds (P.surf.ribbons[k]'(by simp at hk; omega)) (List.getElem_mem _)
  | handler i v =>
    refine onr ?_ h
    intro r r' e
    unfold Ribbon.setHandler at e
    obtain ⟨_, _, e⟩ := bind_ok e
    cases e; rfl
  | mult i m => exact onr (fun r r' e => by cases e; rfl) h
  | fence i f => exact onr (fun r r' e => by cases e; rfl) h
  | reset i => exact onr (fun r r' e => by cases e; rfl) h
  | setMid p =>
    unfold step at h
    dsimp only at h
    split_ifs at h
    have := updateCentral_form h
    refine ⟨form_inv (P := { P with mid := p, midSet := true }) (hp.congr rfl rfl rfl hp.kinds) this,
      formk (Q := { P with mid := p, midSet := true }) this⟩
  | unsetMid =>
    unfold step at h
    dsimp only at h
    split_ifs at h
    have := updateCentral_form h
    refine ⟨form_inv (P := { P with midSet := false }) (hp.congr rfl rfl rfl hp.kinds) this,
      formk (Q := { P with midSet := false }) this⟩
  | update =>
    unfold step update at h
    obtain ⟨P1, e1, h⟩ := bind_ok h
    obtain ⟨h1, h2, _⟩ := updateDomain_inv hp e1
    split_ifs at h
    obtain ⟨S, e2, h⟩ := bind_ok h
    have := finish_form h
    exact ⟨form_inv (P := { P1 with surf := S }) (h1.congr rfl rfl rfl (updateAll_kinds h1.kinds e2)) this, (formk (Q := { P1 with surf := S }) this).trans h2⟩
  | updateSide i =>
    unfold step updateSide at h
    obtain ⟨P1, e1, h⟩ := bind_ok h
    obtain ⟨h1, h2, _⟩ := updateDomain_inv hp e1
    split_ifs at h
    obtain ⟨S, e2, h⟩ := bind_ok h
    have := finish_form h
    exact ⟨form_inv (P := { P1 with surf := S }) (h1.congr rfl rfl rfl (updateOne_kinds h1.kinds e2)) this, (formk (Q := { P1 with surf := S }) this).trans h2⟩
  | eval uv => exact query rfl h
  | mesh res => exact query rfl h
  | domainParams res => exact query rfl h
  | mapSide i uv => exact query rfl h
  | mapSides uv => exact query rfl h

theorem run_inv {ε : K} {P P' : Patch K} {cs : List (Call K)} (hp : Inv ε P) (h : P.run ε cs = .ok P') :
    Inv ε P' ∧ P'.kind = P.kind := by
  induction cs generalizing P with
  | nil => cases h; exact ⟨hp, rfl⟩
  | cons c cs ih =>
    unfold run at h
    obtain ⟨P1, e, h⟩ := bind_ok h
    obtain ⟨a, b⟩ := step_inv hp e
    obtain ⟨a', b'⟩ := ih a h
    exact ⟨a', b'.trans b⟩

end Patch

end Transfinite
