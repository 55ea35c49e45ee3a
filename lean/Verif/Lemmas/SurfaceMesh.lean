import Verif.Model.SurfaceMesh
import Verif.Props.MeshEval
import Verif.Lemmas.Agree
import Verif.Lemmas.AffineSuperD
import Verif.Lemmas.Hybrid
import Verif.Lemmas.SPatchState
import Verif.Lemmas.SuperDState

/-! # Lemmas for C37: meshes of the surfaces with control points -/

namespace Transfinite

open Spec

variable {K : Type} [Field K] [LinearOrder K] [Libm K]

namespace Mesh

variable {S : Type} {ev : P2 K → S → M (P3 K × S)} {R : S → S → Prop} {s : S}

omit [LinearOrder K] [Libm K] in
theorem points_ok (hR : ∀ s1 uv r, R s s1 → ev uv s1 = .ok r → R s r.2)
    (hE : ∀ s1 uv, R s s1 → Prod.fst <$> ev uv s1 = Prod.fst <$> ev uv s)
    {l : List (P2 K)} {f : ℕ → P2 K} {N : ℕ} (hl : l = tab N f) {m : ℕ} (hm : m ≤ N) {s0 : S} (h0 : R s s0) {pts : List (P3 K)} {s' : S} :
    forLoop m (fun k (st : List (P3 K) × S) => do
      let uv ← vget l k
      let x ← ev uv st.2
      .ok (st.1 ++ [x.1], x.2)) ([], s0) = .ok (pts, s') →
    ∃ g, pts = tab m g ∧ R s s' ∧ ∀ k < m, ∃ Q, ev (f k) s = .ok (g k, Q) := by
  induction m generalizing pts s' with
  | zero => intro h; cases h; exact ⟨fun _ => 0, rfl, h0, by simp⟩
  | succ m ih =>
    intro h
    rw [forLoop_succ] at h
    obtain ⟨⟨pts', P1⟩, e, h1⟩ := bind_ok h
    obtain ⟨uv, e1, h2⟩ := bind_ok h1
    obtain ⟨x, e2, h3⟩ := bind_ok h2
    clear h h1 h2
    obtain ⟨g, rfl, hq, hg⟩ := ih (by omega) e
    rw [hl, vget_tab _ (by omega)] at e1
    obtain rfl := Except.ok.inj e1
    obtain ⟨rfl, rfl⟩ := Prod.mk.inj (Except.ok.inj h3)
    dsimp only at e2
    refine ⟨Function.update g m x.1, ?_, hR _ _ _ hq e2, ?_⟩
    · rw [tab_succ, Function.update_self]
      congr 1
      apply tab_congr
      intro k hk
      rw [Function.update_of_ne (by omega)]
    · intro k hk
      by_cases hkm : k = m
      · subst hkm
        rw [Function.update_self]
        have := hE _ (f k) hq
        rw [e2] at this
        cases q : ev (f k) s with
        | error y => rw [q] at this; cases this
        | ok y =>
          rw [q] at this
          have this : x.1 = y.1 := Except.ok.inj this
          exact ⟨y.2, by rw [this]⟩
      · rw [Function.update_of_ne hkm]
        exact hg k (by omega)

/-- The cache is empty or belongs to the present domain. -/
def CacheOk (c : Domain.Cached (Domain K) K) : Prop := c.cache = [] ∨ ∃ r, Domain.parametersImpl c.dom r = .ok c.cache

omit [Libm K] in
theorem parameters_keeps {c : Domain.Cached (Domain K) K} {res : ℕ} {r : List (P2 K) × Domain.Cached (Domain K) K} (hc : CacheOk c)
    (h : Domain.parameters (fun d => Domain.meshSize d.n) Domain.parametersImpl c res = .ok r) : r.2.dom = c.dom ∧ CacheOk r.2 := by
  unfold Domain.parameters at h
  split_ifs at h
  · cases h; exact ⟨rfl, hc⟩
  · obtain ⟨ps, e, h⟩ := bind_ok h
    cases h
    exact ⟨rfl, Or.inr ⟨res, e⟩⟩

/-- What the evaluation of a mesh does with the object. -/
theorem eval_keeps {dom : S → Domain.Cached (Domain K) K} {setDom : S → Domain.Cached (Domain K) K → S} (hc : CacheOk (dom s))
    (h0 : ∀ c, c.dom = (dom s).dom → CacheOk c → R s (setDom s c)) (hR : ∀ s1 uv r, R s s1 → ev uv s1 = .ok r → R s r.2)
    {res : ℕ} {r : (List (P3 K) × List Domain.Tri) × S} (h : eval dom setDom ev res s = .ok r) : R s r.2 := by
  unfold eval at h
  obtain ⟨topo, e0, h⟩ := bind_ok h
  obtain ⟨uvs, e1, h⟩ := bind_ok h
  obtain ⟨x, e2, h⟩ := bind_ok h
  cases h
  obtain ⟨hq1, hq2⟩ := parameters_keeps hc e1
  refine Patch.forLoop_inv' (fun st : List (P3 K) × S => R s st.2) (show R s (([] : List (P3 K)), setDom s uvs.2).2 from h0 _ hq1 hq2) (fun k u v hu e => ?_) e2
  obtain ⟨uv, _, e⟩ := bind_ok e
  obtain ⟨y, e3, e⟩ := bind_ok e
  cases e
  exact hR _ _ _ hu e3

variable [IsStrictOrderedRing K]

theorem parameters_eq {c : Domain.Cached (Domain K) K} (hc : CacheOk c) (hv : c.dom.vertices.length = c.dom.n) (hn : 3 ≤ c.dom.n) {res : ℕ} :
    Prod.fst <$> Domain.parameters (fun d => Domain.meshSize d.n) Domain.parametersImpl c res = c.dom.parametersImpl res := by
  unfold Domain.parameters
  split_ifs with hl
  · rcases hc with e | ⟨r, e⟩
    · rw [e] at hl
      exfalso
      have : 0 < Domain.meshSize c.dom.n res := by
        unfold Domain.meshSize
        split
        · apply Nat.div_pos _ (by omega); nlinarith
        · split <;> positivity
      simp at hl
      omega
    · have := Patch.params_length hn hv e
      rw [hl] at this
      rw [meshSize_inj hn this, e]
      rfl
  · cases c.dom.parametersImpl res with
    | error x => rfl
    | ok x => rfl

/-- `eval(resolution)` in terms of `eval(uv)`, for any class for which the caches are transparent. -/
theorem eval_ok {dom : S → Domain.Cached (Domain K) K} {setDom : S → Domain.Cached (Domain K) K → S}
    (hc : CacheOk (dom s)) (hv : (dom s).dom.vertices.length = (dom s).dom.n) (hn : 3 ≤ (dom s).dom.n)
    (h0 : ∀ c, c.dom = (dom s).dom → CacheOk c → R s (setDom s c))
    (hR : ∀ s1 uv r, R s s1 → ev uv s1 = .ok r → R s r.2)
    (hE : ∀ s1 uv, R s s1 → Prod.fst <$> ev uv s1 = Prod.fst <$> ev uv s)
    {res : ℕ} {pts : List (P3 K)} {ts : List Domain.Tri} {s' : S} (h : eval dom setDom ev res s = .ok ((pts, ts), s')) :
    R s s' ∧ ∃ uvs : List (P2 K), (dom s).dom.parametersImpl res = .ok uvs ∧ Domain.meshTopology (dom s).dom.n res = .ok (pts.length, ts) ∧
      pts.length = uvs.length ∧ ∀ (k : ℕ) (p : P3 K) (uv : P2 K), pts[k]? = some p → uvs[k]? = some uv → ∃ Q, ev uv s = .ok (p, Q) := by
  unfold eval at h
  obtain ⟨topo, e0, h⟩ := bind_ok h
  obtain ⟨uvs, e1, h⟩ := bind_ok h
  obtain ⟨⟨pts', P1⟩, e2, h⟩ := bind_ok h
  obtain ⟨hq1, hq2⟩ := parameters_keeps hc e1
  have hu := parameters_eq hc hv hn (res := res)
  rw [e1] at hu
  have hu : (dom s).dom.parametersImpl res = .ok uvs.1 := hu.symm
  have : Inhabited (P2 K) := ⟨0⟩
  obtain ⟨f, hf⟩ := exists_tab uvs.1
  obtain ⟨g, hg, hr, hev⟩ := points_ok hR hE hf le_rfl (h0 _ hq1 hq2) e2
  obtain ⟨hh, rfl⟩ := Prod.mk.inj (Except.ok.inj h)
  obtain ⟨rfl, rfl⟩ := Prod.mk.inj hh
  have hlen : pts'.length = uvs.1.length := by rw [hg, length_tab]
  refine ⟨hr, uvs.1, hu, ?_, hlen, ?_⟩
  · rw [meshTopology_eq] at e0 ⊢
    obtain rfl := Except.ok.inj e0
    rw [hlen, Patch.params_length hn hv hu]
  · intro k p uv h1 h2
    rw [hf] at h2
    rw [hg] at h1
    by_cases hk : k < uvs.1.length
    · simp [tab, hk] at h1 h2
      rw [← h1, ← h2]
      exact hev k hk
    · simp [tab, hk] at h1

omit [LinearOrder K] [Libm K] [IsStrictOrderedRing K] in
theorem points_total (hR : ∀ s1 uv r, R s s1 → ev uv s1 = .ok r → R s r.2)
    (hE : ∀ s1 uv, R s s1 → Prod.fst <$> ev uv s1 = Prod.fst <$> ev uv s)
    {l : List (P2 K)} {f : ℕ → P2 K} {N : ℕ} (hl : l = tab N f) (he : ∀ k < N, ∃ x, ev (f k) s = .ok x) {m : ℕ} (hm : m ≤ N) {s0 : S} (h0 : R s s0) :
    ∃ st : List (P3 K) × S, forLoop m (fun k (st : List (P3 K) × S) => do
      let uv ← vget l k
      let x ← ev uv st.2
      .ok (st.1 ++ [x.1], x.2)) ([], s0) = .ok st := by
  induction m with
  | zero => exact ⟨_, rfl⟩
  | succ m ih =>
    obtain ⟨⟨pts, s1⟩, e⟩ := ih (by omega)
    obtain ⟨g, _, hq, _⟩ := points_ok hR hE hl (show m ≤ N by omega) h0 e
    obtain ⟨x, e2⟩ := he m (by omega)
    have := hE _ (f m) hq
    rw [e2] at this
    rw [forLoop_succ, e, M_bind_ok, hl, vget_tab _ (by omega), M_bind_ok]
    dsimp only
    cases e3 : ev (f m) s1 with
    | error y => rw [e3] at this; cases this
    | ok y => rw [M_bind_ok]; exact ⟨_, rfl⟩

theorem eval_defined {dom : S → Domain.Cached (Domain K) K} {setDom : S → Domain.Cached (Domain K) K → S}
    (hc : CacheOk (dom s)) (hv : (dom s).dom.vertices.length = (dom s).dom.n) (hn : 3 ≤ (dom s).dom.n)
    (h0 : ∀ c, c.dom = (dom s).dom → CacheOk c → R s (setDom s c))
    (hR : ∀ s1 uv r, R s s1 → ev uv s1 = .ok r → R s r.2)
    (hE : ∀ s1 uv, R s s1 → Prod.fst <$> ev uv s1 = Prod.fst <$> ev uv s)
    {res : ℕ} {uvs : List (P2 K)} (hu : (dom s).dom.parametersImpl res = .ok uvs) (he : ∀ uv ∈ uvs, ∃ x, ev uv s = .ok x) :
    ∃ x, eval dom setDom ev res s = .ok x := by
  have hu' := parameters_eq hc hv hn (res := res)
  rw [hu] at hu'
  cases e1 : Domain.parameters (fun d => Domain.meshSize d.n) Domain.parametersImpl (dom s) res with
  | error x => rw [e1] at hu'; cases hu'
  | ok x =>
    rw [e1] at hu'
    have hx : x.1 = uvs := Except.ok.inj hu'
    obtain ⟨hq1, hq2⟩ := parameters_keeps hc e1
    have : Inhabited (P2 K) := ⟨0⟩
    obtain ⟨f, hf⟩ := exists_tab x.1
    obtain ⟨st, e2⟩ := points_total hR hE hf (fun k hk => he _ (by
      rw [← hx, hf]; unfold tab
      exact List.mem_map.mpr ⟨k, List.mem_range.mpr hk, rfl⟩)) le_rfl (h0 _ hq1 hq2)
    unfold eval points
    rw [meshTopology_eq, M_bind_ok, e1, M_bind_ok, e2]
    exact ⟨_, rfl⟩

end Mesh

/-- Two objects used with the same domain give the same local parameters. -/
theorem Param.Fresh.maps_same {ε : K} {k : Param.Kind K} {d : Domain K} {o o' : Param.Obj K} (h : Param.Fresh ε k d o) (h' : Param.Fresh ε k d o') (uv : P2 K) :
    Prod.fst <$> Param.mapToRibbons ε k uv o = Prod.fst <$> Param.mapToRibbons ε k uv o' := by
  obtain ⟨o0, cs, e1, hcs, e2⟩ := h
  obtain ⟨fr, h1, h2, _, _, _, h3, _⟩ := C19_transparent e1 e2
  rw [Patch.lastDomain_queries hcs] at h1 h2
  obtain ⟨o0', cs', e1', hcs', e2'⟩ := h'
  obtain ⟨fr', h1', h2', _, _, _, h3', _⟩ := C19_transparent e1' e2'
  rw [Patch.lastDomain_queries hcs'] at h1' h2'
  rw [h1] at h1'
  cases h1'
  rw [(h3 uv).2, (h3' uv).2, h2]

/-- Computations that use the first component only. -/
theorem fst_bind {α β γ δ : Type} {x x' : M (α × β)} (h : Prod.fst <$> x = Prod.fst <$> x') (f : α → M γ) (g g' : β → δ) :
    Prod.fst <$> (x >>= fun r => f r.1 >>= fun p => (.ok (p, g r.2) : M (γ × δ))) = Prod.fst <$> (x' >>= fun r => f r.1 >>= fun p => (.ok (p, g' r.2) : M (γ × δ))) := by
  cases x with
  | error e =>
    cases x' with
    | error e' => cases h; rfl
    | ok y => cases h
  | ok y =>
    cases x' with
    | error e' => cases h
    | ok z =>
      have h : y.1 = z.1 := Except.ok.inj h
      rw [M_bind_ok, M_bind_ok, h]
      cases f z.1 <;> rfl

/-! Generalized Bézier patches -/

namespace GB

variable {ε : K} {arc : List (P3 K) → K → K → K}

/-- `G'` differs from `G` in the caches only. -/
def Same (ε : K) (G G' : GB K) : Prop :=
  ∃ c o, G' = { G with dom := c, param := o } ∧ c.dom = G.dom.dom ∧ Mesh.CacheOk c ∧ (G.dom.dom.n = 0 ∨ Param.Fresh ε G.kind.param G.dom.dom o)

theorem same_eval {G G1 : GB K} {uv : P2 K} {r : P3 K × GB K} (h : Same ε G G1) (e : G1.eval ε uv = .ok r) : Same ε G r.2 := by
  obtain ⟨c, o, rfl, h1, h2, h3⟩ := h
  unfold eval at e
  obtain ⟨x, e1, e⟩ := bind_ok e
  obtain ⟨p, _, e⟩ := bind_ok e
  cases e
  exact ⟨c, x.2, rfl, h1, h2, h3.imp id fun q => q.maps e1⟩

theorem same_point {G G1 : GB K} (hi : Inv ε G) (hn : G.dom.dom.n ≠ 0) (h : Same ε G G1) (uv : P2 K) :
    Prod.fst <$> G1.eval ε uv = Prod.fst <$> G.eval ε uv := by
  obtain ⟨c, o, rfl, h1, h2, h3⟩ := h
  have e := (h3.resolve_left hn).maps_same (hi.param.resolve_left hn) uv
  exact fst_bind e (G.evalWith ε) (fun o' => { G with dom := c, param := o' }) (fun o' => { G with param := o' })

theorem Same.inv {G G1 : GB K} (hi : Inv ε G) (h : Same ε G G1) : Inv ε G1 ∧ G1.kind = G.kind ∧ Mesh.CacheOk G1.dom := by
  obtain ⟨c, o, rfl, h1, h2, h3⟩ := h
  refine ⟨⟨?_, ?_, ?_⟩, rfl, h2⟩
  · change c.dom.n = 0 ∨ Param.Fresh ε G.kind.param c.dom o
    rw [h1]; exact h3
  · intro hk
    change c.dom.n = 0 ∨ ∃ vs, Domain.regularVertices c.dom.n = .ok vs ∧ Domain.updateFrom vs 0 = .ok c.dom
    rw [h1]; exact hi.regular hk
  · change c.dom.vertices.length = c.dom.n
    rw [h1]; exact hi.len

theorem updateDomain_cache {G G' : GB K} (hk : G.kind = .side) (hc : Mesh.CacheOk G.dom) (h : G.updateDomain = .ok G') : Mesh.CacheOk G'.dom := by
  unfold updateDomain at h
  rw [hk] at h
  dsimp only at h
  obtain ⟨r, _, h⟩ := bind_ok h
  split_ifs at h
  · obtain ⟨o, _, h⟩ := bind_ok h
    cases h; exact Or.inl rfl
  · cases h; exact hc

theorem step_cache {G G' : GB K} (hk : G.kind = .side) (hi : Inv ε G) (hc : Mesh.CacheOk G.dom) {c : Call K} (e : G.step ε arc c = .ok G') : Mesh.CacheOk G'.dom := by
  by_cases hn : Hybrid.isNet c = true
  · rw [Hybrid.asNet_step_dom hn hk e]; exact hc
  · cases c with
    | curves cs => cases e; exact hc
    | loop =>
      obtain ⟨curves, cs, _, _, _, h⟩ := setupLoop_parts (show G.setupLoop arc = .ok G' from e)
      exact updateDomain_cache (by exact hk) (by exact hc) h
    | eval uv =>
      obtain ⟨r, e1, e⟩ := bind_ok (show (G.eval ε uv >>= fun r => .ok r.2) = .ok G' from e)
      cases e
      rw [(eval_inv e1 hi).2]; exact hc
    | _ => exact absurd rfl hn

theorem Reached.inv {G : GB K} (h : Reached ε arc .side G) : Inv ε G ∧ G.kind = .side ∧ Mesh.CacheOk G.dom := by
  induction h with
  | new g l => exact ⟨new_inv ε _ g l, rfl, Or.inl rfl⟩
  | step c _ e ih =>
    obtain ⟨i1, i2, i3⟩ := ih
    obtain ⟨a1, a2, _⟩ := step_inv i1 e
    exact ⟨a1, a2.trans i2, step_cache i2 i1 i3 e⟩
  | mesh res _ e ih =>
    obtain ⟨i1, i2, i3⟩ := ih
    unfold evalMesh at e
    rw [i2] at e
    have := Mesh.eval_keeps (R := Same ε) i3 (fun c h1 h2 => ⟨c, _, rfl, h1, h2, i1.param⟩) (fun s1 uv r h e => same_eval h e) e
    obtain ⟨k1, k2, k3⟩ := this.inv i1
    exact ⟨k1, k2.trans i2, k3⟩

end GB

/-! Hybrid patches -/

namespace Hybrid

variable {ε : K} {arc : List (P3 K) → K → K → K}

/-- `H'` differs from `H` in the caches only. -/
def Same (ε : K) (H H' : Hybrid K) : Prop :=
  ∃ c o, H' = { H with patch := { H.patch with dom := c, param := o } } ∧ c.dom = H.patch.dom.dom ∧ Mesh.CacheOk c ∧
    (H.patch.dom.dom.n = 0 ∨ Param.Fresh ε H.patch.kind.param H.patch.dom.dom o)

theorem Same.inv {H H1 : Hybrid K} (hi : Inv ε H) (h : Same ε H H1) : Inv ε H1 := by
  obtain ⟨c, o, rfl, h1, h2, h3⟩ := h
  refine ⟨⟨hi.patch.kinds, ?_, ?_, h2, ?_⟩, hi.kind, hi.net, hi.shape⟩
  · change c.dom.n = 0 ∨ Param.Fresh ε H.patch.kind.param c.dom o
    rw [h1]; exact h3
  · intro hk
    change c.dom.n = 0 ∨ ∃ vs, Domain.regularVertices c.dom.n = .ok vs ∧ Domain.updateFrom vs 0 = .ok c.dom
    rw [h1]; exact hi.patch.regular hk
  · change c.dom.vertices.length = c.dom.n
    rw [h1]; exact hi.patch.len

theorem same_eval {H H1 : Hybrid K} {uv : P2 K} {r : P3 K × Hybrid K} (hi : Inv ε H) (h : Same ε H H1) (e : H1.eval ε uv = .ok r) : Same ε H r.2 := by
  have hi1 := h.inv hi
  obtain ⟨c, o, rfl, h1, h2, h3⟩ := h
  exact ⟨c, r.2.patch.param, eval_state e, h1, h2, h3.imp id fun q => eval_fresh hi1 e q⟩

theorem maps_agree {k : Param.Kind K} {D : Domain K} {o o' : Param.Obj K} (h : Param.Fresh ε k D o) (h' : Param.Fresh ε k D o') (uv : P2 K) :
    Agree (fun x y => x.1 = y.1 ∧ Param.Fresh ε k D x.2 ∧ Param.Fresh ε k D y.2) (Param.mapToRibbons ε k uv o) (Param.mapToRibbons ε k uv o') := by
  have e := h.maps_same h' uv
  cases ha : Param.mapToRibbons ε k uv o with
  | error x =>
    cases hb : Param.mapToRibbons ε k uv o' with
    | error y => rw [ha, hb] at e; cases e; rfl
    | ok y => rw [ha, hb] at e; cases e
  | ok x =>
    cases hb : Param.mapToRibbons ε k uv o' with
    | error y => rw [ha, hb] at e; cases e
    | ok y =>
      rw [ha, hb] at e
      exact ⟨Except.ok.inj e, h.maps ha, h'.maps hb⟩

theorem weight_agree {G : GB K} {D : Domain K} {o o' : Param.Obj K} {c : Domain.Cached (Domain K) K} (hk : G.kind = .side) (h : Param.Fresh ε G.kind.param D o)
    (h' : Param.Fresh ε G.kind.param D o') (i j k : ℕ) (uv : P2 K) :
    Agree (fun x y => x.1 = y.1 ∧ Param.Fresh ε G.kind.param D x.2.param ∧ Param.Fresh ε G.kind.param D y.2.param) (GB.weight ε i j k uv { G with param := o })
      (GB.weight ε i j k uv { G with dom := c, param := o' }) := by
  unfold GB.weight
  dsimp only
  rw [hk] at *
  dsimp only
  split_ifs
  · exact ⟨rfl, h, h'⟩
  · refine (maps_agree h h' uv).bind fun x y _ _ q => ?_
    rw [← q.1]
    refine Agree.bind (r := Eq) (Agree.refl (x := GB.sideWeight ε { G with param := o } i j k x.1) fun _ _ => rfl) fun w w' _ _ e => ?_
    exact ⟨e, q.2⟩

/-- Two states of the loops, equal up to caches. -/
def SameAcc (ε : K) (k : Param.Kind K) (D : Domain K) (a b : Acc K) : Prop :=
  a.pt = b.pt ∧ a.blends = b.blends ∧ a.sum = b.sum ∧ Param.Fresh ε k D a.param ∧ Param.Fresh ε k D b.param

theorem addBlend_agree {k0 : Param.Kind K} {D : Domain K} {nets : List (List (List (P3 K)))} {i j k : ℕ} {x : K} {a b : Acc K} (h : SameAcc ε k0 D a b) :
    Agree (SameAcc ε k0 D) (addBlend nets i j k x a) (addBlend nets i j k x b) := by
  obtain ⟨a1, a2, a3, a4⟩ := a
  obtain ⟨b1, b2, b3, b4⟩ := b
  obtain ⟨h1, h2, h3, h4⟩ := h
  dsimp only at h1 h2 h3 h4
  subst h1 h2 h3
  unfold addBlend
  split_ifs
  · exact Agree.same fun p _ => ⟨rfl, rfl, rfl, h4⟩
  · exact Agree.same fun p _ => Agree.same fun l _ => ⟨rfl, rfl, rfl, h4⟩

theorem evalNet_agree {G : GB K} {D : Domain K} {o' : Param.Obj K} {c : Domain.Cached (Domain K) K} (hk : G.kind = .side) (uv : P2 K) {a b : Acc K}
    (h : SameAcc ε G.kind.param D a b) : Agree (SameAcc ε G.kind.param D) (evalNet ε G uv a) (evalNet ε { G with dom := c, param := o' } uv b) := by
  unfold evalNet
  refine Agree.loop (fun _ => SameAcc ε G.kind.param D) h fun i _ a b h => ?_
  refine Agree.loop (fun _ => SameAcc ε G.kind.param D) h fun k _ a b h => ?_
  refine Agree.loop (fun _ => SameAcc ε G.kind.param D) h fun j _ a b h => ?_
  unfold evalStep
  refine (weight_agree (c := c) hk h.2.2.2.1 h.2.2.2.2 i j k uv).bind fun x y _ _ q => ?_
  rw [← q.1]
  exact addBlend_agree ⟨h.1, h.2.1, h.2.2.1, q.2⟩

theorem same_point {H H1 : Hybrid K} (hi : Inv ε H) (hn : H.patch.dom.dom.n ≠ 0) (h : Same ε H H1) (uv : P2 K) :
    Prod.fst <$> H1.eval ε uv = Prod.fst <$> H.eval ε uv := by
  obtain ⟨c, o, rfl, h1, h2, h3⟩ := h
  have hk : H.asNet.kind.param = H.patch.kind.param := by
    rw [hi.kind]
    change H.net.kind.param = _
    rw [hi.net]
    rfl
  have f1 : Param.Fresh ε H.patch.kind.param H.patch.dom.dom H.patch.param := hi.patch.param.resolve_left hn
  have f2 := h3.resolve_left hn
  have : Agree (fun x y => x.1 = y.1) (H.eval ε uv) (Hybrid.eval ε uv { H with patch := { H.patch with dom := c, param := o } }) := by
    unfold eval
    dsimp only
    refine (maps_agree f1 f2 uv).bind fun x y _ _ q => ?_
    have hs : SameAcc ε H.asNet.kind.param H.patch.dom.dom ⟨0, List.replicate H.net.n 0, 0, x.2⟩ ⟨0, List.replicate H.net.n 0, 0, y.2⟩ :=
      ⟨rfl, rfl, rfl, by rw [hk]; exact q.2.1, by rw [hk]; exact q.2.2⟩
    refine Agree.bind (evalNet_agree (c := c) (o' := o) (show H.asNet.kind = .side from hi.net) uv hs) fun a b _ _ hab => ?_
    rw [← q.1, ← hab.1, ← hab.2.1, ← hab.2.2.1]
    exact Agree.same fun p _ => rfl
  cases ha : H.eval ε uv with
  | error x =>
    obtain hb := (this.error_iff x).mp ha
    rw [hb]
  | ok x =>
    obtain ⟨y, hb, e⟩ := this.ok ha
    rw [hb]
    change Except.ok y.1 = Except.ok x.1
    rw [e]

theorem Reached.inv {H : Hybrid K} (h : Reached ε arc H) : Inv ε H := by
  induction h with
  | new g l => exact new_inv ε g l
  | step c _ e ih => exact step_inv ih e
  | mesh res _ e ih =>
    have := Mesh.eval_keeps (R := Same ε) (dom := fun H : Hybrid K => H.patch.dom) (by exact ih.patch.cache) (fun c h1 h2 => ⟨c, _, rfl, h1, h2, ih.patch.param⟩)
      (fun s1 uv r h e => same_eval ih h e) e
    exact this.inv ih

end Hybrid

/-! S-patches -/

namespace SPatch

variable {ε : K} {arc : List (P3 K) → K → K → K}

/-- `S'` differs from `S` in the caches only. -/
def Same (ε : K) (S S' : SPatch K) : Prop :=
  ∃ c o, S' = { S with dom := c, param := o } ∧ c.dom = S.dom.dom ∧ Mesh.CacheOk c ∧ (S.dom.dom.n = 0 ∨ Param.Fresh ε (.bary .wachspress) S.dom.dom o)

theorem same_eval {S S1 : SPatch K} {uv : P2 K} {r : P3 K × SPatch K} (h : Same ε S S1) (e : S1.eval ε uv = .ok r) : Same ε S r.2 := by
  obtain ⟨c, o, rfl, h1, h2, h3⟩ := h
  unfold eval at e
  obtain ⟨x, e1, e⟩ := bind_ok e
  obtain ⟨p, _, e⟩ := bind_ok e
  cases e
  exact ⟨c, x.2, rfl, h1, h2, h3.imp id fun q => q.bary e1⟩

theorem same_point {S S1 : SPatch K} (hi : Inv ε S) (hn : S.dom.dom.n ≠ 0) (h : Same ε S S1) (uv : P2 K) :
    Prod.fst <$> S1.eval ε uv = Prod.fst <$> S.eval ε uv := by
  obtain ⟨c, o, rfl, h1, h2, h3⟩ := h
  have e := ((h3.resolve_left hn).bary_same uv).trans ((hi.dom.resolve_left hn).1.bary_same uv).symm
  exact fst_bind e (fun l => sumNet l S.net 0) (fun o' => { S with dom := c, param := o' }) (fun o' => { S with param := o' })

theorem Same.inv {S S1 : SPatch K} (hi : Inv ε S) (h : Same ε S S1) : Inv ε S1 ∧ Mesh.CacheOk S1.dom := by
  obtain ⟨c, o, rfl, h1, h2, h3⟩ := h
  refine ⟨⟨hi.keys, ?_⟩, h2⟩
  change c.dom.n = 0 ∨ Param.Fresh ε (.bary .wachspress) c.dom o ∧ ∃ vs, Domain.regularVertices c.dom.n = .ok vs ∧ Domain.updateFrom vs 0 = .ok c.dom
  rw [h1]
  by_cases hn : S.dom.dom.n = 0
  · exact Or.inl hn
  · exact Or.inr ⟨h3.resolve_left hn, (hi.dom.resolve_left hn).2⟩

theorem updateDomain_cache {S S' : SPatch K} (hc : Mesh.CacheOk S.dom) (h : S.updateDomain = .ok S') : Mesh.CacheOk S'.dom := by
  unfold updateDomain at h
  obtain ⟨r, _, h⟩ := bind_ok h
  split_ifs at h
  · obtain ⟨o, _, h⟩ := bind_ok h
    cases h; exact Or.inl rfl
  · cases h; exact hc

theorem step_cache {S S' : SPatch K} (hc : Mesh.CacheOk S.dom) {c : Call K} (e : S.step ε arc c = .ok S') : Mesh.CacheOk S'.dom := by
  cases c with
  | init n d => cases e; exact hc
  | set i p => cases e; exact hc
  | curves cs => cases e; exact hc
  | loop =>
    obtain ⟨r, _, e⟩ := bind_ok (show S.setupLoop arc = .ok S' from e)
    obtain ⟨cs, _, e⟩ := bind_ok e
    exact updateDomain_cache (by exact hc) e
  | eval uv =>
    obtain ⟨r, e1, e⟩ := bind_ok (show (S.eval ε uv >>= fun r => .ok r.2) = .ok S' from e)
    cases e
    rw [eval_keeps e1]; exact hc

theorem Reached.inv {S : SPatch K} (h : Reached ε arc S) : Inv ε S ∧ Mesh.CacheOk S.dom := by
  induction h with
  | new d => exact ⟨new_inv ε d, Or.inl rfl⟩
  | step c _ e ih => exact ⟨step_inv ih.1 e, step_cache ih.2 e⟩
  | mesh res _ e ih =>
    have := Mesh.eval_keeps (R := Same ε) ih.2 (fun c h1 h2 => ⟨c, _, rfl, h1, h2, ih.1.dom.imp id And.left⟩) (fun s1 uv r h e => same_eval h e) e
    exact this.inv ih.1

end SPatch

/-! SuperD patches -/

namespace SuperD

variable {ε : K} {arc : List (P3 K) → K → K → K}

/-- `S'` differs from `S` in the caches only. -/
def Same (ε : K) (S S' : SuperD K) : Prop :=
  ∃ c o, S' = { S with dom := c, param := o } ∧ c.dom = S.dom.dom ∧ Mesh.CacheOk c ∧ (S.dom.dom.n = 0 ∨ Param.Fresh ε .superD S.dom.dom o)

theorem same_eval {S S1 : SuperD K} {uv : P2 K} {r : P3 K × SuperD K} (h : Same ε S S1) (e : S1.eval ε uv = .ok r) : Same ε S r.2 := by
  obtain ⟨c, o, rfl, h1, h2, h3⟩ := h
  unfold eval at e
  obtain ⟨x, e1, e⟩ := bind_ok e
  obtain ⟨b, _, e⟩ := bind_ok e
  obtain ⟨p, _, e⟩ := bind_ok e
  cases e
  exact ⟨c, x.2, rfl, h1, h2, h3.imp id fun q => q.maps e1⟩

theorem same_point {S S1 : SuperD K} (hi : Inv ε S) (hn : S.dom.dom.n ≠ 0) (h : Same ε S S1) (uv : P2 K) :
    Prod.fst <$> S1.eval ε uv = Prod.fst <$> S.eval ε uv := by
  obtain ⟨c, o, rfl, h1, h2, h3⟩ := h
  have e := (h3.resolve_left hn).maps_same (hi.resolve_left hn).1 uv
  unfold eval
  dsimp only
  cases ha : Param.mapToRibbons ε .superD uv o with
  | error x =>
    cases hb : Param.mapToRibbons ε .superD uv S.param with
    | error y => rw [ha, hb] at e; cases e; rfl
    | ok y => rw [ha, hb] at e; cases e
  | ok x =>
    cases hb : Param.mapToRibbons ε .superD uv S.param with
    | error y => rw [ha, hb] at e; cases e
    | ok y =>
      rw [ha, hb] at e
      have e : x.1 = y.1 := Except.ok.inj e
      rw [M_bind_ok, M_bind_ok, e]
      cases Surf.blendSideSingular ε y.1 with
      | error z => rfl
      | ok bl =>
        rw [M_bind_ok, M_bind_ok]
        cases sumRibbons S.n S.quartic y.1 bl <;> rfl

theorem Same.inv {S S1 : SuperD K} (hi : Inv ε S) (h : Same ε S S1) : Inv ε S1 ∧ Mesh.CacheOk S1.dom := by
  obtain ⟨c, o, rfl, h1, h2, h3⟩ := h
  refine ⟨?_, h2⟩
  change c.dom.n = 0 ∨ Param.Fresh ε .superD c.dom o ∧ ∃ vs, Domain.regularVertices c.dom.n = .ok vs ∧ Domain.updateFrom vs 0 = .ok c.dom
  rw [h1]
  by_cases hn : S.dom.dom.n = 0
  · exact Or.inl hn
  · exact Or.inr ⟨h3.resolve_left hn, (Or.resolve_left hi hn).2⟩

theorem updateDomain_cache {S S' : SuperD K} (hc : Mesh.CacheOk S.dom) (h : S.updateDomain = .ok S') : Mesh.CacheOk S'.dom := by
  unfold updateDomain at h
  obtain ⟨r, _, h⟩ := bind_ok h
  split_ifs at h
  · obtain ⟨o, _, h⟩ := bind_ok h
    cases h; exact Or.inl rfl
  · cases h; exact hc

theorem step_cache {S S' : SuperD K} (hc : Mesh.CacheOk S.dom) {c : Call K} (e : S.step ε arc c = .ok S') : Mesh.CacheOk S'.dom := by
  cases c with
  | init n => cases e; exact hc
  | setV p => cases e; exact hc
  | setF i p => obtain ⟨l, _, rfl⟩ := setF_keeps e; exact hc
  | setE i p => obtain ⟨l, _, rfl⟩ := setE_keeps e; exact hc
  | setFull f => cases e; exact hc
  | loop =>
    obtain ⟨r, _, e⟩ := bind_ok (show S.setupLoop arc = .ok S' from e)
    obtain ⟨cs, _, e⟩ := bind_ok e
    exact updateDomain_cache (by exact hc) e
  | ribbons => rw [updateRibbons_keeps e]; exact hc
  | eval uv =>
    obtain ⟨r, e1, e⟩ := bind_ok (show (S.eval ε uv >>= fun r => .ok r.2) = .ok S' from e)
    cases e
    rw [eval_keeps e1]; exact hc

theorem Reached.inv {S : SuperD K} (h : Reached ε arc S) : Inv ε S ∧ Mesh.CacheOk S.dom := by
  induction h with
  | new => exact ⟨new_inv ε, Or.inl rfl⟩
  | step c _ e ih => exact ⟨step_inv ih.1 e, step_cache ih.2 e⟩
  | mesh res _ e ih =>
    have := Mesh.eval_keeps (R := Same ε) ih.2 (fun c h1 h2 => ⟨c, _, rfl, h1, h2, Or.imp id And.left ih.1⟩) (fun s1 uv r h e => same_eval h e) e
    exact this.inv ih.1

end SuperD

end Transfinite
