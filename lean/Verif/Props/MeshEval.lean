import Verif.Lemmas.PatchUpdate
import Verif.Props.DomainCache
import Verif.Props.Mesh

/-! # C37: the mesh of a surface -/

namespace Transfinite

open Spec

variable {K : Type} [Field K] [LinearOrder K] [Libm K]

namespace Patch

/-- The point computed by `eval` does not depend on the contents of the caches. -/
theorem Queried.eval_fst {ε : K} {P P' : Patch K} (h : Queried ε P P') (hp : ParamOk ε P) (uv : P2 K) :
    Prod.fst <$> P'.eval ε uv = Prod.fst <$> P.eval ε uv := by
  obtain ⟨o, e1, e2⟩ := maps_eq hp uv
  obtain ⟨o', e1', e2'⟩ := maps_eq (h.paramOk hp) uv
  rw [h.kind, h.dom] at e1' e2'
  rw [e1] at e1'
  cases e1'
  rw [← e2] at e2'
  have hw : ∀ l, P'.evalWith ε l = P.evalWith ε l := by
    intro l
    unfold evalWith
    rw [h.kind, h.surf, h.central]
  unfold eval
  rw [h.kind]
  cases ha : Param.mapToRibbons ε P.kind.param uv P'.param with
  | error x =>
    cases hb : Param.mapToRibbons ε P.kind.param uv P.param with
    | error y =>
      rw [ha, hb] at e2'
      cases e2'
      rfl
    | ok y => rw [ha, hb] at e2'; cases e2'
  | ok x =>
    cases hb : Param.mapToRibbons ε P.kind.param uv P.param with
    | error y => rw [ha, hb] at e2'; cases e2'
    | ok y =>
      rw [ha, hb] at e2'
      have e : x.1 = y.1 := Except.ok.inj e2'
      rw [M_bind_ok, M_bind_ok, e, hw]
      cases P.evalWith ε y.1 with
      | error z => rfl
      | ok z => rfl

/-- The same as a statement about values. -/
theorem Queried.eval_iff {ε : K} {P P' : Patch K} (h : Queried ε P P') (hp : ParamOk ε P) (uv : P2 K) (p : P3 K) :
    (∃ Q, P'.eval ε uv = .ok (p, Q)) ↔ ∃ Q, P.eval ε uv = .ok (p, Q) := by
  have e := h.eval_fst hp uv
  have aux : ∀ m : M (P3 K × Patch K), (∃ Q, m = .ok (p, Q)) ↔ Prod.fst <$> m = .ok p := by
    intro m
    cases m with
    | error x => exact ⟨fun ⟨_, h⟩ => (by cases h), fun h => (by cases h)⟩
    | ok x =>
      constructor
      · rintro ⟨Q, h⟩; cases h; rfl
      · intro h
        have h : x.1 = p := Except.ok.inj h
        exact ⟨x.2, by rw [← h]⟩
  rw [aux, aux, e]

/-- The loop of `eval(resolution)`. -/
theorem loop_ok {ε : K} {P : Patch K} (hp : ParamOk ε P) {l : List (P2 K)} {f : ℕ → P2 K} {N : ℕ} (hl : l = tab N f) {m : ℕ} (hm : m ≤ N)
    {P0 : Patch K} (h0 : Queried ε P P0) {pts : List (P3 K)} {P' : Patch K} :
    forLoop m (fun k (st : List (P3 K) × Patch K) => do
      let uv ← vget l k
      let x ← eval ε uv st.2
      .ok (st.1 ++ [x.1], x.2)) ([], P0) = .ok (pts, P') →
    ∃ g, pts = tab m g ∧ Queried ε P P' ∧ ∀ k < m, ∃ Q, P.eval ε (f k) = .ok (g k, Q) := by
  induction m generalizing pts P' with
  | zero => intro h; cases h; exact ⟨fun _ => 0, rfl, h0, by simp⟩
  | succ m ih =>
    intro h
    rw [forLoop_succ] at h
    obtain ⟨⟨pts', P1⟩, e, h1⟩ := bind_ok h
    obtain ⟨uv, e1, h2⟩ := bind_ok h1
    obtain ⟨x, e2, h3⟩ := bind_ok h2
    clear h h1 h2
    obtain ⟨g, rfl, hq, hg⟩ := ih (by omega) e
    rw [hl, vget_tab _ (by omega)] at e1
    obtain rfl := Except.ok.inj e1
    obtain ⟨rfl, rfl⟩ := Prod.mk.inj (Except.ok.inj h3)
    dsimp only at e2
    refine ⟨Function.update g m x.1, ?_, hq.trans (eval_queried e2), ?_⟩
    · rw [tab_succ, Function.update_self]
      congr 1
      apply tab_congr
      intro k hk
      rw [Function.update_of_ne (by omega)]
    · intro k hk
      by_cases hkm : k = m
      · subst hkm
        rw [Function.update_self]
        exact (hq.eval_iff hp _ _).mp ⟨x.2, e2⟩
      · rw [Function.update_of_ne hkm]
        exact hg k (by omega)

theorem loop_total {ε : K} {P : Patch K} (hp : ParamOk ε P) {l : List (P2 K)} {f : ℕ → P2 K} {N : ℕ} (hl : l = tab N f)
    (he : ∀ k < N, ∃ p Q, P.eval ε (f k) = .ok (p, Q)) {m : ℕ} (hm : m ≤ N) {P0 : Patch K} (h0 : Queried ε P P0) :
    ∃ st : List (P3 K) × Patch K, forLoop m (fun k (st : List (P3 K) × Patch K) => do
      let uv ← vget l k
      let x ← eval ε uv st.2
      .ok (st.1 ++ [x.1], x.2)) ([], P0) = .ok st := by
  induction m with
  | zero => exact ⟨_, rfl⟩
  | succ m ih =>
    obtain ⟨⟨pts, P1⟩, e⟩ := ih (by omega)
    obtain ⟨g, _, hq, _⟩ := loop_ok hp hl (show m ≤ N by omega) h0 e
    obtain ⟨p, Q, e2⟩ := he m (by omega)
    obtain ⟨Q', e3⟩ := (hq.eval_iff hp _ _).mpr ⟨Q, e2⟩
    rw [forLoop_succ, e, M_bind_ok, hl, vget_tab _ (by omega), M_bind_ok]
    dsimp only
    rw [e3, M_bind_ok]
    exact ⟨_, rfl⟩

variable [IsStrictOrderedRing K]

/-- The number of the computed parameters, for any resolution for which they are defined. -/
theorem params_length {d : Domain K} (hn : 3 ≤ d.n) (hv : d.vertices.length = d.n) {r : ℕ} {ps : List (P2 K)}
    (h : d.parametersImpl r = .ok ps) : ps.length = Domain.meshSize d.n r := by
  rcases Nat.eq_zero_or_pos r with rfl | hr
  · by_cases h34 : d.n = 3 ∨ d.n = 4
    · rw [C01_params_zero h34] at h; cases h
    · unfold Domain.parametersImpl at h
      rw [if_neg (by tauto), if_neg (by tauto)] at h
      unfold Domain.paramsN at h
      rw [show Domain.meshSize d.n 0 = 1 by unfold Domain.meshSize; rw [if_neg (by tauto), if_neg (by tauto)]; simp]
      cases h
      rfl
  · obtain ⟨ps', e, l⟩ := C01_params_count hn hv hr
    rw [e] at h
    cases h
    exact l

/-- The cache of the domain is transparent. -/
theorem Inv.parameters {ε : K} {P : Patch K} (h : Inv ε P) (hn : 3 ≤ P.dom.dom.n) {res : ℕ} :
    Prod.fst <$> Domain.parameters (fun d => Domain.meshSize d.n) Domain.parametersImpl P.dom res = P.dom.dom.parametersImpl res := by
  unfold Domain.parameters
  split_ifs with hl
  · rcases h.cache with e | ⟨r, e⟩
    · rw [e] at hl
      exfalso
      have : 0 < Domain.meshSize P.dom.dom.n res := by
        unfold Domain.meshSize
        split
        · apply Nat.div_pos _ (by omega); nlinarith
        · split <;> positivity
      simp at hl
      omega
    · have := params_length hn h.len e
      rw [hl] at this
      rw [meshSize_inj hn this, e]
      rfl
  · cases P.dom.dom.parametersImpl res with
    | error x => rfl
    | ok x => rfl

end Patch

variable [IsStrictOrderedRing K]

/-- C37: whatever has been done with a surface object, if `eval(resolution)` succeeds, then its result is the mesh of the domain
(triangles) with the points `eval(uv)` for the parameters of the domain, in order; here `eval(uv)` is called on the same
object, so the order of evaluations and the caches do not matter. -/
theorem C37_mesh {ε : K} {kind : PatchKind} {cs : List (Patch.Call K)} {P P' : Patch K} (hP : (Patch.new kind).run ε cs = .ok P)
    (hn : 3 ≤ P.dom.dom.n) {res : ℕ} {pts : List (P3 K)} {ts : List Domain.Tri} (h : P.evalMesh ε res = .ok ((pts, ts), P')) :
    ∃ uvs : List (P2 K), P.dom.dom.parametersImpl res = .ok uvs ∧ Domain.meshTopology P.dom.dom.n res = .ok (pts.length, ts) ∧
      pts.length = uvs.length ∧ ∀ (k : ℕ) (p : P3 K) (uv : P2 K), pts[k]? = some p → uvs[k]? = some uv → ∃ Q, P.eval ε uv = .ok (p, Q) := by
  have hi := (Patch.run_inv (Patch.new_inv ε kind) hP).1
  have hpar : Patch.ParamOk ε P := hi.param.resolve_left (by omega)
  unfold Patch.evalMesh at h
  obtain ⟨topo, e0, h⟩ := bind_ok h
  obtain ⟨uvs, e1, h⟩ := bind_ok h
  obtain ⟨⟨pts', P1⟩, e2, h⟩ := bind_ok h
  have hq := Patch.params_queried (ε := ε) (P := P) e1
  have hu := hi.parameters hn (res := res)
  rw [e1] at hu
  have hu : P.dom.dom.parametersImpl res = .ok uvs.1 := hu.symm
  have : Inhabited (P2 K) := ⟨0⟩
  obtain ⟨f, hf⟩ := exists_tab uvs.1
  obtain ⟨g, hg, _, hev⟩ := Patch.loop_ok hpar hf le_rfl hq e2
  obtain ⟨hh, rfl⟩ := Prod.mk.inj (Except.ok.inj h)
  obtain ⟨rfl, rfl⟩ := Prod.mk.inj hh
  have hlen : pts'.length = uvs.1.length := by rw [hg, length_tab]
  refine ⟨uvs.1, hu, ?_, hlen, ?_⟩
  · rw [meshTopology_eq] at e0 ⊢
    obtain rfl := Except.ok.inj e0
    rw [hlen, Patch.params_length hn hi.len hu]
  · intro k p uv h1 h2
    rw [hf] at h2
    rw [hg] at h1
    by_cases hk : k < uvs.1.length
    · simp [tab, hk] at h1 h2
      rw [← h1, ← h2]
      exact hev k hk
    · simp [tab, hk] at h1

theorem Patch.evalMesh_defined {ε : K} {P : Patch K} (hi : Patch.Inv ε P)
    (hn : 3 ≤ P.dom.dom.n) {res : ℕ} {uvs : List (P2 K)} (hu : P.dom.dom.parametersImpl res = .ok uvs)
    (he : ∀ uv ∈ uvs, ∃ p Q, P.eval ε uv = .ok (p, Q)) : ∃ x, P.evalMesh ε res = .ok x := by
  have hpar : Patch.ParamOk ε P := hi.param.resolve_left (by omega)
  have hu' := hi.parameters hn (res := res)
  rw [hu] at hu'
  cases e1 : Domain.parameters (fun d => Domain.meshSize d.n) Domain.parametersImpl P.dom res with
  | error x => rw [e1] at hu'; cases hu'
  | ok x =>
    rw [e1] at hu'
    have hx : x.1 = uvs := Except.ok.inj hu'
    have hq := Patch.params_queried (ε := ε) (P := P) e1
    have : Inhabited (P2 K) := ⟨0⟩
    obtain ⟨f, hf⟩ := exists_tab x.1
    obtain ⟨st, e2⟩ := Patch.loop_total hpar hf (fun k hk => he _ (by
      rw [← hx, hf]; unfold tab
      exact List.mem_map.mpr ⟨k, List.mem_range.mpr hk, rfl⟩)) le_rfl hq
    unfold Patch.evalMesh
    rw [meshTopology_eq, M_bind_ok, e1, M_bind_ok, e2]
    exact ⟨_, rfl⟩

/-- C37: `eval(resolution)` succeeds whenever all these evaluations do. -/
theorem C37_defined {ε : K} {kind : PatchKind} {cs : List (Patch.Call K)} {P : Patch K} (hP : (Patch.new kind).run ε cs = .ok P)
    (hn : 3 ≤ P.dom.dom.n) {res : ℕ} {uvs : List (P2 K)} (hu : P.dom.dom.parametersImpl res = .ok uvs)
    (he : ∀ uv ∈ uvs, ∃ p Q, P.eval ε uv = .ok (p, Q)) : ∃ x, P.evalMesh ε res = .ok x :=
  Patch.evalMesh_defined (Patch.run_inv (Patch.new_inv ε kind) hP).1 hn hu he

end Transfinite
