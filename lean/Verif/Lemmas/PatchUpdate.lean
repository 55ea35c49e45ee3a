import Verif.Lemmas.PatchRun
import Verif.Lemmas.Regular

/-! The state of a surface object after `update()`. -/

namespace Transfinite

namespace Patch

section generic

variable {K : Type} [Field K] [LinearOrder K] [Libm K]

theorem lastDomain_queries {d : Domain K} {cs : List (Param.Call K)} (h : ∀ d', Param.Call.update d' ∉ cs) :
    Param.lastDomain d cs = d := by
  induction cs with
  | nil => rfl
  | cons c cs ih =>
    have h' : ∀ d', Param.Call.update d' ∉ cs := fun d' hm => h d' (List.mem_cons_of_mem _ hm)
    cases c with
    | update d' => exact absurd (by simp) (h d')
    | map i uv => exact ih h'
    | maps uv => exact ih h'
    | bary uv => exact ih h'

theorem mapM_range' {β : Type} {g : ℕ → M β} {n : ℕ} {f : ℕ → β} (h : ∀ j < n, g j = .ok (f j)) :
    (List.range n).mapM g = .ok (tab n f) := by
  have e : List.range n = tab n id := by unfold tab; simp
  rw [e]
  exact Surf.mapM_tab g n id f h

/-- The local parameters of a surface object are the values of the formulas over the present domain. -/
theorem maps_eq {ε : K} {P : Patch K} (hp : ParamOk ε P) (uv : P2 K) :
    ∃ o : Param.Obj K, Param.update P.kind.param P.dom.dom = .ok o ∧
      Prod.fst <$> Param.mapToRibbons ε P.kind.param uv P.param =
        (List.range P.dom.dom.vertices.length).mapM (fun j => Param.mapRaw ε P.kind.param P.dom.dom o.mult j uv) := by
  obtain ⟨o, cs, e1, hcs, e2⟩ := hp
  obtain ⟨fr, h1, h2, _, _, _, h3, _⟩ := C19_transparent e1 e2
  rw [lastDomain_queries hcs] at h1 h2
  refine ⟨fr, h1, ?_⟩
  rw [(h3 uv).2, h2]

theorem maps_of_raw {ε : K} {P : Patch K} (hp : ParamOk ε P) {n : ℕ} (hn : P.dom.dom.vertices.length = n) {uv : P2 K}
    {f : ℕ → P2 K} (hf : ∀ o : Param.Obj K, Param.update P.kind.param P.dom.dom = .ok o → ∀ j < n,
      Param.mapRaw ε P.kind.param P.dom.dom o.mult j uv = .ok (f j)) :
    ∃ o', Param.mapToRibbons ε P.kind.param uv P.param = .ok (tab n f, o') := by
  obtain ⟨o, h1, h2⟩ := maps_eq hp uv
  rw [hn, mapM_range' (hf o h1)] at h2
  cases h : Param.mapToRibbons ε P.kind.param uv P.param with
  | error e => rw [h] at h2; cases h2
  | ok r =>
    rw [h] at h2
    have e : r.1 = tab n f := Except.ok.inj h2
    exact ⟨r.2, by rw [← e]⟩

theorem eval_of {ε : K} {P : Patch K} {uv : P2 K} {l : List (P2 K)} {o : Param.Obj K} {p : P3 K}
    (h1 : Param.mapToRibbons ε P.kind.param uv P.param = .ok (l, o)) (h2 : P.evalWith ε l = .ok p) :
    P.eval ε uv = .ok (p, { P with param := o }) := by
  unfold eval
  rw [h1, M_bind_ok]
  dsimp only
  rw [h2, M_bind_ok]

/-- The parts of `update()`. -/
theorem update_parts {ε : K} {P P' : Patch K} (h : P.update ε = .ok P') :
    ∃ D S, P.updateDomain = .ok D ∧ D.linked = true ∧ D.surf.updateAll ε = .ok S ∧ finish ε { D with surf := S } = .ok P' := by
  unfold update at h
  obtain ⟨D, e1, h⟩ := bind_ok h
  split_ifs at h with hl
  obtain ⟨S, e2, h⟩ := bind_ok h
  exact ⟨D, S, e1, hl, e2, h⟩

/-- After `update()`: the parameterization belongs to the domain, the domain to the number of curves or the curves, the ribbons
and corners are those of `Surf.updateAll`. -/
structure UpdatedFrom (ε : K) (P P' : Patch K) : Prop where
  kind : P'.kind = P.kind
  surf : P.surf.updateAll ε = .ok P'.surf
  param : P'.dom.dom.n ≠ 0 → ParamOk ε P'
  regular : P.kind.regular = true → P.surf.n ≠ 0 → ∃ vs, Domain.regularVertices P.surf.n = .ok vs ∧ Domain.updateFrom vs 0 = .ok P'.dom.dom
  angular : P.kind.regular = false → Domain.angularUpdate P.curves = .ok P'.dom.dom
  inv : Inv ε P'

theorem updateDomain_regular {P D : Patch K} (h : P.updateDomain = .ok D) (hr : P.kind.regular = true) : D.dom.dom.n = P.surf.n := by
  unfold updateDomain at h
  rw [if_pos hr] at h
  obtain ⟨r, e, h⟩ := bind_ok h
  unfold Domain.regularUpdate at e
  split_ifs at e with hn
  · cases e
    cases h
    exact hn
  · obtain ⟨vs, e1, e⟩ := bind_ok e
    obtain ⟨d, e2, e⟩ := bind_ok e
    cases e
    rw [if_pos rfl] at h
    obtain ⟨o, e3, h⟩ := bind_ok h
    cases h
    change d.n = _
    rw [updateFrom_n e2, regularVertices_length e1]

theorem updateDomain_angular {P D : Patch K} (h : P.updateDomain = .ok D) (hr : P.kind.regular = false) :
    Domain.angularUpdate P.curves = .ok D.dom.dom := by
  unfold updateDomain at h
  rw [if_neg (by rw [hr]; simp)] at h
  obtain ⟨d, e, h⟩ := bind_ok h
  obtain ⟨o, e3, h⟩ := bind_ok h
  cases h
  exact e

theorem updatedFrom {ε : K} {P P' : Patch K} (hp : Inv ε P) (h : P.update ε = .ok P') : UpdatedFrom ε P P' := by
  obtain ⟨D, S, e1, hl, e2, e3⟩ := update_parts h
  obtain ⟨hD, k1, k2, k3, k4, k5, k6⟩ := updateDomain_inv hp e1
  have hS : Inv ε { D with surf := S } := hD.congr rfl rfl rfl (updateAll_kinds hD.kinds e2)
  have hI := form_inv hS (finish_form e3)
  obtain ⟨Q, m, c, hq, rfl⟩ := finish_form e3
  have q1 : Q.kind = P.kind := hq.kind.trans k1
  have q2 : Q.surf = S := hq.surf
  have q3 : Q.dom.dom = D.dom.dom := hq.dom
  refine ⟨q1, ?_, ?_, ?_, ?_, hI⟩
  · change P.surf.updateAll ε = .ok Q.surf
    rw [q2, ← k2]; exact e2
  · intro hn
    exact hI.param.resolve_left hn
  · intro hr hn
    have hr' : Q.kind.regular = true := by rw [q1]; exact hr
    have e := updateDomain_regular e1 hr
    change ∃ vs, _ ∧ Domain.updateFrom vs 0 = .ok Q.dom.dom
    have := (hI.regular hr').resolve_left (by change Q.dom.dom.n ≠ 0; rw [q3, e]; exact hn)
    change ∃ vs, Domain.regularVertices Q.dom.dom.n = .ok vs ∧ Domain.updateFrom vs 0 = .ok Q.dom.dom at this
    rwa [q3, e, ← q3] at this
  · intro hr
    change _ = Except.ok Q.dom.dom
    rw [q3]
    exact updateDomain_angular e1 hr

end generic

end Patch

end Transfinite
