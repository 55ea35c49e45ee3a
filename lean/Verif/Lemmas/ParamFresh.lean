import Verif.Lemmas.PatchUpdate

/-! Parameterizations that were updated with a given domain and used since. -/

namespace Transfinite

namespace Param

variable {K : Type} [Field K] [LinearOrder K] [Libm K]

/-- `o` has been updated with `d`, and only queried since. -/
def Fresh (ε : K) (k : Kind K) (d : Domain K) (o : Obj K) : Prop :=
  ∃ o0 cs, Param.update k d = .ok o0 ∧ (∀ d', Param.Call.update d' ∉ cs) ∧ Param.run ε k o0 cs = .ok o

theorem Fresh.new {ε : K} {k : Kind K} {d : Domain K} {o : Obj K} (h : Param.update k d = .ok o) : Fresh ε k d o := ⟨o, [], h, by simp, rfl⟩

theorem Fresh.maps {ε : K} {k : Kind K} {d : Domain K} {o : Obj K} (h : Fresh ε k d o) {uv : P2 K} {r : List (P2 K) × Obj K}
    (e : mapToRibbons ε k uv o = .ok r) : Fresh ε k d r.2 := by
  obtain ⟨o0, cs, e1, e2, e3⟩ := h
  refine ⟨o0, cs ++ [.maps uv], e1, ?_, ?_⟩
  · intro d' hd
    rcases List.mem_append.mp hd with q | q
    · exact e2 d' q
    · simp at q
  · refine Patch.run_append e3 ?_
    unfold Param.run Param.step
    simp only [e, M_bind_ok]
    rfl

theorem Fresh.maps_of_raw {ε : K} {k : Kind K} {d : Domain K} {o : Obj K} (h : Fresh ε k d o) {n : ℕ} (hn : d.vertices.length = n) {uv : P2 K}
    {f : ℕ → P2 K} (hf : ∀ o : Obj K, Param.update k d = .ok o → ∀ j < n, Param.mapRaw ε k d o.mult j uv = .ok (f j)) :
    ∃ o', mapToRibbons ε k uv o = .ok (tab n f, o') := by
  obtain ⟨o0, cs, e1, hcs, e2⟩ := h
  obtain ⟨fr, h1, h2, _, _, _, h3, _⟩ := C19_transparent e1 e2
  rw [Patch.lastDomain_queries hcs] at h1 h2
  have h4 := (h3 uv).2
  rw [h2, hn, Patch.mapM_range' (hf fr h1)] at h4
  cases h : mapToRibbons ε k uv o with
  | error e => rw [h] at h4; cases h4
  | ok r =>
    rw [h] at h4
    have e : r.1 = tab n f := Except.ok.inj h4
    exact ⟨r.2, by rw [← e]⟩

end Param

end Transfinite
