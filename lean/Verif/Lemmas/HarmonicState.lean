import Verif.Lemmas.Harmonic
import Verif.Lemmas.SPatchState
import Verif.Props.MeshEval

/-! The state of harmonic patches, and the points of the boundary vertices. -/

namespace Transfinite

open Domain Spec

namespace Harmonic

/-! ### Boundary points -/

theorem maxIndex_spec {n : ℕ} (hn : 0 < n) (f : ℕ → ℝ) : ∃ j < n, maxIndex (tab n f) = .ok j ∧ ∀ k < n, f k ≤ f j := by
  unfold maxIndex
  rw [length_tab]
  obtain ⟨j, e, h1, h2⟩ := forLoop_inv (n := n) (s := 0) (body := fun k j => do
      let a ← vget (tab n f) j
      let b ← vget (tab n f) k
      Except.ok (if a < b then k else j)) (fun k j => j < n ∧ ∀ l < k, f l ≤ f j) ⟨hn, fun l hl => by omega⟩ (by
    rintro k j hk ⟨h1, h2⟩
    rw [vget_tab _ h1, M_bind_ok, vget_tab _ hk, M_bind_ok]
    refine ⟨_, rfl, ?_, ?_⟩
    · split_ifs <;> assumption
    · intro l hl
      rcases Nat.lt_succ_iff_lt_or_eq.mp hl with q | rfl
      · split_ifs with w
        · exact (h2 l q).trans w.le
        · exact h2 l q
      · split_ifs with w
        · exact le_rfl
        · exact not_lt.mp w)
  exact ⟨j, h1, e, h2⟩

theorem boundaryPoint_eq {n : ℕ} (hn : 3 ≤ n) {c : ℕ → Curve ℝ} (hc : ∀ j < n, (c j).pt 1 = (c (nextIx n j)).pt 0) {i : ℕ} (hi : i < n) {s : ℝ} (h0 : 0 ≤ s) (h1 : s ≤ 1) :
    boundaryPoint (tab n c) (tab n fun j => if j = i then s else if j = prevIx n i then 1 - s else 0) = .ok ((c i).pt s) := by
  have hp : prevIx n i < n := prevIx_lt (by omega)
  have hpne : prevIx n i ≠ i := by rw [prevIx_eq hi]; split_ifs <;> omega
  set f : ℕ → ℝ := fun j => if j = i then s else if j = prevIx n i then 1 - s else 0 with hf
  have fi : f i = s := if_pos rfl
  have fp : f (prevIx n i) = 1 - s := by rw [hf]; dsimp only; rw [if_neg hpne, if_pos rfl]
  have fo : ∀ j, j ≠ i → j ≠ prevIx n i → f j = 0 := fun j a b => by rw [hf]; dsimp only; rw [if_neg a, if_neg b]
  obtain ⟨j, hj, e, hmax⟩ := maxIndex_spec (n := n) (by omega) f
  unfold boundaryPoint
  rw [e, M_bind_ok, length_tab, vget_tab _ (nextIx_lt (by omega)), M_bind_ok, vget_tab _ (prevIx_lt (by omega)), M_bind_ok]
  have hj' : j = i ∨ j = prevIx n i := by
    by_contra q
    rw [not_or] at q
    have a := hmax i hi
    have b := hmax _ hp
    rw [fo j q.1 q.2, fi] at a
    rw [fo j q.1 q.2, fp] at b
    linarith
  rcases hj' with rfl | rfl
  · have hnx : f (nextIx n j) = 0 := by
      refine fo _ (SPatch.nextIx_ne (by omega) hi) ?_
      rw [nextIx_eq hi, prevIx_eq hi]
      split_ifs <;> omega
    rw [hnx, fp]
    dsimp only
    rw [if_neg (by linarith), vget_tab _ hi, M_bind_ok, vget_tab _ hi, M_bind_ok, fi]
  · have hpp : f (prevIx n (prevIx n i)) = 0 := by
      have h2 : prevIx n (prevIx n i) ≠ prevIx n i := by rw [prevIx_eq hp]; split_ifs <;> omega
      refine fo _ ?_ h2
      rw [prevIx_eq hp, prevIx_eq hi]
      split_ifs <;> omega
    rw [nextIx_prevIx hi, fi, hpp]
    dsimp only
    split_ifs with q
    · rw [vget_tab _ hi, M_bind_ok, vget_tab _ hi, M_bind_ok, fi]
    · have hs : s = 0 := le_antisymm (not_lt.mp q) h0
      rw [vget_tab _ hp, M_bind_ok, vget_tab _ hp, M_bind_ok, fp, hs, sub_zero, hc _ hp, nextIx_prevIx hi]

/-! ### The state -/

section state

variable {K : Type} [Field K] [LinearOrder K] [Libm K]

/-- What always holds for an object. -/
structure Inv (ε : K) (H : Harmonic K) : Prop where
  cache : H.dom.cache = [] ∨ ∃ r, parametersImpl H.dom.dom r = .ok H.dom.cache
  dom : H.dom.dom.n = 0 ∨ Param.Fresh ε (.bary .wachspress) H.dom.dom H.param ∧ ∃ vs, Domain.regularVertices H.dom.dom.n = .ok vs ∧ Domain.updateFrom vs 0 = .ok H.dom.dom

theorem new_inv (ε : K) : Inv ε (Harmonic.new : Harmonic K) := ⟨Or.inl rfl, Or.inl rfl⟩

theorem updateDomain_inv {ε : K} {H H' : Harmonic K} (h : H.updateDomain = .ok H') (hi : Inv ε H) :
    Inv ε H' ∧ H'.dom.dom.n = H.curves.length ∧ H'.curves = H.curves := by
  unfold updateDomain at h
  obtain ⟨r, e, h⟩ := bind_ok h
  unfold Domain.regularUpdate at e
  split_ifs at e with hn
  · cases e
    cases h
    exact ⟨hi, hn, rfl⟩
  · obtain ⟨vs, e1, e⟩ := bind_ok e
    obtain ⟨d, e2, e⟩ := bind_ok e
    cases e
    rw [if_pos rfl] at h
    obtain ⟨o, e3, h⟩ := bind_ok h
    cases h
    have hdn : d.n = H.curves.length := by rw [Patch.updateFrom_n e2, Patch.regularVertices_length e1]
    refine ⟨⟨Or.inl rfl, Or.inr ⟨Param.Fresh.new e3, vs, ?_, e2⟩⟩, hdn, rfl⟩
    change Domain.regularVertices d.n = _
    rw [hdn, e1]

theorem parameters_cache {H : Harmonic K} {ε : K} (hi : Inv ε H) {res : ℕ} {x : List (P2 K) × Cached (Domain K) K}
    (e : Domain.parameters (fun d => Domain.meshSize d.n) Domain.parametersImpl H.dom res = .ok x) :
    x.2.dom = H.dom.dom ∧ (x.2.cache = [] ∨ ∃ r, parametersImpl x.2.dom r = .ok x.2.cache) := by
  unfold Domain.parameters at e
  split_ifs at e
  · cases e; exact ⟨rfl, hi.cache⟩
  · obtain ⟨ps, e1, e⟩ := bind_ok e
    cases e
    exact ⟨rfl, Or.inr ⟨res, e1⟩⟩

theorem fillStep_fresh {ε : K} {n res i : ℕ} {cs : List (Curve K)} {uvs : List (P2 K)} {st st' : Fill K} {d : Domain K} (h : Param.Fresh ε (.bary .wachspress) d st.param)
    (e : fillStep ε n res cs uvs i st = .ok st') : Param.Fresh ε (.bary .wachspress) d st'.param := by
  unfold fillStep at e
  split_ifs at e
  · obtain ⟨uv, _, e⟩ := bind_ok e
    obtain ⟨r, e2, e⟩ := bind_ok e
    obtain ⟨p, _, e⟩ := bind_ok e
    obtain ⟨ps, _, e⟩ := bind_ok e
    cases e
    exact h.bary e2
  · cases e; exact h

theorem evalMesh_inv {ε : K} {solve} {res : ℕ} {H : Harmonic K} {x} (hi : Inv ε H) (e : H.evalMesh ε solve res = .ok x) :
    Inv ε x.2 ∧ x.2.curves = H.curves ∧ x.2.dom.dom = H.dom.dom := by
  unfold evalMesh at e
  obtain ⟨topo, _, e⟩ := bind_ok e
  obtain ⟨uvs, e1, e⟩ := bind_ok e
  obtain ⟨st, e2, e⟩ := bind_ok e
  obtain ⟨S, _, e⟩ := bind_ok e
  cases e
  obtain ⟨h1, h2⟩ := parameters_cache hi e1
  refine ⟨⟨h2, ?_⟩, rfl, h1⟩
  dsimp only
  rw [h1]
  refine hi.dom.imp id fun q => ⟨?_, q.2⟩
  exact Patch.forLoop_inv' (fun st : Fill K => Param.Fresh ε (.bary .wachspress) H.dom.dom st.param) q.1 (fun k a b ha hb => fillStep_fresh ha hb) e2

theorem Fresh.map {ε : K} {k : Param.Kind K} {d : Domain K} {o : Param.Obj K} (h : Param.Fresh ε k d o) {i : ℕ} {uv : P2 K} {r : P2 K × Param.Obj K}
    (e : Param.mapToRibbon ε k i uv o = .ok r) : Param.Fresh ε k d r.2 := by
  obtain ⟨o0, cs, e1, e2, e3⟩ := h
  refine ⟨o0, cs ++ [.map i uv], e1, ?_, ?_⟩
  · intro d' hd
    rcases List.mem_append.mp hd with q | q
    · exact e2 d' q
    · simp at q
  · refine Patch.run_append e3 ?_
    unfold Param.run Param.step
    simp only [e, M_bind_ok]
    rfl

theorem step_inv {ε : K} {solve} {H H' : Harmonic K} {c : Call K} (hi : Inv ε H) (e : H.step ε solve c = .ok H') : Inv ε H' := by
  cases c with
  | curve i c =>
    change H.setCurve i c = .ok H' at e
    unfold setCurve at e
    split_ifs at e
    cases e
    exact ⟨hi.cache, hi.dom⟩
  | curves cs => cases e; exact ⟨hi.cache, hi.dom⟩
  | loop =>
    obtain ⟨cs, _, e⟩ := bind_ok (show (orientLoop H.curves >>= fun cs => .ok { H with curves := cs }) = .ok H' from e)
    cases e
    exact ⟨hi.cache, hi.dom⟩
  | update =>
    obtain ⟨H1, e1, e⟩ := bind_ok (show (H.updateDomain >>= fun H => .ok { H with corners := H.curves.length }) = .ok H' from e)
    cases e
    have := (updateDomain_inv e1 hi).1
    exact ⟨this.cache, this.dom⟩
  | updateSide i =>
    change H.updateSide i = .ok H' at e
    unfold updateSide at e
    obtain ⟨H1, e1, e⟩ := bind_ok e
    split_ifs at e
    cases e
    exact (updateDomain_inv e1 hi).1
  | mesh res =>
    obtain ⟨r, e1, e⟩ := bind_ok (show (H.evalMesh ε solve res >>= fun r => .ok r.2) = .ok H' from e)
    cases e
    exact (evalMesh_inv hi e1).1
  | domainParams res =>
    obtain ⟨r, e1, e⟩ := bind_ok (show (Domain.parameters (fun d => Domain.meshSize d.n) Domain.parametersImpl H.dom res >>= fun r => .ok { H with dom := r.2 }) = .ok H' from e)
    cases e
    obtain ⟨h1, h2⟩ := parameters_cache hi e1
    exact ⟨h2, by dsimp only; rw [h1]; exact hi.dom⟩
  | mapSide i uv =>
    obtain ⟨r, e1, e⟩ := bind_ok (show (Param.mapToRibbon ε (.bary .wachspress) i uv H.param >>= fun r => .ok { H with param := r.2 }) = .ok H' from e)
    cases e
    exact ⟨hi.cache, hi.dom.imp id fun q => ⟨Fresh.map q.1 e1, q.2⟩⟩
  | mapSides uv =>
    obtain ⟨r, e1, e⟩ := bind_ok (show (Param.mapToRibbons ε (.bary .wachspress) uv H.param >>= fun r => .ok { H with param := r.2 }) = .ok H' from e)
    cases e
    exact ⟨hi.cache, hi.dom.imp id fun q => ⟨q.1.maps e1, q.2⟩⟩
  | bary uv =>
    obtain ⟨r, e1, e⟩ := bind_ok (show (Param.baryCached ε .wachspress uv H.param >>= fun r => .ok { H with param := r.2 }) = .ok H' from e)
    cases e
    exact ⟨hi.cache, hi.dom.imp id fun q => ⟨q.1.bary e1, q.2⟩⟩

theorem run_inv {ε : K} {solve} {H H' : Harmonic K} {cs : List (Call K)} (hi : Inv ε H) (e : H.run ε solve cs = .ok H') : Inv ε H' := by
  induction cs generalizing H with
  | nil => cases e; exact hi
  | cons c cs ih =>
    unfold run at e
    obtain ⟨H1, e1, e⟩ := bind_ok e
    exact ih (step_inv hi e1) e

end state

/-! ### The first loop -/

section fill

variable {n res : ℕ} {ε : ℝ} {d : Domain ℝ}

theorem fill_eq (hε : 0 < ε) (hε1 : ε ≤ 1) (hn : 3 ≤ n) {v : ℕ → P2 ℝ} (hcd : ConvexDomain d n v) {o : Param.Obj ℝ} (hf : Param.Fresh ε (.bary .wachspress) d o)
    {c : ℕ → Curve ℝ} (hc : ∀ j < n, (c j).pt 1 = (c (nextIx n j)).pt 0) {N : ℕ} {uv : ℕ → P2 ℝ} {side : ℕ → ℕ} {par : ℕ → ℝ}
    (hside : ∀ k < N, onEdge n res k = true → side k < n ∧ 0 ≤ par k ∧ par k ≤ 1 ∧ uv k = sidePoint n v (side k) (par k)) :
    ∃ st, forLoop N (fillStep ε n res (tab n c) (tab N uv)) ⟨List.replicate N 0, o, 0⟩ = .ok st ∧ st.boundary = rank n res N ∧
      ∀ k < N, onEdge n res k = true → vget st.points k = .ok ((c (side k)).pt (par k)) := by
  obtain ⟨st, e, _, h2, p, h3, h4⟩ := forLoop_inv (n := N) (s := (⟨List.replicate N 0, o, 0⟩ : Fill ℝ)) (body := fillStep ε n res (tab n c) (tab N uv))
    (fun k st => Param.Fresh ε (.bary .wachspress) d st.param ∧ st.boundary = rank n res k ∧
      ∃ p : ℕ → P3 ℝ, st.points = tab N p ∧ ∀ l < k, onEdge n res l = true → p l = (c (side l)).pt (par l))
    ⟨hf, by simp [rank], fun _ => 0, by rw [replicate_eq_tab], fun l hl => by omega⟩ (by
      rintro k st hk ⟨h1, h2, p, h3, h4⟩
      unfold fillStep
      by_cases e : onEdge n res k = true
      · rw [if_pos e]
        obtain ⟨s1, s2, s3, s4⟩ := hside k hk e
        have hb : Param.barycentric ε .wachspress d (uv k) = .ok (tab n fun j => if j = side k then par k else if j = prevIx n (side k) then 1 - par k else 0) := by
          obtain ⟨q, e1, e2⟩ := C12_coordinates hε .wachspress hn hcd.n_eq hcd.vertices_eq hcd.convex s1 s2 s3
          rw [hcd.edgePoint s1, ← s4] at e1
          cases e1
          exact e2 fun j _ => C12_wachspress_condition hε1 _ _
        obtain ⟨o', e1⟩ := h1.bary_of_raw hb
        rw [vget_tab _ hk, M_bind_ok, e1, M_bind_ok]
        dsimp only
        rw [boundaryPoint_eq hn hc s1 s2 s3, M_bind_ok, h3, vset_tab _ _ hk, M_bind_ok]
        refine ⟨_, rfl, h1.bary e1, by dsimp only; rw [rank_succ, if_pos e, h2], _, rfl, fun l hl el => ?_⟩
        rw [Function.update_apply]
        split_ifs with q
        · rw [q]
        · exact h4 l (by omega) el
      · rw [if_neg e]
        refine ⟨st, rfl, h1, by rw [rank_succ, if_neg e, h2]; rfl, p, h3, fun l hl el => h4 l ?_ el⟩
        rcases Nat.lt_succ_iff_lt_or_eq.mp hl with q | rfl
        · exact q
        · exact absurd el e)
  refine ⟨st, e, h2, fun k hk ek => ?_⟩
  rw [h3, vget_tab _ hk, h4 k hk ek]

end fill

end Harmonic

end Transfinite
