import Verif.Lemmas.ShiftPatch
import Verif.Props.Affine
import Verif.Props.GenBezierCorner
import Verif.Lemmas.TangentBary

/-! # C104: it does not matter which side of a control net is the first one -/

namespace Transfinite

open Spec

namespace Param

variable {ε : ℝ} {kind : Kind ℝ} {d : Domain ℝ} {o o' : Obj ℝ} {n s : ℕ}

theorem Fresh.maps_eq (h : Fresh ε kind d o) (uv : P2 ℝ) : ∃ x, Param.update kind d = .ok x ∧
    Prod.fst <$> mapToRibbons ε kind uv o = (List.range d.vertices.length).mapM (fun j => Param.mapRaw ε kind d x.mult j uv) := by
  obtain ⟨o0, cs, e1, hcs, e2⟩ := h
  obtain ⟨fr, h1, h2, _, _, _, h3, _⟩ := C19_transparent e1 e2
  rw [Patch.lastDomain_queries hcs] at h1 h2
  exact ⟨fr, h1, by rw [(h3 uv).2, h2]⟩

/-- If the formulas of the sides correspond, then also the results of the cached functions. -/
theorem Fresh.alike (h : Fresh ε kind d o) (h' : Fresh ε kind d o') (hl : d.vertices.length = n) {uv uv' : P2 ℝ}
    (hr : ∀ x, Param.update kind d = .ok x → ∀ i < n, Alike (· = ·) (mapRaw ε kind d x.mult (sh n s i) uv) (mapRaw ε kind d x.mult i uv')) :
    Alike (fun r r' => Rot n s r.1 r'.1) (mapToRibbons ε kind uv o) (mapToRibbons ε kind uv' o') := by
  obtain ⟨x, e, g⟩ := h.maps_eq uv
  obtain ⟨x', e', g'⟩ := h'.maps_eq uv'
  rw [e] at e'
  cases e'
  refine Alike.of_fst ?_
  rw [g, g', hl, mapM_range_eq, mapM_range_eq]
  exact Alike.push fun i hi => hr x e i hi

end Param

/-- Both computations succeed with the same first result, or none of them does. -/
theorem Alike.iff_fst {α β γ : Type} {x : M (α × β)} {y : M (α × γ)} (h : Alike (fun a b => a.1 = b.1) x y) (p : α) : (∃ b, x = .ok (p, b)) ↔ ∃ c, y = .ok (p, c) := by
  constructor
  · rintro ⟨b, e⟩
    obtain ⟨⟨q, c⟩, e', rfl⟩ := h.ok e
    exact ⟨c, e'⟩
  · rintro ⟨c, e⟩
    obtain ⟨⟨q, b⟩, e', rfl⟩ := h.ok' e
    exact ⟨b, e'⟩

theorem Rot.exists_tab {α : Type} [Inhabited α] {n s : ℕ} {l l' : List α} (h : Rot n s l l') (hl : l.length = n) : ∃ f f' : ℕ → α, l = tab n f ∧ l' = tab n f' ∧ ∀ i < n, f' i = f (sh n s i) := by
  obtain ⟨f, hf⟩ := Transfinite.exists_tab l
  obtain ⟨f', hf'⟩ := Transfinite.exists_tab l'
  rw [h.length, hl] at hf'
  rw [hl] at hf
  refine ⟨f, f', hf, hf', fun i hi => ?_⟩
  have := h.vget hi
  rw [hf, hf', vget_tab _ (sh_lt (by omega)), vget_tab _ hi] at this
  exact (Except.ok.inj this).symm

/-! ### S-patches -/

namespace SPatch

variable {ε : ℝ} {arc arc' : List (P3 ℝ) → ℝ → ℝ → ℝ} {n d s : ℕ} {calls calls' : List (Call ℝ)} {S S' : SPatch ℝ}

/-- The label after renumbering. -/
def turnLabel (n s : ℕ) (k : ℕ → ℕ) : ℕ → ℕ := fun i => if i < n then k (sh n s i) else 0

theorem turnLabel_mem (hn : 0 < n) {k : ℕ → ℕ} (hk : k ∈ labels n d) : turnLabel n s k ∈ labels n d := by
  unfold labels at hk ⊢
  rw [Finset.mem_piAntidiag] at hk ⊢
  refine ⟨?_, fun i hi => Finset.mem_range.mpr ?_⟩
  · rw [← hk.1, ← sum_sh hn (k := s) k]
    exact Finset.sum_congr rfl fun i hi => if_pos (Finset.mem_range.mp hi)
  · by_contra q
    exact hi (if_neg q)

theorem tab_turnLabel (k : ℕ → ℕ) : tab n (turnLabel n s k) = tab n fun i => k (sh n s i) := by
  unfold tab
  exact List.map_congr_left fun i hi => if_pos (List.mem_range.mp hi)

theorem multiBern_turn (hn : 0 < n) {c c' : ℕ → ℝ} (hc : ∀ i < n, c' i = c (sh n s i)) (k : ℕ → ℕ) : multiBern n c' (turnLabel n s k) = multiBern n c k := by
  unfold multiBern
  have e : ∀ i ∈ Finset.range n, turnLabel n s k i = k (sh n s i) := fun i hi => if_pos (Finset.mem_range.mp hi)
  have e1 : ∏ i ∈ Finset.range n, ((turnLabel n s k i).factorial : ℝ) = ∏ i ∈ Finset.range n, ((k i).factorial : ℝ) := by
    rw [← prod_sh hn (k := s) fun i => ((k i).factorial : ℝ)]
    exact Finset.prod_congr rfl fun i hi => by rw [e i hi]
  have e2 : ∏ i ∈ Finset.range n, c' i ^ turnLabel n s k i = ∏ i ∈ Finset.range n, c i ^ k i := by
    rw [← prod_sh hn (k := s) fun i => c i ^ k i]
    exact Finset.prod_congr rfl fun i hi => by rw [e i hi, hc i (Finset.mem_range.mp hi)]
  rw [Finset.sum_congr rfl e, sum_sh hn, e1, e2]

theorem turnLabel_inj {k k' : ℕ → ℕ} (hn : 0 < n) (hk : k ∈ labels n d) (hk' : k' ∈ labels n d) (h : turnLabel n s k = turnLabel n s k') : k = k' := by
  unfold labels at hk hk'
  rw [Finset.mem_piAntidiag] at hk hk'
  funext i
  by_cases hi : i < n
  · have := congrFun h (unsh n s i)
    unfold turnLabel at this
    rw [if_pos (unsh_lt hn), if_pos (unsh_lt hn), sh_unsh hn hi] at this
    exact this
  · have a : k i = 0 := by by_contra q; exact hi (Finset.mem_range.mp (hk.2 i q))
    have b : k' i = 0 := by by_contra q; exact hi (Finset.mem_range.mp (hk'.2 i q))
    rw [a, b]

/-- Sums over labels. -/
theorem sum_turn (hn : 0 < n) (f : (ℕ → ℕ) → P3 ℝ) : ∑ k ∈ labels n d, f (turnLabel n s k) = ∑ k ∈ labels n d, f k := by
  refine Finset.sum_bij (fun k _ => turnLabel n s k) (fun k hk => turnLabel_mem hn hk) (fun k hk k' hk' h => turnLabel_inj hn hk hk' h) (fun k hk => ?_) fun _ _ => rfl
  exact Finset.surj_on_of_inj_on_of_card_le (fun k _ => turnLabel n s k) (fun k hk => turnLabel_mem hn hk) (fun k k' hk hk' h => turnLabel_inj hn hk hk' h) le_rfl k hk |>.imp fun a h => ⟨h.1, h.2.symm⟩

/-- C104: S-patches. -/
theorem C104_spatch (hε1 : ε ≤ 1) (hn : 3 ≤ n) (hd : d ≤ 20) (h : Usable ε arc n d calls S) (h' : Usable ε arc' n d calls' S')
    (hP : ∀ l : List ℕ, Label n d l → ∃ p, S.controlPoint l = .ok p ∧ S'.controlPoint (l.rotate s) = .ok p) (uv : P2 ℝ) (p : P3 ℝ) :
    (∃ T, S.eval ε (turned n s uv) = .ok (p, T)) ↔ ∃ T', S'.eval ε uv = .ok (p, T') := by
  have h0 : 0 < n := by omega
  have hdom := Usable.dom_eq hn h h'
  obtain ⟨_, i1, _, c1⟩ := h.state hn
  obtain ⟨_, i2, _, c2⟩ := h'.state hn
  obtain ⟨f1, vs, a1, a2⟩ := i1.dom.resolve_left (by rw [c1.n_eq]; omega)
  have f2 := (i2.dom.resolve_left (by rw [c2.n_eq]; omega)).1
  rw [c1.n_eq] at a1
  obtain ⟨v, a, b, T⟩ := turned_domain (k := s) hn a1 a2
  have hb := T.barycentric hn turnOf_q hε1 uv
  rw [turnOf_pt] at hb
  refine Alike.iff_fst ?_ p
  have hP' : ∀ k ∈ labels n d, S'.controlPoint (tab n (turnLabel n s k)) = .ok (value S.net (tab n k)) := by
    intro k hk
    have hk1 := hk
    unfold labels at hk1
    rw [Finset.mem_piAntidiag] at hk1
    obtain ⟨p, q1, q2⟩ := hP (tab n k) ⟨length_tab _ _, by rw [sum_tab, hk1.1]⟩
    have e : (tab n k).rotate s = tab n (turnLabel n s k) := by
      rw [tab_turnLabel]
      exact (Rot.of_tab (f := k) (f' := fun i => k (sh n s i)) fun _ _ => rfl).eq.symm
    rw [← e, q2]
    have := points_value n d S k hk
    rw [q1] at this
    exact this.resolve_right (by simp)
  cases e : Param.barycentric ε .wachspress S.dom.dom (turned n s uv) with
  | error x =>
    rw [e] at hb
    cases e' : Param.barycentric ε .wachspress S.dom.dom uv with
    | ok l => rw [e'] at hb; exact hb.elim
    | error y =>
      have g1 := f1.bary_same (turned n s uv)
      have g2 := f2.bary_same uv
      rw [e] at g1
      rw [hdom, e'] at g2
      unfold eval
      rw [map_error g1, map_error g2]
      trivial
  | ok l =>
    obtain ⟨l', e', hr⟩ := hb.ok e
    obtain ⟨c, c', rfl, rfl, hc⟩ := hr.exists_tab (by
      obtain ⟨c, rfl, _⟩ := C11_partition_precision hn c1.vertices_eq hε1 e
      exact length_tab _ _)
    obtain ⟨T1, E1⟩ := eval_eq hn hd h (points_value n d S) e
    obtain ⟨T2, E2⟩ := eval_eq hn hd h' (points_value n d S') (uv := uv) (c := c') (by rw [hdom, e'])
    rw [E1, E2]
    change _ = _
    dsimp only
    rw [← sum_turn h0 (s := s) fun k => multiBern n c' k • value S'.net (tab n k)]
    refine Finset.sum_congr rfl fun k hk => ?_
    rw [multiBern_turn h0 hc]
    congr 1
    have := points_value n d S' (turnLabel n s k) (turnLabel_mem h0 hk)
    rw [hP' k hk] at this
    exact Except.ok.inj (this.resolve_right (by simp))

/-- Two S-patches of any points, counted from two sides. -/
example (hn : 3 ≤ n) (d : ℕ) (P : (ℕ → ℕ) → P3 ℝ) : ∃ (S S' : SPatch ℝ) (calls calls' : List (Call ℝ)), Usable ε arc n d calls S ∧ Usable ε arc n d calls' S' ∧
    (∀ k ∈ labels n d, S'.controlPoint (tab n k) = .ok (P k)) ∧ ∀ l : List ℕ, Label n d l → ∃ p, S.controlPoint l = .ok p ∧ S'.controlPoint (l.rotate s) = .ok p := by
  have h0 : 0 < n := by omega
  obtain ⟨calls, S, h, hP⟩ := C50_complete (ε := ε) (arc := arc) hn d fun k => P (turnLabel n s k)
  obtain ⟨calls', S', h', hP'⟩ := C50_complete (ε := ε) (arc := arc) hn d P
  refine ⟨S, S', calls, calls', h, h', hP', fun l hl => ?_⟩
  obtain ⟨k, hk, rfl⟩ : ∃ k ∈ labels n d, tab n k = l := by
    obtain ⟨f, hf⟩ := exists_tab l
    rw [hl.1] at hf
    subst hf
    have e : tab n (fun i => if i < n then f i else 0) = tab n f := by
      unfold tab
      exact List.map_congr_left fun i hi => if_pos (List.mem_range.mp hi)
    refine ⟨fun i => if i < n then f i else 0, ?_, e⟩
    unfold labels
    rw [Finset.mem_piAntidiag]
    refine ⟨?_, fun i hi => ?_⟩
    · rw [← sum_tab, e]
      exact hl.2
    · by_contra q
      exact hi (if_neg fun w => q (Finset.mem_range.mpr w))
  refine ⟨_, hP k hk, ?_⟩
  have e : (tab n k).rotate s = tab n (turnLabel n s k) := by
    rw [tab_turnLabel]
    exact (Rot.of_tab (f := k) (f' := fun i => k (sh n s i)) fun _ _ => rfl).eq.symm
  rw [e, hP' _ (turnLabel_mem h0 hk)]

end SPatch

/-! ### SuperD patches -/

namespace SuperD

variable {ε : ℝ} {arc arc' : List (P3 ℝ) → ℝ → ℝ → ℝ} {n s : ℕ} {calls calls' : List (Call ℝ)} {S S' : SuperD ℝ}

theorem generateBase_turn (h1 : S.n = n) (h2 : S'.n = n) (hf : S'.fullness = S.fullness) (hF : Rot n s S.cpF S'.cpF) (hE : Rot n s S.cpE S'.cpE) {i : ℕ} (hi : i < n) :
    S.generateBase (sh n s i) = S'.generateBase i := by
  unfold generateBase
  rw [h1, h2, hf, prev_sh (by omega), hF.vget (prevIx_lt (by omega)), hE.vget hi, hF.vget hi]

theorem generateRibbon_turn (h1 : S.n = n) (h2 : S'.n = n) (hf : S'.fullness = S.fullness) (hF : Rot n s S.cpF S'.cpF) (hE : Rot n s S.cpE S'.cpE) (hV : S'.cpV = S.cpV) {i : ℕ} (hi : i < n) :
    S.generateRibbon (sh n s i) = S'.generateRibbon i := by
  have h0 : 0 < n := by omega
  have hb := fun {j : ℕ} (hj : j < n) => generateBase_turn h1 h2 hf hF hE hj
  unfold generateRibbon generateMid generateOpp
  rw [h1, h2, hf, hV, next_sh, next_sh, prev_sh (by omega), hb hi, hb (prevIx_lt h0), hb (nextIx_lt h0), hb (nextIx_lt h0), hF.vget (nextIx_lt h0), hE.vget (prevIx_lt h0), hE.vget (nextIx_lt h0)]

theorem rot_replicate {α : Type} (n s : ℕ) (x : α) : Rot n s (List.replicate n x) (List.replicate n x) :=
  ⟨by rw [List.rotate_replicate], Or.inl (List.length_replicate ..)⟩

/-- C104: SuperD patches. -/
theorem C104_superd (hn : 3 ≤ n) (h : Usable ε arc n calls S) (h' : Usable ε arc' n calls' S')
    (hF : ∀ i < n, S'.faceControlPoint i = S.faceControlPoint ((i + s) % n)) (hE : ∀ i < n, S'.edgeControlPoint i = S.edgeControlPoint ((i + s) % n))
    (hV : S'.vertexControlPoint = S.vertexControlPoint) (hf : S'.fullness = S.fullness) (uv : P2 ℝ) (p : P3 ℝ) :
    (∃ T, S.eval ε (turned n s uv) = .ok (p, T)) ↔ ∃ T', S'.eval ε uv = .ok (p, T') := by
  have h0 : 0 < n := by omega
  have hdom := Usable.dom_eq hn h h'
  obtain ⟨s1, i1, cu1, _, _, _, c1⟩ := h.state hn
  obtain ⟨s2, i2, cu2, _, _, _, c2⟩ := h'.state hn
  obtain ⟨f1, vs, a1, a2⟩ := i1.resolve_left (by rw [c1.n_eq]; omega)
  have f2 := (i2.resolve_left (by rw [c2.n_eq]; omega)).1
  rw [c1.n_eq] at a1
  rw [hdom] at f2
  obtain ⟨v, a, b, T⟩ := turned_domain (k := s) hn a1 a2
  have rF : Rot n s S.cpF S'.cpF := Rot.of_get s1.lenF s2.lenF fun i hi => by
    obtain ⟨F, E, eF, eE⟩ := s1.points
    obtain ⟨F', E', eF', eE'⟩ := s2.points
    have := hF i hi
    unfold faceControlPoint at this
    rw [eF, eF', vget_tab _ hi, vget_tab _ (Nat.mod_lt _ h0)] at this
    rw [eF, eF', vget_eq_ok.mp (vget_tab F' hi), vget_eq_ok.mp (vget_tab F (sh_lt h0)), Except.ok.inj this]
    rfl
  have rE : Rot n s S.cpE S'.cpE := Rot.of_get s1.lenE s2.lenE fun i hi => by
    obtain ⟨F, E, eF, eE⟩ := s1.points
    obtain ⟨F', E', eF', eE'⟩ := s2.points
    have := hE i hi
    unfold edgeControlPoint at this
    rw [eE, eE', vget_tab _ hi, vget_tab _ (Nat.mod_lt _ h0)] at this
    rw [eE, eE', vget_eq_ok.mp (vget_tab E' hi), vget_eq_ok.mp (vget_tab E (sh_lt h0)), Except.ok.inj this]
    rfl
  obtain ⟨F, E, eF, eE⟩ := s1.points
  obtain ⟨F', E', eF', eE'⟩ := s2.points
  obtain ⟨g, g1, g2, _⟩ := ribbons_eq hn s1 cu1 eF eE
  obtain ⟨g', g1', g2', _⟩ := ribbons_eq hn s2 cu2 eF' eE'
  have hq : Rot n s S.quartic S'.quartic := by
    rw [g1, g1']
    refine Rot.of_tab fun i hi => ?_
    have := generateRibbon_turn s1.n_eq s2.n_eq hf rF rE hV hi
    rw [g2 _ (sh_lt h0), g2' i hi] at this
    exact (Except.ok.inj this).symm
  refine Alike.iff_fst ?_ p
  unfold eval
  refine Alike.bind (f1.alike f2 (s := s) c1.length_eq (uv := turned n s uv) (uv' := uv) fun x hx i hi => ?_) fun r r' _ _ hr => ?_
  · unfold Param.update at hx
    obtain ⟨m, hm, hx⟩ := bind_ok hx
    cases hx
    change Param.superDMultipliers S.dom.dom = .ok m at hm
    unfold Param.superDMultipliers at hm
    dsimp only at hm
    obtain ⟨_, _, hm⟩ := bind_ok hm
    obtain ⟨_, _, hm⟩ := bind_ok hm
    obtain ⟨_, _, hm⟩ := bind_ok hm
    obtain ⟨x, _, hm⟩ := bind_ok hm
    cases hm
    rw [← turnOf_pt, c1.length_eq]
    exact Alike.of_eq (T.parallel (by omega) hi ε (rot_replicate n s x) uv)
  · refine (ShiftedSurf.blendSideSingular hr).bind fun w w' _ _ hw => ?_
    refine Alike.bind (r := (· = ·)) ?_ fun x y _ _ e => e
    unfold sumRibbons
    rw [s1.n_eq, s2.n_eq]
    refine Alike.sum' (k := s) (fun i => do let q ← vget S.quartic i; let sd ← vget r.1 i; let x ← bezierEvaluate q sd.x sd.y; let b ← vget w i; .ok (b • x))
      (fun i => do let q ← vget S'.quartic i; let sd ← vget r'.1 i; let x ← bezierEvaluate q sd.x sd.y; let b ← vget w' i; .ok (b • x))
      (fun i p => by simp only [bind_assoc, M_bind_ok]) (fun i p => by simp only [bind_assoc, M_bind_ok]) fun i hi => Alike.of_eq ?_
    simp only [hq.vget hi, hr.vget hi, hw.vget hi]

/-- Two SuperD patches of any points, counted from two sides. -/
example (hn : 3 ≤ n) (f : ℝ) (V : P3 ℝ) (F E : ℕ → P3 ℝ) : ∃ (S S' : SuperD ℝ) (calls calls' : List (Call ℝ)), Usable ε arc n calls S ∧ Usable ε arc n calls' S' ∧
    Points n S F E ∧ S.vertexControlPoint = V ∧ (∀ i < n, S'.faceControlPoint i = S.faceControlPoint ((i + s) % n)) ∧ (∀ i < n, S'.edgeControlPoint i = S.edgeControlPoint ((i + s) % n)) ∧
    S'.vertexControlPoint = S.vertexControlPoint ∧ S'.fullness = S.fullness := by
  obtain ⟨calls, S, h, hP, h1, h2⟩ := C51_complete (ε := ε) (arc := arc) hn f V F E
  obtain ⟨calls', S', h', hP', h1', h2'⟩ := C51_complete (ε := ε) (arc := arc) hn f V (fun i => F ((i + s) % n)) (fun i => E ((i + s) % n))
  have hm : ∀ i, (i + s) % n < n := fun i => Nat.mod_lt _ (by omega)
  refine ⟨S, S', calls, calls', h, h', hP, h2, fun i hi => ?_, fun i hi => ?_, ?_, h1'.trans h1.symm⟩
  · rw [(hP _ (hm i)).1, (hP' i hi).1]
  · rw [(hP _ (hm i)).2, (hP' i hi).2]
  · rw [h2]; exact h2'

end SuperD

/-! ### Generalized Bézier patches -/

namespace GB

variable {ε : ℝ} {arc arc' : List (P3 ℝ) → ℝ → ℝ → ℝ} {n d s : ℕ} {calls calls' : List (Call ℝ)} {G G' : GB ℝ} {f f' : ℕ → P2 ℝ} {F F' : ℕ → ℕ → ℕ → P3 ℝ}

theorem wt_turn (hn : 0 < n) (sq : Bool) (hf : ∀ i < n, f' i = f (sh n s i)) {i : ℕ} (hi : i < n) (j k : ℕ) : wt sq n d f' i j k = wt sq n d f (sh n s i) j k := by
  unfold wt
  rw [prev_sh (by omega), next_sh, hf i hi, hf _ (prevIx_lt hn), hf _ (nextIx_lt hn)]

theorem cwt_turn (hn : 0 < n) (hf : ∀ i < n, f' i = f (sh n s i)) {i : ℕ} (hi : i < n) (j k : ℕ) : cwt n d f' i j k = cwt n d f (sh n s i) j k := by
  unfold cwt
  rw [next_sh, hf i hi, hf _ (nextIx_lt hn)]

/-- The central control point. -/
theorem sideEval_turn (hε : 0 < ε) (hF : HasNet G n d F) (hF' : HasNet G' n d F') (hn : 0 < n) (hp : ∀ i < n, ∀ j ≤ d, ∀ k < (d + 1) / 2, F' i j k = F (sh n s i) j k) (hc : G'.central = G.central)
    (hs : G'.squared = G.squared) (hf : ∀ i < n, f' i = f (sh n s i)) (hz : ∀ i < n, ε ≤ (f i).y + (f (nextIx n i)).y) : ∃ p, G.sideEval ε (tab n f) = .ok p ∧ G'.sideEval ε (tab n f') = .ok p := by
  refine ⟨_, sideEval_eq hε hF hz, ?_⟩
  rw [sideEval_eq hε hF' fun i hi => by rw [hf i hi, hf _ (nextIx_lt hn), ← next_sh]; exact hz _ (sh_lt hn)]
  congr 1
  rw [hc, hs]
  congr 1
  · rw [← sum_sh hn (k := s) fun i => ∑ k ∈ Finset.range ((d + 1) / 2), ∑ j ∈ Finset.range (d + 1), wt G.squared n d f i j k • F i j k]
    refine Finset.sum_congr rfl fun i hi => Finset.sum_congr rfl fun k hk => Finset.sum_congr rfl fun j hj => ?_
    have hi := Finset.mem_range.mp hi
    rw [wt_turn hn _ hf hi, hp i hi j (by have := Finset.mem_range.mp hj; omega) k (Finset.mem_range.mp hk)]
  · rw [← sum_sh hn (k := s) fun i => ∑ k ∈ Finset.range ((d + 1) / 2), ∑ j ∈ Finset.range (d + 1), wt G.squared n d f i j k]
    congr 2
    exact Finset.sum_congr rfl fun i hi => Finset.sum_congr rfl fun k hk => Finset.sum_congr rfl fun j hj => by rw [wt_turn hn _ hf (Finset.mem_range.mp hi)]

/-- At most one corner is near. -/
theorem zone_unique {v : ℕ → P2 ℝ} {dom : Domain ℝ} (hd : ConvexDomain dom n v) (hε : 0 < ε) (hε1 : ε ≤ 1 / 2) {uv : P2 ℝ} (hin : InsideClosed n v uv) {i j : ℕ} (hi : i < n) (hj : j < n)
    (zi : (Surf.baryF ε dom uv i).y + (Surf.baryF ε dom uv (nextIx n i)).y < ε) (zj : (Surf.baryF ε dom uv j).y + (Surf.baryF ε dom uv (nextIx n j)).y < ε) : i = j := by
  have hn := hd.hn
  obtain ⟨l0, l1⟩ := Surf.lam_range hd hin
  have key : ∀ i < n, (Surf.baryF ε dom uv i).y + (Surf.baryF ε dom uv (nextIx n i)).y < ε → 1 - ε < Surf.lam n v uv i := by
    intro i hi z
    have hx : nextIx n i < n := nextIx_lt (by omega)
    have hp : prevIx n i < n := prevIx_lt (by omega)
    have y1 := (Surf.baryF_spec hd hε (by linarith) hin hi).2.2.2.1
    have y2 := (Surf.baryF_spec hd hε (by linarith) hin hx).2.2.2.1
    rw [prevIx_nextIx hi] at y2
    have n1 : prevIx n i ≠ i := by unfold prevIx; intro e; rcases Nat.lt_or_ge (i + n - 1) n with q | q <;> [rw [Nat.mod_eq_of_lt q] at e; rw [Nat.mod_eq_sub_mod q, Nat.mod_eq_of_lt (by omega)] at e] <;> omega
    have n2 : nextIx n i ≠ i := by unfold nextIx; intro e; rcases Nat.lt_or_ge (i + 1) n with q | q <;> [rw [Nat.mod_eq_of_lt q] at e; rw [Nat.mod_eq_sub_mod q, Nat.mod_eq_of_lt (by omega)] at e] <;> omega
    have n3 : prevIx n i ≠ nextIx n i := by
      unfold prevIx nextIx
      intro e
      rcases Nat.lt_or_ge (i + n - 1) n with q | q <;> [rw [Nat.mod_eq_of_lt q] at e; rw [Nat.mod_eq_sub_mod q, Nat.mod_eq_of_lt (show i + n - 1 - n < n by omega)] at e] <;>
        rcases Nat.lt_or_ge (i + 1) n with q' | q' <;> [rw [Nat.mod_eq_of_lt q'] at e; rw [Nat.mod_eq_sub_mod q', Nat.mod_eq_of_lt (show i + 1 - n < n by omega)] at e; rw [Nat.mod_eq_of_lt q'] at e; rw [Nat.mod_eq_sub_mod q', Nat.mod_eq_of_lt (show i + 1 - n < n by omega)] at e] <;> omega
    have s3 : Surf.lam n v uv (prevIx n i) + (Surf.lam n v uv i + Surf.lam n v uv (nextIx n i)) ≤ 1 := by
      rw [← l1, ← Finset.sum_pair (f := Surf.lam n v uv) n2.symm, ← Finset.sum_insert (f := Surf.lam n v uv) (a := prevIx n i) (s := {i, nextIx n i}) (by simp [n1, n3])]
      refine Finset.sum_le_sum_of_subset_of_nonneg (fun x hx' => ?_) fun x hx' _ => l0 x (Finset.mem_range.mp hx')
      simp only [Finset.mem_insert, Finset.mem_singleton] at hx'
      rcases hx' with rfl | rfl | rfl
      · exact Finset.mem_range.mpr hp
      · exact Finset.mem_range.mpr hi
      · exact Finset.mem_range.mpr hx
    linarith
  by_contra q
  have a := key i hi zi
  have b := key j hj zj
  have : Surf.lam n v uv i + Surf.lam n v uv j ≤ 1 := by
    rw [← l1, ← Finset.sum_pair (f := Surf.lam n v uv) q]
    refine Finset.sum_le_sum_of_subset_of_nonneg (fun x hx' => ?_) fun x hx' _ => l0 x (Finset.mem_range.mp hx')
    simp only [Finset.mem_insert, Finset.mem_singleton] at hx'
    rcases hx' with rfl | rfl
    · exact Finset.mem_range.mpr hi
    · exact Finset.mem_range.mpr hj
  linarith

/-- C104: Generalized Bézier patches. Every point of the domain has a value, and it is that of the renumbered patch. -/
theorem C104_gb (hε : 0 < ε) (hε1 : ε ≤ 1 / 2) (hn : 3 ≤ n) (hd : 1 ≤ d) (h : Usable ε arc .side n d calls G) (hc : ∀ c ∈ calls, c.regular = true) (h' : Usable ε arc' .side n d calls' G')
    (hp : ∀ i < n, ∀ j ≤ d, ∀ k < (d + 1) / 2, G'.controlPoint i j k = G.controlPoint ((i + s) % n) j k) (hcen : G'.central = G.central) (hs : G'.squared = G.squared)
    {v : ℕ → P2 ℝ} (hv : G.dom.dom.vertices = tab n v) {uv : P2 ℝ} (hin : InsideClosed n v uv) :
    ∃ p T T', G.eval ε (turned n s uv) = .ok (p, T) ∧ G'.eval ε uv = .ok (p, T') := by
  have h0 : 0 < n := by omega
  have hdom := h.dom_eq (by omega) h'
  obtain ⟨i1, k1, n1, _, _⟩ := h.state (by omega)
  obtain ⟨_, k2, _, ⟨F', hF'⟩, _⟩ := h'.state (by omega)
  obtain ⟨F, hF, hcons⟩ := h.consistent hn hc
  have cons : ∀ i < n, F i d 0 = F (nextIx n i) 0 0 := fun i hi =>
    hcons ⟨i, d, 0⟩ ⟨nextIx n i, 0, 0⟩ ⟨hi, le_rfl, by dsimp only; omega⟩ ⟨nextIx_lt (by omega), Nat.zero_le _, by dsimp only; omega⟩
      (samePoint_corner hd hi)
  have hFF : ∀ i < n, ∀ j ≤ d, ∀ k < (d + 1) / 2, F' i j k = F (sh n s i) j k := by
    intro i hi j hj k hk
    have := hp i hi j hj k hk
    unfold controlPoint at this
    rw [hF'.cpt hi hj hk] at this
    exact Except.ok.inj (this.trans (hF.cpt (sh_lt h0) hj hk))
  obtain ⟨w, hdw⟩ := h.domain hn
  have hw : ∀ i < n, v i = w i := fun i hi => tab_inj (hv.symm.trans hdw.vertices_eq) hi
  have hin := Patch.insideClosed_congr h0 hw hin
  obtain ⟨vs, a1, a2⟩ := (i1.regular k1).resolve_left (by omega)
  rw [n1] at a1
  obtain ⟨v', a, b, T⟩ := turned_domain (k := s) hn a1 a2
  have hvw : ∀ i < n, w (sh n s i) = turned n s (w i) := by
    intro i hi
    have e1 := T.vert i hi
    have e2 := T.vert' hi
    rw [hdw.vertices_eq, vget_tab _ (sh_lt h0)] at e1
    rw [hdw.vertices_eq, vget_tab _ hi] at e2
    rw [Except.ok.inj e1, Except.ok.inj e2, turnOf_pt]
  have hin2 : InsideClosed n w (turned n s uv) := by
    intro i hi
    have q := sh_unsh (k := s) h0 hi
    have e : leftOf n w i (turned n s uv) = leftOf n w (unsh n s i) uv := by
      have e1 : (i + n - 1) % n = sh n s (prevIx n (unsh n s i)) := by
        have := prev_sh (n := n) (k := s) (i := unsh n s i) (j := 1) (by omega)
        rw [q] at this
        exact this
      have e2 : w i = turned n s (w (unsh n s i)) := by rw [← hvw _ (unsh_lt h0), q]
      have e3 := Real.cos_sq_add_sin_sq (2 * Real.pi / n * s)
      unfold leftOf
      rw [e1, e2, hvw _ (prevIx_lt h0)]
      unfold area2 turned prevIx
      dsimp only
      linear_combination (((w (unsh n s i)).x - (w ((unsh n s i + n - 1) % n)).x) * (uv.y - (w ((unsh n s i + n - 1) % n)).y) - ((w (unsh n s i)).y - (w ((unsh n s i + n - 1) % n)).y) * (uv.x - (w ((unsh n s i + n - 1) % n)).x)) * e3
    rw [e]
    exact hin _ (unsh_lt h0)
  have hf : ∀ i < n, Surf.baryF ε G.dom.dom uv i = Surf.baryF ε G.dom.dom (turned n s uv) (sh n s i) := by
    intro i hi
    have e1 := (Surf.baryF_spec hdw hε (by linarith) hin hi).1
    have e2 := (Surf.baryF_spec hdw hε (by linarith) hin2 (sh_lt h0 (k := s) (i := i))).1
    have := T.baryMap hn turnOf_q (show ε ≤ 1 by linarith) hi uv
    rw [turnOf_pt, e1, e2] at this
    exact Eq.symm this
  obtain ⟨o, ho⟩ := h.maps hn fun j hj => (Surf.baryF_spec hdw hε (by linarith) hin2 hj).1
  obtain ⟨o', ho'⟩ := h'.maps hn (uv := uv) (f := Surf.baryF ε G.dom.dom uv) fun j hj => by rw [hdom]; exact (Surf.baryF_spec hdw hε (by linarith) hin hj).1
  have main : ∃ p, G.sideEval ε (tab n (Surf.baryF ε G.dom.dom (turned n s uv))) = .ok p ∧ G'.sideEval ε (tab n (Surf.baryF ε G.dom.dom uv)) = .ok p := by
    by_cases hz : ∀ i < n, ε ≤ (Surf.baryF ε G.dom.dom (turned n s uv) i).y + (Surf.baryF ε G.dom.dom (turned n s uv) (nextIx n i)).y
    · exact sideEval_turn hε hF hF' h0 hFF hcen hs hf hz
    · push Not at hz
      obtain ⟨c, hcn, z⟩ := hz
      have hu := unsh_lt (k := s) (i := c) h0
      have q := sh_unsh (k := s) h0 hcn
      have z' : (Surf.baryF ε G.dom.dom uv (unsh n s c)).y + (Surf.baryF ε G.dom.dom uv (nextIx n (unsh n s c))).y < ε := by
        rw [hf _ hu, hf _ (nextIx_lt h0), ← next_sh, q]
        exact z
      refine ⟨F c d 0, sideEval_corner hε hF hd hcn z (fun i hi hne => ?_) rfl (cons c hcn).symm, sideEval_corner hε hF' hd hu z' (fun i hi hne => ?_) ?_ ?_⟩
      · by_contra w
        exact hne (zone_unique hdw hε hε1 hin2 hi hcn (not_le.mp w) z)
      · by_contra w
        exact hne (zone_unique hdw hε hε1 hin hi hu (not_le.mp w) z')
      · rw [hFF _ hu d le_rfl 0 (by omega), q]
      · rw [hFF _ (nextIx_lt h0) 0 (by omega) 0 (by omega), ← next_sh, q, cons c hcn]
  obtain ⟨p, m1, m2⟩ := main
  obtain ⟨T1, t1⟩ := eval_side k1 ho m1
  obtain ⟨T2, t2⟩ := eval_side k2 ho' m2
  exact ⟨p, T1, T2, t1, t2⟩

/-- The name of the same point when the sides are counted from another one. -/
def turnName (n s : ℕ) (a : Name) : Name := ⟨sh n s a.side, a.col, a.row⟩

theorem atCorner_turn {a b : Name} (ha : a.InRange n d) (hb : b.InRange n d) : AtCorner n d (turnName n s a) (turnName n s b) ↔ AtCorner n d a b := by
  have h0 : 0 < n := by have := ha.1; omega
  have e := prev_sh (n := n) (k := s) (i := a.side) (j := 1) (by omega)
  have := congrArg (unsh n s) e
  unfold AtCorner turnName
  obtain ⟨b1, b2, b3⟩ := b
  simp only [Name.mk.injEq]
  refine and_congr_right fun _ => and_congr_right fun _ => and_congr_left fun _ => ?_
  constructor
  · intro q
    have q := congrArg (unsh n s) (q.trans e)
    rwa [unsh_sh h0 hb.1, unsh_sh h0 (prevIx_lt h0)] at q
  · rintro rfl
    exact e.symm

theorem samePoint_turn {a b : Name} (ha : a.InRange n d) (hb : b.InRange n d) : SamePoint n d (turnName n s a) (turnName n s b) ↔ SamePoint n d a b := by
  have h0 : 0 < n := by have := ha.1; omega
  unfold SamePoint
  rw [atCorner_turn ha hb, atCorner_turn hb ha]
  refine or_congr ⟨fun q => ?_, fun q => by rw [q]⟩ Iff.rfl
  obtain ⟨a1, a2, a3⟩ := a
  obtain ⟨b1, b2, b3⟩ := b
  simp only [turnName, Name.mk.injEq] at q ⊢
  have := congrArg (unsh n s) q.1
  rw [unsh_sh h0 ha.1, unsh_sh h0 hb.1] at this
  exact ⟨this, q.2⟩

theorem netValue_turn {w : List (Name × P3 ℝ)} (hw : ∀ x ∈ w, x.1.InRange n d) {a : Name} (ha : a.InRange n d) :
    netValue n d w a = netValue n d (w.map fun x => (turnName n s x.1, x.2)) (turnName n s a) := by
  unfold netValue
  generalize (0 : P3 ℝ) = z
  induction w generalizing z with
  | nil => rfl
  | cons x w ih =>
    rw [List.map_cons, List.foldl_cons, List.foldl_cons, ih fun y hy => hw y (List.mem_cons_of_mem _ hy)]
    simp only [samePoint_turn ha (hw x List.mem_cons_self)]

/-- Two patches with the same points, counted from two sides: `w` are the assignments of the second one. -/
theorem turned_built (kind : GBKind ℝ) (hn : 3 ≤ n) (hd : 1 ≤ d) (hk : kind = .side ∨ d % 2 = 1) {w : List (Name × P3 ℝ)} (hw : ∀ x ∈ w, x.1.InRange n d) (c : P3 ℝ) (sq : Bool) :
    ∃ (G G' : GB ℝ) (calls calls' : List (Call ℝ)), Usable ε arc kind n d calls G ∧ (∀ x ∈ calls, x.regular = true) ∧ Usable ε arc kind n d calls' G' ∧
      (∀ i < n, ∀ j ≤ d, ∀ k < (d + 1) / 2, G'.controlPoint i j k = .ok (netValue n d w ⟨i, j, k⟩)) ∧
      (∀ i < n, ∀ j ≤ d, ∀ k < (d + 1) / 2, G'.controlPoint i j k = G.controlPoint ((i + s) % n) j k) ∧ G'.central = G.central ∧ G'.squared = G.squared := by
  have h0 : 0 < n := by omega
  obtain ⟨G', u', _, c', s', p'⟩ := built (ε := ε) (arc := arc) kind hn hd hk hw c sq
  obtain ⟨G, u, r, c1, s1, p1⟩ := built (ε := ε) (arc := arc) kind hn hd hk (w := w.map fun x => (turnName n s x.1, x.2)) (fun x hx => by
    obtain ⟨y, hy, rfl⟩ := List.mem_map.mp hx
    exact ⟨sh_lt h0, (hw y hy).2.1, (hw y hy).2.2⟩) c sq
  refine ⟨G, G', _, _, u, r, u', fun i hi j hj k hk => p' ⟨i, j, k⟩ ⟨hi, hj, hk⟩, fun i hi j hj k hk => ?_, c'.trans c1.symm, s'.trans s1.symm⟩
  rw [p' ⟨i, j, k⟩ ⟨hi, hj, hk⟩, netValue_turn hw ⟨hi, hj, hk⟩]
  exact (p1 (turnName n s ⟨i, j, k⟩) ⟨sh_lt h0, hj, hk⟩).symm

/-- A six-sided quintic patch with two points set, counted from its fourth side. -/
example : ∃ (G G' : GB ℝ) (calls calls' : List (Call ℝ)), Usable (1 / 10000) (fun _ _ _ => 0) .side 6 5 calls G ∧ (∀ x ∈ calls, x.regular = true) ∧
    Usable (1 / 10000) (fun _ _ _ => 0) .side 6 5 calls' G' ∧ G'.controlPoint 2 1 0 = .ok ⟨1, 2, 3⟩ ∧
    (∀ i < 6, ∀ j ≤ 5, ∀ k < 3, G'.controlPoint i j k = G.controlPoint ((i + 3) % 6) j k) ∧ G'.central = G.central ∧ G'.squared = G.squared := by
  obtain ⟨G, G', calls, calls', u, r, u', p, q, c, sq⟩ := turned_built (ε := 1 / 10000) (arc := fun _ _ _ => 0) (n := 6) (d := 5) (s := 3) .side (by norm_num) (by norm_num) (Or.inl rfl)
    (w := [(⟨2, 1, 0⟩, ⟨1, 2, 3⟩), (⟨2, 1, 1⟩, ⟨1, 2, 4⟩)]) (by
      intro x hx
      simp only [List.mem_cons, List.not_mem_nil, or_false] at hx
      rcases hx with rfl | rfl <;> simp [Name.InRange]) ⟨0, 0, 1⟩ true
  refine ⟨G, G', calls, calls', u, r, u', ?_, q, c, sq⟩
  rw [p 2 (by norm_num) 1 (by norm_num) 0 (by norm_num)]
  simp [netValue, SamePoint, AtCorner]

theorem fmod_periodic {fmod : ℝ → ℝ → ℝ} (hf : Param.IsFmod fmod) {x y : ℝ} (hx : 0 ≤ x) (hy : 0 < y) (m : ℕ) : fmod (x + m * y) y = fmod x y := by
  obtain ⟨a, a1, a2, a3⟩ := hf x y hx hy
  obtain ⟨b, b1, b2, b3⟩ := hf (x + m * y) y (by positivity) hy
  have h1 : ((b : ℝ) - a - m) * y < 1 * y := by linarith
  have h2 : (-1 : ℝ) * y < ((b : ℝ) - a - m) * y := by linarith
  have h1 := lt_of_mul_lt_mul_right h1 hy.le
  have h2 := lt_of_mul_lt_mul_right h2 hy.le
  have e : (b : ℝ) = a + m := by
    have c1 : b < a + m + 1 := by exact_mod_cast (by linarith : (b : ℝ) < a + m + 1)
    have c2 : a + m < b + 1 := by exact_mod_cast (by linarith : (a : ℝ) + m < b + 1)
    exact_mod_cast (by omega : b = a + m)
  rw [b1, a1, e]
  ring

theorem circularMap_turn {fmod : ℝ → ℝ → ℝ} (hf : Param.IsFmod fmod) {i : ℕ} (hi : i < n) (r : ℝ) {θ : ℝ} (hθ : 0 ≤ θ) :
    Param.circularMap ε fmod n (sh n s i) ⟨r, θ + 2 * Real.pi / n * s⟩ = Param.circularMap ε fmod n i ⟨r, θ⟩ := by
  have hn : (0 : ℝ) < n := by exact_mod_cast (by omega : 0 < n)
  have hpi := Real.pi_pos
  have e : fmod (θ + 2 * Real.pi / n * s + (3 - ((sh n s i : ℕ) * 2 + 1) / n) * Real.pi) (2 * Real.pi) = fmod (θ + (3 - (i * 2 + 1) / n) * Real.pi) (2 * Real.pi) := by
    rw [← fmod_periodic hf (x := θ + (3 - (i * 2 + 1) / n) * Real.pi) (y := 2 * Real.pi) ?_ (by positivity) ((i + s) / n)]
    · congr 1
      have : (i : ℝ) + s = n * ((i + s) / n : ℕ) + (sh n s i : ℕ) := by
        exact_mod_cast (Nat.div_add_mod (i + s) n).symm
      field_simp
      linear_combination (2 * Real.pi) * this
    · have : ((i : ℝ) * 2 + 1) / n ≤ 2 := by
        rw [div_le_iff₀ hn]
        have : (i : ℝ) + 1 ≤ n := by exact_mod_cast hi
        linarith
      have := mul_nonneg (by linarith : 0 ≤ 3 - ((i : ℝ) * 2 + 1) / n) hpi.le
      linarith
  have e' : fmod (θ + 2 * Real.pi / n * s + (3 - ((sh n s i : ℕ) * 2 + 1) / n) * Libm.pi) (2 * Libm.pi) = fmod (θ + (3 - (i * 2 + 1) / n) * Libm.pi) (2 * Libm.pi) := e
  unfold Param.circularMap
  dsimp only
  simp only [fdiv_of_ne hn.ne', M_bind_ok, e']

/-- C104: corner-based Generalized Bézier patches; the domain is the disc in polar coordinates (distance from the centre and angle). -/
theorem C104_corner {fmod : ℝ → ℝ → ℝ} (hε : 0 < ε) (hfm : Param.IsFmod fmod) (hn : 3 ≤ n) (h : Usable ε arc (.corner fmod) n d calls G) (h' : Usable ε arc' (.corner fmod) n d calls' G')
    (hp : ∀ i < n, ∀ j ≤ d, ∀ k < (d + 1) / 2, G'.controlPoint i j k = G.controlPoint ((i + s) % n) j k) (hcen : G'.central = G.central) (r : ℝ) {θ : ℝ} (hθ : 0 ≤ θ) :
    ∃ p T T', G.eval ε ⟨r, θ + 2 * Real.pi / n * s⟩ = .ok (p, T) ∧ G'.eval ε ⟨r, θ⟩ = .ok (p, T') := by
  have h0 : 0 < n := by omega
  obtain ⟨_, k1, _, ⟨F, hF⟩, _⟩ := h.state (by omega)
  obtain ⟨_, k2, _, ⟨F', hF'⟩, _⟩ := h'.state (by omega)
  have hFF : ∀ i < n, ∀ j ≤ d, ∀ k < (d + 1) / 2, F' i j k = F (sh n s i) j k := by
    intro i hi j hj k hk
    have := hp i hi j hj k hk
    unfold controlPoint at this
    rw [hF'.cpt hi hj hk] at this
    exact Except.ok.inj (this.trans (hF.cpt (sh_lt h0) hj hk))
  have hex : ∀ j, ∃ x : ℝ, Param.circularMap ε fmod n j ⟨r, θ + 2 * Real.pi / n * s⟩ = .ok ⟨x, x⟩ ∧ 0 ≤ x ∧ x ≤ 1 := fun j => Param.C65_range hε fmod (by omega) j _
  choose x hx using hex
  obtain ⟨o, e⟩ := h.mapsCorner hn (f := fun j => ⟨x j, x j⟩) fun j _ => (hx j).1
  obtain ⟨o', e'⟩ := h'.mapsCorner hn (uv := ⟨r, θ⟩) (f := fun j => ⟨x (sh n s j), x (sh n s j)⟩) fun j hj => by rw [← circularMap_turn hfm hj r hθ]; exact (hx _).1
  obtain ⟨T, t⟩ := eval_corner k1 e (cornerEval_eq hF)
  obtain ⟨T', t'⟩ := eval_corner k2 e' (cornerEval_eq hF')
  refine ⟨_, T, T', t, ?_⟩
  rw [t']
  have hc := fun {i : ℕ} (hi : i < n) (j k : ℕ) => cwt_turn (n := n) (s := s) (d := d) (f := fun j => (⟨x j, x j⟩ : P2 ℝ)) (f' := fun j => (⟨x (sh n s j), x (sh n s j)⟩ : P2 ℝ)) h0 (fun _ _ => rfl) hi j k
  congr 2
  rw [hcen]
  congr 1
  · rw [← sum_sh h0 (k := s) fun i => ∑ j ∈ Finset.range ((d + 1) / 2), ∑ k ∈ Finset.range ((d + 1) / 2), cwt n d (fun j => (⟨x j, x j⟩ : P2 ℝ)) i j k • F i (d - j) k]
    refine Finset.sum_congr rfl fun i hi => Finset.sum_congr rfl fun j hj => Finset.sum_congr rfl fun k hk => ?_
    have hi := Finset.mem_range.mp hi
    rw [hc hi, hFF i hi (d - j) (by omega) k (Finset.mem_range.mp hk)]
  · rw [← sum_sh h0 (k := s) fun i => ∑ j ∈ Finset.range ((d + 1) / 2), ∑ k ∈ Finset.range ((d + 1) / 2), cwt n d (fun j => (⟨x j, x j⟩ : P2 ℝ)) i j k]
    congr 2
    exact Finset.sum_congr rfl fun i hi => Finset.sum_congr rfl fun j hj => Finset.sum_congr rfl fun k hk => by rw [hc (Finset.mem_range.mp hi)]

/-- A five-sided cubic patch with two points set, counted from its third side. -/
example : ∃ (fmod : ℝ → ℝ → ℝ) (G G' : GB ℝ) (calls calls' : List (Call ℝ)), Param.IsFmod fmod ∧ Usable (1 / 10000) (fun _ _ _ => 0) (.corner fmod) 5 3 calls G ∧
    Usable (1 / 10000) (fun _ _ _ => 0) (.corner fmod) 5 3 calls' G' ∧ G'.controlPoint 2 1 0 = .ok ⟨1, 2, 3⟩ ∧
    (∀ i < 5, ∀ j ≤ 3, ∀ k < 2, G'.controlPoint i j k = G.controlPoint ((i + 2) % 5) j k) ∧ G'.central = G.central := by
  obtain ⟨fmod, hf⟩ := Param.exists_fmod
  obtain ⟨G, G', calls, calls', u, r, u', p, q, c, sq⟩ := turned_built (ε := 1 / 10000) (arc := fun _ _ _ => 0) (n := 5) (d := 3) (s := 2) (.corner fmod) (by norm_num) (by norm_num) (Or.inr rfl)
    (w := [(⟨2, 1, 0⟩, ⟨1, 2, 3⟩), (⟨2, 1, 1⟩, ⟨1, 2, 4⟩)]) (by
      intro x hx
      simp only [List.mem_cons, List.not_mem_nil, or_false] at hx
      rcases hx with rfl | rfl <;> simp [Name.InRange]) ⟨0, 0, 1⟩ true
  refine ⟨fmod, G, G', calls, calls', hf, u, u', ?_, q, c⟩
  rw [p 2 (by norm_num) 1 (by norm_num) 0 (by norm_num)]
  simp [netValue, SamePoint, AtCorner]

end GB

end Transfinite
