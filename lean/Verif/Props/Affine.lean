import Verif.Lemmas.AffineSuperD
import Verif.Lemmas.GenBezierBuilt
import Verif.Props.SPatch

/-! # C99: affine maps of the control points -/

namespace Transfinite

open Spec

/-- Both computations fail in the same way, or the second result is the image of the first one. -/
theorem Agree.image {α β : Type} {x y : M (P3 α × β)} {f : P3 α → P3 α} (h : Agree (fun a b => b.1 = f a.1) x y) : Prod.fst <$> y = f <$> (Prod.fst <$> x) := by
  cases x <;> cases y
  · exact congrArg Except.error (Eq.symm h)
  · exact h.elim
  · exact h.elim
  · exact congrArg Except.ok h

theorem Agree.of_fst {α β γ : Type} {x : M (α × β)} {y : M (α × γ)} (h : Prod.fst <$> x = Prod.fst <$> y) : Agree (fun a b => b.1 = a.1) x y := by
  cases x <;> cases y
  · exact Except.error.inj h
  · cases h
  · cases h
  · exact (Except.ok.inj h).symm

/-! ### Generalized Bézier patches -/

namespace GB

variable {K : Type} [Field K] [LinearOrder K] [Libm K] {ε : K} {arc arc' : List (P3 K) → K → K → K} {kind : GBKind K} {n d : ℕ} {calls calls' : List (Call K)} {G G' : GB K}

/-- The domain of a corner-based patch. -/
def Circle (G : GB K) : Prop := G.dom.dom = ⟨G.dom.dom.n, 0, List.replicate G.dom.dom.n 0, [], []⟩

theorem updateDomain_circle {f : K → K → K} (hk : G.kind = .corner f) (h : Circle G) (e : G.updateDomain = .ok G') : Circle G' := by
  unfold updateDomain at e
  rw [hk] at e
  dsimp only at e
  obtain ⟨o, _, e⟩ := bind_ok e
  cases e
  unfold Circle at h ⊢
  dsimp only
  rw [h]
  dsimp only
  rw [List.length_replicate, List.take_replicate, List.replicate_append_replicate]
  congr 2
  omega

theorem step_circle {f : K → K → K} {c : Call K} (hk : G.kind = .corner f) (h : Circle G) (e : G.step ε arc c = .ok G') : Circle G' := by
  have move : G'.dom = G.dom → Circle G' := fun q => by unfold Circle at h ⊢; rw [q]; exact h
  cases c with
  | init n d =>
    obtain ⟨rfl, _⟩ := initNetwork_eq (show G.initNetwork n d = .ok G' from e)
    unfold initBase
    split_ifs
    · exact h
    · exact h
  | set i j k p => rw [setControlPoint_keeps (show G.setControlPoint i j k p = .ok G' from e)]; exact h
  | setIndividual i j k p => rw [setIndividual_keeps (show G.setIndividualControlPoint i j k p = .ok G' from e)]; exact h
  | central p => cases e; exact h
  | squared b => cases e; exact h
  | curves cs => cases e; exact h
  | loop =>
    obtain ⟨curves, cs, _, _, _, e⟩ := setupLoop_parts (show G.setupLoop arc = .ok G' from e)
    exact updateDomain_circle (G := { G with curves := cs }) hk h e
  | eval uv =>
    obtain ⟨r, e1, e⟩ := bind_ok (show (G.eval ε uv >>= fun r => .ok r.2) = .ok G' from e)
    cases e
    unfold GB.eval at e1
    obtain ⟨x, _, e1⟩ := bind_ok e1
    obtain ⟨p, _, e1⟩ := bind_ok e1
    cases e1
    exact h
  | weight i j k uv =>
    obtain ⟨r, e1, e⟩ := bind_ok (show (G.weight ε i j k uv >>= fun r => .ok r.2) = .ok G' from e)
    cases e
    unfold GB.weight at e1
    rw [hk] at e1
    dsimp only at e1
    obtain ⟨x, _, e1⟩ := bind_ok e1
    obtain ⟨p, _, e1⟩ := bind_ok e1
    cases e1
    exact h

theorem run_circle {f : K → K → K} {cs : List (Call K)} (hi : Inv ε G) (hk : G.kind = .corner f) (h : Circle G) (e : G.run ε arc cs = .ok G') : Circle G' := by
  induction cs generalizing G with
  | nil => cases e; exact h
  | cons c cs ih =>
    unfold run at e
    obtain ⟨G1, e1, e⟩ := bind_ok e
    obtain ⟨i1, k1, _⟩ := step_inv hi e1
    exact ih i1 (k1.trans hk) (step_circle hk h e1) e

/-- The domain is determined by the number of sides. -/
theorem Usable.dom_eq (hn : n ≠ 0) (h : Usable ε arc kind n d calls G) (h' : Usable ε arc' kind n d calls' G') : G'.dom.dom = G.dom.dom := by
  obtain ⟨i1, k1, n1, _⟩ := h.state hn
  obtain ⟨i2, k2, n2, _⟩ := h'.state hn
  cases kind with
  | side =>
    obtain ⟨vs, a1, a2⟩ := (i1.regular k1).resolve_left (by omega)
    obtain ⟨vs', b1, b2⟩ := (i2.regular k2).resolve_left (by omega)
    rw [n1] at a1
    rw [n2, a1] at b1
    cases b1
    exact Except.ok.inj (b2.symm.trans a2)
  | corner f =>
    obtain ⟨g, l, _, _, _, e, _⟩ := h
    obtain ⟨g', l', _, _, _, e', _⟩ := h'
    have c1 : Circle G := run_circle (new_inv ε _ g l) rfl rfl e
    have c2 : Circle G' := run_circle (new_inv ε _ g' l') rfl rfl e'
    unfold Circle at c1 c2
    rw [c1, c2, n1, n2]

/-- C99: if the control points of a Generalized Bézier patch are transformed by an affine map, the points of the patch are transformed by the same map. -/
theorem C99_gb (hn : n ≠ 0) (hd : 1 ≤ d) (h : Usable ε arc kind n d calls G) (h' : Usable ε arc' kind n d calls' G') (φ : P3 K →ᵃ[K] P3 K)
    (hp : ∀ i < n, ∀ j ≤ d, ∀ k < (d + 1) / 2, G'.controlPoint i j k = φ <$> G.controlPoint i j k) (hc : G'.central = φ G.central) (hs : G'.squared = G.squared) (uv : P2 K) :
    Prod.fst <$> G'.eval ε uv = φ <$> (Prod.fst <$> G.eval ε uv) := by
  obtain ⟨i1, k1, n1, ⟨F, hF⟩, _⟩ := h.state hn
  obtain ⟨i2, k2, n2, ⟨F', hF'⟩, _⟩ := h'.state hn
  have hI : Image φ n d F G G' := by
    refine ⟨hF, hF'.congr fun i hi j hj k hk => ?_, hc, hs, k2.trans k1.symm⟩
    have := hp i hi j hj k hk
    unfold controlPoint at this
    rw [hF.cpt hi hj hk, hF'.cpt hi hj hk] at this
    exact Except.ok.inj this
  have f1 := i1.param.resolve_left (by omega)
  have f2 := i2.param.resolve_left (by omega)
  rw [h.dom_eq hn h', k2] at f2
  rw [k1] at f1
  refine Agree.image ?_
  unfold eval
  rw [k1, k2]
  refine (Agree.of_fst (f1.same f2 uv)).bind fun a b _ _ hab => ?_
  rw [hab]
  refine (evalWith_image hd hI a.1).bind fun x y _ _ hxy => hxy

section examples

/-- All names of control points. -/
def everyName (n d : ℕ) : List Name := (List.range n).flatMap fun i => (List.range (d + 1)).flatMap fun j => (List.range ((d + 1) / 2)).map fun k => ⟨i, j, k⟩

theorem mem_everyName {n d : ℕ} {a : Name} : a ∈ everyName n d ↔ a.InRange n d := by
  unfold everyName Name.InRange
  simp only [List.mem_flatMap, List.mem_map, List.mem_range]
  constructor
  · rintro ⟨i, hi, j, hj, k, hk, rfl⟩
    exact ⟨hi, by dsimp only; omega, hk⟩
  · rintro ⟨h1, h2, h3⟩
    exact ⟨a.side, h1, a.col, by omega, a.row, h3, rfl⟩

theorem netValue_map {n d : ℕ} (f : P3 ℝ → P3 ℝ) (w : List (Name × P3 ℝ)) (a : Name) (x y : P3 ℝ) (h : y = f x ∨ ∃ z ∈ w, z.1 = a) :
    (w.map fun z => (z.1, f z.2)).foldl (fun v z => if SamePoint n d a z.1 then z.2 else v) y = f (w.foldl (fun v z => if SamePoint n d a z.1 then z.2 else v) x) := by
  induction w generalizing x y with
  | nil => exact h.resolve_right (by simp)
  | cons z w ih =>
    rw [List.map_cons, List.foldl_cons, List.foldl_cons]
    refine ih _ _ ?_
    dsimp only
    by_cases q : SamePoint n d a z.1
    · rw [if_pos q, if_pos q]
      exact Or.inl rfl
    · rw [if_neg q, if_neg q]
      rcases h with h | ⟨y, hy, h⟩
      · exact Or.inl h
      · rcases List.mem_cons.mp hy with rfl | hy
        · exact absurd (Or.inl h.symm) q
        · exact Or.inr ⟨y, hy, h⟩

/-- The hypotheses of `C99_gb` hold for all affine maps, with any points. -/
example {n d : ℕ} (hn : 3 ≤ n) (hd : 1 ≤ d) (kind : GBKind ℝ) (hk : kind = .side ∨ d % 2 = 1) (ε : ℝ) (arc : List (P3 ℝ) → ℝ → ℝ → ℝ) (p : Name → P3 ℝ) (c : P3 ℝ) (sq : Bool)
    (φ : P3 ℝ →ᵃ[ℝ] P3 ℝ) : ∃ (G G' : GB ℝ) (calls calls' : List (Call ℝ)), Usable ε arc kind n d calls G ∧ Usable ε arc kind n d calls' G' ∧
      (∀ i < n, ∀ j ≤ d, ∀ k < (d + 1) / 2, G'.controlPoint i j k = φ <$> G.controlPoint i j k) ∧ G.central = c ∧ G'.central = φ c ∧ G'.squared = G.squared ∧
      ∀ i < n, ∀ j ≤ d, ∀ k < (d + 1) / 2, ∃ a, SamePoint n d ⟨i, j, k⟩ a ∧ G.controlPoint i j k = .ok (p a) := by
  obtain ⟨G, h, _, h1, h2, h3⟩ := built (ε := ε) (arc := arc) kind hn hd hk (w := (everyName n d).map fun a => (a, p a))
    (fun x hx => by obtain ⟨a, ha, rfl⟩ := List.mem_map.mp hx; exact mem_everyName.mp ha) c sq
  obtain ⟨G', h', _, h1', h2', h3'⟩ := built (ε := ε) (arc := arc) kind hn hd hk (w := ((everyName n d).map fun a => (a, p a)).map fun z => (z.1, φ z.2))
    (fun x hx => by
      obtain ⟨y, hy, rfl⟩ := List.mem_map.mp hx
      obtain ⟨a, ha, rfl⟩ := List.mem_map.mp hy
      exact mem_everyName.mp ha) (φ c) sq
  refine ⟨G, G', _, _, h, h', fun i hi j hj k hk => ?_, h1, h1', h2'.trans h2.symm, fun i hi j hj k hk => ?_⟩
  · rw [h3 ⟨i, j, k⟩ ⟨hi, hj, hk⟩, h3' ⟨i, j, k⟩ ⟨hi, hj, hk⟩]
    unfold netValue
    exact congrArg Except.ok (netValue_map φ _ _ _ _ (Or.inr ⟨(⟨i, j, k⟩, p ⟨i, j, k⟩), List.mem_map.mpr ⟨_, mem_everyName.mpr ⟨hi, hj, hk⟩, rfl⟩, rfl⟩))
  · have key : ∀ (l : List Name) (x : P3 ℝ), ((∃ a, SamePoint n d ⟨i, j, k⟩ a ∧ x = p a) ∨ ⟨i, j, k⟩ ∈ l) → ∃ a, SamePoint n d ⟨i, j, k⟩ a ∧
        (l.map fun a => (a, p a)).foldl (fun v z => if SamePoint n d ⟨i, j, k⟩ z.1 then z.2 else v) x = p a := by
      intro l
      induction l with
      | nil => exact fun x hx => hx.resolve_right (by simp)
      | cons b l ih =>
        intro x hx
        rw [List.map_cons, List.foldl_cons]
        refine ih _ ?_
        dsimp only
        by_cases q : SamePoint n d ⟨i, j, k⟩ b
        · rw [if_pos q]
          exact Or.inl ⟨b, q, rfl⟩
        · rw [if_neg q]
          refine hx.imp id fun w => (List.mem_cons.mp w).resolve_left fun e => q (Or.inl e)
    obtain ⟨a, a1, a2⟩ := key (everyName n d) 0 (Or.inr (mem_everyName.mpr ⟨hi, hj, hk⟩))
    exact ⟨a, a1, (h3 ⟨i, j, k⟩ ⟨hi, hj, hk⟩).trans (congrArg Except.ok a2)⟩

end examples

end GB

/-! ### SuperD patches -/

namespace SuperD

variable {ε : ℝ} {arc arc' : List (P3 ℝ) → ℝ → ℝ → ℝ} {n : ℕ} {calls calls' : List (Call ℝ)} {S S' : SuperD ℝ}

theorem Usable.dom_eq (hn : 3 ≤ n) (h : Usable ε arc n calls S) (h' : Usable ε arc' n calls' S') : S'.dom.dom = S.dom.dom := by
  obtain ⟨_, i1, _, _, _, _, c1⟩ := h.state hn
  obtain ⟨_, i2, _, _, _, _, c2⟩ := h'.state hn
  obtain ⟨_, vs, a1, a2⟩ := i1.resolve_left (by rw [c1.n_eq]; omega)
  obtain ⟨_, vs', b1, b2⟩ := i2.resolve_left (by rw [c2.n_eq]; omega)
  rw [c1.n_eq] at a1
  rw [c2.n_eq, a1] at b1
  cases b1
  exact Except.ok.inj (b2.symm.trans a2)

theorem map_tab {α β : Type} (f : α → β) (m : ℕ) (g : ℕ → α) : (tab m g).map f = tab m fun i => f (g i) := by
  unfold tab
  rw [List.map_map]
  rfl

/-- C99: the same for SuperD patches. -/
theorem C99_superd (hε : 0 < ε) (hn : 3 ≤ n) (h : Usable ε arc n calls S) (h' : Usable ε arc' n calls' S') (φ : P3 ℝ →ᵃ[ℝ] P3 ℝ)
    (hF : ∀ i < n, S'.faceControlPoint i = φ <$> S.faceControlPoint i) (hE : ∀ i < n, S'.edgeControlPoint i = φ <$> S.edgeControlPoint i)
    (hV : S'.vertexControlPoint = φ S.vertexControlPoint) (hf : S'.fullness = S.fullness) (uv : P2 ℝ) :
    Prod.fst <$> S'.eval ε uv = φ <$> (Prod.fst <$> S.eval ε uv) := by
  have hdom := Usable.dom_eq hn h h'
  obtain ⟨s1, i1, cu1, _, _, _, c1⟩ := h.state hn
  obtain ⟨s2, i2, cu2, _, _, _, c2⟩ := h'.state hn
  obtain ⟨F, E, eF, eE⟩ := s1.points
  have mF : S'.cpF = tab n fun i => φ (F i) := tab_of_vget s2.lenF fun i hi => by
    have := hF i hi
    unfold faceControlPoint at this
    rw [eF, vget_tab _ hi] at this
    exact this
  have mE : S'.cpE = tab n fun i => φ (E i) := tab_of_vget s2.lenE fun i hi => by
    have := hE i hi
    unfold edgeControlPoint at this
    rw [eE, vget_tab _ hi] at this
    exact this
  have hm : Moved φ S S' := ⟨s2.n_eq.trans s1.n_eq.symm, hf, hV, by rw [mF, eF, map_tab], by rw [mE, eE, map_tab]⟩
  obtain ⟨g, g1, g2, _⟩ := ribbons_eq hn s1 cu1 eF eE
  obtain ⟨g', g1', g2', _⟩ := ribbons_eq hn s2 cu2 mF mE
  have hg : ∀ i < n, ∀ j < 5, ∀ k < 5, g' i j k = φ (g i j k) := by
    intro i hi j hj k hk
    have := ribbon_image hm i
    rw [g2 i hi, g2' i hi] at this
    have this : _ = _ := this
    rw [map_tab] at this
    have := tab_inj this hj
    rw [map_tab] at this
    exact tab_inj this hk
  have f1 := (i1.resolve_left (by rw [c1.n_eq]; omega)).1
  have f2 := (i2.resolve_left (by rw [c2.n_eq]; omega)).1
  rw [hdom] at f2
  refine Agree.image ?_
  unfold eval
  refine (Agree.of_fst (f1.same f2 uv)).bind fun a b ha _ hab => ?_
  rw [hab]
  have hlen : a.1.length = n := by
    obtain ⟨o0, cs, e1, hcs, e2⟩ := f1
    rw [← c1.length_eq, (C19_elements e1 e2 (show _ = Except.ok (a.1, a.2) from ha)).1, Patch.lastDomain_queries hcs]
  haveI : Inhabited (P2 ℝ) := ⟨0⟩
  obtain ⟨f, hfa⟩ := exists_tab a.1
  rw [hlen] at hfa
  rw [hfa]
  obtain ⟨w, e, _, w1, _⟩ := C28_side hε (n := n) (by omega) f
  rw [e, M_bind_ok, M_bind_ok, s1.n_eq, s2.n_eq, g1, g1', sumRibbons_eq, sumRibbons_eq, M_bind_ok, M_bind_ok]
  change _ = _
  dsimp only
  rw [← affine_sum φ _ _ _ w1]
  refine Finset.sum_congr rfl fun i hi => ?_
  have hi := Finset.mem_range.mp hi
  rw [← affine_bezier]
  congr 1
  refine bezier_congr (fun j hj => ?_) _
  rw [← affine_bezier]
  exact bezier_congr (fun k hk => hg i hi j (by omega) k (by omega)) _

/-- The hypotheses of `C99_superd` hold for all affine maps, with any points. -/
example (hn : 3 ≤ n) (f : ℝ) (V : P3 ℝ) (F E : ℕ → P3 ℝ) (φ : P3 ℝ →ᵃ[ℝ] P3 ℝ) : ∃ (S S' : SuperD ℝ) (calls calls' : List (Call ℝ)), Usable ε arc n calls S ∧ Usable ε arc n calls' S' ∧
    Points n S F E ∧ S.vertexControlPoint = V ∧ (∀ i < n, S'.faceControlPoint i = φ <$> S.faceControlPoint i) ∧ (∀ i < n, S'.edgeControlPoint i = φ <$> S.edgeControlPoint i) ∧
    S'.vertexControlPoint = φ S.vertexControlPoint ∧ S'.fullness = S.fullness := by
  obtain ⟨calls, S, h, hP, h1, h2⟩ := C51_complete (ε := ε) (arc := arc) hn f V F E
  obtain ⟨calls', S', h', hP', h1', h2'⟩ := C51_complete (ε := ε) (arc := arc) hn f (φ V) (fun i => φ (F i)) (fun i => φ (E i))
  refine ⟨S, S', calls, calls', h, h', hP, h2, fun i hi => ?_, fun i hi => ?_, ?_, h1'.trans h1.symm⟩
  · rw [(hP i hi).1, (hP' i hi).1]; rfl
  · rw [(hP i hi).2, (hP' i hi).2]; rfl
  · rw [h2]; exact h2'

end SuperD

/-! ### S-patches -/

namespace SPatch

variable {ε : ℝ} {arc arc' : List (P3 ℝ) → ℝ → ℝ → ℝ} {n d : ℕ} {calls calls' : List (Call ℝ)} {S S' : SPatch ℝ} {P P' : (ℕ → ℕ) → P3 ℝ}

theorem Usable.dom_eq (hn : 3 ≤ n) (h : Usable ε arc n d calls S) (h' : Usable ε arc' n d calls' S') : S'.dom.dom = S.dom.dom := by
  obtain ⟨_, i1, _, c1⟩ := h.state hn
  obtain ⟨_, i2, _, c2⟩ := h'.state hn
  obtain ⟨_, vs, a1, a2⟩ := i1.dom.resolve_left (by rw [c1.n_eq]; omega)
  obtain ⟨_, vs', b1, b2⟩ := i2.dom.resolve_left (by rw [c2.n_eq]; omega)
  rw [c1.n_eq] at a1
  rw [c2.n_eq, a1] at b1
  cases b1
  exact Except.ok.inj (b2.symm.trans a2)

/-- The values of two patches of the same size, in terms of the same weights. -/
theorem both_eq (hε1 : ε ≤ 1) (hn : 3 ≤ n) (hd : d ≤ 20) (h : Usable ε arc n d calls S) (h' : Usable ε arc' n d calls' S') (hP : Points n d S P) (hP' : Points n d S' P') (uv : P2 ℝ) :
    (∃ e, S.eval ε uv = .error e ∧ S'.eval ε uv = .error e) ∨ ∃ c T T', Param.barycentric ε .wachspress S.dom.dom uv = .ok (tab n c) ∧ ∑ i ∈ Finset.range n, c i = 1 ∧
      S.eval ε uv = .ok (∑ k ∈ labels n d, multiBern n c k • P k, T) ∧ S'.eval ε uv = .ok (∑ k ∈ labels n d, multiBern n c k • P' k, T') := by
  have hdom := Usable.dom_eq hn h h'
  obtain ⟨_, i1, _, c1⟩ := h.state hn
  obtain ⟨_, i2, _, c2⟩ := h'.state hn
  cases e : Param.barycentric ε .wachspress S.dom.dom uv with
  | error x =>
    refine Or.inl ⟨x, ?_, ?_⟩
    · have f := (i1.dom.resolve_left (by rw [c1.n_eq]; omega)).1
      have := f.bary_same uv
      rw [e] at this
      unfold eval
      rw [map_error this]
      rfl
    · have f := (i2.dom.resolve_left (by rw [c2.n_eq]; omega)).1
      have := f.bary_same uv
      rw [hdom, e] at this
      unfold eval
      rw [map_error this]
      rfl
  | ok l =>
    obtain ⟨c, rfl, hsum, _⟩ := C11_partition_precision hn c1.vertices_eq hε1 e
    obtain ⟨T, e1⟩ := eval_eq hn hd h hP e
    obtain ⟨T', e2⟩ := eval_eq hn hd h' hP' (uv := uv) (c := c) (by rw [hdom, e])
    exact Or.inr ⟨c, T, T', rfl, hsum, e1, e2⟩

/-- C99: the same for S-patches. -/
theorem C99_spatch (hε1 : ε ≤ 1) (hn : 3 ≤ n) (hd : d ≤ 20) (h : Usable ε arc n d calls S) (h' : Usable ε arc' n d calls' S') (φ : P3 ℝ →ᵃ[ℝ] P3 ℝ)
    (hP : ∀ k ∈ labels n d, ∃ p, S.controlPoint (tab n k) = .ok p ∧ S'.controlPoint (tab n k) = .ok (φ p)) (uv : P2 ℝ) :
    Prod.fst <$> S'.eval ε uv = φ <$> (Prod.fst <$> S.eval ε uv) := by
  have h1 : Points n d S fun k => value S.net (tab n k) := points_value n d S
  have h2 : Points n d S' fun k => φ (value S.net (tab n k)) := by
    intro k hk
    obtain ⟨p, q1, q2⟩ := hP k hk
    left
    rw [q2]
    have := h1 k hk
    rw [q1] at this
    have : p = value S.net (tab n k) := Except.ok.inj (this.resolve_right (by simp))
    rw [this]
  rcases both_eq hε1 hn hd h h' h1 h2 uv with ⟨e, e1, e2⟩ | ⟨c, T, T', _, hc, e1, e2⟩
  · rw [e1, e2]; rfl
  · rw [e1, e2, affine_sum φ _ _ _ (by rw [multiBern_sum, hc, one_pow])]
    rfl

/-- C99: control points that were not set do not move with the others. If the other points are translated, the points of the patch move only by a part of the translation. -/
theorem C99_missing (hε1 : ε ≤ 1) (hn : 3 ≤ n) (hd : d ≤ 20) (h : Usable ε arc n d calls S) (h' : Usable ε arc' n d calls' S') (t : P3 ℝ) {missing : Finset (ℕ → ℕ)} (hm : missing ⊆ labels n d)
    (hP : ∀ k ∈ labels n d, k ∉ missing → ∃ p, S.controlPoint (tab n k) = .ok p ∧ S'.controlPoint (tab n k) = .ok (p + t))
    (hP0 : ∀ k ∈ missing, S.controlPoint (tab n k) = .error .exception ∧ S'.controlPoint (tab n k) = .error .exception) {uv : P2 ℝ} {p : P3 ℝ} {T : SPatch ℝ}
    (e : S.eval ε uv = .ok (p, T)) : ∃ c T', Param.barycentric ε .wachspress S.dom.dom uv = .ok (tab n c) ∧
      S'.eval ε uv = .ok (p + (1 - ∑ k ∈ missing, multiBern n c k) • t, T') := by
  classical
  have h1 : Points n d S fun k => value S.net (tab n k) := points_value n d S
  have h2 : Points n d S' fun k => value S.net (tab n k) + if k ∈ missing then 0 else t := by
    intro k hk
    by_cases q : k ∈ missing
    · right
      refine ⟨(hP0 k q).2, ?_⟩
      have := h1 k hk
      rw [(hP0 k q).1] at this
      beta_reduce
      rw [if_pos q, add_zero]
      exact (this.resolve_left (by simp)).2
    · left
      obtain ⟨p, q1, q2⟩ := hP k hk q
      beta_reduce
      rw [q2, if_neg q]
      have := h1 k hk
      rw [q1] at this
      have : p = value S.net (tab n k) := Except.ok.inj (this.resolve_right (by simp))
      rw [this]
  rcases both_eq hε1 hn hd h h' h1 h2 uv with ⟨x, e1, _⟩ | ⟨c, T1, T', b, hc, e1, e2⟩
  · rw [e] at e1; cases e1
  · rw [e] at e1
    have e1 := congrArg Prod.fst (Except.ok.inj e1)
    dsimp only at e1
    refine ⟨c, T', b, ?_⟩
    rw [e2, e1]
    congr 2
    simp only [smul_add, Finset.sum_add_distrib]
    congr 1
    have s1 : ∑ k ∈ labels n d, multiBern n c k = 1 := by rw [multiBern_sum, hc, one_pow]
    rw [← s1, ← Finset.sum_sdiff (f := multiBern n c) hm, add_sub_cancel_right, Finset.sum_smul, ← Finset.sum_sdiff hm, Finset.sum_eq_zero (s := missing) fun k hk => by rw [if_pos hk, smul_zero], add_zero]
    exact Finset.sum_congr rfl fun k hk => by rw [if_neg (Finset.mem_sdiff.mp hk).2]

/-- The hypotheses of `C99_spatch` hold for all affine maps, with any points. -/
example (hn : 3 ≤ n) (P : (ℕ → ℕ) → P3 ℝ) (φ : P3 ℝ →ᵃ[ℝ] P3 ℝ) : ∃ (S S' : SPatch ℝ) (calls calls' : List (Call ℝ)), Usable ε arc n d calls S ∧ Usable ε arc n d calls' S' ∧
    ∀ k ∈ labels n d, ∃ p, S.controlPoint (tab n k) = .ok p ∧ S'.controlPoint (tab n k) = .ok (φ p) := by
  obtain ⟨calls, S, h, hP⟩ := C50_complete (ε := ε) (arc := arc) hn d P
  obtain ⟨calls', S', h', hP'⟩ := C50_complete (ε := ε) (arc := arc) hn d fun k => φ (P k)
  exact ⟨S, S', calls, calls', h, h', fun k hk => ⟨P k, hP k hk, hP' k hk⟩⟩

theorem run_sets_others (S : SPatch ℝ) (P : (ℕ → ℕ) → P3 ℝ) (ks : List (ℕ → ℕ)) (hks : ∀ k ∈ ks, k ∈ labels n d) {S' : SPatch ℝ} (e : S.run ε arc (ks.map fun k => .set (tab n k) (P k)) = .ok S')
    {k : ℕ → ℕ} (hk : k ∈ labels n d) (hk' : k ∉ ks) : S'.controlPoint (tab n k) = S.controlPoint (tab n k) := by
  induction ks generalizing S with
  | nil => cases e; rfl
  | cons x ks ih =>
    rw [List.map_cons] at e
    unfold run step at e
    rw [M_bind_ok] at e
    rw [ih _ (fun k hk => hks k (List.mem_cons_of_mem _ hk)) e fun q => hk' (List.mem_cons_of_mem _ q)]
    exact (C50_control S (tab n x) (tab n k) (P x) 0 0).2.1 fun w => hk' (by rw [labels_inj hk (hks x List.mem_cons_self) w]; exact List.mem_cons_self)

/-- The hypotheses of `C99_missing` hold when any points inside are missing. -/
theorem missing_usable (ε : ℝ) (arc : List (P3 ℝ) → ℝ → ℝ → ℝ) (hn : 3 ≤ n) (P : (ℕ → ℕ) → P3 ℝ) {missing : Finset (ℕ → ℕ)} (hm : missing ⊆ labels n d)
    (hi : ∀ k ∈ missing, ∀ i < n, ∀ j ≤ d, tab n k ≠ tab n (sideLabel d i ((i + 1) % n) j)) : ∃ calls S, Usable ε arc n d calls S ∧
      (∀ k ∈ labels n d, k ∉ missing → S.controlPoint (tab n k) = .ok (P k)) ∧ ∀ k ∈ missing, S.controlPoint (tab n k) = .error .exception := by
  classical
  have hks : ∀ k ∈ (labels n d \ missing).toList, k ∈ labels n d := fun k hk => (Finset.mem_sdiff.mp (Finset.mem_toList.mp hk)).1
  obtain ⟨S1, e1, h1, h2⟩ := run_sets (ε := ε) (arc := arc) ((SPatch.new 0).initNetwork n d) P (labels n d \ missing).toList hks
  obtain ⟨S, e, _, _, _, hp⟩ := C50_setupLoop (arc := arc) hn S1 h1
  have hdep : S1.depth = d := by
    have : ∀ (ks : List (ℕ → ℕ)) (S : SPatch ℝ), S.run ε arc (ks.map fun k => .set (tab n k) (P k)) = .ok S1 → S1.depth = S.depth := by
      intro ks
      induction ks with
      | nil => intro S e; cases e; rfl
      | cons x ks ih =>
        intro S e
        rw [List.map_cons] at e
        unfold run step at e
        rw [M_bind_ok] at e
        have := ih _ e
        exact this
    exact this _ _ e1
  refine ⟨[] ++ .init n d :: (((labels n d \ missing).toList.map fun k => .set (tab n k) (P k)) ++ [.loop]), S, ⟨0, [], _, rfl, ?_, ?_, by simp⟩, fun k hk hk' => ?_, fun k hk => ?_⟩
  · rw [List.nil_append]
    unfold run step
    rw [M_bind_ok]
    refine run_join e1 ?_
    unfold run step
    rw [e]
    rfl
  · intro c hc
    rcases List.mem_append.mp hc with q | q
    · obtain ⟨k, hk, rfl⟩ := List.mem_map.mp q
      exact labels_label (hks k hk)
    · rw [List.mem_singleton.mp q]; trivial
  · have hk1 := h2 k hk (Or.inl (Finset.mem_toList.mpr (Finset.mem_sdiff.mpr ⟨hk, hk'⟩)))
    rcases hp (tab n k) with q | ⟨q, _⟩
    · rw [q, hk1]
    · rw [hk1] at q; cases q
  · have hk1 := run_sets_others _ P _ hks e1 (hm hk) fun q => (Finset.mem_sdiff.mp (Finset.mem_toList.mp q)).2 hk
    rcases hp (tab n k) with q | ⟨_, _, i, hi', j, hj, q⟩
    · rw [q, hk1]; rfl
    · rw [hdep] at hj q
      exact absurd q (hi k hk i hi' j hj)

/-- A patch with three sides and depth 3: when the point in the middle is missing, and the other points are translated, then the centre of the triangle (in fact, any point where the
coordinates are `1 / 3`) moves only by 7/9 of the translation. -/
example (ε : ℝ) (hε1 : ε ≤ 1) (arc : List (P3 ℝ) → ℝ → ℝ → ℝ) (P : (ℕ → ℕ) → P3 ℝ) (t : P3 ℝ) : ∃ S S' : SPatch ℝ, (∀ k ∈ labels 3 3, tab 3 k ≠ [1, 1, 1] →
      S.controlPoint (tab 3 k) = .ok (P k) ∧ S'.controlPoint (tab 3 k) = .ok (P k + t)) ∧
    ∀ (uv : P2 ℝ) (p : P3 ℝ) (T : SPatch ℝ), Param.barycentric ε .wachspress S.dom.dom uv = .ok [1 / 3, 1 / 3, 1 / 3] → S.eval ε uv = .ok (p, T) →
      ∃ T', S'.eval ε uv = .ok (p + (7 / 9 : ℝ) • t, T') := by
  have hl : (fun i => if i < 3 then 1 else 0) ∈ labels 3 3 := by
    unfold labels
    rw [Finset.mem_piAntidiag]
    refine ⟨by decide, fun i hi => ?_⟩
    rw [Finset.mem_range]
    by_contra q
    exact hi (if_neg q)
  have ht : tab 3 (fun i => if i < 3 then 1 else 0) = [1, 1, 1] := by decide
  have hm : ({fun i => if i < 3 then 1 else 0} : Finset (ℕ → ℕ)) ⊆ labels 3 3 := Finset.singleton_subset_iff.mpr hl
  have hi : ∀ k ∈ ({fun i => if i < 3 then 1 else 0} : Finset (ℕ → ℕ)), ∀ i < 3, ∀ j ≤ 3, tab 3 k ≠ tab 3 (sideLabel 3 i ((i + 1) % 3) j) := by
    intro k hk i hi j hj
    rw [Finset.mem_singleton.mp hk, ht]
    interval_cases i <;> interval_cases j <;> decide
  obtain ⟨calls, S, h, h1, h2⟩ := missing_usable ε arc le_rfl P hm hi
  obtain ⟨calls', S', h', h1', h2'⟩ := missing_usable ε arc le_rfl (fun k => P k + t) hm hi
  have hne : ∀ k, tab 3 k ≠ [1, 1, 1] → k ∉ ({fun i => if i < 3 then 1 else 0} : Finset (ℕ → ℕ)) := fun k hk q => hk (by rw [Finset.mem_singleton.mp q, ht])
  refine ⟨S, S', fun k hk hk' => ⟨h1 k hk (hne k hk'), h1' k hk (hne k hk')⟩, fun uv p T hb e => ?_⟩
  obtain ⟨c, T', b1, b2⟩ := C99_missing hε1 le_rfl (by norm_num) h h' t hm (fun k hk hk' => ⟨P k, h1 k hk hk', h1' k hk hk'⟩) (fun k hk => ⟨h2 k hk, h2' k hk⟩) e
  rw [hb] at b1
  have hc : ∀ i < 3, c i = 1 / 3 := by
    have b3 : tab 3 (fun _ => (1 / 3 : ℝ)) = tab 3 c := Except.ok.inj b1
    exact fun i hi => (tab_inj b3 hi).symm
  refine ⟨T', ?_⟩
  rw [b2, Finset.sum_singleton]
  unfold multiBern
  simp only [Finset.sum_range_succ, Finset.prod_range_succ, Finset.sum_range_zero, Finset.prod_range_zero, hc 0 (by norm_num), hc 1 (by norm_num), hc 2 (by norm_num)]
  norm_num [Nat.factorial]

end SPatch

end Transfinite
