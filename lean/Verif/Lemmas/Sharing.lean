import Verif.Spec.Copies
import Verif.Lemmas.GenBezierState

/-! Surfaces with shared domains and surfaces with their own. -/

namespace Transfinite

open Spec

variable {K : Type} [Field K] [LinearOrder K] [Libm K]

theorem Param.Fresh.same {ε : K} {k : Param.Kind K} {d : Domain K} {o o' : Param.Obj K} (h : Param.Fresh ε k d o) (h' : Param.Fresh ε k d o') (uv : P2 K) :
    Prod.fst <$> Param.mapToRibbons ε k uv o = Prod.fst <$> Param.mapToRibbons ε k uv o' := by
  obtain ⟨o0, cs, e1, hcs, e2⟩ := h
  obtain ⟨o0', cs', e1', hcs', e2'⟩ := h'
  obtain ⟨fr, h1, _, _, _, _, h3, _⟩ := C19_transparent e1 e2
  obtain ⟨fr', h1', _, _, _, _, h3', _⟩ := C19_transparent e1' e2'
  rw [Patch.lastDomain_queries hcs] at h1
  rw [Patch.lastDomain_queries hcs', h1] at h1'
  cases h1'
  rw [(h3 uv).1, (h3' uv).1]

/-- Two computations with the same result (or fault), up to the relation `R`. -/
def Both {α β : Type} (R : α → β → Prop) : M α → M β → Prop
  | .ok a, .ok b => R a b
  | .error e, .error e' => e = e'
  | _, _ => False

theorem Both.bind {α β α' β' : Type} {R : α → β → Prop} {R' : α' → β' → Prop} {a : M α} {b : M β} {f : α → M α'} {g : β → M β'} (h : Both R a b)
    (hf : ∀ x y, a = .ok x → b = .ok y → R x y → Both R' (f x) (g y)) : Both R' (a >>= f) (b >>= g) := by
  cases a <;> cases b <;> simp only [Both] at h
  · subst h; exact rfl
  · exact hf _ _ rfl rfl h

theorem Both.refl {α : Type} {R : α → α → Prop} (h : ∀ x, R x x) (a : M α) : Both R a a := by
  cases a
  · exact rfl
  · exact h _

theorem Both.eq {α : Type} (a : M α) : Both (fun x y => x = y) a a := Both.refl (fun _ => rfl) a

theorem Both.mono {α β : Type} {R R' : α → β → Prop} (hR : ∀ x y, R x y → R' x y) {a : M α} {b : M β} (h : Both R a b) : Both R' a b := by
  cases a <;> cases b <;> simp only [Both] at h ⊢
  · exact h
  · exact hR _ _ h

theorem Both.fst {α β γ : Type} {a : M (α × β)} {b : M (α × γ)} (h : Prod.fst <$> a = Prod.fst <$> b) : Both (fun x y => x.1 = y.1) a b := by
  cases a <;> cases b
  · exact Except.error.inj h
  · cases h
  · cases h
  · exact Except.ok.inj h

theorem Both.to_fst {α β γ : Type} {R : α × β → α × γ → Prop} (hR : ∀ x y, R x y → x.1 = y.1) {a : M (α × β)} {b : M (α × γ)} (h : Both R a b) :
    Prod.fst <$> a = Prod.fst <$> b := by
  cases a <;> cases b <;> simp only [Both] at h
  · rw [h]; rfl
  · exact congrArg Except.ok (hR _ _ h)

namespace GB

/-- The same surface, with maybe different caches. -/
structure Like (ε : K) (G V : GB K) : Prop where
  same : V = { G with param := V.param }
  inv : Inv ε G
  inv' : Inv ε V
  fresh : G.dom.dom.n = 0 → V = G

theorem Like.refl {ε : K} {G : GB K} (h : Inv ε G) : Like ε G G := ⟨rfl, h, h, fun _ => rfl⟩

theorem Like.maps {ε : K} {G V : GB K} (h : Like ε G V) (uv : P2 K) :
    Prod.fst <$> Param.mapToRibbons ε G.kind.param uv G.param = Prod.fst <$> Param.mapToRibbons ε V.kind.param uv V.param := by
  by_cases h0 : G.dom.dom.n = 0
  · rw [h.fresh h0]
  · have e1 : V.kind = G.kind := by rw [h.same]
    have e2 : V.dom = G.dom := by rw [h.same]
    have k1 := h.inv.param.resolve_left h0
    have k2 := h.inv'.param.resolve_left (by rw [e2]; exact h0)
    rw [e1, e2] at k2
    rw [e1]
    exact k1.same k2 uv

/-- Evaluation does not depend on the caches. -/
theorem evalWith_param (ε : K) (G : GB K) (o : Param.Obj K) (sds : List (P2 K)) : ({ G with param := o } : GB K).evalWith ε sds = G.evalWith ε sds := rfl

theorem Like.setParam {ε : K} {G V : GB K} (h : Like ε G V) {o o' : Param.Obj K} {uv : P2 K} {r r' : List (P2 K)}
    (e : Param.mapToRibbons ε G.kind.param uv G.param = .ok (r, o)) (e' : Param.mapToRibbons ε V.kind.param uv V.param = .ok (r', o')) :
    Like ε { G with param := o } { V with param := o' } := by
  refine ⟨?_, ⟨h.inv.param.imp id fun q => q.maps e, h.inv.regular, h.inv.len⟩, ⟨h.inv'.param.imp id fun q => q.maps e', h.inv'.regular, h.inv'.len⟩, fun q => ?_⟩
  · have := h.same
    dsimp only
    conv_lhs => rw [this]
  · have e0 := h.fresh q
    rw [e0, e] at e'
    cases e'
    rw [e0]

theorem Like.eval {ε : K} {G V : GB K} (h : Like ε G V) (uv : P2 K) :
    Both (fun x y => x.1 = y.1 ∧ Like ε x.2 y.2 ∧ x.2.dom = G.dom) (G.eval ε uv) (V.eval ε uv) := by
  unfold GB.eval
  refine (Both.fst (h.maps uv)).bind fun x y hx hy hxy => ?_
  have e : V.evalWith ε y.1 = G.evalWith ε x.1 := by
    rw [h.same, hxy]
    rfl
  rw [e]
  refine (Both.eq _).bind fun p q hp hq hpq => ?_
  exact ⟨hpq, h.setParam (r := x.1) hx (r' := y.1) hy, rfl⟩

theorem Like.weight {ε : K} {G V : GB K} (h : Like ε G V) (i j k : ℕ) (uv : P2 K) :
    Both (fun x y => x.1 = y.1 ∧ Like ε x.2 y.2 ∧ x.2.dom = G.dom) (G.weight ε i j k uv) (V.weight ε i j k uv) := by
  obtain ⟨o, rfl⟩ : ∃ o, V = { G with param := o } := ⟨_, h.same⟩
  have hm := h.maps uv
  obtain ⟨kind, n, g, l, c, nets, sq, dom, param, curves⟩ := G
  cases kind with
  | side =>
    unfold GB.weight
    dsimp only at hm ⊢
    split_ifs
    · exact ⟨rfl, h, rfl⟩
    · refine (Both.fst hm).bind fun x y hx hy hxy => ?_
      rw [← hxy]
      refine (Both.eq _).bind fun p q hp hq hpq => ?_
      exact ⟨hpq, h.setParam (r := x.1) hx (r' := y.1) hy, rfl⟩
  | corner fmod =>
    unfold GB.weight
    dsimp only at hm ⊢
    refine (Both.fst hm).bind fun x y hx hy hxy => ?_
    rw [← hxy]
    refine (Both.eq _).bind fun p q hp hq hpq => ?_
    exact ⟨hpq, h.setParam (r := x.1) hx (r' := y.1) hy, rfl⟩

theorem Like.sameSurface {ε : K} {G V : GB K} (h : Like ε G V) : SameSurface ε G V where
  degree := by rw [h.same]
  layers := by rw [h.same]
  central := by rw [h.same]
  controlPoint i j k := by rw [h.same]; rfl
  curves := by rw [h.same]
  domain := by rw [h.same]
  eval uv := (h.eval uv).to_fst fun _ _ q => q.1
  weight i j k uv := (h.weight i j k uv).to_fst fun _ _ q => q.1

/-- A change of other members. -/
theorem Like.change {ε : K} {G V : GB K} (h : Like ε G V) (f : GB K → GB K) (hf : ∀ (G : GB K) o, f { G with param := o } = { f G with param := o })
    (h1 : ∀ G : GB K, (f G).kind = G.kind) (h2 : ∀ G : GB K, (f G).dom = G.dom) (h3 : ∀ G : GB K, (f G).param = G.param) : Like ε (f G) (f V) := by
  refine ⟨?_, h.inv.congr (h1 G) (by rw [h2]) (h3 G), h.inv'.congr (h1 V) (by rw [h2]) (h3 V), fun q => ?_⟩
  · rw [h3]
    conv_lhs => rw [h.same, hf]
  · rw [h2] at q
    rw [h.fresh q]

theorem Like.nets {ε : K} {G V : GB K} (h : Like ε G V) (nets : List (List (List (P3 K)))) : Like ε { G with nets := nets } { V with nets := nets } :=
  h.change (fun G => { G with nets := nets }) (fun _ _ => rfl) (fun _ => rfl) (fun _ => rfl) fun _ => rfl

theorem Like.setControlPoint {ε : K} {G V : GB K} (h : Like ε G V) (i j k : ℕ) (p : P3 K) :
    Both (fun x y => Like ε x y ∧ x.dom = G.dom) (G.setControlPoint i j k p) (V.setControlPoint i j k p) := by
  obtain ⟨o, rfl⟩ : ∃ o, V = { G with param := o } := ⟨_, h.same⟩
  unfold GB.setControlPoint
  dsimp only
  refine (Both.eq _).bind fun x y _ _ q => ?_
  subst q
  split_ifs
  · refine (Both.eq _).bind fun x y _ _ q => ?_
    subst q
    exact ⟨h.nets _, rfl⟩
  · refine (Both.eq _).bind fun x y _ _ q => ?_
    subst q
    exact ⟨h.nets _, rfl⟩
  · exact ⟨h.nets _, rfl⟩

theorem Like.setIndividual {ε : K} {G V : GB K} (h : Like ε G V) (i j k : ℕ) (p : P3 K) :
    Both (fun x y => Like ε x y ∧ x.dom = G.dom) (G.setIndividualControlPoint i j k p) (V.setIndividualControlPoint i j k p) := by
  obtain ⟨o, rfl⟩ : ∃ o, V = { G with param := o } := ⟨_, h.same⟩
  unfold GB.setIndividualControlPoint
  dsimp only
  refine (Both.eq _).bind fun x y _ _ q => ?_
  subst q
  exact ⟨h.nets _, rfl⟩

theorem Like.init {ε : K} {G V : GB K} (h : Like ε G V) (n d : ℕ) :
    Both (fun x y => Like ε x y ∧ x.dom = G.dom) (G.initNetwork n d) (V.initNetwork n d) := by
  have e1 : V.kind = G.kind := by rw [h.same]
  have hb : Like ε (G.initBase n d) (V.initBase n d) ∧ (G.initBase n d).dom = G.dom := by
    have key : ∀ G : GB K, (G.initBase n d).kind = G.kind ∧ (G.initBase n d).dom = G.dom ∧ (G.initBase n d).param = G.param := by
      intro G
      unfold initBase
      split_ifs <;> exact ⟨rfl, rfl, rfl⟩
    refine ⟨h.change (fun G => G.initBase n d) (fun G o => ?_) (fun G => (key G).1) (fun G => (key G).2.1) (fun G => (key G).2.2), (key G).2.1⟩
    unfold initBase
    dsimp only
    split_ifs <;> rfl
  unfold initNetwork
  rw [e1]
  cases G.kind with
  | side => exact hb
  | corner f =>
    dsimp only
    split_ifs
    · exact hb
    · exact rfl

theorem Like.loop {ε : K} {arc : List (P3 K) → K → K → K} {G V : GB K} (h : Like ε G V) (hn : G.dom.dom.n = 0 ∨ G.dom.dom.n = G.n) :
    Both (fun x y => Like ε x y ∧ (G.dom.dom.n ≠ 0 → x.dom = G.dom)) (G.setupLoop arc) (V.setupLoop arc) := by
  by_cases h0 : G.dom.dom.n = 0
  · rw [h.fresh h0]
    cases e : G.setupLoop arc with
    | error _ => exact rfl
    | ok G' => exact ⟨Like.refl (setupLoop_inv e h.inv).1, fun q => absurd h0 q⟩
  · have hn := hn.resolve_left h0
    have hV : V.setupLoop arc = (do
        let curves ← forLoop G.n (fun i (l : List (Curve K)) => do
          let cpts ← G.boundary i
          .ok (l ++ [bezierCurve arc cpts])) []
        let cs ← orientLoop curves
        updateDomain { G with n := curves.length, curves := cs, param := V.param }) := by
      rw [h.same]
      rfl
    rw [hV]
    unfold setupLoop
    refine (Both.eq _).bind fun curves c' e1 _ q => ?_
    subst q
    refine (Both.eq _).bind fun cs c' e2 _ q => ?_
    subst q
    have el := pushLoop_length e1
    have el2 : cs.length = G.n := by
      obtain ⟨cs', e, hl, _⟩ := C27_total curves
      rw [e2] at e
      cases e
      rw [hl, el]
    rw [el]
    have hl : Like ε { G with curves := cs } { V with curves := cs } :=
      h.change (fun G => { G with curves := cs }) (fun _ _ => rfl) (fun _ => rfl) (fun _ => rfl) fun _ => rfl
    have hVs : ({ G with curves := cs, param := V.param } : GB K) = { V with curves := cs } := by
      conv_rhs => rw [h.same]
    unfold updateDomain
    cases hk : G.kind with
    | side =>
      dsimp only
      unfold Domain.regularUpdate
      rw [if_pos (by rw [hn, el2])]
      simp only [M_bind_ok, if_neg (show ¬ (false = true) by simp)]
      rw [hVs.symm] at hl
      simp only [hk] at hl
      exact ⟨hl, fun _ => rfl⟩
    | corner f =>
      dsimp only
      have hd : ({ G.dom.dom with n := cs.length, vertices := G.dom.dom.vertices.take cs.length ++ List.replicate (cs.length - G.dom.dom.vertices.length) 0 } : Domain K)
          = G.dom.dom := by
        have h1 := h.inv.len
        rw [el2, ← hn, h1, Nat.sub_self, ← h1, List.take_length]
        simp [h1]
      rw [hd]
      refine (Both.eq _).bind fun o o' e3 _ q => ?_
      subst q
      have hf : Param.Fresh ε (GBKind.corner f : GBKind K).param G.dom.dom o := Param.Fresh.new e3
      refine ⟨⟨rfl, ⟨Or.inr hf, fun q => ?_, h.inv.len⟩, ⟨Or.inr hf, fun q => ?_, h.inv.len⟩, fun q => ?_⟩, fun _ => rfl⟩
      · cases q
      · cases q
      · rfl

/-- One call on both. -/
theorem Like.step {ε : K} {arc : List (P3 K) → K → K → K} {G V : GB K} (h : Like ε G V) (c : Call K) (hc : c = .loop → G.dom.dom.n = 0 ∨ G.dom.dom.n = G.n) :
    Both (fun x y => Like ε x y ∧ (G.dom.dom.n ≠ 0 → x.dom = G.dom) ∧ x.kind = G.kind) (G.step ε arc c) (V.step ε arc c) := by
  have key : Both (fun x y => Like ε x y ∧ (G.dom.dom.n ≠ 0 → x.dom = G.dom)) (G.step ε arc c) (V.step ε arc c) := by
    cases c with
    | init n d => exact (h.init n d).mono fun _ _ q => ⟨q.1, fun _ => q.2⟩
    | set i j k p => exact (h.setControlPoint i j k p).mono fun _ _ q => ⟨q.1, fun _ => q.2⟩
    | setIndividual i j k p => exact (h.setIndividual i j k p).mono fun _ _ q => ⟨q.1, fun _ => q.2⟩
    | central p => exact ⟨h.change (fun G => G.setCentral p) (fun _ _ => rfl) (fun _ => rfl) (fun _ => rfl) fun _ => rfl, fun _ => rfl⟩
    | squared b => exact ⟨h.change (fun G => G.setSquared b) (fun _ _ => rfl) (fun _ => rfl) (fun _ => rfl) fun _ => rfl, fun _ => rfl⟩
    | curves cs => exact ⟨h.change (fun G => G.setCurves cs) (fun _ _ => rfl) (fun _ => rfl) (fun _ => rfl) fun _ => rfl, fun _ => rfl⟩
    | loop => exact h.loop (hc rfl)
    | eval uv => exact (h.eval uv).bind fun x y _ _ q => ⟨q.2.1, fun _ => q.2.2⟩
    | weight i j k uv => exact (h.weight i j k uv).bind fun x y _ _ q => ⟨q.2.1, fun _ => q.2.2⟩
  cases e1 : G.step ε arc c with
  | error x =>
    rw [e1] at key
    cases e2 : V.step ε arc c with
    | error y => rw [e2] at key; exact key
    | ok y => rw [e2] at key; exact key.elim
  | ok x =>
    rw [e1] at key
    cases e2 : V.step ε arc c with
    | error y => rw [e2] at key; exact key.elim
    | ok y =>
      rw [e2] at key
      exact ⟨key.1, key.2, (step_inv h.inv e1).2.1⟩

end GB

/-- The relation between the two ways. -/
structure Sim (ε : K) (W : World K) (V : List (GB K)) : Prop where
  len : V.length = W.objs.length
  like : ∀ (k : ℕ) (o : GB K × ℕ), W.objs[k]? = some o → ∃ (c : Cell K) (v : GB K), W.cells[o.2]? = some c ∧ V[k]? = some v ∧ GB.Like ε (o.1.withCell c) v
  sole : ∀ (j k : ℕ) (o o' : GB K × ℕ) (c : Cell K), W.objs[j]? = some o → W.objs[k]? = some o' → o.2 = o'.2 → j ≠ k → W.cells[o.2]? = some c →
    c.dom.dom.n ≠ 0 ∧ o.1.kind = o'.1.kind

theorem vget_some {α : Type} {l : List α} {i : ℕ} {a : α} (h : l[i]? = some a) : vget l i = .ok a := by
  unfold vget
  rw [h]

theorem vget_none {α : Type} {l : List α} {i : ℕ} (h : l[i]? = none) : vget l i = .error .oob := by
  unfold vget
  rw [h]

theorem Sim.step {ε : K} {arc : List (P3 K) → K → K → K} {W : World K} {V : List (GB K)} (h : Sim ε W V) {op : Op K} (ht : Tame W op) :
    Both (Sim ε) (W.step ε arc op) (deepStep ε arc V op) := by
  have hview : ∀ (k : ℕ) (o : GB K × ℕ) (c : Cell K), W.objs[k]? = some o → W.cells[o.2]? = some c → W.view k = .ok (o.1.withCell c) := by
    intro k o c h1 h2
    unfold World.view
    rw [vget_some h1, M_bind_ok, vget_some h2]
    rfl
  have hnone : ∀ k : ℕ, W.objs[k]? = none → V[k]? = none := by
    intro k hk
    rw [List.getElem?_eq_none_iff] at hk ⊢
    rw [h.len]; exact hk
  cases op with
  | new kind g l =>
    refine ⟨by simp [h.len], fun k o ho => ?_, fun j k o o' c h1 h2 h3 h4 h5 => ?_⟩
    · rw [List.getElem?_append] at ho
      split_ifs at ho with hk
      · obtain ⟨c, v, e1, e2, e3⟩ := h.like k o ho
        have b1 := (List.getElem?_eq_some_iff.mp e1).1
        have b2 := (List.getElem?_eq_some_iff.mp e2).1
        exact ⟨c, v, by rw [List.getElem?_append_left b1]; exact e1, by rw [List.getElem?_append_left b2]; exact e2, e3⟩
      · have hk' : k = W.objs.length := by
          by_contra q
          rw [List.getElem?_eq_none_iff.mpr (by simp only [List.length_singleton]; omega)] at ho
          cases ho
        subst hk'
        simp only [Nat.sub_self, List.getElem?_cons_zero, Option.some.injEq] at ho
        subst ho
        refine ⟨_, _, List.getElem?_concat_length, ?_, GB.Like.refl (GB.new_inv ε kind g l)⟩
        rw [← h.len]
        exact List.getElem?_concat_length
    · have old : ∀ (k : ℕ) (o : GB K × ℕ), (W.objs ++ [(GB.new kind g l, W.cells.length)])[k]? = some o → (W.objs[k]? = some o ∧ o.2 < W.cells.length) ∨ (k = W.objs.length ∧ o.2 = W.cells.length) := by
        intro k o ho
        rw [List.getElem?_append] at ho
        split_ifs at ho with hk
        · obtain ⟨c, v, e1, _⟩ := h.like k o ho
          exact Or.inl ⟨ho, (List.getElem?_eq_some_iff.mp e1).1⟩
        · have hk' : k = W.objs.length := by
            by_contra q
            rw [List.getElem?_eq_none_iff.mpr (by simp only [List.length_singleton]; omega)] at ho
            cases ho
          subst hk'
          simp only [Nat.sub_self, List.getElem?_cons_zero, Option.some.injEq] at ho
          subst ho
          exact Or.inr ⟨rfl, rfl⟩
      rcases old j o h1 with ⟨a1, a2⟩ | ⟨a1, a2⟩ <;> rcases old k o' h2 with ⟨b1, b2⟩ | ⟨b1, b2⟩
      · dsimp only at h5
        rw [List.getElem?_append_left a2] at h5
        exact h.sole j k o o' c a1 b1 h3 h4 h5
      · omega
      · omega
      · omega
  | copy k =>
    unfold World.step deepStep
    dsimp only
    cases hk : W.objs[k]? with
    | none =>
      rw [vget_none hk, vget_none (hnone k hk)]
      exact rfl
    | some o =>
      obtain ⟨c, v, e1, e2, e3⟩ := h.like k o hk
      rw [vget_some hk, vget_some e2]
      have hn : c.dom.dom.n ≠ 0 := ht _ (hview k o c hk e1)
      have old : ∀ (i : ℕ) (o' : GB K × ℕ), (W.objs ++ [o])[i]? = some o' → W.objs[i]? = some o' ∨ i = W.objs.length ∧ o' = o := by
        intro i o' ho
        rw [List.getElem?_append] at ho
        split_ifs at ho with q
        · exact Or.inl ho
        · have : i = W.objs.length := by
            by_contra q
            rw [List.getElem?_eq_none_iff.mpr (by simp only [List.length_singleton]; omega)] at ho
            cases ho
          subst this
          simp only [Nat.sub_self, List.getElem?_cons_zero, Option.some.injEq] at ho
          exact Or.inr ⟨rfl, ho.symm⟩
      refine ⟨by simp [h.len], fun i o' ho => ?_, fun i j o1 o2 c' h1 h2 h3 h4 h5 => ?_⟩
      · rcases old i o' ho with q | ⟨rfl, rfl⟩
        · obtain ⟨c', v', f1, f2, f3⟩ := h.like i o' q
          exact ⟨c', v', f1, by rw [List.getElem?_append_left (List.getElem?_eq_some_iff.mp f2).1]; exact f2, f3⟩
        · refine ⟨c, v, e1, ?_, e3⟩
          rw [← h.len]
          exact List.getElem?_concat_length
      · have same : ∀ (i : ℕ) (o1 : GB K × ℕ), W.objs[i]? = some o1 → o1.2 = o.2 → o1.1.kind = o.1.kind := by
          intro i o1 q1 q2
          by_cases hik : i = k
          · rw [hik, hk] at q1; cases q1; rfl
          · exact (h.sole i k o1 o c q1 hk q2 hik (by rw [q2]; exact e1)).2
        rcases old i o1 h1 with q1 | ⟨rfl, rfl⟩ <;> rcases old j o2 h2 with q2 | ⟨rfl, rfl⟩
        · exact h.sole i j o1 o2 c' q1 q2 h3 h4 h5
        · have h5 : W.cells[o1.2]? = some c' := h5
          rw [h3, e1] at h5
          cases h5
          exact ⟨hn, same i o1 q1 h3⟩
        · have h5 : W.cells[o1.2]? = some c' := h5
          rw [e1] at h5
          cases h5
          exact ⟨hn, (same j o2 q2 h3.symm).symm⟩
        · exact absurd rfl h4
  | assign k l =>
    unfold World.step deepStep
    dsimp only
    cases hl : W.objs[l]? with
    | none =>
      rw [vget_none hl, vget_none (hnone l hl)]
      exact rfl
    | some o =>
      obtain ⟨c, v, e1, e2, e3⟩ := h.like l o hl
      rw [vget_some hl, vget_some e2]
      simp only [M_bind_ok]
      have hn : c.dom.dom.n ≠ 0 := ht _ (hview l o c hl e1)
      unfold vset
      rw [h.len]
      by_cases hk : k < W.objs.length
      · rw [if_pos hk, if_pos hk]
        have old : ∀ (i : ℕ) (o' : GB K × ℕ), (W.objs.set k o)[i]? = some o' → i ≠ k ∧ W.objs[i]? = some o' ∨ i = k ∧ o' = o := by
          intro i o' ho
          rw [List.getElem?_set] at ho
          split_ifs at ho with q1 q2
          · exact Or.inr ⟨q1.symm, (Option.some.inj ho).symm⟩
          · exact Or.inl ⟨fun q => q1 q.symm, ho⟩
        refine ⟨by simp [h.len], fun i o' ho => ?_, fun i j o1 o2 c' h1 h2 h3 h4 h5 => ?_⟩
        · rcases old i o' ho with ⟨q0, q⟩ | ⟨rfl, rfl⟩
          · obtain ⟨c', v', f1, f2, f3⟩ := h.like i o' q
            exact ⟨c', v', f1, by rw [List.getElem?_set_ne (Ne.symm q0)]; exact f2, f3⟩
          · exact ⟨c, v, e1, by rw [List.getElem?_set_self (by rw [h.len]; exact hk)], e3⟩
        · have same : ∀ (i : ℕ) (o1 : GB K × ℕ), W.objs[i]? = some o1 → o1.2 = o.2 → o1.1.kind = o.1.kind := by
            intro i o1 q1 q2
            by_cases hik : i = l
            · rw [hik, hl] at q1; cases q1; rfl
            · exact (h.sole i l o1 o c q1 hl q2 hik (by rw [q2]; exact e1)).2
          rcases old i o1 h1 with ⟨_, q1⟩ | ⟨rfl, rfl⟩ <;> rcases old j o2 h2 with ⟨_, q2⟩ | ⟨rfl, rfl⟩
          · exact h.sole i j o1 o2 c' q1 q2 h3 h4 h5
          · have h5 : W.cells[o1.2]? = some c' := h5
            rw [h3, e1] at h5
            cases h5
            exact ⟨hn, same i o1 q1 h3⟩
          · have h5 : W.cells[o1.2]? = some c' := h5
            rw [e1] at h5
            cases h5
            exact ⟨hn, (same j o2 q2 h3.symm).symm⟩
          · exact absurd rfl h4
      · rw [if_neg hk, if_neg hk]
        exact rfl
  | call k cl =>
    unfold World.step deepStep
    dsimp only
    cases hk : W.objs[k]? with
    | none =>
      rw [vget_none hk, vget_none (hnone k hk)]
      exact rfl
    | some o =>
      obtain ⟨c, v, e1, e2, e3⟩ := h.like k o hk
      rw [vget_some hk, vget_some e2]
      simp only [M_bind_ok]
      rw [vget_some e1]
      simp only [M_bind_ok]
      have hc : cl = .loop → (o.1.withCell c).dom.dom.n = 0 ∨ (o.1.withCell c).dom.dom.n = (o.1.withCell c).n := by
        rintro rfl
        exact ht _ (hview k o c hk e1)
      have hkl : k < W.objs.length := (List.getElem?_eq_some_iff.mp hk).1
      have hcl : o.2 < W.cells.length := (List.getElem?_eq_some_iff.mp e1).1
      refine (e3.step cl hc).bind fun G G' _ _ q => ?_
      obtain ⟨q1, q2, q3⟩ := q
      unfold vset
      rw [h.len, if_pos hkl, if_pos hkl, if_pos hcl]
      simp only [M_bind_ok]
      have old : ∀ (i : ℕ) (o' : GB K × ℕ), (W.objs.set k (G, o.2))[i]? = some o' → i ≠ k ∧ W.objs[i]? = some o' ∨ i = k ∧ o' = (G, o.2) := by
        intro i o' ho
        rw [List.getElem?_set] at ho
        split_ifs at ho with q1 q2
        · exact Or.inr ⟨q1.symm, (Option.some.inj ho).symm⟩
        · exact Or.inl ⟨fun q => q1 q.symm, ho⟩
      refine ⟨by simp [h.len], fun i o' ho => ?_, fun i j o1 o2 c' h1 h2 h3 h4 h5 => ?_⟩
      · rcases old i o' ho with ⟨p0, p⟩ | ⟨rfl, rfl⟩
        · obtain ⟨c', v', f1, f2, f3⟩ := h.like i o' p
          by_cases ha : o'.2 = o.2
          · refine ⟨⟨G.dom, G.param⟩, v', ?_, by rw [List.getElem?_set_ne (Ne.symm p0)]; exact f2, ?_⟩
            · dsimp only
              rw [ha, List.getElem?_set_self hcl]
            · rw [ha, e1] at f1
              cases f1
              obtain ⟨n0, kk⟩ := h.sole k i o o' c hk p ha.symm (Ne.symm p0) e1
              have hd : G.dom = c.dom := q2 n0
              have hkind : G.kind = o'.1.kind := by rw [q3]; exact kk
              refine ⟨?_, ⟨?_, ?_, ?_⟩, f3.inv', fun z => ?_⟩
              · have s := f3.same
                unfold GB.withCell at s ⊢
                rw [hd]
                exact s
              · have := q1.inv.param
                rw [hkind] at this
                exact this
              · have := q1.inv.regular
                rw [hkind] at this
                exact this
              · exact q1.inv.len
              · exact absurd (show c.dom.dom.n = 0 by rw [← hd]; exact z) n0
          · exact ⟨c', v', by dsimp only; rw [List.getElem?_set_ne (fun z => ha z.symm)]; exact f1, by rw [List.getElem?_set_ne (Ne.symm p0)]; exact f2, f3⟩
        · exact ⟨⟨G.dom, G.param⟩, G', by dsimp only; rw [List.getElem?_set_self hcl], by rw [List.getElem?_set_self (by rw [h.len]; exact hkl)], q1⟩
      · have new : ∀ (i j : ℕ) (o1 o2 : GB K × ℕ) (c1 : Cell K), W.objs[i]? = some o1 → W.objs[j]? = some o2 → o1.2 = o2.2 → i ≠ j →
            (W.cells.set o.2 ⟨G.dom, G.param⟩)[o1.2]? = some c1 → c1.dom.dom.n ≠ 0 ∧ o1.1.kind = o2.1.kind := by
          intro i j o1 o2 c1 g1 g2 g3 g4 g5
          by_cases ha : o.2 = o1.2
          · obtain ⟨n0, kk⟩ := h.sole i j o1 o2 c g1 g2 g3 g4 (by rw [← ha]; exact e1)
            rw [ha, List.getElem?_set_self (by rw [← ha]; exact hcl)] at g5
            cases g5
            exact ⟨by rw [q2 n0]; exact n0, kk⟩
          · rw [List.getElem?_set_ne ha] at g5
            exact h.sole i j o1 o2 c1 g1 g2 g3 g4 g5
        rcases old i o1 h1 with ⟨p1, g1⟩ | ⟨rfl, rfl⟩ <;> rcases old j o2 h2 with ⟨p2, g2⟩ | ⟨rfl, rfl⟩
        · exact new i j o1 o2 c' g1 g2 h3 h4 h5
        · obtain ⟨z1, z2⟩ := new i j o1 o c' g1 hk h3 h4 h5
          exact ⟨z1, by rw [z2]; exact q3.symm⟩
        · obtain ⟨z1, z2⟩ := new i j o o2 c' hk g2 h3 h4 h5
          exact ⟨z1, by rw [← z2]; exact q3⟩
        · exact absurd rfl h4

/-- Whole programs. -/
theorem Sim.run {ε : K} {arc : List (P3 K) → K → K → K} (ops : List (Op K)) {W : World K} {V : List (GB K)} (h : Sim ε W V) (ht : TameRun ε arc W ops) :
    Both (Sim ε) (W.run ε arc ops) (deepRun ε arc V ops) := by
  induction ops generalizing W V with
  | nil => exact h
  | cons op ops ih => exact (h.step ht.1).bind fun W' V' e _ q => ih q (ht.2 W' e)

theorem Sim.empty (ε : K) : Sim ε (World.empty : World K) [] :=
  ⟨rfl, fun k o h => by simp [World.empty] at h, fun j k o o' c h => by simp [World.empty] at h⟩

end Transfinite
