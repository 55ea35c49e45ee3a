import Verif.Lemmas.GenBezierEval
import Verif.Lemmas.ParamFresh
import Verif.Props.GenBezierNet
import Verif.Props.Loop

/-! The state of Generalized Bézier patches in a history of calls. -/

namespace Transfinite

namespace GB

open Spec

variable {K : Type} [Field K] [LinearOrder K] [Libm K]

/-- What always holds for an object. -/
structure Inv (ε : K) (G : GB K) : Prop where
  param : G.dom.dom.n = 0 ∨ Param.Fresh ε G.kind.param G.dom.dom G.param
  regular : G.kind = .side → G.dom.dom.n = 0 ∨ ∃ vs, Domain.regularVertices G.dom.dom.n = .ok vs ∧ Domain.updateFrom vs 0 = .ok G.dom.dom
  len : G.dom.dom.vertices.length = G.dom.dom.n

theorem Inv.congr {ε : K} {G G' : GB K} (h : Inv ε G) (h1 : G'.kind = G.kind) (h2 : G'.dom.dom = G.dom.dom) (h3 : G'.param = G.param) : Inv ε G' :=
  ⟨by rw [h1, h2, h3]; exact h.param, by rw [h1, h2]; exact h.regular, by rw [h2]; exact h.len⟩

theorem new_inv (ε : K) (kind : GBKind K) (g l : ℕ) : Inv ε (GB.new kind g l) := ⟨Or.inl rfl, fun _ => Or.inl rfl, rfl⟩

theorem eval_inv {ε : K} {G : GB K} {uv : P2 K} {r : P3 K × GB K} (h : G.eval ε uv = .ok r) (hi : Inv ε G) : Inv ε r.2 ∧ r.2.dom = G.dom := by
  unfold eval at h
  obtain ⟨x, e, h⟩ := bind_ok h
  obtain ⟨p, _, h⟩ := bind_ok h
  cases h
  exact ⟨⟨hi.param.imp id fun q => q.maps e, hi.regular, hi.len⟩, rfl⟩

theorem weight_inv {ε : K} {G : GB K} {i j k : ℕ} {uv : P2 K} {r : K × GB K} (h : G.weight ε i j k uv = .ok r) (hi : Inv ε G) :
    Inv ε r.2 ∧ r.2.dom = G.dom := by
  unfold weight at h
  split at h
  · split_ifs at h
    · cases h; exact ⟨hi, rfl⟩
    · obtain ⟨x, e, h⟩ := bind_ok h
      obtain ⟨p, _, h⟩ := bind_ok h
      cases h
      exact ⟨⟨hi.param.imp id fun q => q.maps e, hi.regular, hi.len⟩, rfl⟩
  · obtain ⟨x, e, h⟩ := bind_ok h
    obtain ⟨p, _, h⟩ := bind_ok h
    cases h
    exact ⟨⟨hi.param.imp id fun q => q.maps e, hi.regular, hi.len⟩, rfl⟩

theorem updateDomain_inv {ε : K} {G G' : GB K} (h : G.updateDomain = .ok G') (hi : Inv ε G) : Inv ε G' ∧ G'.dom.dom.n = G.curves.length := by
  unfold updateDomain at h
  split at h
  · rename_i hk
    obtain ⟨r, e, h⟩ := bind_ok h
    unfold Domain.regularUpdate at e
    split_ifs at e with hn
    · cases e
      cases h
      exact ⟨hi, hn⟩
    · obtain ⟨vs, e1, e⟩ := bind_ok e
      obtain ⟨d, e2, e⟩ := bind_ok e
      cases e
      rw [if_pos rfl] at h
      obtain ⟨o, e3, h⟩ := bind_ok h
      cases h
      have hdn : d.n = G.curves.length := by rw [Patch.updateFrom_n e2, Patch.regularVertices_length e1]
      refine ⟨⟨Or.inr (Param.Fresh.new e3), fun _ => Or.inr ⟨vs, ?_, e2⟩, Patch.updateFrom_len e2⟩, hdn⟩
      change Domain.regularVertices d.n = _
      rw [hdn, e1]
  · rename_i fm hk
    obtain ⟨o, e3, h⟩ := bind_ok h
    cases h
    refine ⟨⟨Or.inr (Param.Fresh.new e3), fun q => ?_, ?_⟩, rfl⟩
    · change G.kind = _ at q
      rw [hk] at q
      cases q
    · simp only [List.length_append, List.length_take, List.length_replicate]
      omega

theorem setupLoop_inv {ε : K} {arc : List (P3 K) → K → K → K} {G G' : GB K} (h : G.setupLoop arc = .ok G') (hi : Inv ε G) :
    Inv ε G' ∧ G'.dom.dom.n = G'.n := by
  have hk := setupLoop_keeps h
  obtain ⟨curves, cs, _, e2, e3, h⟩ := setupLoop_parts h
  obtain ⟨k1, k2⟩ := updateDomain_inv h (hi.congr rfl rfl rfl)
  refine ⟨k1, ?_⟩
  rw [k2, hk.n_eq, ← e3]
  obtain ⟨cs', e, hl, _⟩ := C27_total curves
  rw [e2] at e
  cases e
  exact hl

/-- Calls after which the loop must be set up again. -/
def Call.reshapes : Call K → Bool
  | .init _ _ => true
  | .curves _ => true
  | _ => false

theorem setControlPoint_keeps {G G' : GB K} {i j k : ℕ} {p : P3 K} (h : G.setControlPoint i j k p = .ok G') : G' = { G with nets := G'.nets } := by
  unfold setControlPoint at h
  obtain ⟨nets, _, h⟩ := bind_ok h
  split_ifs at h
  · obtain ⟨_, _, h⟩ := bind_ok h
    cases h; rfl
  · obtain ⟨_, _, h⟩ := bind_ok h
    cases h; rfl
  · cases h; rfl

theorem setIndividual_keeps {G G' : GB K} {i j k : ℕ} {p : P3 K} (h : G.setIndividualControlPoint i j k p = .ok G') : G' = { G with nets := G'.nets } := by
  unfold setIndividualControlPoint at h
  obtain ⟨nets, _, h⟩ := bind_ok h
  cases h; rfl

theorem step_inv {ε : K} {arc : List (P3 K) → K → K → K} {G G' : GB K} {c : Call K} (hi : Inv ε G) (e : G.step ε arc c = .ok G') :
    Inv ε G' ∧ G'.kind = G.kind ∧ (c.reshapes = false → G'.n = G.n ∧ G'.degree = G.degree ∧ (G.dom.dom.n = G.n → G'.dom.dom.n = G'.n)) := by
  cases c with
  | init n d =>
    obtain ⟨rfl, _⟩ := initNetwork_eq (show G.initNetwork n d = .ok G' from e)
    unfold initBase
    split_ifs
    · exact ⟨hi, rfl, fun q => by cases q⟩
    · exact ⟨hi.congr rfl rfl rfl, rfl, fun q => by cases q⟩
  | set i j k p =>
    have q := setControlPoint_keeps (show G.setControlPoint i j k p = .ok G' from e)
    rw [q]
    exact ⟨hi.congr rfl rfl rfl, rfl, fun _ => ⟨rfl, rfl, id⟩⟩
  | setIndividual i j k p =>
    have q := setIndividual_keeps (show G.setIndividualControlPoint i j k p = .ok G' from e)
    rw [q]
    exact ⟨hi.congr rfl rfl rfl, rfl, fun _ => ⟨rfl, rfl, id⟩⟩
  | central p => cases e; exact ⟨hi.congr rfl rfl rfl, rfl, fun _ => ⟨rfl, rfl, id⟩⟩
  | squared b => cases e; exact ⟨hi.congr rfl rfl rfl, rfl, fun _ => ⟨rfl, rfl, id⟩⟩
  | curves cs => cases e; exact ⟨hi.congr rfl rfl rfl, rfl, fun q => by cases q⟩
  | loop =>
    have e : G.setupLoop arc = .ok G' := e
    have k := setupLoop_keeps e
    exact ⟨(setupLoop_inv e hi).1, k.kind, fun _ => ⟨k.n_eq, k.degree, fun _ => (setupLoop_inv e hi).2⟩⟩
  | eval uv =>
    obtain ⟨r, e1, e⟩ := bind_ok (show (G.eval ε uv >>= fun r => .ok r.2) = .ok G' from e)
    cases e
    have k := eval_keeps e1
    obtain ⟨k1, k2⟩ := eval_inv e1 hi
    exact ⟨k1, k.kind, fun _ => ⟨k.n_eq, k.degree, fun q => by rw [k2, k.n_eq, q]⟩⟩
  | weight i j k uv =>
    obtain ⟨r, e1, e⟩ := bind_ok (show (G.weight ε i j k uv >>= fun r => .ok r.2) = .ok G' from e)
    cases e
    have k := weight_keeps e1
    obtain ⟨k1, k2⟩ := weight_inv e1 hi
    exact ⟨k1, k.kind, fun _ => ⟨k.n_eq, k.degree, fun q => by rw [k2, k.n_eq, q]⟩⟩

theorem run_inv {ε : K} {arc : List (P3 K) → K → K → K} {G G' : GB K} {cs : List (Call K)} (hi : Inv ε G) (e : G.run ε arc cs = .ok G') :
    Inv ε G' ∧ G'.kind = G.kind ∧
      ((∀ c ∈ cs, c.reshapes = false) → G'.n = G.n ∧ G'.degree = G.degree ∧ (G.dom.dom.n = G.n → G'.dom.dom.n = G'.n)) := by
  induction cs generalizing G with
  | nil => cases e; exact ⟨hi, rfl, fun _ => ⟨rfl, rfl, id⟩⟩
  | cons c cs ih =>
    unfold run at e
    obtain ⟨G1, e1, e⟩ := bind_ok e
    obtain ⟨i1, k1, n1⟩ := step_inv hi e1
    obtain ⟨i2, k2, n2⟩ := ih i1 e
    refine ⟨i2, k2.trans k1, fun hc => ?_⟩
    obtain ⟨a1, a2, a3⟩ := n1 (hc c (by simp))
    obtain ⟨b1, b2, b3⟩ := n2 fun x hx => hc x (List.mem_cons_of_mem _ hx)
    exact ⟨b1.trans a1, b2.trans a2, fun q => b3 (a3 q)⟩

theorem run_split {ε : K} {arc : List (P3 K) → K → K → K} {G G' : GB K} {xs ys : List (Call K)} (e : G.run ε arc (xs ++ ys) = .ok G') :
    ∃ G1, G.run ε arc xs = .ok G1 ∧ G1.run ε arc ys = .ok G' := by
  induction xs generalizing G with
  | nil => exact ⟨G, rfl, e⟩
  | cons c xs ih =>
    rw [List.cons_append] at e
    unfold run at e
    obtain ⟨G1, e1, e⟩ := bind_ok e
    obtain ⟨G2, e2, e⟩ := ih e
    refine ⟨G2, ?_, e⟩
    unfold run
    rw [e1, M_bind_ok, e2]

theorem run_join {ε : K} {arc : List (P3 K) → K → K → K} {G G1 G' : GB K} {xs ys : List (Call K)} (h1 : G.run ε arc xs = .ok G1)
    (h2 : G1.run ε arc ys = .ok G') : G.run ε arc (xs ++ ys) = .ok G' := by
  induction xs generalizing G with
  | nil => cases h1; exact h2
  | cons c xs ih =>
    unfold run at h1
    obtain ⟨G2, e1, e⟩ := bind_ok h1
    rw [List.cons_append]
    unfold run
    rw [e1, M_bind_ok, ih e]

/-! ### The shape of the network, also with points set individually -/

/-- There is a network of the size given by the members. -/
def NetShape (G : GB K) : Prop := (G.n = 0 ∧ G.nets = []) ∨ ∃ F, HasNet G G.n G.degree F

theorem NetShape.congr {G G' : GB K} (hn : NetShape G) (h1 : G'.n = G.n) (h2 : G'.degree = G.degree) (h3 : G'.layers = G.layers) (h4 : G'.nets = G.nets) :
    NetShape G' := by
  unfold NetShape
  rw [h1, h2, h4]
  rcases hn with hn | ⟨F, q1⟩
  · exact Or.inl hn
  · exact Or.inr ⟨F, ⟨h1.trans q1.n_eq, h2.trans q1.degree, h3.trans q1.layers, h4.trans q1.nets⟩⟩

/-- Calls that do not replace the curves. -/
def Call.keepsCurves : Call K → Bool
  | .curves _ => false
  | _ => true

theorem step_shape {ε : K} {arc : List (P3 K) → K → K → K} {G G' : GB K} {c : Call K} (hc : c.keepsCurves = true) (h : NetShape G) (e : G.step ε arc c = .ok G') :
    NetShape G' := by
  cases c with
  | init n d =>
    obtain ⟨rfl, _⟩ := initNetwork_eq (show G.initNetwork n d = .ok G' from e)
    by_cases hs : n = G.n ∧ d = G.degree
    · unfold initBase
      rw [if_pos hs]
      exact h
    · have hn := initBase_net hs
      refine Or.inr ⟨fun _ _ _ => 0, ?_⟩
      rw [hn.n_eq, hn.degree]
      exact hn
  | set i j k p =>
    have e : G.setControlPoint i j k p = .ok G' := e
    rcases h with ⟨_, h⟩ | ⟨F, h1⟩
    · unfold setControlPoint cptSet at e
      rw [h, vget_nil] at e
      cases e
    · have hr : (⟨i, j, k⟩ : Name).InRange G.n G.degree := by
        have e' := e
        unfold setControlPoint at e'
        obtain ⟨nets, q, _⟩ := bind_ok e'
        exact controlPoint_inRange h1 q
      obtain ⟨G1, e1, _, h3⟩ := setControlPoint_eq h1 hr p
      rw [e] at e1
      cases e1
      exact Or.inr ⟨write G.n G.degree F ⟨i, j, k⟩ p, by rw [h3.n_eq, h3.degree]; exact h3⟩
  | setIndividual i j k p =>
    have e : G.setIndividualControlPoint i j k p = .ok G' := e
    unfold setIndividualControlPoint at e
    obtain ⟨nets, q, e⟩ := bind_ok e
    cases e
    rcases h with ⟨_, h⟩ | ⟨F, h1⟩
    · unfold cptSet at q
      rw [h, vget_nil] at q
      cases q
    · obtain ⟨r1, r2, r3⟩ := controlPoint_inRange h1 q
      rw [h1.nets, cptSet_net3 r1 r2 r3] at q
      cases q
      exact Or.inr ⟨upd F i j k p, rfl, rfl, h1.layers, rfl⟩
  | central p => cases e; exact h.congr rfl rfl rfl rfl
  | squared b => cases e; exact h.congr rfl rfl rfl rfl
  | curves cs => cases hc
  | loop =>
    have k := setupLoop_keeps (show G.setupLoop arc = .ok G' from e)
    exact h.congr k.n_eq k.degree k.layers k.nets
  | eval uv =>
    obtain ⟨r, e1, e⟩ := bind_ok (show (G.eval ε uv >>= fun r => .ok r.2) = .ok G' from e)
    cases e
    have k := eval_keeps e1
    exact h.congr k.n_eq k.degree k.layers k.nets
  | weight i j k uv =>
    obtain ⟨r, e1, e⟩ := bind_ok (show (G.weight ε i j k uv >>= fun r => .ok r.2) = .ok G' from e)
    cases e
    have k := weight_keeps e1
    exact h.congr k.n_eq k.degree k.layers k.nets

theorem run_shape {ε : K} {arc : List (P3 K) → K → K → K} {G G' : GB K} {cs : List (Call K)} (hc : ∀ c ∈ cs, c.keepsCurves = true) (h : NetShape G)
    (e : G.run ε arc cs = .ok G') : NetShape G' := by
  induction cs generalizing G with
  | nil => cases e; exact h
  | cons c cs ih =>
    unfold run at e
    obtain ⟨G1, e1, e⟩ := bind_ok e
    exact ih (fun x hx => hc x (List.mem_cons_of_mem _ hx)) (step_shape (hc c (by simp)) h e1) e

/-- A usable patch: the calls so far (a control network of `n` sides and degree `d`, then `setupLoop()`, then anything that keeps the sizes). -/
def Usable (ε : K) (arc : List (P3 K) → K → K → K) (kind : GBKind K) (n d : ℕ) (calls : List (Call K)) (G : GB K) : Prop :=
  ∃ g l before later, calls = before ++ .loop :: later ∧ (GB.new kind g l).run ε arc calls = .ok G ∧
    (∀ c ∈ before, c.keepsCurves = true) ∧ (∀ c ∈ later, c.reshapes = false) ∧ G.n = n ∧ G.degree = d

theorem Usable.state {ε : K} {arc : List (P3 K) → K → K → K} {kind : GBKind K} {n d : ℕ} {calls : List (Call K)} {G : GB K} (h : Usable ε arc kind n d calls G)
    (hn : n ≠ 0) : Inv ε G ∧ G.kind = kind ∧ G.dom.dom.n = n ∧ (∃ F, HasNet G n d F) ∧ ∀ c ∈ calls, c.keepsCurves = true := by
  obtain ⟨g, l, before, later, rfl, e, hb, hl, rfl, rfl⟩ := h
  have hall : ∀ c ∈ before ++ .loop :: later, c.keepsCurves = true := by
    intro c hc
    rcases List.mem_append.mp hc with q | q
    · exact hb c q
    · rcases List.mem_cons.mp q with rfl | q
      · rfl
      · have := hl c q
        cases c <;> first | rfl | cases this
  obtain ⟨i1, k1, _⟩ := run_inv (new_inv ε kind g l) e
  obtain ⟨G0, e0, e1⟩ := run_split e
  unfold run at e1
  obtain ⟨G1, e1, e2⟩ := bind_ok e1
  obtain ⟨i0, _⟩ := run_inv (new_inv ε kind g l) e0
  have e1 : G0.setupLoop arc = .ok G1 := e1
  obtain ⟨i2, n2⟩ := setupLoop_inv e1 i0
  obtain ⟨_, _, h3⟩ := run_inv i2 e2
  refine ⟨i1, k1, (h3 hl).2.2 n2, ?_, hall⟩
  rcases run_shape hall (Or.inl ⟨rfl, rfl⟩) e with ⟨q, _⟩ | q
  · exact absurd q hn
  · exact q

end GB

end Transfinite
