import Verif.Lemmas.PatchTotal
import Verif.Props.MeshEval
import Verif.Props.Interpolation
import Verif.Props.Loop
import Verif.Props.DomainAngular

/-! # C64: surfaces over reasonable loops can be built and used without failure

No division by zero, no index out of range, no null pointer, for any history of allowed calls. -/

namespace Transfinite

open Spec Real Patch

variable {ε : ℝ} {n : ℕ} {c : ℕ → Curve ℝ} {P : Patch ℝ} {v : ℕ → P2 ℝ}

/-! ### Specification -/

/-- An up-to-date object (see C30-C35) in which every ribbon has a handler or can compute its default one. -/
def Usable (ε : ℝ) (kind : PatchKind) (n : ℕ) (c : ℕ → Curve ℝ) (P : Patch ℝ) : Prop :=
  UpToDate ε kind n c P ∧ Handlers ε n c P

/-! ### Proof -/

theorem calls_append {K : Type} [Field K] [LinearOrder K] [Libm K] {ε : K} {P P1 P2 : Patch K} {xs ys : List (Call K)}
    (h1 : P.run ε xs = .ok P1) (h2 : P1.run ε ys = .ok P2) : P.run ε (xs ++ ys) = .ok P2 := by
  induction xs generalizing P with
  | nil => cases h1; exact h2
  | cons x xs ih =>
    unfold Patch.run at h1
    obtain ⟨Q, e1, e2⟩ := bind_ok h1
    rw [List.cons_append]
    unfold Patch.run
    rw [e1, M_bind_ok]
    exact ih e2

theorem calls_one {K : Type} [Field K] [LinearOrder K] [Libm K] {ε : K} {P P1 : Patch K} {x : Call K} (h : P.step ε x = .ok P1) :
    P.run ε [x] = .ok P1 := by
  unfold Patch.run
  rw [h, M_bind_ok]
  rfl

/-- The parameters of the mesh are in the polygon. -/
theorem params_inside (hd : ConvexDomain P.dom.dom n v) {res : ℕ} (hr : 1 ≤ res) :
    ∃ uvs, P.dom.dom.parametersImpl res = .ok uvs ∧ ∀ uv ∈ uvs, InsideClosed n v uv := by
  have hn := hd.hn
  have en := hd.n_eq
  obtain ⟨ps, e1, h1⟩ := C04_onEdge_is_edgePoint (d := P.dom.dom) (by rw [en]; exact hn) (by rw [en]; exact hd.length_eq) hr
  obtain ⟨ps', e2, h2⟩ := C04_not_onEdge_inside (d := P.dom.dom) (v := v) (by rw [en]; exact hn) (by rw [en]; exact hd.vertices_eq)
    (by rw [en]; exact hd.convex) (by rw [en]; exact hd.inside) hr
  rw [e1] at e2
  cases e2
  refine ⟨ps, e1, ?_⟩
  intro uv hu
  obtain ⟨k, hk, rfl⟩ := List.mem_iff_getElem.mp hu
  by_cases ho : Domain.onEdge P.dom.dom.n res k = true
  · obtain ⟨i, hi, s, s0, s1, e⟩ := h1 k hk ho
    rw [en] at hi
    rw [hd.edgePoint hi s] at e
    rw [← Except.ok.inj e]
    exact hd.insideClosed_side hi s0 s1
  · have := h2 k hk (by simpa using ho)
    rw [en] at this
    intro i hi
    exact (this i hi).le

private theorem onRibbon_total {P : Patch ℝ} {i : ℕ} (hi : i < P.surf.n) {f : Ribbon ℝ → M (Ribbon ℝ)} (hf : ∀ r, ∃ r', f r = .ok r') :
    ∃ P', P.onRibbon i f = .ok P' := by
  unfold onRibbon
  unfold Surf.n at hi
  obtain ⟨r', hr⟩ := hf P.surf.ribbons[i]
  rw [vget_of_lt hi, M_bind_ok, hr, M_bind_ok]
  unfold vset
  rw [if_pos hi, M_bind_ok]
  exact ⟨_, rfl⟩

private theorem setHandler_total {h : P3 ℝ} (hh : h ≠ 0) (r : Ribbon ℝ) : ∃ r', r.setHandler h = .ok r' := by
  unfold Ribbon.setHandler
  rw [P3.normalize_ok hh, M_bind_ok]
  exact ⟨_, rfl⟩

private theorem ready_step (hε : 0 < ε) (hε1 : ε ≤ 1) (hl : GoodLoop ε n c) (h : Ready ε P n c) (hh : Handlers ε n c P)
    (hd : ConvexDomain P.dom.dom n v) {x : Call ℝ} (hx : Allowed ε P.kind n c v x) : ∃ P', P.step ε x = .ok P' := by
  have hn := hl.sides
  have mid : ∀ {Q : Patch ℝ}, Q.kind = P.kind → Q.dom = P.dom → Q.param = P.param → Q.surf = P.surf → Q.linked = P.linked →
      (P.kind = .midpoint ∨ P.kind = .midpointCoons) → ∃ P', Q.updateCentral ε = .ok P' := by
    intro Q h1 h2 h3 h4 h5 hk
    refine Ready.updateCentral_total hε hε1 (h.congr (h.inv.congr h1 h2 h3 ?_) h1 (by rw [h2]) h4 h5) hl (by rw [h1]; exact hk)
    rw [h4]; exact h.inv.kinds
  cases x with
  | gamma g => exact ⟨_, rfl⟩
  | curve i c => cases hx
  | curves cs => cases hx
  | loop => cases hx
  | fence i f => cases hx
  | handler i v => exact onRibbon_total (by rw [h.length]; exact hx.1) (setHandler_total hx.2)
  | mult i m => exact onRibbon_total (by rw [h.length]; exact hx) fun r => ⟨_, rfl⟩
  | reset i => exact onRibbon_total (by rw [h.length]; exact hx.1) fun r => ⟨_, rfl⟩
  | setMid p =>
    unfold Patch.step
    dsimp only
    rw [if_pos (show P.kind = .midpoint ∨ P.kind = .midpointCoons from hx)]
    exact mid rfl rfl rfl rfl rfl hx
  | unsetMid =>
    unfold Patch.step
    dsimp only
    rw [if_pos (show P.kind = .midpoint ∨ P.kind = .midpointCoons from hx)]
    exact mid rfl rfl rfl rfl rfl hx
  | update => exact h.update_total hε hε1 hl hh hd
  | updateSide i => exact h.updateSide_total hε hε1 hl hh hd hx
  | eval uv =>
    obtain ⟨p, P', e⟩ := h.eval_total hε hε1 hl hd hx
    unfold Patch.step
    dsimp only
    rw [e, M_bind_ok]
    exact ⟨_, rfl⟩
  | mesh res =>
    obtain ⟨uvs, e1, h1⟩ := params_inside hd (show 1 ≤ res from hx)
    obtain ⟨x, e⟩ := Patch.evalMesh_defined h.inv (by rw [hd.n_eq]; exact hn) e1 (fun uv hu => h.eval_total hε hε1 hl hd (h1 uv hu))
    unfold Patch.step
    dsimp only
    rw [e, M_bind_ok]
    exact ⟨_, rfl⟩
  | domainParams res =>
    obtain ⟨uvs, e1, h1⟩ := params_inside hd (show 1 ≤ res from hx)
    have := h.inv.parameters (by rw [hd.n_eq]; exact hn) (res := res)
    rw [e1] at this
    unfold Patch.step
    dsimp only
    cases e : Domain.parameters (fun d => Domain.meshSize d.n) Domain.parametersImpl P.dom res with
    | error y => rw [e] at this; cases this
    | ok y => exact ⟨_, rfl⟩
  | mapSide i uv =>
    obtain ⟨f, o, e, _⟩ := (h.sound hε hl).params_total hε hε1 hn hd hx.2
    obtain ⟨o0, cs, e1, e2, e3⟩ := h.inv.param.resolve_left (by rw [hd.n_eq]; omega)
    obtain ⟨_, q⟩ := C19_elements e1 e3 e
    obtain ⟨sd, _, q, _⟩ := q i (by rw [length_tab]; exact hx.1)
    unfold Patch.step
    dsimp only
    cases e' : Param.mapToRibbon ε P.kind.param i uv P.param with
    | error y => rw [e'] at q; cases q
    | ok y => exact ⟨_, rfl⟩
  | mapSides uv =>
    obtain ⟨f, o, e, _⟩ := (h.sound hε hl).params_total hε hε1 hn hd hx
    unfold Patch.step
    dsimp only
    rw [e, M_bind_ok]
    exact ⟨_, rfl⟩

/-- C64: an allowed call on a usable object succeeds, leaves it usable, and keeps its domain. -/
theorem C64_call (hε : 0 < ε) (hε1 : ε ≤ 1) (hl : GoodLoop ε n c) {kind : PatchKind} (h : Usable ε kind n c P)
    (hd : ConvexDomain P.dom.dom n v) {x : Call ℝ} (hx : Allowed ε kind n c v x) :
    ∃ P', P.step ε x = .ok P' ∧ Usable ε kind n c P' ∧ P'.dom.dom = P.dom.dom := by
  obtain ⟨hr, hk⟩ := upToDate_ready h.1 hl.sides
  subst hk
  obtain ⟨P', e⟩ := ready_step hε hε1 hl hr h.2 hd hx
  refine ⟨P', e, ⟨?_, step_handlers hr.inv h.2 hx e⟩, hr.step_dom hx.keepsLoop e⟩
  obtain ⟨before, later, P0, P1, h1, h2, h3, h4, h5, h6⟩ := h.1
  refine ⟨before, later ++ [x], P0, P1, h1, h2, h3, h4, ?_, calls_append h6 (calls_one e)⟩
  intro y hy
  rcases List.mem_append.mp hy with q | q
  · exact h5 y q
  · rw [List.mem_singleton.mp q]; exact hx.keepsLoop

/-- C64: any history of allowed calls on a usable object succeeds. -/
theorem C64_history (hε : 0 < ε) (hε1 : ε ≤ 1) (hl : GoodLoop ε n c) {kind : PatchKind} (h : Usable ε kind n c P)
    (hd : ConvexDomain P.dom.dom n v) {xs : List (Call ℝ)} (hx : ∀ x ∈ xs, Allowed ε kind n c v x) :
    ∃ P', P.run ε xs = .ok P' ∧ Usable ε kind n c P' ∧ P'.dom.dom = P.dom.dom := by
  induction xs generalizing P with
  | nil => exact ⟨P, rfl, h, rfl⟩
  | cons x xs ih =>
    obtain ⟨P1, e1, h1, d1⟩ := C64_call hε hε1 hl h hd (hx x (by simp))
    obtain ⟨P2, e2, h2, d2⟩ := ih h1 (by rw [d1]; exact hd) (fun y hy => hx y (List.mem_cons_of_mem _ hy))
    refine ⟨P2, ?_, h2, d2.trans d1⟩
    unfold Patch.run
    rw [e1, M_bind_ok, e2]

/-- Ribbon controls (and the gamma switch). -/
def IsControl : Call ℝ → Prop
  | .gamma _ => True
  | .handler _ _ => True
  | .mult _ _ => True
  | .reset _ => True
  | _ => False

/-- After `setupLoop`, and before the first `update`. -/
structure Loaded (ε : ℝ) (n : ℕ) (c : ℕ → Curve ℝ) (rest : List (Call ℝ)) (P : Patch ℝ) (r : ℕ → Ribbon ℝ) : Prop where
  inv : Inv ε P
  linked : P.linked = true
  ribbons : P.surf.ribbons = tab n r
  curve : ∀ j < n, (r j).curve = c j ∧ (r j).fence = none
  handlers : P.kind = .c0Coons ∨ ∀ j < n, (r j).handlerInit = true ∨ HasDefault ε n c j ∨ ∃ h, Call.handler j h ∈ rest

theorem loaded_step {kind : PatchKind} {x : Call ℝ} {rest : List (Call ℝ)} {r : ℕ → Ribbon ℝ} (hk : P.kind = kind)
    (h : Loaded ε n c (x :: rest) P r) (hc : IsControl x) (hx : Allowed ε kind n c v x) :
    ∃ P' r', P.step ε x = .ok P' ∧ Loaded ε n c rest P' r' := by
  have hlen : P.surf.n = n := by unfold Surf.n; rw [h.ribbons, length_tab]
  have main : ∀ {i : ℕ} {f : Ribbon ℝ → M (Ribbon ℝ)}, i < n → P.step ε x = P.onRibbon i f → (∀ r, ∃ r', f r = .ok r' ∧ r'.curve = r.curve ∧ r'.fence = r.fence ∧
      (r'.handlerInit = true ∨ r'.handlerInit = r.handlerInit ∨ P.kind = .c0Coons ∨ HasDefault ε n c i)) → (∀ j, j ≠ i → ∀ y, x ≠ .handler j y) →
      ((∃ y, x = .handler i y) → ∀ r r', f r = .ok r' → r'.handlerInit = true) →
      ∃ P' r', P.step ε x = .ok P' ∧ Loaded ε n c rest P' r' := by
    intro i f hi hs hf hne hset
    obtain ⟨r', e, h1, h2, h3⟩ := hf (r i)
    have e' : P.step ε x = .ok { P with surf := { P.surf with ribbons := tab n (Function.update r i r') } } := by
      rw [hs]
      unfold onRibbon
      rw [h.ribbons, vget_tab _ hi, M_bind_ok, e, M_bind_ok, vset_tab _ _ hi, M_bind_ok]
    refine ⟨_, _, e', ⟨(step_inv h.inv e').1, h.linked, rfl, ?_, ?_⟩⟩
    · intro j hj
      by_cases hji : j = i
      · rw [hji, Function.update_self, h1, h2]; exact h.curve i hi
      · rw [Function.update_of_ne hji]; exact h.curve j hj
    · by_cases h0 : P.kind = .c0Coons
      · exact Or.inl h0
      refine Or.inr fun j hj => ?_
      have hold := h.handlers.resolve_left h0 j hj
      by_cases hji : j = i
      · subst hji
        rw [Function.update_self]
        rcases h3 with q | q | q | q
        · exact Or.inl q
        · rcases hold with a | a | ⟨y, a⟩
          · exact Or.inl (q.trans a)
          · exact Or.inr (Or.inl a)
          · rcases List.mem_cons.mp a with a | a
            · exact Or.inl (hset ⟨y, a.symm⟩ _ _ e)
            · exact Or.inr (Or.inr ⟨y, a⟩)
        · exact absurd q h0
        · exact Or.inr (Or.inl q)
      · rw [Function.update_of_ne hji]
        refine hold.imp id (Or.imp id ?_)
        rintro ⟨y, a⟩
        rcases List.mem_cons.mp a with a | a
        · exact absurd a.symm (hne j hji y)
        · exact ⟨y, a⟩
  cases x with
  | gamma g =>
    refine ⟨_, r, rfl, ⟨(step_inv (P := P) (c := .gamma g) h.inv rfl).1, h.linked, h.ribbons, h.curve, ?_⟩⟩
    refine h.handlers.imp id fun q j hj => (q j hj).imp id (Or.imp id ?_)
    rintro ⟨y, a⟩
    rcases List.mem_cons.mp a with a | a
    · cases a
    · exact ⟨y, a⟩
  | handler i y =>
    refine main hx.1 rfl (fun r => ?_) ?_ ?_
    · unfold Ribbon.setHandler
      rw [P3.normalize_ok hx.2, M_bind_ok]
      exact ⟨_, rfl, rfl, rfl, Or.inl rfl⟩
    · intro j hj z e
      cases e
      exact hj rfl
    · rintro _ r r' e
      unfold Ribbon.setHandler at e
      obtain ⟨_, _, e⟩ := bind_ok e
      cases e; rfl
  | mult i m =>
    refine main hx rfl (fun r => ⟨_, rfl, rfl, rfl, Or.inr (Or.inl rfl)⟩) ?_ ?_
    · intro j hj z e; cases e
    · rintro ⟨_, e⟩; cases e
  | reset i =>
    refine main hx.1 rfl (fun r => ⟨_, rfl, rfl, rfl, Or.inr (Or.inr (by rw [hk]; exact hx.2))⟩) ?_ ?_
    · intro j hj z e; cases e
    · rintro ⟨_, e⟩; cases e
  | _ => cases hc

theorem loaded_run {kind : PatchKind} {xs : List (Call ℝ)} {r : ℕ → Ribbon ℝ} (hk : P.kind = kind)
    (h : Loaded ε n c xs P r) (hx : ∀ x ∈ xs, IsControl x ∧ Allowed ε kind n c v x) :
    ∃ P' r', P.run ε xs = .ok P' ∧ Loaded ε n c [] P' r' := by
  induction xs generalizing P r with
  | nil => exact ⟨P, r, rfl, h⟩
  | cons x xs ih =>
    obtain ⟨P1, r1, e1, h1⟩ := loaded_step hk h (hx x (by simp)).1 (hx x (by simp)).2
    obtain ⟨P2, r2, e2, h2⟩ := ih ((step_inv h.inv e1).2.trans hk) h1 (fun y hy => hx y (List.mem_cons_of_mem _ hy))
    refine ⟨P2, r2, ?_, h2⟩
    unfold Patch.run
    rw [e1, M_bind_ok, e2]

/-- C64: an object of any class is built from a good loop (for the side-based class: one whose angular domain is a convex polygon),
when every side has been given a handler or has a default one; it is usable then, and its domain is a convex polygon. -/
theorem C64_built (hε : 0 < ε) (hε1 : ε ≤ 1) (hl : GoodLoop ε n c) (kind : PatchKind)
    (ha : kind = .sideBased → ∃ d v, Domain.angularUpdate (tab n c) = .ok d ∧ ConvexDomain d n v)
    {ctl : List (Call ℝ)} (hctl : ∀ x ∈ ctl, IsControl x ∧ Allowed ε kind n c v x)
    (hh : kind = .c0Coons ∨ ∀ j < n, HasDefault ε n c j ∨ ∃ h, Call.handler j h ∈ ctl) :
    ∃ P v, (Patch.new kind).run ε ([.curves (tab n c), .loop] ++ ctl ++ [.update]) = .ok P ∧ Usable ε kind n c P ∧ ConvexDomain P.dom.dom n v := by
  have hn := hl.sides
  set P0 : Patch ℝ := (Patch.new kind).setCurves (tab n c)
  have hr0 : P0.surf.ribbons = tab n (fun j => Ribbon.new kind.ribbon (c j)) := by
    change (tab n c).map (Ribbon.new kind.ribbon) = _
    unfold tab
    rw [List.map_map]
    rfl
  have hc0 : P0.curves = tab n c := curves_tab hr0 (fun j _ => rfl)
  set P1 : Patch ℝ := { P0 with linked := true }
  have e0 : (Patch.new kind).step ε (.curves (tab n c)) = .ok P0 := rfl
  have e1 : P0.step ε .loop = .ok P1 := by
    change P0.setupLoop = _
    unfold Patch.setupLoop
    rw [hc0, C26_oriented hl.closed, M_bind_ok, hr0]
    have z : List.zipWith (fun (r : Ribbon ℝ) c => ({ r with curve := c } : Ribbon ℝ)) (tab n (fun j => Ribbon.new kind.ribbon (c j))) (tab n c) =
        tab n fun j => Ribbon.new kind.ribbon (c j) := by
      unfold tab
      rw [List.zipWith_map, List.zipWith_self]
      rfl
    rw [z, ← hr0]
  have hrun1 : (Patch.new kind).run ε [.curves (tab n c), .loop] = .ok P1 := calls_append (xs := [_]) (calls_one e0) (calls_one e1)
  have hi1 := (run_inv (Patch.new_inv ε kind) hrun1).1
  have hl1 : Loaded ε n c ctl P1 (fun j => Ribbon.new kind.ribbon (c j)) := by
    refine ⟨hi1, rfl, hr0, fun j _ => ⟨rfl, rfl⟩, ?_⟩
    exact hh.imp id fun q j hj => Or.inr (q j hj)
  obtain ⟨P2, r, e2, h2⟩ := loaded_run (kind := kind) rfl hl1 hctl
  have hrun2 := calls_append hrun1 e2
  have hk2 : P2.kind = kind := (run_inv (Patch.new_inv ε kind) hrun2).2
  obtain ⟨P3, e3⟩ := Patch.update_total hε hε1 h2.inv h2.linked hl h2.ribbons (fun j hj => (h2.curve j hj).1) (fun j hj => (h2.curve j hj).2)
    (by rw [hk2]; exact ha) (by
      intro q j hj
      rcases h2.handlers.resolve_left q j hj with a | a | ⟨y, a⟩
      · exact Or.inl a
      · exact Or.inr (a.ribbon (h2.curve j hj).1 (h2.curve j hj).2)
      · cases a)
  have hrun3 := calls_append hrun2 (calls_one (x := .update) e3)
  have hup : UpToDate ε kind n c P3 := by
    refine ⟨_, [], P2, P3, hrun2, curves_tab h2.ribbons (fun j hj => (h2.curve j hj).1), ?_, e3, by simp, rfl⟩
    intro q hq
    rw [h2.ribbons] at hq
    unfold tab at hq
    obtain ⟨j, hj, rfl⟩ := List.mem_map.mp hq
    exact (h2.curve j (List.mem_range.mp hj)).2
  have hready := (upToDate_ready hup hn).1
  have hk3 := (upToDate_ready hup hn).2
  have hdom : ∃ v, ConvexDomain P3.dom.dom n v := by
    cases hr : kind.regular with
    | true =>
      obtain ⟨r, φ, _, hd⟩ := hready.regularDomain (by rw [hk3]; exact hr) hn
      exact ⟨_, hd⟩
    | false =>
      obtain ⟨d, v, e, hd⟩ := ha (by cases kind <;> first | rfl | cases hr)
      have := hready.angular (by rw [hk3]; exact hr)
      rw [e] at this
      rw [← Except.ok.inj this]
      exact ⟨v, hd⟩
  obtain ⟨v, hd⟩ := hdom
  refine ⟨P3, v, hrun3, ⟨hup, ?_⟩, hd⟩
  obtain ⟨hin, _⟩ := update_inits h2.inv e3
  rw [handlers_iff, hk3, hin, ← hk2, ← handlers_iff]
  refine h2.handlers.imp id fun q j x hx => ?_
  rw [h2.ribbons] at hx
  have hj : j < n := by simpa using Surf.vget_lt hx
  rw [vget_tab _ hj] at hx
  cases hx
  rcases q j hj with a | a | ⟨y, a⟩
  · exact Or.inl a
  · exact Or.inr a
  · cases a

/-! ### Non-vacuity: a square with sides of length 10 -/

/-- The boundary curves of the square. -/
noncomputable def squareLoop : ℕ → Curve ℝ
  | 0 => segment ⟨0, 0, 0⟩ ⟨10, 0, 0⟩
  | 1 => segment ⟨10, 0, 0⟩ ⟨10, 10, 0⟩
  | 2 => segment ⟨10, 10, 0⟩ ⟨0, 10, 0⟩
  | _ => segment ⟨0, 10, 0⟩ ⟨0, 0, 0⟩

theorem norm_ten {a : P3 ℝ} (h : P3.dot a a = 100) : a.norm = 10 := by
  unfold P3.norm
  rw [h]
  change √(100 : ℝ) = 10
  rw [show (100 : ℝ) = 10 * 10 by norm_num]
  exact Real.sqrt_mul_self (by norm_num)

theorem square_good : GoodLoop (1 / 10000) 4 squareLoop := by
  refine ⟨by norm_num, ?_, ?_, ?_, ?_⟩
  · intro j hj
    interval_cases j <;> (ext <;> norm_num [squareLoop, segment])
  · intro j hj s _ _ h
    have h1 := congrArg P3.x h
    have h2 := congrArg P3.y h
    interval_cases j <;> first | (norm_num [squareLoop, segment] at h1; done) | norm_num [squareLoop, segment] at h2
  · intro j hj
    interval_cases j <;> exact segment_exact (by norm_num) (by norm_num) (by norm_num [P3.dot])
  · intro j hj h
    have h1 := congrArg P3.z h
    interval_cases j <;> norm_num [squareLoop, segment, P3.cross] at h1

/-- The vertices of its angular domain. -/
def squareVertex : ℕ → P2 ℝ
  | 0 => ⟨1, -1⟩
  | 1 => ⟨1, 1⟩
  | 2 => ⟨-1, 1⟩
  | _ => ⟨-1, -1⟩

private theorem square_lengths : Domain.curveLengths (tab 4 squareLoop) = [10, 10, 10, 10] := by
  have h : ∀ j < 4, (squareLoop j).arc 0 1 = 10 := by
    intro j hj
    interval_cases j <;>
    · change (1 - 0) * _ = (10 : ℝ)
      rw [norm_ten (by norm_num [P3.dot])]
      norm_num
  unfold Domain.curveLengths
  simp [tab, List.range_succ, h]

private theorem square_angles : Domain.curveAngles (tab 4 squareLoop) = .ok [π / 2, π / 2, π / 2, π / 2] := by
  have h : ∀ j < 4, ∃ a b : P3 ℝ, ((squareLoop j).der 1).normalize = .ok a ∧ ((squareLoop ((j + 1) % 4)).der 0).normalize = .ok b ∧
      P3.dot (-a) b = 0 := by
    intro j hj
    have hne : ∀ k < 4, ∀ s, (squareLoop k).der s ≠ 0 := by
      intro k hk s h
      have h1 := congrArg P3.x h
      have h2 := congrArg P3.y h
      interval_cases k <;> first | (norm_num [squareLoop, segment] at h1; done) | norm_num [squareLoop, segment] at h2
    refine ⟨_, _, P3.normalize_ok (hne j hj 1), P3.normalize_ok (hne _ (Nat.mod_lt _ (by norm_num)) 0), ?_⟩
    interval_cases j <;> simp [squareLoop, segment, P3.dot]
  have acos0 : Libm.acos (Domain.clamp (0 : ℝ) (-1) 1) = π / 2 := by
    have : Domain.clamp (0 : ℝ) (-1) 1 = 0 := by norm_num [Domain.clamp]
    rw [this]
    exact Real.arccos_zero
  unfold Domain.curveAngles
  rw [length_tab, forLoop_push 4 _ (fun _ => π / 2)]
  · simp [tab, List.range_succ]
  · intro k l hk
    obtain ⟨a, b, h1, h2, h3⟩ := h k hk
    rw [vget_tab _ hk, M_bind_ok, h1, M_bind_ok, vget_tab _ (nextIx_lt (by norm_num)), M_bind_ok]
    change (((squareLoop ((k + 1) % 4)).der 0).normalize >>= _) = _
    rw [h2, M_bind_ok, h3, acos0]

/-- The angular domain of four sides of length 10 and equal angles. -/
theorem square_angular_of {angles : List ℝ} (hturn : Domain.turningAngles angles = .ok [π / 2, π / 2, π / 2, π / 2]) :
    ∃ d, Domain.angularUpdateFrom [10, 10, 10, 10] angles = .ok d ∧ ConvexDomain d 4 squareVertex := by
  have hopen : Domain.openPolygon [10, 10, 10, 10] [π / 2, π / 2, π / 2, π / 2] =
      .ok [⟨10, 0⟩, ⟨10, 10⟩, ⟨0, 10⟩, ⟨0, 0⟩] := by
    have a2 : 0 + π / 2 + π / 2 = π := by ring
    have a3 : π + π / 2 = π / 2 + π := by ring
    have e0 : (0 : P2 ℝ) + (10 : ℝ) • ⟨cos 0, sin 0⟩ = ⟨10, 0⟩ := by ext <;> simp
    have e1 : (⟨10, 0⟩ : P2 ℝ) + (10 : ℝ) • ⟨cos (0 + π / 2), sin (0 + π / 2)⟩ = ⟨10, 10⟩ := by ext <;> simp
    have e2 : (⟨10, 10⟩ : P2 ℝ) + (10 : ℝ) • ⟨cos π, sin π⟩ = ⟨0, 10⟩ := by ext <;> simp
    have e3 : (⟨0, 10⟩ : P2 ℝ) + (10 : ℝ) • ⟨cos (π / 2 + π), sin (π / 2 + π)⟩ = ⟨0, 0⟩ := by
      rw [cos_add_pi, sin_add_pi]; ext <;> simp
    unfold Domain.openPolygon
    simp only [List.length_cons, List.length_nil, forLoop, M_bind_ok, vget, List.getElem?_cons_zero,
      List.getElem?_cons_succ, List.nil_append, List.cons_append]
    simp only [show ∀ x : ℝ, Libm.cos x = cos x from fun _ => rfl, show ∀ x : ℝ, Libm.sin x = sin x from fun _ => rfl,
      a2, a3, e0, e1, e2, e3]
  have hclose : Domain.closePolygon [10, 10, 10, 10] [⟨10, 0⟩, ⟨10, 10⟩, ⟨0, 10⟩, ⟨0, 0⟩] =
      .ok ([⟨10, 0⟩, ⟨10, 10⟩, ⟨0, 10⟩, ⟨0, 0⟩] : List (P2 ℝ)) := by
    have h1 : ([10, 10, 10, 10] : List ℝ) = tab 4 (fun _ => 10) := by simp [tab, List.range_succ]
    have hsum : ∑ k ∈ Finset.range 4, (10 : ℝ) ≠ 0 := by simp
    have h2 : ([⟨10, 0⟩, ⟨10, 10⟩, ⟨0, 10⟩, ⟨0, 0⟩] : List (P2 ℝ)) =
        tab 4 (fun i => ([⟨10, 0⟩, ⟨10, 10⟩, ⟨0, 10⟩, ⟨0, 0⟩] : List (P2 ℝ)).getD i 0) := by
      simp [tab, List.range_succ]
    rw [h2, h1, closePolygon_eq _ _ hsum]
    congr 1
    apply tab_congr
    intro i _
    have : ([⟨10, 0⟩, ⟨10, 10⟩, ⟨0, 10⟩, ⟨0, 0⟩] : List (P2 ℝ)).getD (4 - 1) 0 = 0 := rfl
    rw [this, smul_zero, sub_zero]
  have hresc : Domain.rescale [⟨10, 0⟩, ⟨10, 10⟩, ⟨0, 10⟩, ⟨0, 0⟩] = .ok (tab 4 squareVertex) := by
    unfold Domain.rescale
    have m1 : ([⟨10, 0⟩, ⟨10, 10⟩, ⟨0, 10⟩, ⟨0, 0⟩] : List (P2 ℝ)).foldl (fun m v => min m v.x) 0 = 0 := by norm_num
    have m2 : ([⟨10, 0⟩, ⟨10, 10⟩, ⟨0, 10⟩, ⟨0, 0⟩] : List (P2 ℝ)).foldl (fun m v => min m v.y) 0 = 0 := by norm_num
    have m3 : ([⟨10, 0⟩, ⟨10, 10⟩, ⟨0, 10⟩, ⟨0, 0⟩] : List (P2 ℝ)).foldl (fun m v => max m v.x) 0 = 10 := by norm_num
    have m4 : ([⟨10, 0⟩, ⟨10, 10⟩, ⟨0, 10⟩, ⟨0, 0⟩] : List (P2 ℝ)).foldl (fun m v => max m v.y) 0 = 10 := by norm_num
    dsimp only
    rw [m1, m2, m3, m4, max_self, fdiv_of_ne (by norm_num), M_bind_ok]
    congr 1
    simp only [tab, List.range_succ, List.range_zero, List.map_append, List.map_cons, List.map_nil, List.nil_append, List.cons_append]
    congr 1
    · ext <;> norm_num [squareVertex]
    · congr 1
      · ext <;> norm_num [squareVertex]
      · congr 1
        · ext <;> norm_num [squareVertex]
        · congr 1
          ext <;> norm_num [squareVertex]
  have hvs : Domain.angularVertices [10, 10, 10, 10] angles = .ok (tab 4 squareVertex) := by
    unfold Domain.angularVertices
    rw [hturn, M_bind_ok, hopen, M_bind_ok, hclose, M_bind_ok, hresc]
  have hconv : StrictConvex 4 squareVertex := by
    intro i hi j hj h1 h2
    interval_cases i <;> interval_cases j <;> simp_all [leftOf, area2, squareVertex] <;> norm_num
  have hcheck : Domain.convexCheck (tab 4 squareVertex) = .ok true := by
    obtain ⟨b, e, hb⟩ := C09_check_iff (n := 4) squareVertex (by
      intro i hi h
      have h1 := congrArg P2.x h
      have h2 := congrArg P2.y h
      interval_cases i <;> first | (norm_num [squareVertex] at h1; done) | norm_num [squareVertex] at h2)
    rw [e, show b = true from hb.mpr ?_]
    intro i hi
    right
    interval_cases i <;> norm_num [area2, squareVertex]
  obtain ⟨d, e, -, -, hd⟩ := C08_center_inside (by norm_num) hconv
  refine ⟨d, ?_, by norm_num, hconv, hd, ?_⟩
  · unfold Domain.angularUpdateFrom
    rw [hvs, M_bind_ok, hcheck, M_bind_ok, if_pos rfl, e]
  · unfold Domain.update at e
    obtain ⟨z, h1, h2⟩ := bind_ok e
    have : d.center = z := by
      unfold Domain.updateFrom at h2
      obtain ⟨fr, -, h3⟩ := bind_ok h2
      rw [← Except.ok.inj h3]
    rw [this, h2]

theorem square_angular : ∃ d, Domain.angularUpdate (tab 4 squareLoop) = .ok d ∧ ConvexDomain d 4 squareVertex := by
  have hturn : Domain.turningAngles [π / 2, π / 2, π / 2, π / 2] = .ok [π / 2, π / 2, π / 2, π / 2] := by
    have hs : [π / 2, π / 2, π / 2, π / 2].sum = 2 * π := by simp; ring
    unfold Domain.turningAngles
    rw [hs, fdiv_of_ne (by positivity), M_bind_ok]
    have : (([π / 2, π / 2, π / 2, π / 2].length - 2 : ℕ) : ℝ) * Libm.pi / (2 * π) = 1 := by
      change ((4 - 2 : ℕ) : ℝ) * π / (2 * π) = 1
      have := pi_pos.ne'
      field_simp; norm_num
    simp only [this]
    have : Libm.pi - π / 2 = π / 2 := by change π - π / 2 = π / 2; ring
    simp [this]
  unfold Domain.angularUpdate
  rw [square_angles, M_bind_ok, square_lengths]
  exact square_angular_of hturn

/-- The calls giving each side the handler (1,2,3). -/
def squareHandlers : List (Call ℝ) := [.handler 0 ⟨1, 2, 3⟩, .handler 1 ⟨1, 2, 3⟩, .handler 2 ⟨1, 2, 3⟩, .handler 3 ⟨1, 2, 3⟩]

/-- C64 applies to the square: every class of surfaces can be built on it. -/
theorem square_built (kind : PatchKind) : ∃ P v, (Patch.new kind).run (1 / 10000) ([.curves (tab 4 squareLoop), .loop] ++ squareHandlers ++ [.update]) = .ok P ∧
    Usable (1 / 10000) kind 4 squareLoop P ∧ ConvexDomain P.dom.dom 4 v ∧ (kind = .sideBased → ConvexDomain P.dom.dom 4 squareVertex) := by
  have hne : (⟨1, 2, 3⟩ : P3 ℝ) ≠ 0 := fun h => by simpa using congrArg P3.x h
  obtain ⟨P, v, h1, h2, h3⟩ := C64_built (v := squareVertex) (by norm_num) (by norm_num) square_good kind (fun _ => by
    obtain ⟨d, hd⟩ := square_angular
    exact ⟨d, squareVertex, hd⟩) (ctl := squareHandlers) (by
    intro x hx
    simp only [squareHandlers, List.mem_cons, List.not_mem_nil, or_false] at hx
    rcases hx with rfl | rfl | rfl | rfl <;> exact ⟨trivial, by norm_num, hne⟩) (by
    right
    intro j hj
    right
    refine ⟨⟨1, 2, 3⟩, ?_⟩
    interval_cases j <;> simp [squareHandlers])
  refine ⟨P, v, h1, h2, h3, ?_⟩
  intro hk
  obtain ⟨hr, hk'⟩ := upToDate_ready h2.1 (by norm_num)
  obtain ⟨d, d1, d2⟩ := square_angular
  have := hr.angular (by rw [hk', hk]; rfl)
  rw [d1] at this
  rw [← Except.ok.inj this]
  exact d2

private theorem square_loop : Loop 4 squareLoop := ⟨square_good.sides, square_good.closed, square_good.regular⟩

private theorem square_sin : sin (2 * π / (4 : ℕ)) = 1 ∧ 1 / 2 ≤ sin (π / (4 : ℕ)) := by
  constructor
  · rw [show 2 * π / ((4 : ℕ) : ℝ) = π / 2 by push_cast; ring, sin_pi_div_two]
  · push_cast
    rw [sin_pi_div_four]
    have : (1 : ℝ) ≤ √2 := by rw [Real.one_le_sqrt]; norm_num
    linarith

/-- The hypotheses of C30_side hold on the square. -/
example : ∃ P, UpToDate (1 / 10000) .sideBased 4 squareLoop P ∧ SideValue (1 / 10000) P 1 (1 / 3) ((squareLoop 1).pt (1 / 3)) := by
  obtain ⟨P, v, -, h, -, hd⟩ := square_built .sideBased
  refine ⟨P, h.1, C30_side (by norm_num) square_loop square_good.exact h.1 (hd rfl) (by norm_num) (by norm_num) (by norm_num) ?_ ?_⟩
  · unfold SideTol
    norm_num [squareVertex, leftOf, area2, P2.dot]
  · intro j hj hne k hk
    interval_cases j <;> first | exact absurd rfl hne | (interval_cases k <;> norm_num [leftOf, area2, squareVertex, sidePoint])

/-- The hypotheses of C30_corner hold on the square. -/
example : ∃ P, UpToDate (1 / 10000) .sideBased 4 squareLoop P ∧ SideValue (1 / 10000) P 1 1 ((squareLoop 1).pt 1) := by
  obtain ⟨P, v, -, h, -, hd⟩ := square_built .sideBased
  refine ⟨P, h.1, C30_corner (by norm_num) square_loop square_good.exact h.1 (hd rfl) (by norm_num) ?_ ?_ ?_⟩
  · unfold SideTol
    norm_num [squareVertex, leftOf, area2, P2.dot]
  · unfold SideTol
    norm_num [squareVertex, leftOf, area2, P2.dot]
  · intro j hj hne hne' k hk
    interval_cases j <;> first | exact absurd rfl hne | exact absurd rfl hne' | (interval_cases k <;> norm_num [leftOf, area2, squareVertex, sidePoint])

/-- C31 to C35 apply to the square. -/
example {i : ℕ} {s : ℝ} (hi : i < 4) (h0 : 1 / 10000 ≤ s) (h1 : s ≤ 9999 / 10000) :
    (∃ P, UpToDate (1 / 10000) .cornerBased 4 squareLoop P ∧ SideValue (1 / 10000) P i s ((squareLoop i).pt s)) ∧
    (∃ P, UpToDate (1 / 10000) .generalizedCoons 4 squareLoop P ∧ SideValue (1 / 10000) P i s ((squareLoop i).pt s)) ∧
    (∃ P, UpToDate (1 / 10000) .compositeRibbon 4 squareLoop P ∧ SideValue (1 / 10000) P i s ((squareLoop i).pt s)) ∧
    (∃ P, UpToDate (1 / 10000) .midpoint 4 squareLoop P ∧ SideValue (1 / 10000) P i s ((squareLoop i).pt s)) ∧
    (∃ P, UpToDate (1 / 10000) .midpointCoons 4 squareLoop P ∧ SideValue (1 / 10000) P i s ((squareLoop i).pt s)) ∧
    (∃ P, UpToDate (1 / 10000) .c0Coons 4 squareLoop P ∧ SideValue (1 / 10000) P i s ((squareLoop i).pt s)) := by
  obtain ⟨e1, e2⟩ := square_sin
  refine ⟨?_, ?_, ?_, ?_, ?_, ?_⟩
  · obtain ⟨P, v, -, h, -, -⟩ := square_built .cornerBased
    exact ⟨P, h.1, C31_side (by norm_num) (by norm_num) (by rw [e1]; norm_num) square_loop square_good.exact h.1 hi (by linarith) (by linarith)
      (fun h => absurd h (by norm_num))⟩
  · obtain ⟨P, v, -, h, -, -⟩ := square_built .generalizedCoons
    exact ⟨P, h.1, C32_side (by norm_num) (by rw [e1]; linarith) square_loop square_good.exact h.1 hi (by linarith) (by linarith)
      (fun h => absurd h (by norm_num))⟩
  · obtain ⟨P, v, -, h, -, -⟩ := square_built .compositeRibbon
    exact ⟨P, h.1, C33_side (by norm_num) (by norm_num) square_loop square_good.exact h.1 hi (by linarith) (by linarith)⟩
  · obtain ⟨P, v, -, h, -, -⟩ := square_built .midpoint
    exact ⟨P, h.1, C34_midpoint (by norm_num) (by norm_num) square_loop square_good.exact h.1 hi (Or.inl h0) (Or.inl (by linarith))⟩
  · obtain ⟨P, v, -, h, -, -⟩ := square_built .midpointCoons
    exact ⟨P, h.1, C34_midpointCoons (by norm_num) (by rw [e1]; linarith) square_loop square_good.exact h.1 hi (Or.inl h0) (Or.inl (by linarith))⟩
  · obtain ⟨P, v, -, h, -, -⟩ := square_built .c0Coons
    exact ⟨P, h.1, C35_side (by norm_num) (by norm_num) square_good.sides square_good.closed h.1 hi (by linarith) (Or.inl (by linarith))⟩

/-- The hypotheses of C64_call and C64_history hold for any of the objects built above: a longer history. -/
example (kind : PatchKind) : ∃ P P', Usable (1 / 10000) kind 4 squareLoop P ∧
    P.run (1 / 10000) [.gamma true, .mesh 15, .handler 2 ⟨0, 0, 1⟩, .mult 3 (-2), .updateSide 2, .domainParams 7, .update, .mesh 4] = .ok P' ∧
    Usable (1 / 10000) kind 4 squareLoop P' := by
  obtain ⟨P, v, -, h, hd, -⟩ := square_built kind
  obtain ⟨P', e, h', -⟩ := C64_history (by norm_num) (by norm_num) square_good h hd
    (xs := [.gamma true, .mesh 15, .handler 2 ⟨0, 0, 1⟩, .mult 3 (-2), .updateSide 2, .domainParams 7, .update, .mesh 4]) (by
      intro x hx
      simp only [List.mem_cons, List.not_mem_nil, or_false] at hx
      rcases hx with rfl | rfl | rfl | rfl | rfl | rfl | rfl | rfl
      · trivial
      · change 1 ≤ 15; norm_num
      · exact ⟨by norm_num, fun h => by simpa using congrArg P3.z h⟩
      · change 3 < 4; norm_num
      · change 2 < 4; norm_num
      · change 1 ≤ 7; norm_num
      · trivial
      · change 1 ≤ 4; norm_num)
  exact ⟨P, P', h, e, h'⟩

/-- The hypotheses of C37_mesh and C37_defined hold on the square, for every class and resolution. -/
example (kind : PatchKind) {res : ℕ} (hr : 1 ≤ res) : ∃ P m P', (Patch.new kind).run (1 / 10000) ([.curves (tab 4 squareLoop), .loop] ++ squareHandlers ++ [.update]) = .ok P ∧
    3 ≤ P.dom.dom.n ∧ P.evalMesh (1 / 10000) res = .ok (m, P') := by
  obtain ⟨P, v, e, h, hd, -⟩ := square_built kind
  obtain ⟨P', e', -, -⟩ := C64_call (by norm_num) (by norm_num) square_good h hd (x := .mesh res) hr
  change (P.evalMesh (1 / 10000) res >>= _) = _ at e'
  obtain ⟨m, h1, h2⟩ := bind_ok e'
  exact ⟨P, m.1, m.2, e, by rw [hd.n_eq]; norm_num, h1⟩

end Transfinite
