import Verif.Lemmas.SharingReach
import Verif.Props.Barycentric

/-! # Copies of a surface (C40) -/

namespace Transfinite

open Spec

variable {K : Type} [Field K] [LinearOrder K] [Libm K]

/-- C40: when the numbers of sides of the surfaces do not change after they have been set up, and only such surfaces are copied,
then the sharing cannot be seen: the program fails exactly when it would with surfaces that own their data (with the same fault), and
otherwise every surface is the same as there. -/
theorem C40_deep (ε : K) (arc : List (P3 K) → K → K → K) {ops : List (Op K)} (ht : TameRun ε arc World.empty ops) :
    (∀ e, (World.empty : World K).run ε arc ops = .error e ↔ deepRun ε arc [] ops = .error e) ∧
    ∀ W, (World.empty : World K).run ε arc ops = .ok W → ∃ V : List (GB K), deepRun ε arc [] ops = .ok V ∧ V.length = W.objs.length ∧
      ∀ k < V.length, ∃ G H, W.view k = .ok G ∧ vget V k = .ok H ∧ SameSurface ε G H := by
  have h := (Sim.empty ε).run (arc := arc) ops ht
  cases e1 : (World.empty : World K).run ε arc ops with
  | error x =>
    cases e2 : deepRun ε arc ([] : List (GB K)) ops with
    | error y =>
      rw [e1, e2] at h
      have h : x = y := h
      subst h
      refine ⟨fun z => ⟨fun q => ?_, fun q => ?_⟩, fun W q => by cases q⟩ <;> cases q <;> rfl
    | ok V => rw [e1, e2] at h; exact h.elim
  | ok W =>
    cases e2 : deepRun ε arc ([] : List (GB K)) ops with
    | error y => rw [e1, e2] at h; exact h.elim
    | ok V =>
      rw [e1, e2] at h
      have h : Sim ε W V := h
      refine ⟨fun e => ⟨fun q => ?_, fun q => ?_⟩, fun W' q => ?_⟩
      · cases q
      · cases q
      cases q
      refine ⟨V, rfl, h.len, fun k hk => ?_⟩
      obtain ⟨o, ho⟩ : ∃ o, W.objs[k]? = some o := ⟨_, List.getElem?_eq_getElem (by rw [← h.len]; exact hk)⟩
      obtain ⟨c, v, q1, q2, q3⟩ := h.like k o ho
      refine ⟨_, v, ?_, vget_some q2, q3.sameSurface⟩
      unfold World.view
      rw [vget_some ho, M_bind_ok, vget_some q1]
      rfl

/-- C40: a surface and its copy have the same domain. After any program, when surface `k` is copied and the copy is changed (`cs`, which can set
another number of sides) and set up, the surface `k` keeps its control points, its curves and its number
of sides, but its domain is that of the copy; and when the copy has fewer sides, the original cannot be evaluated at any point. -/
theorem C40_shared {ε : K} {arc : List (P3 K) → K → K → K} {ops : List (Op K)} {W W' : World K} {k : ℕ} {G : GB K} {cs : List (GB.Call K)}
    (h : (World.empty : World K).run ε arc ops = .ok W) (hG : W.view k = .ok G)
    (h' : W.run ε arc (.copy k :: (cs ++ [GB.Call.loop]).map (Op.call W.objs.length)) = .ok W') :
    ∃ G' C : GB K, W'.view k = .ok G' ∧ W'.view W.objs.length = .ok C ∧
      G' = { G with dom := C.dom, param := C.param } ∧ C.dom.dom.n = C.n ∧ (0 < C.n → C.n < G.n → ∀ uv r, G'.eval ε uv ≠ .ok r) := by
  have hr := (Reach.empty ε).run h
  unfold World.run at h'
  obtain ⟨W1, e1, h'⟩ := bind_ok h'
  unfold World.step at e1
  dsimp only at e1
  obtain ⟨o, e2, e1⟩ := bind_ok e1
  cases e1
  have e2 := vget_ok_some e2
  have hk : k < W.objs.length := (List.getElem?_eq_some_iff.mp e2).1
  rw [List.map_append] at h'
  obtain ⟨W2, h1, h2⟩ := World.run_append h'
  have hr1 : Reach ε (⟨W.objs ++ [o], W.cells⟩ : World K) := hr.step (op := .copy k) (arc := arc) (by
    unfold World.step
    dsimp only
    rw [vget_some e2]
    rfl)
  have hr2 := hr1.run h1
  obtain ⟨p1, o1, p2, p3⟩ := World.calls_ok (o := o) (o' := o) (k := k) (by omega) cs (by dsimp only; rw [List.getElem?_append_left hk]; exact e2)
    List.getElem?_concat_length rfl h1
  have hr3 := hr2.run h2
  rw [List.map_singleton] at h2
  unfold World.run at h2
  obtain ⟨W3, e3, h2⟩ := bind_ok h2
  unfold World.run at h2
  cases h2
  obtain ⟨a, c, C, q1, q2, q3, rfl⟩ := World.call_ok e3
  rw [p2] at q1
  cases q1
  have hj : W.objs.length < W2.objs.length := (List.getElem?_eq_some_iff.mp p2).1
  have hcl : o1.2 < W2.cells.length := (List.getElem?_eq_some_iff.mp q2).1
  obtain ⟨c0, z1, z2⟩ := hr2.inv _ _ p2
  rw [q2] at z1
  cases z1
  have q3' := q3
  unfold GB.step at q3'
  obtain ⟨i1, i2⟩ := GB.setupLoop_inv q3' z2
  have v1 : (⟨W2.objs.set W.objs.length (C, o1.2), W2.cells.set o1.2 ⟨C.dom, C.param⟩⟩ : World K).view k = .ok (o.1.withCell ⟨C.dom, C.param⟩) := by
    unfold World.view
    rw [vget_some (a := o) (by rw [List.getElem?_set_ne (by omega)]; exact p1), M_bind_ok, ← p3, vget_some (List.getElem?_set_self hcl)]
    rfl
  refine ⟨_, C, v1, ?_, ?_, i2, fun hpos hlt uv r hev => ?_⟩
  · unfold World.view
    rw [vget_some (List.getElem?_set_self hj), M_bind_ok, vget_some (List.getElem?_set_self hcl)]
    rfl
  · unfold World.view at hG
    rw [vget_some e2, M_bind_ok] at hG
    obtain ⟨c1, _, hG⟩ := bind_ok hG
    cases hG
    rfl
  · have hn : G.n = o.1.n := by
      unfold World.view at hG
      rw [vget_some e2, M_bind_ok] at hG
      obtain ⟨c1, _, hG⟩ := bind_ok hG
      cases hG
      rfl
    unfold GB.eval at hev
    obtain ⟨x, e4, hev⟩ := bind_ok hev
    obtain ⟨p, e5, _⟩ := bind_ok hev
    refine GB.evalWith_fails ?_ p e5
    have hkind : C.kind = o.1.kind := by
      have w1 := (GB.setupLoop_keeps q3').kind
      rw [w1]
      exact hr2.kind _ _ _ _ p2 p1 p3
    have hf := i1.param.resolve_left (by omega)
    rw [hkind] at hf
    obtain ⟨o0, cl, f1, f2, f3⟩ := hf
    have hl := (C19_elements f1 f3 e4).1
    rw [Patch.lastDomain_queries f2, i1.len, i2] at hl
    rw [hl]
    change C.n < o.1.n
    omega

/-! Examples: two four-sided corner-based patches, where the copy is edited; and where the copy becomes a three-sided one. -/

section Example

attribute [local instance] libmQ

/-- A decision procedure for the examples. -/
def tameCheck (ε : ℚ) (arc : List (P3 ℚ) → ℚ → ℚ → ℚ) : World ℚ → List (Op ℚ) → Bool
  | _, [] => true
  | W, op :: ops =>
    (match op with
      | .new _ _ _ => true
      | .copy k => match W.view k with | .ok G => decide (G.dom.dom.n ≠ 0) | .error _ => true
      | .assign _ l => match W.view l with | .ok G => decide (G.dom.dom.n ≠ 0) | .error _ => true
      | .call k _ => match W.view k with | .ok G => decide (G.dom.dom.n = 0 ∨ G.dom.dom.n = G.n) | .error _ => true) &&
    (match W.step ε arc op with
      | .ok W' => tameCheck ε arc W' ops
      | .error _ => true)

theorem tameCheck_ok {ε : ℚ} {arc : List (P3 ℚ) → ℚ → ℚ → ℚ} {ops : List (Op ℚ)} {W : World ℚ} (h : tameCheck ε arc W ops = true) : TameRun ε arc W ops := by
  induction ops generalizing W with
  | nil => trivial
  | cons op ops ih =>
    unfold tameCheck at h
    rw [Bool.and_eq_true] at h
    obtain ⟨h1, h2⟩ := h
    refine ⟨?_, fun W' e => ?_⟩
    · cases op with
      | new _ _ _ => trivial
      | copy k => intro G e; dsimp only at h1; rw [e] at h1; exact of_decide_eq_true h1
      | assign k l => intro G e; dsimp only at h1; rw [e] at h1; exact of_decide_eq_true h1
      | call k c =>
        cases c with
        | loop => intro G e; dsimp only at h1; rw [e] at h1; exact of_decide_eq_true h1
        | _ => trivial
    · rw [e] at h2
      exact ih h2

def exKind : GBKind ℚ := .corner fun x _ => x

def exArc : List (P3 ℚ) → ℚ → ℚ → ℚ := fun _ _ _ => 0

/-- A patch with a non-zero control point. -/
def exOps : List (Op ℚ) := [.new exKind 0 0, .call 0 (.init 4 3), .call 0 (.set 0 0 0 ⟨1, 2, 3⟩), .call 0 .loop]

example : TameRun (1 / 100) exArc (World.empty : World ℚ)
    (exOps ++ [Op.copy 0, Op.call 1 (.set 0 1 1 ⟨5, 5, 5⟩), Op.call 1 .loop, Op.call 0 (.eval ⟨0, 0⟩), Op.assign 0 1]) :=
  tameCheck_ok (by decide +kernel)

/-- Before the assignment the two surfaces differ. -/
example : (do
    let W ← (World.empty : World ℚ).run (1 / 100) exArc (exOps ++ [Op.copy 0, Op.call 1 (.set 0 1 1 ⟨5, 5, 5⟩), Op.call 1 .loop, Op.call 0 (.eval ⟨0, 0⟩)])
    let G ← W.view 0
    let C ← W.view 1
    let p ← G.controlPoint 0 1 1
    let q ← C.controlPoint 0 1 1
    .ok (W.objs.length, p.x, q.x) : M (ℕ × ℚ × ℚ)) = .ok (2, 0, 5) := by decide +kernel

/-- The hypotheses of `C40_shared`, and what happens: the original has four sides, but its domain has three. -/
example : (do
    let W ← (World.empty : World ℚ).run (1 / 100) exArc exOps
    let G ← W.view 0
    let W' ← W.run (1 / 100) exArc (Op.copy 0 :: ([GB.Call.init 3 3] ++ [GB.Call.loop]).map (Op.call W.objs.length))
    let G' ← W'.view 0
    let C ← W'.view 1
    .ok (G.n, G.dom.dom.n, G'.n, G'.dom.dom.n, C.n) : M (ℕ × ℕ × ℕ × ℕ × ℕ)) = .ok (4, 4, 4, 3, 3) := by decide +kernel

/-- The original could be evaluated before, but not after. -/
example : (do
    let W ← (World.empty : World ℚ).run (1 / 100) exArc exOps
    let G ← W.view 0
    let r ← G.eval (1 / 100) ⟨0, 0⟩
    .ok (decide (r.1.x = 0)) : M Bool) = .ok false ∧
  (do
    let W ← (World.empty : World ℚ).run (1 / 100) exArc (exOps ++ [Op.copy 0, Op.call 1 (.init 3 3), Op.call 1 .loop])
    let G ← W.view 0
    let r ← G.eval (1 / 100) ⟨0, 0⟩
    .ok (decide (r.1.x = 0)) : M Bool) = .error .oob := by decide +kernel

end Example

end Transfinite
