import Verif.Lemmas.ShiftPatch
import Verif.Props.Total

/-! # C89: it does not matter which boundary curve is the first one

When the curves of a loop are given in the same cyclic order but starting `k` curves later, all side numbers move by `k`, and every call
of the one surface succeeds exactly when the corresponding call of the other one does. The surfaces are the same: the value of the second one at `uv`
is that of the first one at `uv` rotated by `k` times the angle of a side. This holds in the classes with regular domains. -/

namespace Transfinite

open Spec

variable {n k : ℕ} {ε : ℝ} {kind : PatchKind}

/-- Corresponding histories of two surfaces: the first call gives the curves, then there are corresponding calls. -/
def SameHistory (n k : ℕ) (h h' : List (Patch.Call ℝ)) : Prop :=
  ∃ cs xs xs', cs.length = n ∧ ClosedLoop cs ∧ List.Forall₂ (SameCall n k) xs xs' ∧ h = .curves cs :: xs ∧ h' = .curves (cs.rotate k) :: xs'

private theorem shifted (hε : ε ≤ 1) (hk : kind.regular = true) (hn : 3 ≤ n) {h h' : List (Patch.Call ℝ)} (hh : SameHistory n k h h') :
    Alike (ShiftedPatch ε n k) ((Patch.new kind).run ε h) ((Patch.new kind).run ε h') := by
  obtain ⟨cs, xs, xs', hl, hc, hx, rfl, rfl⟩ := hh
  have h0 : ShiftedPatch ε n k ((Patch.new kind).setCurves cs) ((Patch.new kind).setCurves (cs.rotate k)) :=
    ShiftedPatch.setCurves rfl hk rfl Rot.nil rfl rfl rfl rfl rfl (Or.inr ⟨fun e => by
      have : (0 : ℕ) = n := e
      omega, ⟨rfl, fun x hx => by cases hx⟩, rfl, fun x hx => by cases hx⟩) hl hc
  exact h0.run hn hε hx

/-- C89: corresponding histories fail or succeed together. -/
theorem C89_history (hε : ε ≤ 1) (hk : kind.regular = true) (hn : 3 ≤ n) {h h' : List (Patch.Call ℝ)} (hh : SameHistory n k h h') :
    (∃ P, (Patch.new kind).run ε h = .ok P) ↔ ∃ P', (Patch.new kind).run ε h' = .ok P' := by
  have H := shifted hε hk hn hh
  constructor
  · rintro ⟨P, e⟩
    obtain ⟨P', e', -⟩ := H.ok e
    exact ⟨P', e'⟩
  · rintro ⟨P', e⟩
    obtain ⟨P, e', -⟩ := H.ok' e
    exact ⟨P, e'⟩

/-- C89: the surfaces are the same, up to a rotation of the parameter domain. -/
theorem C89_eval (hε : ε ≤ 1) (hk : kind.regular = true) (hn : 3 ≤ n) {h h' : List (Patch.Call ℝ)} (hh : SameHistory n k h h') {P P' : Patch ℝ}
    (e : (Patch.new kind).run ε h = .ok P) (e' : (Patch.new kind).run ε h' = .ok P') (uv : P2 ℝ) (p : P3 ℝ) :
    (∃ Q, P.eval ε (turned n k uv) = .ok (p, Q)) ↔ ∃ Q', P'.eval ε uv = .ok (p, Q') := by
  have H := shifted hε hk hn hh
  obtain ⟨R, e1, hP⟩ := H.ok e
  rw [e'] at e1
  cases e1
  have E := hP.eval hn hε uv
  constructor
  · rintro ⟨Q, q⟩
    obtain ⟨⟨y, R'⟩, q', hx⟩ := E.ok q
    obtain rfl : p = y := hx.1
    exact ⟨R', q'⟩
  · rintro ⟨Q', q⟩
    obtain ⟨⟨y, R'⟩, q', hx⟩ := E.ok' q
    obtain rfl : y = p := hx.1
    exact ⟨R', q'⟩

/-- C89: the boundary curves and ribbons are the same, counted from another one. -/
theorem C89_ribbons (hε : ε ≤ 1) (hk : kind.regular = true) (hn : 3 ≤ n) {h h' : List (Patch.Call ℝ)} (hh : SameHistory n k h h') {P P' : Patch ℝ}
    (e : (Patch.new kind).run ε h = .ok P) (e' : (Patch.new kind).run ε h' = .ok P') :
    P.surf.ribbons.length = n ∧ P'.surf.ribbons = P.surf.ribbons.rotate k ∧ P'.dom.dom = P.dom.dom := by
  obtain ⟨R, e1, hP⟩ := (shifted hε hk hn hh).ok e
  rw [e'] at e1
  cases e1
  exact ⟨hP.surf.len, hP.surf.ribbons.eq, hP.dom⟩

/-- C89: the local parameters of a side are those of the corresponding side. -/
theorem C89_params (hε : ε ≤ 1) (hk : kind.regular = true) (hn : 3 ≤ n) {h h' : List (Patch.Call ℝ)} (hh : SameHistory n k h h') {P P' : Patch ℝ}
    (e : (Patch.new kind).run ε h = .ok P) (e' : (Patch.new kind).run ε h' = .ok P') (uv : P2 ℝ) (l : List (P2 ℝ)) :
    (∃ o, Param.mapToRibbons ε P.kind.param (turned n k uv) P.param = .ok (l, o)) → ∃ o', Param.mapToRibbons ε P'.kind.param uv P'.param = .ok (l.rotate k, o') := by
  obtain ⟨R, e1, hP⟩ := (shifted hε hk hn hh).ok e
  rw [e'] at e1
  cases e1
  rintro ⟨o, q⟩
  obtain ⟨x, q', hx⟩ := (hP.maps hn hε uv).ok q
  exact ⟨x.2, by rw [q', ← hx.1.eq]⟩

/-! ### Example -/

/-- The square has the corners as in the specification. -/
theorem square_closedLoop : ClosedLoop (tab 4 squareLoop) := by
  refine ⟨0, fun i => match i with
    | 0 => ⟨10, 0, 0⟩
    | 1 => ⟨10, 10, 0⟩
    | 2 => ⟨0, 10, 0⟩
    | _ => ⟨0, 0, 0⟩, fun i hi j hj hij => ?_, fun i hi c hc => Or.inl ?_⟩
  · rw [length_tab] at hi hj
    rw [mul_zero]
    refine P3.norm_pos fun e => ?_
    have ex := congrArg P3.x e
    have ey := congrArg P3.y e
    interval_cases i <;> interval_cases j <;> first | exact absurd rfl hij | (norm_num at ex; done) | (norm_num at ey; done)
  · rw [length_tab] at hi ⊢
    rw [vget_eq_ok.mp (vget_tab squareLoop hi)] at hc
    cases hc
    have z : ∀ {a b : P3 ℝ}, a = b → (a - b).norm ≤ 0 := fun {a b} h => by rw [h, sub_self, P3.norm_eq_zero.mpr rfl]
    interval_cases i <;> exact ⟨z (by ext <;> norm_num [squareLoop, segment]), z (by ext <;> norm_num [squareLoop, segment])⟩

/-- The histories of the square, and of the square starting at its second side. -/
theorem square_shifted : SameHistory 4 1 ([.curves (tab 4 squareLoop), .loop] ++ squareHandlers ++ [.update])
    [.curves ((tab 4 squareLoop).rotate 1), .loop, .handler 3 ⟨1, 2, 3⟩, .handler 0 ⟨1, 2, 3⟩, .handler 1 ⟨1, 2, 3⟩, .handler 2 ⟨1, 2, 3⟩, .update] := by
  refine ⟨_, _, _, length_tab _ _, square_closedLoop, ?_, rfl, rfl⟩
  exact .cons .loop (.cons (.handler 3 (by norm_num) _) (.cons (.handler 0 (by norm_num) _) (.cons (.handler 1 (by norm_num) _) (.cons (.handler 2 (by norm_num) _) (.cons .update .nil)))))

/-- Alike squares can be built; a point on the second side of the first one is the corresponding point on the first side of the second one. -/
example : ∃ P P' uv Q Q', (Patch.new .compositeRibbon).run (1 / 10000) ([.curves (tab 4 squareLoop), .loop] ++ squareHandlers ++ [.update]) = .ok P ∧
    (Patch.new .compositeRibbon).run (1 / 10000)
      [.curves ((tab 4 squareLoop).rotate 1), .loop, .handler 3 ⟨1, 2, 3⟩, .handler 0 ⟨1, 2, 3⟩, .handler 1 ⟨1, 2, 3⟩, .handler 2 ⟨1, 2, 3⟩, .update] = .ok P' ∧
    P'.eval (1 / 10000) uv = .ok ((squareLoop 1).pt (1 / 3), Q') ∧ P.eval (1 / 10000) (turned 4 1 uv) = .ok ((squareLoop 1).pt (1 / 3), Q) := by
  obtain ⟨P, v, h, hu, -⟩ := square_built .compositeRibbon
  obtain ⟨P', h'⟩ := (C89_history (by norm_num) rfl (by norm_num) square_shifted).mp ⟨P, h⟩
  obtain ⟨uv, Q, e1, e2⟩ := C33_side (by norm_num) (by norm_num) ⟨square_good.sides, square_good.closed, square_good.regular⟩ square_good.exact hu.1 (i := 1) (s := 1 / 3) (by norm_num) (by norm_num) (by norm_num)
  have ht : turned 4 1 ⟨uv.y, -uv.x⟩ = uv := by
    unfold turned
    have : 2 * Real.pi / ((4 : ℕ) : ℝ) * ((1 : ℕ) : ℝ) = Real.pi / 2 := by push_cast; ring
    rw [this, Real.cos_pi_div_two, Real.sin_pi_div_two]
    ext <;> simp
  rw [← ht] at e2
  obtain ⟨Q', e3⟩ := (C89_eval (by norm_num) rfl (by norm_num) square_shifted h h' _ _).mp ⟨Q, e2⟩
  exact ⟨P, P', _, Q, Q', h, h', e3, e2⟩

end Transfinite
