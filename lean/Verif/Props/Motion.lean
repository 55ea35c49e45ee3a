import Verif.Lemmas.MotionSides
import Verif.Props.Total

/-! # C87: moving the input of a surface moves the surface -/

namespace Transfinite

open Spec

section field

variable {K : Type} [Field K] [LinearOrder K] [Libm K] [IsStrictOrderedRing K] {ε : K} {kind : PatchKind}

/-! ### Specification -/

/-- The classes with blending functions of corners. -/
def BlendsCorners (kind : PatchKind) : Prop := kind = .cornerBased ∨ kind = .generalizedCoons ∨ kind = .compositeRibbon

/-- In the classes with blending functions of corners: there are not too many sides of the domain near the point. -/
def ClearPoint (ε : K) (P : Patch K) (uv : P2 K) : Prop :=
  BlendsCorners P.kind → ∀ sds o, Param.mapToRibbons ε P.kind.param uv P.param = .ok (sds, o) → FewClose ε P.curves.length fun j => (sds.getD j 0).y

/-- An object made by calls, and the object made by the same calls with moved input; `update()` has been called since the last change of the curves. -/
def Pair (ε : K) (kind : PatchKind) (g : Motion K) (P P' : Patch K) : Prop :=
  ∃ before later, (∀ c ∈ later, keepsCurves c = true) ∧ (Patch.new kind).run ε (before ++ .update :: later) = .ok P ∧
    (Patch.new kind).run ε ((before ++ .update :: later).map g.call) = .ok P'

/-! ### Theorems -/

/-- C87: the same calls with moved input fail in the same way, or lead to the same domain and parameterization, and moved curves. -/
theorem C87_history (ε : K) (kind : PatchKind) (g : Motion K) (cs : List (Patch.Call K)) :
    (∀ e, (Patch.new kind).run ε cs = .error e ↔ (Patch.new kind).run ε (cs.map g.call) = .error e) ∧
    ∀ P, (Patch.new kind).run ε cs = .ok P → ∃ P', (Patch.new kind).run ε (cs.map g.call) = .ok P' ∧
      P'.dom = P.dom ∧ P'.param = P.param ∧ P'.curves = P.curves.map g.curve := by
  have h := Motion.run ε (Motion.new_moved g kind) cs fun h => h.elim
  refine ⟨fun e => h.error_iff e, fun P hP => ?_⟩
  obtain ⟨P', e, hm⟩ := h.ok hP
  exact ⟨P', e, hm.dom, hm.param, Motion.curves_eq hm⟩

theorem pair_moved {g : Motion K} {P P' : Patch K} (h : Pair ε kind g P P') : Motion.Moved g True P P' ∧ Motion.Sides P ∧ Patch.Inv ε P ∧ P.kind = kind := by
  obtain ⟨before, later, hl, h1, h2⟩ := h
  have hi := Patch.run_inv (Patch.new_inv ε kind) h1
  obtain ⟨Q, e1, e2⟩ := Motion.run_split h1
  unfold Patch.run at e2
  obtain ⟨R, e2, e3⟩ := bind_ok e2
  have m1 := Motion.run ε (Motion.new_moved g kind) before fun h => h.elim
  obtain ⟨Q', f1, m1⟩ := m1.ok e1
  obtain ⟨R', f2, m2⟩ := (Motion.update ε m1).ok (show Q.update ε = .ok R from e2)
  obtain ⟨S', f3, m3⟩ := (Motion.run ε m2 later fun _ => hl).ok e3
  have : S' = P' := by
    rw [List.map_append, List.map_cons] at h2
    have := calls_append f1 (ys := Patch.Call.update :: later.map g.call) (P2 := S') (by unfold Patch.run; rw [show Q'.step ε .update = .ok R' from f2, M_bind_ok]; exact f3)
    rw [show g.call .update = .update from rfl] at h2
    exact Except.ok.inj (this.symm.trans h2)
  subst this
  exact ⟨m3, Motion.run_sides (Motion.update_sides (show Q.update ε = .ok R from e2)) hl e3, hi.1, hi.2⟩

/-- C87: a point of the moved surface is the image of the point of the surface. -/
theorem C87_eval (hε : 0 < ε) (hε1 : ε ≤ 1) {g : Motion K} {P P' : Patch K} (h : Pair ε kind g P P') (hn : 3 ≤ P.curves.length) {uv : P2 K} (hc : ClearPoint ε P uv) :
    (∀ e, P.eval ε uv = .error e ↔ P'.eval ε uv = .error e) ∧ ∀ p Q, P.eval ε uv = .ok (p, Q) → ∃ Q', P'.eval ε uv = .ok (g.pt p, Q') := by
  obtain ⟨hm, hs, hi, _⟩ := pair_moved h
  have hlen : P.curves.length = P.surf.n := List.length_map _
  have := Motion.eval ε hm uv
  refine ⟨fun e => this.error_iff e, fun p Q hp => ?_⟩
  obtain ⟨⟨p', Q'⟩, e, _, hw⟩ := this.ok hp
  obtain ⟨w, h1, h2⟩ := hw trivial
  have hw := h1 fun r hr => Motion.weight_one hε hε1 hi hs (by omega) hr fun hk => by rw [← hlen]; exact hc hk r.1 r.2 hr
  subst hw
  have hpt : p' = g.pt p := h2.pt
  exact ⟨Q', by rw [e, hpt]⟩

/-- C87: for rotations about the origin, this holds without conditions. -/
theorem C87_rotation {g : Motion K} (hg : g.shift = 0) {P P' : Patch K} (h : Pair ε kind g P P') (uv : P2 K) :
    (∀ e, P.eval ε uv = .error e ↔ P'.eval ε uv = .error e) ∧ ∀ p Q, P.eval ε uv = .ok (p, Q) → ∃ Q', P'.eval ε uv = .ok (g.pt p, Q') := by
  obtain ⟨hm, -⟩ := pair_moved h
  have := Motion.eval ε hm uv
  refine ⟨fun e => this.error_iff e, fun p Q hp => ?_⟩
  obtain ⟨⟨p', Q'⟩, e, _, hw⟩ := this.ok hp
  obtain ⟨w, -, h2⟩ := hw trivial
  have hpt : p' = g.pt p := by
    have h2 : p' = g.lin p + w • g.shift := h2
    rw [h2, hg, smul_zero, add_zero]
    unfold Motion.pt
    rw [hg, add_zero]
  exact ⟨Q', by rw [e, hpt]⟩

/-- C87: the mesh of the moved surface has the same triangles and moved points. -/
theorem C87_mesh (hε : 0 < ε) (hε1 : ε ≤ 1) {g : Motion K} {P P' : Patch K} (h : Pair ε kind g P P') (hn : 3 ≤ P.curves.length) {res : ℕ}
    (hc : ∀ uvs, P.dom.dom.parametersImpl res = .ok uvs → ∀ uv ∈ uvs, ClearPoint ε P uv) :
    (∀ e, P.evalMesh ε res = .error e ↔ P'.evalMesh ε res = .error e) ∧
    ∀ pts ts Q, P.evalMesh ε res = .ok ((pts, ts), Q) → ∃ Q', P'.evalMesh ε res = .ok ((pts.map g.pt, ts), Q') := by
  obtain ⟨hm, hs, hi, _⟩ := pair_moved h
  have hlen : P.curves.length = P.surf.n := List.length_map _
  have := Motion.evalMesh ε hm res
  refine ⟨fun e => this.error_iff e, fun pts ts Q hp => ?_⟩
  obtain ⟨⟨⟨pts', ts'⟩, Q'⟩, e, _, ht, hl⟩ := this.ok hp
  dsimp only at ht hl
  subst ht
  refine ⟨Q', ?_⟩
  obtain ⟨before, later, hl', h1, h2⟩ := h
  have hn' : 3 ≤ P.dom.dom.n := by unfold Motion.Sides at hs; omega
  obtain ⟨uvs, a1, a2, a3, a4⟩ := C37_mesh h1 hn' hp
  obtain ⟨uvs', b1, b2, b3, b4⟩ := C37_mesh h2 (by rw [hm.dom]; exact hn') e
  rw [hm.dom, a1] at b1
  cases b1
  suffices pts' = pts.map g.pt by rw [e, this]
  refine List.ext_getElem? fun k => ?_
  rw [List.getElem?_map]
  by_cases hk : k < pts.length
  · have hp1 := List.getElem?_eq_getElem hk
    have hp2 := List.getElem?_eq_getElem (show k < pts'.length by omega)
    have hu := List.getElem?_eq_getElem (show k < uvs.length by omega)
    obtain ⟨R, r1⟩ := a4 k _ _ hp1 hu
    obtain ⟨R', r2⟩ := b4 k _ _ hp2 hu
    obtain ⟨R2, r3⟩ := (C87_eval hε hε1 ⟨before, later, hl', h1, h2⟩ hn (hc uvs a1 _ (List.getElem_mem _))).2 _ _ r1
    rw [r2] at r3
    rw [hp1, hp2, (Prod.mk.inj (Except.ok.inj r3)).1]
    rfl
  · rw [List.getElem?_eq_none (by omega), List.getElem?_eq_none (by omega)]
    rfl

/-- C87: the normal fence of side `i` is rotated, the ribbons are moved. -/
theorem C87_ribbon {g : Motion K} {P P' : Patch K} (h : Pair ε kind g P P') {i : ℕ} {r : Ribbon K} (hr : vget P.surf.ribbons i = .ok r) :
    ∃ r', vget P'.surf.ribbons i = .ok r' ∧ (∀ s n, r.normal ε s = .ok n → r'.normal ε s = .ok (g.lin n)) ∧
      (∀ s d, r.crossDerivative ε s = .ok d → r'.crossDerivative ε s = .ok (g.lin d)) ∧ ∀ sd p, r.eval ε sd = .ok p → r'.eval ε sd = .ok (g.pt p) := by
  obtain ⟨hm, hs, hi, _⟩ := pair_moved h
  obtain ⟨r', e, hk⟩ := (Agree.vget hm.surf.ribbons i).ok hr
  have hu : r.kind = .handler ∨ r.kind = .coons := by
    rw [hk.kind]
    exact Motion.used _
  refine ⟨r', e, fun s n hn => ?_, fun s d hd => ?_, fun sd p hp => ?_⟩
  · obtain ⟨b, e, hb⟩ := (Motion.rib_normal ε hk.rib s).ok hn
    rw [e, show b = g.lin n from hb]
  · obtain ⟨b, e, hb⟩ := (Motion.rib_cross ε hk.rib hu s).ok hd
    rw [e, show b = g.lin d from hb]
  · obtain ⟨b, e, hb⟩ := (Motion.rib_eval ε hk.rib hu sd).ok hp
    rw [e, (hb fun hc => hm.tops trivial (by rw [← hk.kind]; exact hc) r (Motion.vget_mem hr)).pt]

end field

/-! ### Examples -/

/-- A quarter turn about the third axis, followed by a translation. -/
def quarterTurn (t : P3 ℝ) : Motion ℝ where
  lin := { toFun := fun p => ⟨-p.y, p.x, p.z⟩, map_add' := fun a b => by ext <;> simp [add_comm], map_smul' := fun a b => by ext <;> simp }
  shift := t
  dot a b := by simp [P3.dot]; ring
  cross a b := by ext <;> simp [P3.cross] <;> ring

/-- The motion is not the identity. -/
example : (quarterTurn ⟨1, 2, 3⟩).pt ⟨1, 0, 0⟩ = ⟨1, 3, 3⟩ := by
  ext <;> simp [quarterTurn, Motion.pt] <;> norm_num

/-- The square and the moved square are a pair as in C87_eval, C87_rotation, C87_mesh and C87_ribbon; in the classes without blending functions of corners there are no further conditions. -/
theorem square_pair (kind : PatchKind) (t : P3 ℝ) : ∃ P P', Pair (1 / 10000) kind (quarterTurn t) P P' ∧ Usable (1 / 10000) kind 4 squareLoop P ∧ P.curves.length = 4 ∧ P.kind = kind := by
  obtain ⟨P, v, h, hu, -⟩ := square_built kind
  obtain ⟨P', h', -⟩ := (C87_history _ _ (quarterTurn t) _).2 P h
  refine ⟨P, P', ⟨_, [], (fun c hc => by cases hc), h, h'⟩, hu, ?_, (Patch.run_inv (Patch.new_inv _ kind) h).2⟩
  obtain ⟨hr, -⟩ := upToDate_ready hu.1 (by norm_num)
  rw [show P.curves.length = P.surf.n from List.length_map _, hr.length]

example {kind : PatchKind} (hk : ¬ BlendsCorners kind) (t : P3 ℝ) (uv : P2 ℝ) : ∃ P P', Pair (1 / 10000) kind (quarterTurn t) P P' ∧
    ∀ p Q, P.eval (1 / 10000) uv = .ok (p, Q) → ∃ Q', P'.eval (1 / 10000) uv = .ok (⟨-p.y + t.x, p.x + t.y, p.z + t.z⟩, Q') := by
  obtain ⟨P, P', h, -, hl, hk'⟩ := square_pair kind t
  refine ⟨P, P', h, fun p Q hp => ?_⟩
  exact (C87_eval (by norm_num) (by norm_num) h (by omega) fun hb => absurd (hk' ▸ hb) hk).2 p Q hp

/-- A side of the square in a class with blending functions of corners. -/
example (t : P3 ℝ) : ∃ P P' uv p Q Q', Pair (1 / 10000) .compositeRibbon (quarterTurn t) P P' ∧ P.dom.dom.edgePoint 1 (1 / 3) = .ok uv ∧ ClearPoint (1 / 10000) P uv ∧
    P.eval (1 / 10000) uv = .ok (p, Q) ∧ P'.eval (1 / 10000) uv = .ok (⟨-p.y + t.x, p.x + t.y, p.z + t.z⟩, Q') := by
  obtain ⟨P, P', h, hu, hl, hk'⟩ := square_pair .compositeRibbon t
  obtain ⟨hr, hk⟩ := upToDate_ready hu.1 (by norm_num)
  obtain ⟨uv, Q, e1, e2⟩ := C33_side (by norm_num) (by norm_num) ⟨square_good.sides, square_good.closed, square_good.regular⟩ square_good.exact hu.1 (i := 1) (s := 1 / 3) (by norm_num) (by norm_num) (by norm_num)
  obtain ⟨r, φ, r1, hd⟩ := hr.regularDomain (by rw [hk]; rfl) (by norm_num)
  have hc : ClearPoint (1 / 10000) P uv := by
    intro _ sds o hm
    obtain ⟨f, f1, f2, _⟩ := bary_sideParams hd (ε := 1 / 10000) (by norm_num) (by norm_num) (i := 1) (by norm_num) (s := 1 / 3) (by norm_num) (by norm_num)
    have hpar : Patch.ParamOk (1 / 10000) P := hr.inv.param.resolve_left (by rw [hd.n_eq]; norm_num)
    have e3 := hd.edgePoint (i := 1) (by norm_num) (1 / 3)
    rw [e1] at e3
    obtain ⟨o', e⟩ := Patch.maps_of_raw hpar hd.length_eq (f := f) (uv := uv) (fun o _ j hj => by rw [hk, Except.ok.inj e3]; exact f1 j hj)
    rw [hm] at e
    rw [(Prod.mk.inj (Except.ok.inj e)).1, hl]
    refine Or.inr (Or.inl ⟨1, by norm_num, ?_, fun j hj hne => ?_⟩)
    · simp [tab, List.range_succ, f2.self]
    · have h0 : (f 0).y = 1 / 3 := f2.prevY
      have h2 : (f 2).y = 1 - 1 / 3 := congrArg P2.y f2.next
      have h3 : 1 / 10000 ≤ (f 3).y := f2.far 3 (by norm_num) (by norm_num) (by norm_num) (by norm_num)
      interval_cases j
      · simp [tab, List.range_succ, h0]; norm_num
      · exact absurd rfl hne
      · simp [tab, List.range_succ, h2]; norm_num
      · simpa [tab, List.range_succ] using h3
  obtain ⟨Q', e⟩ := (C87_eval (by norm_num) (by norm_num) h (by omega) hc).2 _ _ e2
  exact ⟨P, P', uv, _, Q, Q', h, e1, hc, e2, e⟩

end Transfinite
