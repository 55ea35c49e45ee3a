import Verif.Lemmas.Flat
import Verif.Props.Motion
import Verif.Props.Midpoint

/-! # C88: a surface on a flat loop is flat -/

namespace Transfinite

open Spec

/-! ### Specification -/

/-- The input of the object is in the plane: the curves and the midpoint (if it has been set), and the normal fences (where they have been
overridden) are perpendicular to the plane. -/
structure FlatInput (N : P3 ℝ) (k : ℝ) (P : Patch ℝ) : Prop where
  loop : FlatLoop N k P.curves
  fence : ∀ r ∈ P.surf.ribbons, ∀ f, r.fence = some f → ∀ s, 0 ≤ s → s ≤ 1 → f s = N
  mid : P.midSet = true → P3.dot N P.mid = k

/-- An object made by calls: after some history the input is in the plane, then `update()` is called, and then any calls that keep the input in the plane. -/
def FlatObject (ε : ℝ) (kind : PatchKind) (N : P3 ℝ) (k : ℝ) (P : Patch ℝ) : Prop :=
  ∃ before Q later, (Patch.new kind).run ε before = .ok Q ∧ FlatInput N k Q ∧ (∀ c ∈ later, FlatCall N k c) ∧ Q.run ε (.update :: later) = .ok P

/-! ### Proof -/

variable {ε : ℝ} {kind : PatchKind} {N : P3 ℝ} {k : ℝ} {P : Patch ℝ}

private theorem flat_full (hε : 0 < ε) (hN : P3.dot N N = 1) (h : FlatObject ε kind N 0 P) : Flat.Full N P := by
  obtain ⟨before, Q, later, h1, h2, h3, h4⟩ := h
  have hi := (Patch.run_inv (Patch.new_inv ε kind) h1).1
  unfold Patch.run at h4
  obtain ⟨R, e, h4⟩ := bind_ok h4
  exact Flat.run hε hN (Patch.step_inv hi e).1 (Flat.update hε hN hi ⟨h2.loop, hi.kinds, h2.fence, h2.mid⟩ e) h3 h4

/-- The translation of the plane to the origin. -/
private noncomputable def toOrigin (N : P3 ℝ) (k : ℝ) : Motion ℝ := ⟨LinearMap.id, -(k • N), fun _ _ => rfl, fun _ _ => rfl⟩

private theorem toOrigin_pt (hN : P3.dot N N = 1) (p : P3 ℝ) : P3.dot N ((toOrigin N k).pt p) = P3.dot N p - k := by
  change P3.dot N (p + -(k • N)) = _
  rw [P3.dot_add_right, ← neg_smul, P3.dot_smul_right, hN]
  ring

private theorem toOrigin_curve (hN : P3.dot N N = 1) {c : Curve ℝ} (h : PlaneCurve N k c) : PlaneCurve N 0 ((toOrigin N k).curve c) := fun u h0 h1 =>
  ⟨by change P3.dot N ((toOrigin N k).pt (c.pt u)) = 0; rw [toOrigin_pt hN, (h u h0 h1).1, sub_self], (h u h0 h1).2⟩

private theorem toOrigin_call (hN : P3.dot N N = 1) {c : Patch.Call ℝ} (h : FlatCall N k c) : FlatCall N 0 ((toOrigin N k).call c) := by
  cases c with
  | fence i f =>
    cases f with
    | none => trivial
    | some f => exact h
  | setMid p =>
    change P3.dot N ((toOrigin N k).pt p) = 0
    rw [toOrigin_pt hN, show P3.dot N p = k from h, sub_self]
  | curve i c => exact h
  | curves cs => exact h
  | loop => exact h
  | _ => trivial

private theorem flatCall_keeps {c : Patch.Call ℝ} (h : FlatCall N k c) : keepsCurves c = true := by
  cases c <;> first | rfl | exact h.elim

private theorem moved_input (hN : P3.dot N N = 1) {ok : Prop} {Q Q' : Patch ℝ} (hm : Motion.Moved (toOrigin N k) ok Q Q') (h : FlatInput N k Q) : FlatInput N 0 Q' := by
  refine ⟨?_, ?_, fun hs => ?_⟩
  · rw [Motion.curves_eq hm]
    refine ⟨fun c hc => ?_, fun i c d hc hd => ?_⟩
    · obtain ⟨c0, h0, rfl⟩ := List.mem_map.mp hc
      exact toOrigin_curve hN (h.loop.1 c0 h0)
    · rw [List.length_map] at hd
      rw [List.getElem?_map, Option.map_eq_some_iff] at hc hd
      obtain ⟨c0, h0, rfl⟩ := hc
      obtain ⟨d0, h1, rfl⟩ := hd
      exact h.loop.2 i c0 d0 h0 h1
  · intro r' hr' f hf s h0 h1
    have := hm.surf.ribbons
    obtain ⟨i, hi, rfl⟩ := List.mem_iff_getElem.mp hr'
    have hi' : i < Q.surf.ribbons.length := by rw [this.length_eq]; exact hi
    have hk := this.get hi' hi
    simp only [List.get_eq_getElem] at hk
    have hfe := hk.rib.fence
    rw [hf] at hfe
    cases hq : (Q.surf.ribbons[i]).fence with
    | none => rw [hq] at hfe; cases hfe
    | some q =>
      rw [hq] at hfe
      cases hfe
      exact h.fence _ (List.getElem_mem hi') q hq s h0 h1
  · rw [hm.mid (hm.midSet ▸ hs), toOrigin_pt hN, h.mid (hm.midSet ▸ hs), sub_self]

private theorem moved_object (hN : P3.dot N N = 1) (h : FlatObject ε kind N k P) : ∃ P', Pair ε kind (toOrigin N k) P P' ∧ FlatObject ε kind N 0 P' := by
  obtain ⟨before, Q, later, h1, h2, h3, h4⟩ := h
  obtain ⟨Q', f1, m1⟩ := (Motion.run ε (Motion.new_moved (toOrigin N k) kind) before fun h => h.elim).ok h1
  have h5 := calls_append h1 h4
  obtain ⟨P', f2, -⟩ := (C87_history ε kind (toOrigin N k) _).2 P h5
  refine ⟨P', ⟨before, later, fun c hc => flatCall_keeps (h3 c hc), h5, f2⟩, before.map (toOrigin N k).call, Q', later.map (toOrigin N k).call, f1, moved_input hN m1 h2, ?_, ?_⟩
  · intro c hc
    obtain ⟨d, hd, rfl⟩ := List.mem_map.mp hc
    exact toOrigin_call hN (h3 d hd)
  · rw [List.map_append] at f2
    obtain ⟨R, a1, a2⟩ := Motion.run_split f2
    rw [f1] at a1
    cases a1
    exact a2

/-! ### Theorems -/

/-- C88: if the curves are in a plane and the loop turns in the same direction at every corner, the surface is in the plane. -/
theorem C88_plane (hε : 0 < ε) (hε1 : ε ≤ 1) (hN : P3.dot N N = 1) (h : FlatObject ε kind N k P) (hn : 3 ≤ P.curves.length) {uv : P2 ℝ} (hc : ClearPoint ε P uv)
    {p : P3 ℝ} {Q : Patch ℝ} (e : P.eval ε uv = .ok (p, Q)) : P3.dot N p = k := by
  obtain ⟨P', hp, h'⟩ := moved_object hN h
  have hf := flat_full hε hN h'
  obtain ⟨Q', e'⟩ := (C87_eval hε hε1 hp hn hc).2 p Q e
  have := Flat.mem_plane.mp (Flat.patch_eval hε hN hf.surf hf.kinds hf.central e')
  rw [toOrigin_pt hN] at this
  linarith

/-- C88: for a plane through the origin there is no condition on the point. -/
theorem C88_origin (hε : 0 < ε) (hN : P3.dot N N = 1) (h : FlatObject ε kind N 0 P) {uv : P2 ℝ} {p : P3 ℝ} {Q : Patch ℝ} (e : P.eval ε uv = .ok (p, Q)) : P3.dot N p = 0 := by
  have hf := flat_full hε hN h
  exact Flat.mem_plane.mp (Flat.patch_eval hε hN hf.surf hf.kinds hf.central e)

/-- C88: the points of the meshes are in the plane. -/
theorem C88_mesh (hε : 0 < ε) (hε1 : ε ≤ 1) (hN : P3.dot N N = 1) (h : FlatObject ε kind N k P) (hn : 3 ≤ P.curves.length) {res : ℕ}
    (hc : ∀ uvs, P.dom.dom.parametersImpl res = .ok uvs → ∀ uv ∈ uvs, ClearPoint ε P uv) {pts : List (P3 ℝ)} {ts : List Domain.Tri} {Q : Patch ℝ}
    (e : P.evalMesh ε res = .ok ((pts, ts), Q)) : ∀ p ∈ pts, P3.dot N p = k := by
  obtain ⟨P', hp, -⟩ := moved_object hN h
  obtain ⟨-, hs, -⟩ := pair_moved hp
  obtain ⟨before, later, -, h1, -⟩ := hp
  have hlen : P.curves.length = P.surf.n := List.length_map _
  have hn' : 3 ≤ P.dom.dom.n := by unfold Motion.Sides at hs; omega
  obtain ⟨uvs, a1, a2, a3, a4⟩ := C37_mesh h1 hn' e
  intro p hp
  obtain ⟨j, hj, rfl⟩ := List.mem_iff_getElem.mp hp
  obtain ⟨Q, q⟩ := a4 j pts[j] (uvs[j]'(by omega)) (List.getElem?_eq_getElem hj) (List.getElem?_eq_getElem (by omega))
  exact C88_plane hε hε1 hN h hn (hc uvs a1 _ (List.getElem_mem _)) q

/-- C88: the normal fences are constant, the cross derivatives are parallel to the plane, and the ribbons are in the plane. -/
theorem C88_ribbon (hε : 0 < ε) (hN : P3.dot N N = 1) (h : FlatObject ε kind N k P) {i : ℕ} {r : Ribbon ℝ} (hr : vget P.surf.ribbons i = .ok r) {s : ℝ} (h0 : 0 ≤ s) (h1 : s ≤ 1) :
    (∀ v, r.normal ε s = .ok v → v = N) ∧ (∀ v, r.crossDerivative ε s = .ok v → P3.dot N v = 0) ∧ ∀ d p, r.eval ε ⟨s, d⟩ = .ok p → P3.dot N p = k := by
  obtain ⟨P', hp, h'⟩ := moved_object hN h
  have hf := flat_full hε hN h'
  obtain ⟨r', e, m1, m2, m3⟩ := C87_ribbon hp hr
  have hr' := hf.surf.ribbons r' (Motion.vget_mem e)
  refine ⟨fun v hv => Flat.normal hε hr' h0 h1 (m1 s v hv), fun v hv => Flat.mem_plane.mp (Flat.cross hε hN hr' h0 h1 (m2 s v hv)), fun d p hp => ?_⟩
  have := Flat.mem_plane.mp (Flat.eval hε hN hr' (Or.inr ⟨h0, h1⟩) (m3 _ p hp))
  rw [toOrigin_pt hN] at this
  linarith

/-! ### Disagreement: corners turning in the other direction -/

/-- C88, disagreement: when the corners at the two ends of a flat curve turn in different directions, the normal fence is not perpendicular to the plane: it makes
half a turn about the curve, proportionally to the arc length. -/
theorem C88_fold (hε : 0 < ε) (hN : P3.dot N N = 1) {res : ℕ} (hres : 0 < res) {c : Curve ℝ} (hc : PlaneCurve N k c) (hder : ∀ j ≤ res, c.der (j / res) ≠ 0)
    (hex : ∀ j < res, ExactStep ε c (j / res) ((j + 1 : ℕ) / res)) {r : RMF.Rmf ℝ} (h : RMF.update ε res c N (-N) = .ok r) {j : ℕ} (hj : j < res) :
    RMF.eval ε r (j / res) = .ok (Real.cos (Real.pi * (∑ i ∈ Finset.range j, c.arc (i / res) ((i + 1 : ℕ) / res)) / ∑ i ∈ Finset.range res, c.arc (i / res) ((i + 1 : ℕ) / res)) • N +
      Real.sin (Real.pi * (∑ i ∈ Finset.range j, c.arc (i / res) ((i + 1 : ℕ) / res)) / ∑ i ∈ Finset.range res, c.arc (i / res) ((i + 1 : ℕ) / res)) • P3.cross (unitTangent c (j / res)) N) := by
  have hr : (0 : ℝ) < res := by exact_mod_cast hres
  have hT : ∀ u, 0 ≤ u → u ≤ 1 → P3.dot N (unitTangent c u) = 0 := fun u h0 h1 => by
    unfold unitTangent
    rw [P3.dot_smul_right, (hc u h0 h1).2, mul_zero]
  obtain ⟨F, hF, hall⟩ := exact_frames hε hres hN (hT 0 le_rfl zero_le_one) hder hex
  obtain ⟨fs, e0, e1, e2, e3, e4⟩ := rmf_update_parts h
  rw [hF] at e0
  cases e0
  obtain ⟨flat, -⟩ := Flat.computeFrames hε hc hF
  have hn : ∀ i ≤ res, (F i).n = N := fun i hi => (flat (F i) (Flat.mem_tab.mpr ⟨i, by omega, rfl⟩)).n
  have hs := (hall res le_rfl).2.1
  have ha : r.angleCorrection = Real.pi / (F res).s := by
    rw [e4]
    dsimp only
    have h1 : P3.dot (-N) N = -1 := by rw [← neg_one_smul ℝ N, P3.dot_smul_left, hN]; norm_num
    have h2 : P3.cross (N - -N) (-N) = 0 := by ext <;> simp [P3.cross] <;> ring
    rw [hn res le_rfl, h1, h2, P3.dot_zero_left, if_neg (lt_irrefl _)]
    have hcl : Domain.clamp (-1 : ℝ) (-1) 1 = -1 := by unfold Domain.clamp; norm_num
    rw [hcl, Real.arccos_neg_one]
  unfold RMF.eval
  dsimp only
  rw [e1, e2]
  have hidx : List.findIdx (fun f : RMF.Frame ℝ => decide ((j : ℝ) / res < f.u)) (tab (res + 1) F) = j + 1 := by
    rw [List.findIdx_eq (by simp; omega)]
    constructor
    · simp only [tab, List.getElem_map, List.getElem_range]
      rw [(hall (j + 1) (by omega)).1, decide_eq_true_eq]
      exact div_lt_div_of_pos_right (by push_cast; linarith) hr
    · intro i hi
      simp only [tab, List.getElem_map, List.getElem_range]
      rw [(hall i (by omega)).1, decide_eq_false_iff_not, not_lt]
      refine div_le_div_of_nonneg_right ?_ hr.le
      exact_mod_cast (by omega : i ≤ j)
  rw [hidx, if_neg (by omega), Nat.add_sub_cancel, vget_tab _ (by omega), M_bind_ok]
  obtain ⟨a, b, cc, d, e, f⟩ := hall j hj.le
  have hstep : RMF.nextFrame ε c (F j) (j / res) = .ok (F j) := by
    unfold RMF.nextFrame
    rw [P3.normalize_ok (hder j hj.le), M_bind_ok]
    rw [if_pos (by unfold P3.normSqr; rw [cc, sub_self, P3.dot_zero_left]; exact hε)]
  rw [hstep, M_bind_ok, ha, hs, RMF.rotate_eq, hn j hj.le, b, d]
  have : P3.dot (unitTangent c (j / res)) N = 0 := by
    rw [P3.dot_comm]
    exact hT _ (by positivity) (by rw [div_le_one hr]; exact_mod_cast hj.le)
  rw [this, mul_zero, zero_smul, add_zero, show ∀ x y : ℝ, x * (Real.pi / y) = Real.pi * x / y from fun x y => by ring]

/-- In the middle of a straight side between two corners turning in different directions, the fence is parallel to the plane.
(`C88_fold` applied to a segment; `C88_reflex` below is an object with two such sides.) -/
private theorem fold_middle (hε : 0 < ε) {M a b : P3 ℝ} (hM : P3.dot M M = 1) (hab : 10000 * ε ≤ P3.dot (b - a) (b - a)) (hε4 : ε ≤ 4) (hc : PlaneCurve M k (segment a b)) {r : RMF.Rmf ℝ}
    (h : RMF.update ε RMF.resolution (segment a b) M (-M) = .ok r) : ∃ v, RMF.eval ε r (1 / 2) = .ok v ∧ P3.dot M v = 0 := by
  have hex := segment_exact hε hε4 hab
  have key := C88_fold hε hM (by decide) hc hex.der hex.step h (j := 50) (by decide)
  have hne : (b - a).norm ≠ 0 := fun h0 => by
    have := P3.norm_mul_self (b - a)
    rw [h0] at this
    linarith
  have hsum : ∀ m : ℕ, ∑ i ∈ Finset.range m, (segment a b).arc ((i : ℝ) / (RMF.resolution : ℕ)) (((i + 1 : ℕ) : ℝ) / (RMF.resolution : ℕ)) = m * ((1 / 100) * (b - a).norm) := by
    intro m
    rw [Finset.sum_congr rfl (g := fun _ => (1 / 100) * (b - a).norm), Finset.sum_const, Finset.card_range, nsmul_eq_mul]
    intro i _
    change ((((i + 1 : ℕ) : ℝ) / (RMF.resolution : ℕ)) - ((i : ℝ) / (RMF.resolution : ℕ))) * _ = _
    unfold RMF.resolution
    push_cast
    ring
  rw [hsum, hsum] at key
  have hth : Real.pi * ((50 : ℕ) * ((1 / 100) * (b - a).norm)) / ((RMF.resolution : ℕ) * ((1 / 100) * (b - a).norm)) = Real.pi / 2 := by
    unfold RMF.resolution
    push_cast
    field_simp
    norm_num
  rw [hth, Real.cos_pi_div_two, Real.sin_pi_div_two, zero_smul, one_smul, zero_add, show (((50 : ℕ) : ℝ) / (RMF.resolution : ℕ)) = 1 / 2 by unfold RMF.resolution; norm_num] at key
  exact ⟨_, key, P3.dot_cross_self_right _ _⟩

/-- The height of the middle of the ribbon of such a side, when its handler is perpendicular to the plane. -/
private theorem fold_ribbon (hε : 0 < ε) (hε4 : ε ≤ 4) {M a b : P3 ℝ} (hM : P3.dot M M = 1) (hMN : M = N ∨ M = -N) (hab : 10000 * ε ≤ P3.dot (b - a) (b - a)) {r r' : Ribbon ℝ} {nb : Neighbors ℝ}
    (hk : r.kind = .handler) (hcr : r.curve = segment a b) (hf : r.fence = none) (hi : r.handlerInit = true) (hv : r.handlerV = N) (hm : r.mult = 1)
    (hc : PlaneCurve M 0 (segment a b)) (hp : P3.dot M (nb.prev.der 1) = 0) (hn : P3.dot M (nb.next.der 0) = 0)
    (hl : 0 < P3.dot M (P3.cross (nb.prev.der 1) (b - a))) (hr : P3.dot M (P3.cross (b - a) (nb.next.der 0)) < 0) (e : r.update ε nb = .ok r')
    {d : ℝ} (hd : 0 < d) {p : P3 ℝ} (ep : r'.eval ε ⟨1 / 2, d⟩ = .ok p) : 0 < P3.dot N p := by
  unfold Ribbon.update at e
  rw [hk] at e
  dsimp only at e
  unfold Ribbon.handlerUpdate Ribbon.compatibleUpdate at e
  obtain ⟨q, e1, e⟩ := bind_ok e
  obtain ⟨n, e2, e⟩ := bind_ok e
  obtain ⟨w, e3, e⟩ := bind_ok e
  cases e
  obtain ⟨x, y, f, g1, g2, g3, rfl⟩ := baseUpdate_parts e1
  have hder : b - a ∈ Flat.plane M := (hc 0 le_rfl zero_le_one).2
  dsimp only at g1 g2 g3 e2 e3
  rw [hcr] at g1 g2 g3
  change (P3.cross (b - a) _).normalize = _ at g2
  have hx : x = M := Flat.normalize_cross hM hp hder hl g1
  have hneg : ∀ {v}, P3.dot (-M) v = -P3.dot M v := fun {v} => by rw [← neg_one_smul ℝ M, P3.dot_smul_left]; ring
  have hy : y = -M := by
    refine Flat.normalize_cross (by rw [hneg, P3.dot_comm, hneg, hM, neg_neg]) ?_ ?_ ?_ g2
    · rw [Flat.mem_plane, hneg, Flat.mem_plane.mp hder, neg_zero]
    · rw [Flat.mem_plane, hneg, hn, neg_zero]
    · rw [hneg]; exact neg_pos.mpr hr
  rw [hx, hy] at g3
  obtain ⟨v, v1, v2⟩ := fold_middle hε hM hab hε4 hc g3
  unfold Ribbon.effectiveHandler at e3
  rw [hi, if_pos rfl, hv] at e3
  cases e3
  have hvN : P3.dot N v = 0 := by
    rcases hMN with h | h
    · rw [← h]; exact v2
    · rw [h, ← neg_one_smul ℝ N, P3.dot_smul_left] at v2; linarith
  have hNN : P3.dot N N = 1 := by
    rcases hMN with h | h
    · rw [← h]; exact hM
    · rw [h, ← neg_one_smul ℝ N, P3.dot_smul_left, P3.dot_smul_right] at hM; linarith
  have hcN : P3.dot N ((segment a b).pt (1 / 2)) = 0 := by
    have := (hc (1 / 2) (by norm_num) (by norm_num)).1
    rcases hMN with h | h
    · rw [← h]; exact this
    · rw [h, ← neg_one_smul ℝ N, P3.dot_smul_left] at this; linarith
  unfold Ribbon.eval Ribbon.baseEval Ribbon.crossDerivative at ep
  dsimp only at ep
  rw [hk] at ep
  dsimp only at ep
  unfold Ribbon.handlerCross Ribbon.normal at ep
  dsimp only at ep
  rw [hf] at ep
  dsimp only at ep
  rw [v1, M_bind_ok, M_bind_ok] at ep
  cases ep
  have hw : 0 < ((-nb.prev.der 1).norm + (nb.next.der 0).norm) / 2 * r.mult := by
    have h1 : nb.next.der 0 ≠ 0 := by
      intro h0
      rw [h0] at hr
      have : P3.cross (b - a) (0 : P3 ℝ) = 0 := by ext <;> simp [P3.cross]
      rw [this, P3.dot_comm, P3.dot_zero_left] at hr
      exact lt_irrefl _ hr
    have := P3.norm_pos h1
    have := P3.norm_nonneg (-nb.prev.der 1)
    rw [hm]
    linarith
  rw [hcr, P3.dot_add_right, hcN, P3.dot_smul_right]
  unfold Ribbon.project
  simp only [P3.dot_add_right, P3.dot_smul_right, P3.dot_sub_right, hvN, hNN, P3.dot_smul_left]
  have := mul_pos hd hw
  norm_num
  exact this

/-- A pentagon in the plane `z = 0`; the corner between the curves 2 and 3 is reflex. -/
noncomputable def crownLoop : ℕ → Curve ℝ
  | 0 => segment ⟨0, 0, 0⟩ ⟨20, 0, 0⟩
  | 1 => segment ⟨20, 0, 0⟩ ⟨20, 20, 0⟩
  | 2 => segment ⟨20, 20, 0⟩ ⟨10, 10, 0⟩
  | 3 => segment ⟨10, 10, 0⟩ ⟨0, 20, 0⟩
  | _ => segment ⟨0, 20, 0⟩ ⟨0, 0, 0⟩

theorem crown_good : Patch.GoodLoop (1 / 10000) 5 crownLoop := by
  refine ⟨by norm_num, ?_, ?_, ?_, ?_⟩
  · intro j hj
    interval_cases j <;> (ext <;> norm_num [crownLoop, segment])
  · intro j hj s _ _ h
    have h1 := congrArg P3.x h
    have h2 := congrArg P3.y h
    interval_cases j <;> first | (norm_num [crownLoop, segment] at h1; done) | norm_num [crownLoop, segment] at h2
  · intro j hj
    interval_cases j <;> exact segment_exact (by norm_num) (by norm_num) (by norm_num [P3.dot])
  · intro j hj h
    have h1 := congrArg P3.z h
    interval_cases j <;> norm_num [crownLoop, segment, P3.cross] at h1

theorem crown_flat {j : ℕ} (hj : j < 5) : PlaneCurve ⟨0, 0, 1⟩ 0 (crownLoop j) := by
  intro u _ _
  interval_cases j <;> (constructor <;> norm_num [crownLoop, segment, P3.dot])

private theorem crown_nbs {j : ℕ} (hj : j < 5) (t1 : 0 < P3.dot ⟨0, 0, 1⟩ (P3.cross ((crownLoop (prevIx 5 j)).der 1) ((crownLoop j).der 0)))
    (t2 : 0 < P3.dot ⟨0, 0, 1⟩ (P3.cross ((crownLoop j).der 1) ((crownLoop (nextIx 5 j)).der 0))) : Flat.Nbs ⟨0, 0, 1⟩ (Surf.nbOf 5 crownLoop j) (crownLoop j) where
  prev := crown_flat (j := prevIx 5 j) (prevIx_lt (by norm_num))
  next := crown_flat (j := nextIx 5 j) (nextIx_lt (by norm_num))
  prev2 := crown_flat (j := prevIx 5 (prevIx 5 j)) (prevIx_lt (by norm_num))
  next2 := crown_flat (j := nextIx 5 (nextIx 5 j)) (nextIx_lt (by norm_num))
  left := t1
  right := t2

/-- The calls that set the same handler on the first `m` sides. -/
def sameHandlers (m : ℕ) (h : P3 ℝ) : List (Patch.Call ℝ) := (List.range m).map fun i => .handler i h

private theorem sameHandlers_run {h v : P3 ℝ} (hv : h.normalize = .ok v) {n : ℕ} {r : ℕ → Ribbon ℝ} (hr : P.surf.ribbons = tab n r) {m : ℕ} (hm : m ≤ n) :
    P.run ε (sameHandlers m h) = .ok { P with surf := { P.surf with ribbons := tab n fun j => if j < m then { r j with handlerV := v, handlerInit := true } else r j } } := by
  induction m with
  | zero =>
    change Except.ok P = _
    congr 1
    simp only [Nat.not_lt_zero, if_false]
    rw [← hr]
  | succ m ih =>
    unfold sameHandlers
    rw [List.range_succ, List.map_append]
    refine calls_append (ih (by omega)) (calls_one ?_)
    change Patch.onRibbon _ _ _ = _
    unfold Patch.onRibbon
    dsimp only
    rw [vget_tab _ (by omega), M_bind_ok, if_neg (lt_irrefl _)]
    unfold Ribbon.setHandler
    rw [hv, M_bind_ok, M_bind_ok, vset_tab _ _ (by omega), M_bind_ok]
    congr 3
    refine tab_congr fun j hj => ?_
    by_cases hjm : j = m
    · rw [hjm, Function.update_self, if_pos (by omega)]
    · rw [Function.update_of_ne hjm]
      by_cases h1 : j < m
      · rw [if_pos h1, if_pos (by omega)]
      · rw [if_neg h1, if_neg (by omega)]

/-- The object after `setCurves`, `setupLoop`, and the same handler on every side. -/
private theorem handled_loaded {n : ℕ} {c : ℕ → Curve ℝ} (hc : ∀ j < n, (c j).pt 1 = (c ((j + 1) % n)).pt 0) {h v : P3 ℝ} (hv : h.normalize = .ok v)
    (e : (Patch.new kind).run ε ([.curves (tab n c), .loop] ++ sameHandlers n h) = .ok P) :
    P.surf.ribbons = tab n (fun j => { Ribbon.new kind.ribbon (c j) with handlerV := v, handlerInit := true }) ∧ P.midSet = false := by
  obtain ⟨R0, r3, r4⟩ := Motion.run_split e
  have hr0 : ((Patch.new kind).setCurves (tab n c) : Patch ℝ).surf.ribbons = tab n (fun j => Ribbon.new kind.ribbon (c j)) := by
    change (tab n c).map (Ribbon.new kind.ribbon) = _
    rw [Flat.map_tab]
  have hR0 : R0.surf.ribbons = tab n (fun j => Ribbon.new kind.ribbon (c j)) ∧ R0.midSet = false := by
    unfold Patch.run at r3
    obtain ⟨A, a1, r3⟩ := bind_ok r3
    unfold Patch.run at r3
    obtain ⟨B, a2, r3⟩ := bind_ok r3
    cases r3
    have ha : (Patch.new kind).setCurves (tab n c) = A := Except.ok.inj a1
    have hm : A.midSet = false := by rw [← ha]; rfl
    rw [ha] at hr0
    have hc0 : A.curves = tab n c := Patch.curves_tab hr0 (fun j _ => rfl)
    change Patch.setupLoop _ = _ at a2
    unfold Patch.setupLoop at a2
    rw [hc0, C26_oriented hc, M_bind_ok, hr0] at a2
    rw [← Except.ok.inj a2]
    refine ⟨?_, hm⟩
    dsimp only
    unfold tab
    rw [List.zipWith_map, List.zipWith_self]
    rfl
  rw [sameHandlers_run hv hR0.1 le_rfl] at r4
  rw [← Except.ok.inj r4]
  refine ⟨?_, hR0.2⟩
  dsimp only
  exact tab_congr fun j hj => if_pos hj

/-- The ribbons after `setCurves`, `setupLoop`, the same handler on every side, and `update`. -/
private theorem handled_ribbons {n : ℕ} {c : ℕ → Curve ℝ} (hc : ∀ j < n, (c j).pt 1 = (c ((j + 1) % n)).pt 0) {h v : P3 ℝ} (hv : h.normalize = .ok v)
    (e : (Patch.new kind).run ε ([.curves (tab n c), .loop] ++ sameHandlers n h ++ [.update]) = .ok P) :
    ∃ r', P.surf.ribbons = tab n r' ∧ ∀ j < n, Ribbon.update ε (Surf.nbOf n c j) { Ribbon.new kind.ribbon (c j) with handlerV := v, handlerInit := true } = .ok (r' j) := by
  obtain ⟨R, r1, r2⟩ := Motion.run_split e
  obtain ⟨hRr, -⟩ := handled_loaded hc hv r1
  unfold Patch.run at r2
  obtain ⟨P1, a1, a2⟩ := bind_ok r2
  cases a2
  obtain ⟨D, S, d1, -, d2, d3⟩ := Patch.update_parts (show R.update ε = .ok P from a1)
  have hiR := (Patch.run_inv (Patch.new_inv ε kind) r1).1
  obtain ⟨-, -, hDs, -⟩ := Patch.updateDomain_inv hiR d1
  rw [← hDs] at hRr
  obtain ⟨r', q', u1, -, rfl⟩ := (Surf.updateAll_iff hRr).mp d2
  obtain ⟨R, m, c, hq, rfl⟩ := Patch.finish_form d3
  refine ⟨r', ?_, u1⟩
  change R.surf.ribbons = _
  rw [hq.surf]

/-- C88, disagreement: there is a loop of straight sides in a plane (with a reflex corner), and the midpoint surface on it, with all handlers perpendicular to the plane,
is not in the plane. (For the surfaces of `C88_plane` such handlers have no effect.) -/
theorem C88_reflex : ∃ (n : ℕ) (c : ℕ → Curve ℝ) (N : P3 ℝ) (P Q : Patch ℝ) (uv : P2 ℝ) (p : P3 ℝ), P3.dot N N = 1 ∧ (∀ j < n, PlaneCurve N 0 (c j)) ∧
    (Patch.new .midpoint).run (1 / 10000) ([.curves (tab n c), .loop] ++ sameHandlers n N ++ [.update, .unsetMid]) = .ok P ∧
    P.eval (1 / 10000) uv = .ok (p, Q) ∧ P3.dot N p ≠ 0 := by
  set N : P3 ℝ := ⟨0, 0, 1⟩ with hNdef
  have hN : P3.dot N N = 1 := by norm_num [hNdef, P3.dot]
  have hne : N ≠ 0 := fun h => by simpa [hNdef] using congrArg P3.z h
  have hnorm : N.norm = 1 := by
    have := P3.norm_mul_self N
    rw [hN] at this
    nlinarith [P3.norm_nonneg N]
  have hv : N.normalize = .ok N := by rw [P3.normalize_ok hne, hnorm, inv_one, one_smul]
  obtain ⟨P1, v, h1, h2, h3⟩ := C64_built (v := squareVertex) (ε := 1 / 10000) (by norm_num) (by norm_num) crown_good .midpoint (fun h => by cases h) (ctl := sameHandlers 5 N) (by
    intro x hx
    obtain ⟨i, hi, rfl⟩ := List.mem_map.mp hx
    exact ⟨trivial, List.mem_range.mp hi, hne⟩) (Or.inr fun j hj => Or.inr ⟨N, List.mem_map.mpr ⟨j, List.mem_range.mpr hj, rfl⟩⟩)
  obtain ⟨P2, e2, h4, -⟩ := C64_call (by norm_num) (by norm_num) crown_good h2 h3 (x := .unsetMid) (Or.inl rfl)
  obtain ⟨p, hav, Q, hp⟩ := C36_default (by norm_num) (by norm_num) (by norm_num) (by norm_num) (by norm_num) (Or.inl rfl) h1 h2.1 (Or.inl rfl) e2 (qs := []) (by simp) rfl
  refine ⟨5, crownLoop, N, P2, Q, P2.dom.dom.center, p, hN, fun j hj => crown_flat hj, ?_, hp, ?_⟩
  · have := calls_append h1 (calls_one e2)
    rwa [List.append_assoc] at this
  -- the ribbons
  have hs2 : P2.surf = P1.surf := by
    have h := e2
    unfold Patch.step at h
    dsimp only at h
    split_ifs at h
    obtain ⟨R, m, c, hq, rfl⟩ := Patch.updateCentral_form h
    exact hq.surf
  obtain ⟨r', hr1, u1⟩ := handled_ribbons crown_good.closed hv h1
  have hrib : P2.surf.ribbons = tab 5 r' := by rw [hs2]; exact hr1
  obtain ⟨q, q1, rfl⟩ := hav
  have hq : ∀ j (hj : j < 5), ∃ d : ℝ, 0 < d ∧ (r' j).eval (1 / 10000) ⟨1 / 2, d⟩ = .ok (q j) := by
    intro j hj
    obtain ⟨x, x1, x2⟩ := q1 j hj
    rw [hrib, vget_tab _ hj] at x1
    cases x1
    exact ⟨_, by split_ifs <;> norm_num, x2⟩
  have flat : ∀ j (hj : j < 5), 0 < P3.dot N (P3.cross ((crownLoop (prevIx 5 j)).der 1) ((crownLoop j).der 0)) →
      0 < P3.dot N (P3.cross ((crownLoop j).der 1) ((crownLoop (nextIx 5 j)).der 0)) → P3.dot N (q j) = 0 := by
    intro j hj t1 t2
    obtain ⟨d, -, x⟩ := hq j hj
    have := Flat.rib_update (by norm_num) hN (Or.inl rfl) (crown_flat hj) (fun f hf => by cases hf) (crown_nbs hj t1 t2) (u1 j hj)
    exact Flat.mem_plane.mp (Flat.eval (by norm_num) hN this (Or.inr ⟨by norm_num, by norm_num⟩) x)
  have z0 := flat 0 (by norm_num) (by norm_num [prevIx, crownLoop, segment, P3.cross, P3.dot, hNdef]) (by norm_num [nextIx, crownLoop, segment, P3.cross, P3.dot, hNdef])
  have z1 := flat 1 (by norm_num) (by norm_num [prevIx, crownLoop, segment, P3.cross, P3.dot, hNdef]) (by norm_num [nextIx, crownLoop, segment, P3.cross, P3.dot, hNdef])
  have z4 := flat 4 (by norm_num) (by norm_num [prevIx, crownLoop, segment, P3.cross, P3.dot, hNdef]) (by norm_num [nextIx, crownLoop, segment, P3.cross, P3.dot, hNdef])
  have z2 : 0 < P3.dot N (q 2) := by
    obtain ⟨d, hd, x⟩ := hq 2 (by norm_num)
    refine fold_ribbon (by norm_num) (by norm_num) (M := N) hN (Or.inl rfl) (a := ⟨20, 20, 0⟩) (b := ⟨10, 10, 0⟩) (by norm_num [P3.dot]) rfl rfl rfl rfl rfl rfl (crown_flat (j := 2) (by norm_num)) ?_ ?_ ?_ ?_ (u1 2 (by norm_num)) hd x <;>
      norm_num [Surf.nbOf, prevIx, nextIx, crownLoop, segment, P3.cross, P3.dot, hNdef]
  have z3 : 0 < P3.dot N (q 3) := by
    obtain ⟨d, hd, x⟩ := hq 3 (by norm_num)
    have hneg : ∀ {v}, P3.dot (-N) v = -P3.dot N v := fun {v} => by rw [← neg_one_smul ℝ N, P3.dot_smul_left]; ring
    refine fold_ribbon (by norm_num) (by norm_num) (M := -N) (by rw [hneg, P3.dot_comm, hneg, hN, neg_neg]) (Or.inr rfl) (a := ⟨10, 10, 0⟩) (b := ⟨0, 20, 0⟩) (by norm_num [P3.dot]) rfl rfl rfl rfl rfl rfl
      (fun u h0 h1 => by
        have := crown_flat (j := 3) (by norm_num) u h0 h1
        rw [hneg, hneg]
        exact ⟨by rw [neg_eq_zero]; exact this.1, by rw [neg_eq_zero]; exact this.2⟩) ?_ ?_ ?_ ?_ (u1 3 (by norm_num)) hd x <;>
      norm_num [Surf.nbOf, prevIx, nextIx, crownLoop, segment, P3.cross, P3.dot, hNdef]
  rw [P3.dot_smul_right]
  simp only [Finset.sum_range_succ, Finset.sum_range_zero, zero_add, P3.dot_add_right]
  rw [z0, z1, z4]
  norm_num
  linarith

/-! ### Examples -/

/-- The boundary curves of a square in the plane `z = h`. -/
noncomputable def squareAt (h : ℝ) : ℕ → Curve ℝ
  | 0 => segment ⟨0, 0, h⟩ ⟨10, 0, h⟩
  | 1 => segment ⟨10, 0, h⟩ ⟨10, 10, h⟩
  | 2 => segment ⟨10, 10, h⟩ ⟨0, 10, h⟩
  | _ => segment ⟨0, 10, h⟩ ⟨0, 0, h⟩

theorem squareAt_good (h : ℝ) : Patch.GoodLoop (1 / 10000) 4 (squareAt h) := by
  refine ⟨by norm_num, ?_, ?_, ?_, ?_⟩
  · intro j hj
    interval_cases j <;> (ext <;> norm_num [squareAt, segment])
  · intro j hj s _ _ h
    have h1 := congrArg P3.x h
    have h2 := congrArg P3.y h
    interval_cases j <;> first | (norm_num [squareAt, segment] at h1; done) | norm_num [squareAt, segment] at h2
  · intro j hj
    interval_cases j <;> exact segment_exact (by norm_num) (by norm_num) (by norm_num [P3.dot])
  · intro j hj h
    have h1 := congrArg P3.z h
    interval_cases j <;> norm_num [squareAt, segment, P3.cross] at h1

/-- It turns to the left at every corner. -/
theorem squareAt_flat (h : ℝ) : FlatLoop ⟨0, 0, 1⟩ h (tab 4 (squareAt h)) := by
  refine ⟨fun c hc u _ _ => ?_, fun i c d hc hd => ?_⟩
  · obtain ⟨j, hj, rfl⟩ := Flat.mem_tab.mp hc
    interval_cases j <;> (constructor <;> norm_num [squareAt, segment, P3.dot])
  · have hi : i < 4 := by simpa using (List.getElem?_eq_some_iff.mp hc).1
    rw [length_tab] at hd
    have h1 := vget_tab (squareAt h) hi
    have h2 := vget_tab (squareAt h) (Nat.mod_lt (i + 1) (by norm_num : 0 < 4))
    rw [vget_eq_ok] at h1 h2
    rw [h1] at hc
    rw [h2] at hd
    cases hc
    cases hd
    interval_cases i <;> norm_num [squareAt, segment, P3.dot, P3.cross]

/-- A surface on the square, with the handler (1,2,3) on each side (that is not parallel to the plane), is a flat object, also after setting a midpoint in the plane. -/
theorem squareAt_built (kind : PatchKind) (hk : kind ≠ .sideBased) (h : ℝ) : ∃ P, FlatObject (1 / 10000) kind ⟨0, 0, 1⟩ h P ∧ P.curves.length = 4 ∧ P.kind = kind ∧
    (kind = .midpoint → ∀ x y, ∃ P', FlatObject (1 / 10000) kind ⟨0, 0, 1⟩ h P' ∧ P.step (1 / 10000) (.setMid ⟨x, y, h⟩) = .ok P') := by
  have hne : (⟨1, 2, 3⟩ : P3 ℝ) ≠ 0 := fun h => by simpa using congrArg P3.x h
  obtain ⟨P, v, e, hu, hd⟩ := C64_built (v := squareVertex) (by norm_num) (by norm_num) (squareAt_good h) kind (fun h => absurd h hk) (ctl := sameHandlers 4 ⟨1, 2, 3⟩) (by
    intro x hx
    obtain ⟨i, hi, rfl⟩ := List.mem_map.mp hx
    exact ⟨trivial, List.mem_range.mp hi, hne⟩) (Or.inr fun j hj => Or.inr ⟨_, List.mem_map.mpr ⟨j, List.mem_range.mpr hj, rfl⟩⟩)
  obtain ⟨R, r1, r2⟩ := Motion.run_split e
  obtain ⟨hr, hm⟩ := handled_loaded (squareAt_good h).closed (P3.normalize_ok hne) r1
  have hin : FlatInput ⟨0, 0, 1⟩ h R := by
    refine ⟨?_, fun q hq f hf => ?_, fun hs => by rw [hm] at hs; cases hs⟩
    · have : R.curves = tab 4 (squareAt h) := Patch.curves_tab hr (fun j _ => rfl)
      rw [this]
      exact squareAt_flat h
    · rw [hr] at hq
      obtain ⟨j, -, rfl⟩ := Flat.mem_tab.mp hq
      cases hf
  have hready := upToDate_ready hu.1 (by norm_num)
  refine ⟨P, ⟨_, R, [], r1, hin, (fun c hc => by cases hc), r2⟩, ?_, hready.2, fun hk x y => ?_⟩
  · rw [show P.curves.length = P.surf.n from List.length_map _, hready.1.length]
  · obtain ⟨P', e', -⟩ := C64_call (by norm_num) (by norm_num) (squareAt_good h) hu hd (x := .setMid ⟨x, y, h⟩) (Or.inl hk)
    refine ⟨P', ⟨_, R, [.setMid ⟨x, y, h⟩], r1, hin, ?_, calls_append r2 (calls_one e')⟩, e'⟩
    intro c hc
    rw [List.mem_singleton.mp hc]
    change P3.dot _ _ = _
    norm_num [P3.dot]

/-- The hypotheses of C88_plane and C88_ribbon hold for the square at any height, in the classes without blending functions of corners for all points. -/
example (kind : PatchKind) (hk : kind ≠ .sideBased) (hb : ¬ BlendsCorners kind) (h : ℝ) : ∃ P, FlatObject (1 / 10000) kind ⟨0, 0, 1⟩ h P ∧
    ∀ uv p Q, P.eval (1 / 10000) uv = .ok (p, Q) → p.z = h := by
  obtain ⟨P, h1, h2, h3, -⟩ := squareAt_built kind hk h
  refine ⟨P, h1, fun uv p Q e => ?_⟩
  have := C88_plane (by norm_num) (by norm_num) (by norm_num [P3.dot]) h1 (by omega) (fun hc => absurd (h3 ▸ hc) hb) e
  simpa [P3.dot] using this

/-- In the plane `z = 0` the hypotheses of C88_origin hold in the other classes, too. -/
example (kind : PatchKind) (hk : kind ≠ .sideBased) : ∃ P, FlatObject (1 / 10000) kind ⟨0, 0, 1⟩ 0 P ∧ ∀ uv p Q, P.eval (1 / 10000) uv = .ok (p, Q) → p.z = 0 := by
  obtain ⟨P, h1, -⟩ := squareAt_built kind hk 0
  refine ⟨P, h1, fun uv p Q e => ?_⟩
  have := C88_origin (by norm_num) (by norm_num [P3.dot]) h1 e
  simpa [P3.dot] using this

/-- The meshes of the midpoint surface on the square. -/
example (h x y : ℝ) (res : ℕ) : ∃ P, FlatObject (1 / 10000) .midpoint ⟨0, 0, 1⟩ h P ∧ P.mid = ⟨x, y, h⟩ ∧ ∀ pts ts Q, P.evalMesh (1 / 10000) res = .ok ((pts, ts), Q) → ∀ p ∈ pts, p.z = h := by
  obtain ⟨P, h1, h2, h3, h4⟩ := squareAt_built .midpoint (by decide) h
  obtain ⟨P', h5, e⟩ := h4 rfl x y
  have hb : ¬ BlendsCorners P'.kind := by
    rw [(Patch.step_inv (by obtain ⟨b, Q, l, a1, -, -, a2⟩ := h1; exact (Patch.run_inv (Patch.new_inv _ _) (calls_append a1 a2)).1) e).2, h3]
    rintro (h | h | h) <;> cases h
  unfold Patch.step at e
  dsimp only at e
  split_ifs at e
  have hq : P'.curves = P.curves ∧ P'.mid = ⟨x, y, h⟩ := by
    obtain ⟨R, m, c, hq, hP'⟩ := Patch.updateCentral_form e
    unfold Patch.setMidpoint Patch.updateCentral Patch.currentMid at e
    dsimp only at e
    rw [if_pos rfl, M_bind_ok] at e
    obtain ⟨a, e1, e⟩ := bind_ok e
    obtain ⟨b, e2, e⟩ := bind_ok e
    have hq2 := (Patch.eval_queried e1).trans (Patch.deficiency_queried e2)
    constructor
    · rw [hP']
      unfold Patch.curves
      dsimp only
      rw [hq.surf]
    · split_ifs at e
      · cases e; exact hq2.mid
      · obtain ⟨c, -, e⟩ := bind_ok e
        cases e; exact hq2.mid
  refine ⟨P', h5, hq.2, fun pts ts Q e p hp => ?_⟩
  have := C88_mesh (by norm_num) (by norm_num) (by norm_num [P3.dot]) h5 (by rw [hq.1]; omega) (fun _ _ _ _ hc => absurd hc hb) e p hp
  simpa [P3.dot] using this

end Transfinite
