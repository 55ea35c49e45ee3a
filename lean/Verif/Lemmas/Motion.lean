import Verif.Spec.Motion
import Verif.Lemmas.Agree
import Verif.Lemmas.Bernstein
import Verif.Lemmas.Interp
import Verif.Lemmas.Polygon

/-! Rigid motions of curves, normal fences and ribbons. -/

namespace Transfinite

open Spec

variable {K : Type} [Field K] [LinearOrder K] [Libm K] (g : Motion K)

namespace Motion

/-- The second vector is the image of the first. -/
def V (a b : P3 K) : Prop := b = g.lin a

/-- The second point is the image of the first. -/
def P (a b : P3 K) : Prop := b = g.pt a

variable {g}

theorem pt_sub (p q : P3 K) : g.pt p - g.pt q = g.lin (p - q) := by
  unfold Motion.pt
  rw [map_sub]
  abel

theorem pt_add (p v : P3 K) : g.pt (p + v) = g.pt p + g.lin v := by
  unfold Motion.pt
  rw [map_add]
  abel

theorem norm (a : P3 K) : (g.lin a).norm = a.norm := by
  unfold P3.norm
  rw [g.dot]

theorem normSqr (a : P3 K) : P3.normSqr (g.lin a) = P3.normSqr a := g.dot a a

theorem normalize (a : P3 K) : Agree (V g) a.normalize (g.lin a).normalize := by
  unfold P3.normalize
  rw [norm]
  split_ifs
  · rfl
  · exact (map_smul g.lin _ _).symm

theorem vdiv (a : P3 K) (x : K) : Agree (V g) (Ribbon.vdiv a x) (Ribbon.vdiv (g.lin a) x) := by
  unfold Ribbon.vdiv
  exact Agree.same fun k _ => (map_smul g.lin _ _).symm

theorem curve_reverse (c : Curve K) : (g.curve c).reverse = g.curve c.reverse := by
  unfold Curve.reverse Motion.curve
  simp only [map_neg]

/-! ### Orientation -/

theorem forall_map {α β : Type} (f : α → β) (l : List α) : List.Forall₂ (fun a b => b = f a) l (l.map f) := by
  induction l with
  | nil => exact List.Forall₂.nil
  | cons a l ih => exact List.Forall₂.cons rfl ih

theorem eq_map {α β : Type} {f : α → β} {l : List α} {l' : List β} (h : List.Forall₂ (fun a b => b = f a) l l') : l' = l.map f := by
  induction h with
  | nil => rfl
  | cons h _ ih => rw [h, ih]; rfl

theorem needsReverse (cs : List (Curve K)) (i : ℕ) : Agree (· = ·) (Transfinite.needsReverse cs i) (Transfinite.needsReverse (cs.map g.curve) i) := by
  unfold Transfinite.needsReverse
  dsimp only
  rw [List.length_map]
  refine (Agree.vget (forall_map g.curve cs) i).bind fun c c' _ _ hc => ?_
  subst hc
  split_ifs
  · refine (Agree.vget (forall_map g.curve cs) _).bind fun d d' _ _ hd => ?_
    subst hd
    change decide _ = decide _
    simp only [Motion.curve, pt_sub, norm]
  · refine (Agree.vget (forall_map g.curve cs) _).bind fun d d' _ _ hd => ?_
    subst hd
    change decide _ = decide _
    simp only [Motion.curve, pt_sub, norm]

theorem orientLoop (cs : List (Curve K)) : Agree (fun l l' => l' = l.map g.curve) (Transfinite.orientLoop cs) (Transfinite.orientLoop (cs.map g.curve)) := by
  unfold Transfinite.orientLoop
  rw [List.length_map]
  refine Agree.loop (fun _ (l l' : List (Curve K)) => l' = l.map g.curve) rfl fun i _ l l' h => ?_
  subst h
  unfold orientStep
  refine (needsReverse l i).bind fun b b' _ _ hb => ?_
  subst hb
  refine (Agree.vget (forall_map g.curve l) i).bind fun c c' _ _ hc => ?_
  subst hc
  refine (Agree.vset (forall_map g.curve l) i ?_).mono fun a b h => eq_map h
  cases b
  · rfl
  · exact curve_reverse c

theorem curveAngles (cs : List (Curve K)) : Agree (· = ·) (Domain.curveAngles cs) (Domain.curveAngles (cs.map g.curve)) := by
  unfold Domain.curveAngles
  rw [List.length_map]
  refine Agree.loop (fun _ l l' => l = l') rfl fun i _ l l' h => ?_
  subst h
  refine (Agree.vget (forall_map g.curve cs) i).bind fun c c' _ _ hc => ?_
  subst hc
  refine (normalize _).bind fun v v' _ _ hv => ?_
  refine (Agree.vget (forall_map g.curve cs) _).bind fun d d' _ _ hd => ?_
  subst hd
  refine (normalize _).bind fun w w' _ _ hw => ?_
  rw [hv, hw, ← map_neg, g.dot]
  rfl

theorem angularUpdate (cs : List (Curve K)) : Agree (· = ·) (Domain.angularUpdate cs) (Domain.angularUpdate (cs.map g.curve)) := by
  unfold Domain.angularUpdate
  refine (curveAngles cs).bind fun a a' _ _ h => ?_
  subst h
  have : Domain.curveLengths (cs.map g.curve) = Domain.curveLengths cs := by
    unfold Domain.curveLengths
    rw [List.map_map]
    rfl
  rw [this]
  exact Agree.refl fun _ _ => rfl

/-! ### Rotation minimizing frames -/

/-- The image of a frame. -/
def frame (g : Motion K) (f : RMF.Frame K) : RMF.Frame K := ⟨f.u, f.s, g.pt f.p, g.lin f.d, g.lin f.n⟩

theorem nextFrame (ε : K) (c : Curve K) (f : RMF.Frame K) (u : K) : Agree (fun a b => b = frame g a) (RMF.nextFrame ε c f u) (RMF.nextFrame ε (g.curve c) (frame g f) u) := by
  unfold RMF.nextFrame
  refine (normalize _).bind fun d d' _ _ hd => ?_
  subst hd
  dsimp only [Motion.curve, frame]
  rw [pt_sub, normSqr]
  split_ifs
  · rfl
  · refine Agree.same fun k1 _ => ?_
    simp only [g.dot, ← map_smul, ← map_sub, normSqr]
    split_ifs
    · rw [M_bind_ok, M_bind_ok]
      rfl
    · refine Agree.same fun k2 _ => ?_
      rw [M_bind_ok, M_bind_ok]
      rfl

theorem rotate_eq (a : P3 K) (t : K) (n : P3 K) : RMF.rotate a t n = Libm.cos t • n + ((1 - Libm.cos t) * P3.dot a n) • a + Libm.sin t • P3.cross a n := by
  unfold RMF.rotate
  ext <;> simp only [P3.add_x, P3.add_y, P3.add_z, P3.smul_x, P3.smul_y, P3.smul_z, P3.cross, P3.dot] <;> ring

theorem rotate (a : P3 K) (t : K) (n : P3 K) : RMF.rotate (g.lin a) t (g.lin n) = g.lin (RMF.rotate a t n) := by
  rw [rotate_eq, rotate_eq, g.dot, g.cross]
  simp only [map_add, map_smul]

/-- The image of a normal fence. -/
def rmf (g : Motion K) (r : RMF.Rmf K) : RMF.Rmf K := ⟨g.curve r.curve, r.frames.map (frame g), r.angleCorrection⟩

theorem computeFrames (ε : K) (res : ℕ) (c : Curve K) (s : P3 K) :
    Agree (fun a b => b = (a.1.map (frame g), frame g a.2)) (RMF.computeFrames ε res c s) (RMF.computeFrames ε res (g.curve c) (g.lin s)) := by
  unfold RMF.computeFrames
  refine (normalize _).bind fun d d' _ _ hd => ?_
  subst hd
  refine Agree.bind (r := fun a b => b = (a.1.map (frame g), frame g a.2)) ?_ fun a b _ _ h => ?_
  · refine Agree.loop (fun _ (a b : List (RMF.Frame K) × RMF.Frame K) => b = (a.1.map (frame g), frame g a.2)) rfl fun i _ a b h => ?_
    subst h
    refine Agree.same fun u _ => ?_
    refine (nextFrame ε c a.2 u).bind fun f f' _ _ hf => ?_
    subst hf
    change _ = _
    simp
  · subst h
    change _ = _
    simp

theorem rmf_update (ε : K) (res : ℕ) (c : Curve K) (s f : P3 K) : Agree (fun a b => b = rmf g a) (RMF.update ε res c s f) (RMF.update ε res (g.curve c) (g.lin s) (g.lin f)) := by
  unfold RMF.update
  refine (computeFrames ε res c s).bind fun a b _ _ h => ?_
  subst h
  simp only [frame, g.dot, ← map_sub, g.cross]
  refine Agree.same fun x _ => ?_
  rfl

theorem rmf_eval (ε : K) (r : RMF.Rmf K) (u : K) : Agree (V g) (RMF.eval ε r u) (RMF.eval ε (rmf g r) u) := by
  unfold RMF.eval
  have hi : (rmf g r).frames.findIdx (fun f => decide (u < f.u)) = r.frames.findIdx fun f => decide (u < f.u) := by
    unfold rmf
    rw [List.findIdx_map]
    rfl
  rw [hi]
  dsimp only
  split_ifs
  · rfl
  · refine (Agree.vget (forall_map (frame g) r.frames) _).bind fun a b _ _ h => ?_
    subst h
    refine (nextFrame ε r.curve a u).bind fun a b _ _ h => ?_
    subst h
    exact rotate _ _ _

/-! ### Ribbons -/

/-- The second ribbon is the image of the first; the corner points of Coons ribbons only after `update`. -/
structure Rib (g : Motion K) (r r' : Ribbon K) : Prop where
  kind : r'.kind = r.kind
  curve : r'.curve = g.curve r.curve
  mult : r'.mult = r.mult
  handlerV : r'.handlerV = g.lin r.handlerV
  handlerInit : r'.handlerInit = r.handlerInit
  fence : r'.fence = r.fence.map fun f s => g.lin (f s)
  rmf : r'.rmf = rmf g r.rmf
  prevT : r'.prevT = g.lin r.prevT
  nextT : r'.nextT = g.lin r.nextT
  central : r'.central = g.lin r.central
  left : r'.left = g.curve r.left
  right : r'.right = g.curve r.right
  top : r'.top = r.top.map g.pt
  corners : r.top ≠ [] → r'.bl = g.pt r.bl ∧ r'.br = g.pt r.br ∧ r'.tl = g.pt r.tl ∧ r'.tr = g.pt r.tr
  pa : r'.pa = r.pa
  pb : r'.pb = r.pb
  pn : r'.pn = r.pn
  na : r'.na = r.na
  nb : r'.nb = r.nb
  nn : r'.nn = r.nn
  baseLength : r'.baseLength = r.baseLength

theorem rib_new (kind : RibbonKind) (c : Curve K) : Rib g (Ribbon.new kind c) (Ribbon.new kind (g.curve c)) := by
  constructor <;> first | rfl | exact (map_zero g.lin).symm | exact fun h => absurd rfl h

theorem rib_curve {r r' : Ribbon K} (h : Rib g r r') (c : Curve K) : Rib g { r with curve := c } { r' with curve := g.curve c } := by
  obtain ⟨⟩ := h
  constructor <;> first | rfl | assumption

theorem rib_normal (ε : K) {r r' : Ribbon K} (h : Rib g r r') (s : K) : Agree (V g) (r.normal ε s) (r'.normal ε s) := by
  unfold Ribbon.normal
  rw [h.fence, h.rmf]
  cases r.fence with
  | none => exact rmf_eval ε r.rmf s
  | some f => rfl

theorem rib_handler {r r' : Ribbon K} (h : Rib g r r') (v : P3 K) : Agree (Rib g) (r.setHandler v) (r'.setHandler (g.lin v)) := by
  unfold Ribbon.setHandler
  refine (normalize v).bind fun a b _ _ hab => ?_
  subst hab
  obtain ⟨⟩ := h
  constructor <;> first | rfl | assumption

theorem rib_mult {r r' : Ribbon K} (h : Rib g r r') (m : K) : Rib g (r.setMultiplier m) (r'.setMultiplier m) := by
  obtain ⟨⟩ := h
  constructor <;> first | rfl | assumption

theorem rib_fence {r r' : Ribbon K} (h : Rib g r r') (f : Option (K → P3 K)) : Rib g (r.overrideNormalFence f) (r'.overrideNormalFence (f.map fun f s => g.lin (f s))) := by
  obtain ⟨⟩ := h
  constructor <;> first | rfl | assumption

theorem rib_reset {r r' : Ribbon K} (h : Rib g r r') : Rib g r.reset r'.reset := by
  obtain ⟨⟩ := h
  constructor <;> first | rfl | assumption

/-- The image of the neighbours. -/
def nbs (g : Motion K) (nb : Neighbors K) : Neighbors K := ⟨g.curve nb.prev, g.curve nb.next, g.curve nb.prev2, g.curve nb.next2, nb.three⟩

theorem baseUpdate (ε : K) (nb : Neighbors K) {r r' : Ribbon K} (h : Rib g r r') : Agree (fun a b => Rib g a b ∧ a = { r with rmf := a.rmf }) (Ribbon.baseUpdate ε nb r) (Ribbon.baseUpdate ε (nbs g nb) r') := by
  unfold Ribbon.baseUpdate
  rw [h.curve]
  dsimp only [nbs, Motion.curve]
  rw [g.cross, g.cross]
  refine (normalize _).bind fun a b _ _ h1 => ?_
  subst h1
  refine (normalize _).bind fun a b _ _ h1 => ?_
  subst h1
  refine (rmf_update ε _ _ _ _).bind fun a b _ _ h1 => ?_
  subst h1
  refine ⟨?_, rfl⟩
  obtain ⟨⟩ := h
  constructor <;> first | rfl | assumption

theorem project (n v : P3 K) : Ribbon.project (g.lin n) (g.lin v) = g.lin (Ribbon.project n v) := by
  unfold Ribbon.project
  rw [g.dot, map_sub, map_smul]

theorem compatibleUpdate (ε : K) (nb : Neighbors K) {r r' : Ribbon K} (h : Rib g r r') : Agree (fun a b => Rib g a b ∧ a.top = r.top) (Ribbon.compatibleUpdate ε nb r) (Ribbon.compatibleUpdate ε (nbs g nb) r') := by
  unfold Ribbon.compatibleUpdate
  have : Rib g { r with prevT := -nb.prev.der 1, nextT := nb.next.der 0 } { r' with prevT := -(nbs g nb).prev.der 1, nextT := (nbs g nb).next.der 0 } := by
    have := map_neg g.lin (nb.prev.der 1)
    obtain ⟨⟩ := h
    constructor <;> first | rfl | assumption | exact this.symm
  refine (baseUpdate ε nb this).mono fun a b h => ⟨h.1, ?_⟩
  rw [h.2]

theorem effectiveHandler {r r' : Ribbon K} (h : Rib g r r') (n : P3 K) : Agree (V g) (r.effectiveHandler n) (r'.effectiveHandler (g.lin n)) := by
  unfold Ribbon.effectiveHandler
  rw [h.handlerInit, h.handlerV, h.prevT, h.nextT, norm, norm]
  split_ifs
  · rfl
  · refine (vdiv _ _).bind fun a b _ _ h1 => ?_
    subst h1
    refine (vdiv _ _).bind fun a b _ _ h1 => ?_
    subst h1
    rw [← map_add, project]
    exact normalize _

theorem handlerUpdate (ε : K) (nb : Neighbors K) {r r' : Ribbon K} (h : Rib g r r') : Agree (fun a b => Rib g a b ∧ a.top = r.top) (Ribbon.handlerUpdate ε nb r) (Ribbon.handlerUpdate ε (nbs g nb) r') := by
  unfold Ribbon.handlerUpdate
  refine (compatibleUpdate ε nb h).bind fun r1 r1' _ _ h1 => ?_
  obtain ⟨h1, ht⟩ := h1
  refine (rib_normal ε h1 _).bind fun n n' _ _ hn => ?_
  subst hn
  refine (effectiveHandler h1 n).bind fun a b _ _ h2 => ?_
  subst h2
  refine ⟨?_, ht⟩
  rw [h1.prevT, h1.nextT, norm, norm, h1.mult]
  have := map_smul g.lin ((r1.prevT.norm + r1.nextT.norm) / 2 * r1.mult) a
  obtain ⟨⟩ := h1
  constructor <;> first | rfl | assumption | exact this.symm

theorem coonsUpdate (ε : K) (nb : Neighbors K) {r r' : Ribbon K} (h : Rib g r r') : Agree (fun a b => Rib g a b ∧ a.top ≠ []) (Ribbon.coonsUpdate ε nb r) (Ribbon.coonsUpdate ε (nbs g nb) r') := by
  unfold Ribbon.coonsUpdate
  have ht : ∀ b : Bool, ∀ p q a c : P3 K, (if b then [g.pt p] else [g.pt q, g.pt q + (1 / 3 : K) • g.lin a, g.pt p - (1 / 3 : K) • g.lin c, g.pt p]) =
      (if b then [p] else [q, q + (1 / 3 : K) • a, p - (1 / 3 : K) • c, p]).map g.pt := by
    intro b p q a c
    cases b
    · rw [← map_smul, ← map_smul, ← pt_add, sub_eq_add_neg, ← map_neg, ← pt_add, ← sub_eq_add_neg]
      rfl
    · rfl
  refine Agree.mono (baseUpdate ε nb ?_) fun a b h => ⟨h.1, ?_⟩
  · have e := ht nb.three (nb.prev.pt 0) (nb.next.pt 1) (nb.next2.der 0) (nb.prev2.der 1)
    have hc := h.curve
    obtain ⟨⟩ := h
    constructor <;> first | rfl | assumption | (dsimp only; exact e) | exact fun _ => ⟨by dsimp only; rw [hc]; rfl, by dsimp only; rw [hc]; rfl, rfl, rfl⟩
  · rw [h.2]
    dsimp only
    split_ifs <;> exact List.cons_ne_nil _ _

theorem rib_update (ε : K) (nb : Neighbors K) {r r' : Ribbon K} (h : Rib g r r') (hk : r.kind = .handler ∨ r.kind = .coons) :
    Agree (fun a b => Rib g a b ∧ (r.kind = .coons → a.top ≠ [])) (r.update ε nb) (r'.update ε (nbs g nb)) := by
  unfold Ribbon.update
  rw [h.kind]
  rcases hk with hk | hk <;> rw [hk]
  · exact (handlerUpdate ε nb h).mono fun a b h => ⟨h.1, fun h => by cases h⟩
  · exact (coonsUpdate ε nb h).mono fun a b h => ⟨h.1, fun _ => h.2⟩

theorem rib_cross (ε : K) {r r' : Ribbon K} (h : Rib g r r') (hk : r.kind = .handler ∨ r.kind = .coons) (s : K) : Agree (V g) (r.crossDerivative ε s) (r'.crossDerivative ε s) := by
  unfold Ribbon.crossDerivative
  rw [h.kind]
  rcases hk with hk | hk <;> rw [hk]
  · change Agree (V g) (Ribbon.handlerCross ε r s) (Ribbon.handlerCross ε r' s)
    unfold Ribbon.handlerCross
    refine (rib_normal ε h s).bind fun n n' _ _ hn => ?_
    subst hn
    rw [h.prevT, h.nextT, h.central, project, project, project]
    change _ = _
    simp only [map_add, map_smul]
  · exact (map_zero g.lin).symm

/-! ### Combinations of points -/

/-- The image of a combination of points with total weight `w`. -/
def W (g : Motion K) (w : K) (a b : P3 K) : Prop := b = g.lin a + w • g.shift

theorem W_pt (p : P3 K) : W g 1 p (g.pt p) := by
  unfold W Motion.pt
  rw [one_smul]

theorem W_lin (v : P3 K) : W g 0 v (g.lin v) := by
  unfold W
  rw [zero_smul, add_zero]

theorem W.pt {a b : P3 K} (h : W g 1 a b) : b = g.pt a := by
  unfold W at h
  rw [h, one_smul]
  rfl

theorem W.add {w x : K} {a b c d : P3 K} (h : W g w a b) (h' : W g x c d) : W g (w + x) (a + c) (b + d) := by
  unfold W at *
  rw [h, h', map_add]
  module

theorem W.sub {w x : K} {a b c d : P3 K} (h : W g w a b) (h' : W g x c d) : W g (w - x) (a - c) (b - d) := by
  unfold W at *
  rw [h, h', map_sub]
  module

theorem W.smul {w : K} {a b : P3 K} (h : W g w a b) (x : K) : W g (x * w) (x • a) (x • b) := by
  unfold W at *
  rw [h, map_smul]
  module

theorem W.eq {w x : K} {a b : P3 K} (h : W g w a b) (e : w = x) : W g x a b := e ▸ h

theorem sum_getD {b : List K} {n : ℕ} (h : b.length = n) : ∑ j ∈ Finset.range n, b.getD j 0 = b.sum := by
  haveI : Inhabited K := ⟨0⟩
  obtain ⟨f, hf⟩ := exists_tab b
  rw [hf, h, sum_tab]
  refine Finset.sum_congr rfl fun j hj => ?_
  rw [List.getD_eq_getElem?_getD, vget_eq_ok.mp (vget_tab f (Finset.mem_range.mp hj))]
  rfl

theorem sum_prev (n : ℕ) (f : ℕ → K) : ∑ j ∈ Finset.range n, f (prevIx n j) = ∑ j ∈ Finset.range n, f j := by
  cases n with
  | zero => rfl
  | succ n => exact sum_range_prev (Nat.succ_pos n) f

theorem getD_of_vget {b : List K} {i : ℕ} {x : K} (h : Transfinite.vget b i = .ok x) : b.getD i 0 = x := by
  rw [List.getD_eq_getElem?_getD, vget_eq_ok.mp h]
  rfl

theorem bezierPt (ps : List (P3 K)) (u : K) : Agree (fun p p' => W g 1 p p' ∨ ps = []) (Ribbon.bezierPt ps u) (Ribbon.bezierPt (ps.map g.pt) u) := by
  unfold Ribbon.bezierPt
  rw [List.length_map]
  refine Agree.same fun b hb => ?_
  refine Agree.mono (Agree.loop (fun i p p' => W g (∑ j ∈ Finset.range i, b.getD j 0) p p') (by unfold W; simp) fun i _ p p' h => ?_) fun p p' h => ?_
  · refine (Agree.vget (forall_map g.pt ps) i).bind fun c c' _ _ hc => ?_
    subst hc
    refine Agree.same fun x hx => ?_
    have := getD_of_vget hx
    refine (h.add ((W_pt c).smul x)).eq ?_
    rw [Finset.sum_range_succ, this, mul_one]
  · cases ps with
    | nil => exact Or.inr rfl
    | cons q ps =>
      refine Or.inl (h.eq ?_)
      rw [List.length_cons, Nat.add_sub_cancel, bernsteinAll_eq] at hb
      cases hb
      rw [List.length_cons, sum_getD (length_tab _ _), sum_tab, bern_sum]


theorem baseEval (ε : K) {r r' : Ribbon K} (h : Rib g r r') (hk : r.kind = .handler ∨ r.kind = .coons) (sd : P2 K) : Agree (W g 1) (Ribbon.baseEval ε r sd) (Ribbon.baseEval ε r' sd) := by
  unfold Ribbon.baseEval
  refine (rib_cross ε h hk sd.x).bind fun a b _ _ hab => ?_
  subst hab
  rw [h.curve]
  refine ((W_pt _).add ((W_lin a).smul sd.y)).eq ?_
  rw [mul_zero, add_zero]

section order

variable [IsStrictOrderedRing K]

theorem clamp_sub (x : K) : Domain.clamp (1 - Domain.clamp x 0 1) 0 1 = 1 - Domain.clamp x 0 1 := by
  obtain ⟨h0, h1⟩ := Surf.clamp_range x
  exact Surf.clamp_of_mem (by linarith) (by linarith)

theorem coonsEval {r r' : Ribbon K} (h : Rib g r r') (sd : P2 K) : Agree (fun p p' => r.top ≠ [] → W g 1 p p') (Ribbon.coonsEval r sd) (Ribbon.coonsEval r' sd) := by
  unfold Ribbon.coonsEval
  dsimp only
  rw [clamp_sub, clamp_sub, h.top]
  refine (bezierPt r.top _).bind fun t t' _ _ ht hne => ?_
  have ht := ht.resolve_right hne
  obtain ⟨h1, h2, h3, h4⟩ := h.corners hne
  rw [h1, h2, h3, h4, h.curve, h.left, h.right]
  set d := Domain.clamp sd.y 0 1
  set s := Domain.clamp sd.x 0 1
  refine (((((W_pt _).smul _).add (ht.smul _)).add (((W_pt _).smul _).add ((W_pt _).smul _))).sub
    (((((W_pt _).smul _).add ((W_pt _).smul _)).smul _).add ((((W_pt _).smul _).add ((W_pt _).smul _)).smul _))).eq ?_
  ring

theorem rib_eval (ε : K) {r r' : Ribbon K} (h : Rib g r r') (hk : r.kind = .handler ∨ r.kind = .coons) (sd : P2 K) :
    Agree (fun p p' => (r.kind = .coons → r.top ≠ []) → W g 1 p p') (r.eval ε sd) (r'.eval ε sd) := by
  unfold Ribbon.eval
  rw [h.kind]
  rcases hk with hk | hk
  · rw [hk]
    exact (baseEval ε h (Or.inl hk) sd).mono fun _ _ h _ => h
  · rw [hk]
    exact (coonsEval h sd).mono fun _ _ h h' => h (h' rfl)

/-! ### The interpolants -/

/-- The second corner is the image of the first. -/
structure Cor (g : Motion K) (c c' : Corner K) : Prop where
  point : c'.point = g.pt c.point
  tangent1 : c'.tangent1 = g.lin c.tangent1
  tangent2 : c'.tangent2 = g.lin c.tangent2
  twist1 : c'.twist1 = g.lin c.twist1
  twist2 : c'.twist2 = g.lin c.twist2

/-- The second ribbon is the image of the first, and both are of the given kind. -/
structure RibK (g : Motion K) (kind : RibbonKind) (r r' : Ribbon K) : Prop where
  rib : Rib g r r'
  kind : r.kind = kind

/-- The second surface is the image of the first. -/
structure Sf (g : Motion K) (kind : RibbonKind) (S S' : Surf K) : Prop where
  gamma : S'.useGamma = S.useGamma
  ribbons : List.Forall₂ (RibK g kind) S.ribbons S'.ribbons
  corners : List.Forall₂ (Cor g) S.corners S'.corners

/-- The kinds of ribbons of the surface classes. -/
def Used (kind : RibbonKind) : Prop := kind = .handler ∨ kind = .coons

/-- The corner points of Coons ribbons have been computed. -/
def Tops (kind : RibbonKind) (rs : List (Ribbon K)) : Prop := kind = .coons → ∀ r ∈ rs, r.top ≠ []

variable {kind : RibbonKind} {S S' : Surf K}

theorem vget_mem {α : Type} {l : List α} {i : ℕ} {a : α} (h : Transfinite.vget l i = .ok a) : a ∈ l := List.mem_of_getElem? (vget_eq_ok.mp h)

theorem Sf.n (h : Sf g kind S S') : S'.n = S.n := h.ribbons.length_eq.symm

theorem gamma_eq (h : Sf g kind S S') (d : K) : S'.gamma d = S.gamma d := by
  unfold Surf.gamma
  rw [h.gamma]

theorem rationalTwist (ε u v : K) (a b : P3 K) : Agree (V g) (Surf.rationalTwist ε u v a b) (Surf.rationalTwist ε u v (g.lin a) (g.lin b)) := by
  unfold Surf.rationalTwist
  split_ifs
  · exact (map_zero g.lin).symm
  · rw [← map_smul, ← map_smul, ← map_add]
    exact vdiv _ _

theorem cornerCorrection (ε : K) (h : Sf g kind S S') (i : ℕ) (s1 s2 : K) : Agree (W g 1) (S.cornerCorrection ε i s1 s2) (S'.cornerCorrection ε i s1 s2) := by
  unfold Surf.cornerCorrection
  rw [gamma_eq h, gamma_eq h]
  refine Agree.same fun g1 _ => Agree.same fun g2 _ => ?_
  dsimp only
  refine (Agree.vget h.corners i).bind fun c c' _ _ hc => ?_
  rw [hc.twist1, hc.twist2, hc.point, hc.tangent1, hc.tangent2]
  refine (rationalTwist ε _ _ _ _).bind fun t t' _ _ ht => ?_
  subst ht
  refine ((((W_pt _).add ((W_lin _).smul _)).add ((W_lin _).smul _)).add ((W_lin _).smul _)).eq ?_
  ring

theorem sideInterpolant (ε : K) (hu : Used kind) (h : Sf g kind S S') (i : ℕ) (s d : K) :
    Agree (fun p p' => Tops kind S.ribbons → W g 1 p p') (S.sideInterpolant ε i s d) (S'.sideInterpolant ε i s d) := by
  unfold Surf.sideInterpolant
  rw [gamma_eq h]
  refine Agree.same fun g1 _ => ?_
  refine (Agree.vget h.ribbons i).bind fun r r' e _ hr => ?_
  refine (rib_eval ε hr.rib (by rw [hr.kind]; exact hu) _).mono fun p p' h ht => h fun hk => ?_
  rw [hr.kind] at hk
  exact ht hk r (vget_mem e)

theorem cornerInterpolant (ε : K) (h : Sf g .handler S S') (i : ℕ) (sds : List (P2 K)) : Agree (W g 1) (S.cornerInterpolant ε i sds) (S'.cornerInterpolant ε i sds) := by
  unfold Surf.cornerInterpolant
  have ht : Tops .handler S.ribbons := fun h => by cases h
  rw [h.n]
  refine Agree.same fun x _ => Agree.same fun y _ => ?_
  refine (sideInterpolant ε (Or.inl rfl) h _ _ _).bind fun a a' _ _ ha => ?_
  refine (sideInterpolant ε (Or.inl rfl) h _ _ _).bind fun b b' _ _ hb => ?_
  refine (cornerCorrection ε h _ _ _).bind fun c c' _ _ hc => ?_
  refine (((ha ht).add (hb ht)).sub hc).eq ?_
  ring

/-! ### Evaluation -/

theorem sideBased (ε : K) (h : Sf g .handler S S') (sds : List (P2 K)) :
    Agree (fun p p' => ∀ b, Surf.blendSideSingular ε sds = .ok b → W g (∑ j ∈ Finset.range S.n, b.getD j 0) p p') (S.sideBased ε sds) (S'.sideBased ε sds) := by
  unfold Surf.sideBased
  have ht : Tops .handler S.ribbons := fun h => by cases h
  rw [h.n]
  refine Agree.same fun b e => ?_
  refine Agree.mono (r := W g (∑ j ∈ Finset.range S.n, b.getD j 0)) ?_ fun p p' hp b' e' => by cases e.symm.trans e'; exact hp
  refine Agree.loop (fun i p p' => W g (∑ j ∈ Finset.range i, b.getD j 0) p p') (by unfold W; simp) fun i _ p p' hp => ?_
  refine Agree.same fun sd _ => ?_
  refine (sideInterpolant ε (Or.inl rfl) h _ _ _).bind fun a a' _ _ ha => ?_
  refine Agree.same fun x hx => ?_
  refine (hp.add ((ha ht).smul x)).eq ?_
  rw [Finset.sum_range_succ, getD_of_vget hx, mul_one]

theorem cornerSum (ε : K) (h : Sf g .handler S S') (sds : List (P2 K)) (b : List K) :
    Agree (W g (∑ j ∈ Finset.range S.n, b.getD j 0))
      (forLoop S.n (fun i p => do
        let q ← S.cornerInterpolant ε i sds
        let x ← Transfinite.vget b i
        .ok (p + x • q)) 0)
      (forLoop S'.n (fun i p => do
        let q ← S'.cornerInterpolant ε i sds
        let x ← Transfinite.vget b i
        .ok (p + x • q)) 0) := by
  rw [h.n]
  refine Agree.loop (fun i p p' => W g (∑ j ∈ Finset.range i, b.getD j 0) p p') (by unfold W; simp) fun i _ p p' hp => ?_
  refine (cornerInterpolant ε h _ _).bind fun a a' _ _ ha => ?_
  refine Agree.same fun x hx => ?_
  refine (hp.add (ha.smul x)).eq ?_
  rw [Finset.sum_range_succ, getD_of_vget hx, mul_one]

theorem cornerBased (ε : K) (h : Sf g .handler S S') (sds : List (P2 K)) :
    Agree (fun p p' => ∀ b, Surf.blendCorner ε S.n sds = .ok b → W g (∑ j ∈ Finset.range S.n, b.getD j 0) p p') (S.cornerBased ε sds) (S'.cornerBased ε sds) := by
  unfold Surf.cornerBased
  rw [h.n]
  refine Agree.same fun b e => ?_
  have := cornerSum ε h sds b
  rw [h.n] at this
  exact this.mono fun p p' hp b' e' => by cases e.symm.trans e'; exact hp

theorem coonsSum (ε : K) (h : Sf g .handler S S') (sds : List (P2 K)) (b : List K) :
    Agree (W g (∑ j ∈ Finset.range S.n, b.getD j 0)) (S.coonsSum ε sds b) (S'.coonsSum ε sds b) := by
  unfold Surf.coonsSum
  have ht : Tops .handler S.ribbons := fun h => by cases h
  rw [h.n]
  have e : ∑ j ∈ Finset.range S.n, b.getD j 0 = ∑ j ∈ Finset.range S.n, b.getD (prevIx S.n j) 0 := (sum_prev _ _).symm
  rw [e]
  refine Agree.loop (fun i p p' => W g (∑ j ∈ Finset.range i, b.getD (prevIx S.n j) 0) p p') (by unfold W; simp) fun i _ p p' hp => ?_
  refine Agree.same fun sd _ => Agree.same fun sp _ => Agree.same fun x hx => Agree.same fun y hy => ?_
  refine (sideInterpolant ε (Or.inl rfl) h _ _ _).bind fun a a' _ _ ha => ?_
  refine (cornerCorrection ε h _ _ _).bind fun c c' _ _ hc => ?_
  refine ((hp.add ((ha ht).smul _)).sub (hc.smul _)).eq ?_
  rw [Finset.sum_range_succ, getD_of_vget hy]
  ring

theorem generalizedCoons (ε : K) (h : Sf g .handler S S') (sds : List (P2 K)) :
    Agree (fun p p' => ∀ b, Surf.blendCorner ε S.n sds = .ok b → W g (∑ j ∈ Finset.range S.n, b.getD j 0) p p') (S.generalizedCoons ε sds) (S'.generalizedCoons ε sds) := by
  unfold Surf.generalizedCoons
  rw [h.n]
  refine Agree.same fun b e => ?_
  exact (coonsSum ε h sds b).mono fun p p' hp b' e' => by cases e.symm.trans e'; exact hp

theorem compositeRibbon (ε : K) (h : Sf g .handler S S') (i : ℕ) (sd : P2 K) : Agree (W g 1) (S.compositeRibbon ε i sd) (S'.compositeRibbon ε i sd) := by
  unfold Surf.compositeRibbon
  have ht : Tops .handler S.ribbons := fun h => by cases h
  dsimp only
  rw [h.n]
  refine (sideInterpolant ε (Or.inl rfl) h _ _ _).bind fun a a' _ _ ha => ?_
  refine (sideInterpolant ε (Or.inl rfl) h _ _ _).bind fun b b' _ _ hb => ?_
  refine (sideInterpolant ε (Or.inl rfl) h _ _ _).bind fun c c' _ _ hc => ?_
  refine (cornerCorrection ε h _ _ _).bind fun d d' _ _ hd => ?_
  refine (cornerCorrection ε h _ _ _).bind fun e e' _ _ he => ?_
  refine ((((((ha ht).smul _).add ((hb ht).smul _)).add ((hc ht).smul _)).sub (hd.smul _)).sub (he.smul _)).eq ?_
  ring

theorem composite (ε : K) (h : Sf g .handler S S') (sds : List (P2 K)) :
    Agree (fun p p' => ∀ b, Surf.blendCorner ε S.n sds = .ok b → W g (∑ j ∈ Finset.range S.n, b.getD j 0) p p') (S.composite ε sds) (S'.composite ε sds) := by
  unfold Surf.composite
  rw [h.n]
  refine Agree.same fun b e => ?_
  have e' : ∑ j ∈ Finset.range S.n, b.getD j 0 = ∑ j ∈ Finset.range S.n, b.getD (prevIx S.n j) 0 := (sum_prev _ _).symm
  have h2 : ∑ j ∈ Finset.range S.n, (b.getD j 0 + b.getD (prevIx S.n j) 0) = 2 * ∑ j ∈ Finset.range S.n, b.getD j 0 := by
    rw [Finset.sum_add_distrib, ← e', two_mul]
  refine Agree.bind (r := W g (2 * ∑ j ∈ Finset.range S.n, b.getD j 0)) ?_ fun p p' _ _ hp b' eb => ?_
  · rw [← h2]
    refine Agree.loop (fun i p p' => W g (∑ j ∈ Finset.range i, (b.getD j 0 + b.getD (prevIx S.n j) 0)) p p') (by unfold W; simp) fun i _ p p' hp => ?_
    refine Agree.same fun sd _ => ?_
    refine (compositeRibbon ε h _ _).bind fun a a' _ _ ha => ?_
    refine Agree.same fun x hx => Agree.same fun y hy => ?_
    refine (hp.add (ha.smul _)).eq ?_
    rw [Finset.sum_range_succ, getD_of_vget hx, getD_of_vget hy, mul_one]
  · cases e.symm.trans eb
    refine (hp.smul _).eq ?_
    rw [← mul_assoc]
    norm_num

theorem loop_inv {α : Type} {m : ℕ} {f : ℕ → α → M α} {a b : α} (p : ℕ → α → Prop) (h0 : p 0 a) (hs : ∀ k x y, p k x → f k x = .ok y → p (k + 1) y)
    (h : forLoop m f a = .ok b) : p m b := by
  induction m generalizing b with
  | zero => cases h; exact h0
  | succ m ih =>
    rw [forLoop_succ] at h
    obtain ⟨x, e, h⟩ := bind_ok h
    exact hs m x b (ih e) h

theorem deficient_length {ε : K} {n : ℕ} {sds : List (P2 K)} {b : List K} (h : Surf.blendCornerDeficient ε n sds = .ok b) : b.length = n := by
  unfold Surf.blendCornerDeficient at h
  refine loop_inv (fun i (l : List K) => l.length = i) rfl (fun i l l' hl e => ?_) h
  obtain ⟨_, _, e⟩ := bind_ok e
  obtain ⟨_, _, e⟩ := bind_ok e
  obtain ⟨_, _, e⟩ := bind_ok e
  cases e
  rw [List.length_append, hl]
  rfl

/-- The total weight of the surfaces with a central control point depends on the one of that point. -/
theorem midpoint (ε : K) (h : Sf g .handler S S') (sds : List (P2 K)) (c c' : P3 K) :
    Agree (fun p p' => W g 1 c c' → W g 1 p p') (S.midpoint ε c sds) (S'.midpoint ε c' sds) ∧
    Agree (fun p p' => ∀ b, Surf.blendCornerDeficient ε S.n sds = .ok b → W g b.sum p p') (S.midpoint ε 0 sds) (S'.midpoint ε 0 sds) := by
  unfold Surf.midpoint
  rw [h.n]
  have q := cornerSum ε h sds
  rw [h.n] at q
  constructor
  · refine Agree.same fun b e => (q b).bind fun p p' _ _ hp hc => ?_
    refine (hp.add (hc.smul _)).eq ?_
    rw [sum_getD (deficient_length e)]
    ring
  · refine Agree.same fun b e => (q b).bind fun p p' _ _ hp b' e' => ?_
    cases e.symm.trans e'
    rw [smul_zero, add_zero, add_zero]
    exact hp.eq (sum_getD (deficient_length e))

theorem midpointCoons (ε : K) (h : Sf g .handler S S') (sds : List (P2 K)) (c c' : P3 K) :
    Agree (fun p p' => W g 1 c c' → W g 1 p p') (S.midpointCoons ε c sds) (S'.midpointCoons ε c' sds) ∧
    Agree (fun p p' => ∀ b, Surf.blendCornerDeficient ε S.n sds = .ok b → W g b.sum p p') (S.midpointCoons ε 0 sds) (S'.midpointCoons ε 0 sds) := by
  unfold Surf.midpointCoons
  rw [h.n]
  have q := coonsSum ε h sds
  constructor
  · refine Agree.same fun b e => (q b).bind fun p p' _ _ hp hc => ?_
    refine (hp.add (hc.smul _)).eq ?_
    rw [sum_getD (deficient_length e)]
    ring
  · refine Agree.same fun b e => (q b).bind fun p p' _ _ hp b' e' => ?_
    cases e.symm.trans e'
    rw [smul_zero, add_zero, add_zero]
    exact hp.eq (sum_getD (deficient_length e))

theorem c0Coons (ε : K) (h : Sf g .coons S S') (sds : List (P2 K)) :
    Agree (fun p p' => Tops .coons S.ribbons → W g (∑ j ∈ Finset.range S.n, (1 - (sds.getD j 0).y) / 2) p p') (S.c0Coons ε sds) (S'.c0Coons ε sds) := by
  unfold Surf.c0Coons
  rw [h.n]
  refine Agree.loop (fun i p p' => Tops .coons S.ribbons → W g (∑ j ∈ Finset.range i, (1 - (sds.getD j 0).y) / 2) p p') (fun _ => by unfold W; simp) fun i _ p p' hp => ?_
  refine Agree.same fun sd hs => ?_
  refine (Agree.vget h.ribbons i).bind fun r r' e _ hr => ?_
  refine (rib_eval ε hr.rib (by rw [hr.kind]; exact Or.inr rfl) sd).bind fun q q' _ _ hq ht => ?_
  refine ((hp ht).add ((hq fun _ => ht rfl r (vget_mem e)).smul _)).eq ?_
  have : sds.getD i 0 = sd := by
    rw [List.getD_eq_getElem?_getD, vget_eq_ok.mp hs]
    rfl
  rw [Finset.sum_range_succ, this, mul_one]

end order

end Motion

end Transfinite
