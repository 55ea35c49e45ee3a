import Verif.Spec.Flat
import Verif.Lemmas.Loop
import Verif.Lemmas.MotionPatch
import Verif.Lemmas.PatchUpdate
import Verif.Lemmas.PatchRun
import Verif.Lemmas.Ribbon
import Verif.Lemmas.Sync

/-! Surfaces on flat loops, in a plane through the origin. -/

namespace Transfinite

open Spec

namespace Flat

variable {N : P3 ℝ}

/-- The plane through the origin. -/
def plane (N : P3 ℝ) : Submodule ℝ (P3 ℝ) where
  carrier := { v | P3.dot N v = 0 }
  add_mem' {a b} ha hb := by
    change P3.dot N (a + b) = 0
    rw [P3.dot_add_right, show P3.dot N a = 0 from ha, show P3.dot N b = 0 from hb, add_zero]
  zero_mem' := by
    change P3.dot N 0 = 0
    rw [P3.dot_comm, P3.dot_zero_left]
  smul_mem' x a ha := by
    change P3.dot N (x • a) = 0
    rw [P3.dot_smul_right, show P3.dot N a = 0 from ha, mul_zero]

theorem mem_plane {v : P3 ℝ} : v ∈ plane N ↔ P3.dot N v = 0 := Iff.rfl

/-- The cross product of two vectors in the plane. -/
theorem cross_eq (hN : P3.dot N N = 1) {a b : P3 ℝ} (ha : a ∈ plane N) (hb : b ∈ plane N) : P3.cross a b = P3.dot N (P3.cross a b) • N := by
  rw [mem_plane] at ha hb
  unfold P3.dot at ha hb hN
  have : P3.dot (P3.cross a b - P3.dot N (P3.cross a b) • N) (P3.cross a b - P3.dot N (P3.cross a b) • N) = 0 := by
    have h1 : P3.cross N (P3.cross a b) = 0 := by
      ext <;> simp [P3.cross]
      · linear_combination b.x * 0 + a.x * hb - b.x * ha
      · linear_combination a.y * hb - b.y * ha
      · linear_combination a.z * hb - b.z * ha
    have h2 := RMF.cross_dot_cross N (P3.cross a b)
    rw [h1, P3.dot_zero_left, show P3.dot N N = 1 from hN] at h2
    simp only [P3.dot_sub_left, P3.dot_sub_right, P3.dot_smul_left, P3.dot_smul_right]
    rw [P3.dot_comm (P3.cross a b) N, show P3.dot N N = 1 from hN]
    linear_combination -h2
  exact sub_eq_zero.mp (P3.eq_zero_of_dot_self this)

theorem normalize_cross (hN : P3.dot N N = 1) {a b : P3 ℝ} (ha : a ∈ plane N) (hb : b ∈ plane N) (h : 0 < P3.dot N (P3.cross a b)) {v : P3 ℝ} (e : (P3.cross a b).normalize = .ok v) : v = N := by
  obtain ⟨_, rfl, _⟩ := P3.normalize_unit e
  have h1 := cross_eq hN ha hb
  set t := P3.dot N (P3.cross a b)
  have h2 : (P3.cross a b).norm = t := by
    have := P3.norm_mul_self (P3.cross a b)
    rw [h1, P3.dot_smul_left, P3.dot_smul_right, hN, ← h1] at this
    nlinarith [P3.norm_nonneg (P3.cross a b)]
  rw [h2, h1, smul_smul, inv_mul_cancel₀ h.ne', one_smul]

theorem normalize_mem {a v : P3 ℝ} (ha : a ∈ plane N) (e : a.normalize = .ok v) : v ∈ plane N := by
  obtain ⟨_, rfl, _⟩ := P3.normalize_unit e
  exact (plane N).smul_mem _ ha

/-! ### Frames -/

/-- A frame in the plane. -/
structure FFrame (N : P3 ℝ) (k : ℝ) (f : RMF.Frame ℝ) : Prop where
  n : f.n = N
  p : P3.dot N f.p = k
  d : f.d ∈ plane N

theorem curve_pt {c : Curve ℝ} (hc : PlaneCurve N 0 c) {u : ℝ} (h0 : 0 ≤ u) (h1 : u ≤ 1) : c.pt u ∈ plane N := (hc u h0 h1).1

theorem curve_der {k : ℝ} {c : Curve ℝ} (hc : PlaneCurve N k c) {u : ℝ} (h0 : 0 ≤ u) (h1 : u ≤ 1) : c.der u ∈ plane N := (hc u h0 h1).2

theorem reflect_mem {v x : P3 ℝ} (hv : v ∈ plane N) (hx : x ∈ plane N) : reflect v x ∈ plane N := (plane N).sub_mem hx ((plane N).smul_mem _ hv)

theorem reflect_normal {v : P3 ℝ} (hv : v ∈ plane N) : reflect v N = N := by
  unfold reflect
  rw [P3.dot_comm, mem_plane.mp hv]
  simp

theorem nextFrame {ε : ℝ} (hε : 0 < ε) {k : ℝ} {c : Curve ℝ} (hc : PlaneCurve N k c) {f g : RMF.Frame ℝ} (hf : FFrame N k f) {u : ℝ} (h0 : 0 ≤ u) (h1 : u ≤ 1) (h : RMF.nextFrame ε c f u = .ok g) : FFrame N k g := by
  obtain ⟨_, ⟨_, rfl⟩ | ⟨_, _, _, hp, hd, hn⟩⟩ := RMF.nextFrame_cases hε h
  · exact hf
  · have m1 : c.pt u - f.p ∈ plane N := by rw [mem_plane, P3.dot_sub_right, (hc u h0 h1).1, hf.p, sub_self]
    have m2 := normalize_mem (curve_der hc h0 h1) hd
    have m3 := (plane N).sub_mem m2 (reflect_mem m1 hf.d)
    have hn' : g.n = N := by
      rcases hn with ⟨_, hn⟩ | ⟨_, hn⟩
      · rw [hn, hf.n, reflect_normal m1]
      · rw [hn, hf.n, reflect_normal m1, reflect_normal m3]
    exact ⟨hn', by rw [hp]; exact (hc u h0 h1).1, m2⟩

theorem computeFrames {ε : ℝ} (hε : 0 < ε) {res : ℕ} {k : ℝ} {c : Curve ℝ} (hc : PlaneCurve N k c) {fs : List (RMF.Frame ℝ) × RMF.Frame ℝ} (h : RMF.computeFrames ε res c N = .ok fs) :
    (∀ f ∈ fs.1, FFrame N k f) ∧ FFrame N k fs.2 := by
  unfold RMF.computeFrames at h
  obtain ⟨d, hd, h⟩ := bind_ok h
  obtain ⟨st, e, h⟩ := bind_ok h
  cases h
  have hst : (∀ f ∈ st.1, FFrame N k f) ∧ FFrame N k st.2 := by
    obtain ⟨t, e', ht⟩ : ∃ t, forLoop res (fun i (st : List (RMF.Frame ℝ) × RMF.Frame ℝ) => do
        let u ← fdiv ((i + 1 : ℕ) : ℝ) (res : ℝ)
        let f ← RMF.nextFrame ε c st.2 u
        .ok (st.1 ++ [st.2], f)) ([], ⟨0, 0, c.pt 0, d, N⟩) = .ok t ∧ t = st := ⟨st, e, rfl⟩
    clear e
    subst ht
    have key : ∀ m ≤ res, ∀ t, forLoop m (fun i (st : List (RMF.Frame ℝ) × RMF.Frame ℝ) => do
        let u ← fdiv ((i + 1 : ℕ) : ℝ) (res : ℝ)
        let f ← RMF.nextFrame ε c st.2 u
        .ok (st.1 ++ [st.2], f)) ([], ⟨0, 0, c.pt 0, d, N⟩) = .ok t → (∀ f ∈ t.1, FFrame N k f) ∧ FFrame N k t.2 := by
      intro m
      induction m with
      | zero =>
        intro _ t e
        cases e
        exact ⟨(fun f hf => by cases hf), rfl, (hc 0 le_rfl zero_le_one).1, normalize_mem (curve_der hc le_rfl zero_le_one) hd⟩
      | succ m ih =>
        intro hm t e
        rw [forLoop_succ] at e
        obtain ⟨x, e1, e⟩ := bind_ok e
        obtain ⟨h1, h2⟩ := ih (by omega) x e1
        obtain ⟨u, e2, e⟩ := bind_ok e
        obtain ⟨f, e3, e⟩ := bind_ok e
        cases e
        have hr : (0 : ℝ) < res := by exact_mod_cast (by omega : 0 < res)
        rw [fdiv_of_ne hr.ne'] at e2
        cases e2
        refine ⟨fun g hg => ?_, nextFrame hε hc h2 (by positivity) (by rw [div_le_one hr]; exact_mod_cast hm) e3⟩
        rcases List.mem_append.mp hg with hg | hg
        · exact h1 g hg
        · rw [List.mem_singleton.mp hg]; exact h2
    exact key res le_rfl _ e'
  refine ⟨fun f hf => ?_, hst.2⟩
  rcases List.mem_append.mp hf with hf | hf
  · exact hst.1 f hf
  · rw [List.mem_singleton.mp hf]; exact hst.2

/-- The data of a normal fence that is constant. -/
structure FRmf (N : P3 ℝ) (r : RMF.Rmf ℝ) : Prop where
  curve : PlaneCurve N 0 r.curve
  frames : ∀ f ∈ r.frames, FFrame N 0 f
  angle : r.angleCorrection = 0

theorem rmf_update {ε : ℝ} (hε : 0 < ε) (hN : P3.dot N N = 1) {res : ℕ} {c : Curve ℝ} (hc : PlaneCurve N 0 c) {r : RMF.Rmf ℝ} (h : RMF.update ε res c N N = .ok r) : FRmf N r := by
  unfold RMF.update at h
  obtain ⟨fs, e, h⟩ := bind_ok h
  obtain ⟨h1, h2⟩ := computeFrames hε hc e
  obtain ⟨a, e2, h⟩ := bind_ok h
  cases h
  refine ⟨hc, h1, ?_⟩
  have hcl : Domain.clamp (1 : ℝ) (-1) 1 = 1 := by unfold Domain.clamp; norm_num
  have ha : (Libm.acos (1 : ℝ) : ℝ) = 0 := Real.arccos_one
  have hz : P3.cross (0 : P3 ℝ) N = 0 := by ext <;> simp [P3.cross]
  rw [h2.n, hN, hcl, ha, sub_self, hz, P3.dot_zero_left, if_neg (lt_irrefl _)] at e2
  unfold fdiv at e2
  split_ifs at e2
  cases e2
  rw [zero_div]

theorem rmf_eval {ε : ℝ} (hε : 0 < ε) {r : RMF.Rmf ℝ} (hr : FRmf N r) {u : ℝ} (h0 : 0 ≤ u) (h1 : u ≤ 1) {v : P3 ℝ} (h : RMF.eval ε r u = .ok v) : v = N := by
  unfold RMF.eval at h
  dsimp only at h
  split_ifs at h
  obtain ⟨f, e, h⟩ := bind_ok h
  obtain ⟨g, e2, h⟩ := bind_ok h
  cases h
  have hg := nextFrame hε hr.curve (hr.frames f (Motion.vget_mem e)) h0 h1 e2
  rw [hr.angle, mul_zero, RMF.rotate_eq, hg.n]
  simp

/-! ### Ribbons -/

/-- A ribbon in the plane. -/
structure Rib (N : P3 ℝ) (r : Ribbon ℝ) : Prop where
  kind : r.kind = .handler ∨ r.kind = .coons
  curve : PlaneCurve N 0 r.curve
  rmf : FRmf N r.rmf
  fence : ∀ f, r.fence = some f → ∀ s, 0 ≤ s → s ≤ 1 → f s = N
  handler : r.kind = .handler → r.prevT ∈ plane N ∧ r.nextT ∈ plane N
  coons : r.kind = .coons → PlaneCurve N 0 r.left ∧ PlaneCurve N 0 r.right ∧ (∀ p ∈ r.top, p ∈ plane N) ∧ r.bl ∈ plane N ∧ r.br ∈ plane N ∧ r.tl ∈ plane N ∧ r.tr ∈ plane N

theorem normal {ε : ℝ} (hε : 0 < ε) {r : Ribbon ℝ} (hr : Rib N r) {s : ℝ} (h0 : 0 ≤ s) (h1 : s ≤ 1) {v : P3 ℝ} (h : r.normal ε s = .ok v) : v = N := by
  unfold Ribbon.normal at h
  cases hf : r.fence with
  | some f =>
    rw [hf] at h
    cases h
    exact hr.fence f hf s h0 h1
  | none =>
    rw [hf] at h
    exact rmf_eval hε hr.rmf h0 h1 h

theorem project_mem (hN : P3.dot N N = 1) (v : P3 ℝ) : Ribbon.project N v ∈ plane N := by
  rw [mem_plane]
  unfold Ribbon.project
  rw [P3.dot_sub_right, P3.dot_smul_right, hN, P3.dot_comm v N]
  ring

theorem cross {ε : ℝ} (hε : 0 < ε) (hN : P3.dot N N = 1) {r : Ribbon ℝ} (hr : Rib N r) {s : ℝ} (h0 : 0 ≤ s) (h1 : s ≤ 1) {v : P3 ℝ} (h : r.crossDerivative ε s = .ok v) : v ∈ plane N := by
  unfold Ribbon.crossDerivative at h
  rcases hr.kind with hk | hk
  · rw [hk] at h
    dsimp only at h
    unfold Ribbon.handlerCross at h
    obtain ⟨n, e, h⟩ := bind_ok h
    cases h
    rw [normal hε hr h0 h1 e]
    exact (plane N).add_mem ((plane N).add_mem ((plane N).smul_mem _ (project_mem hN _)) ((plane N).smul_mem _ (project_mem hN _))) ((plane N).smul_mem _ (project_mem hN _))
  · rw [hk] at h
    cases h
    exact (plane N).zero_mem

theorem bezierPt {cp : List (P3 ℝ)} (hcp : ∀ p ∈ cp, p ∈ plane N) {u : ℝ} {v : P3 ℝ} (h : Ribbon.bezierPt cp u = .ok v) : v ∈ plane N := by
  unfold Ribbon.bezierPt at h
  obtain ⟨b, _, h⟩ := bind_ok h
  refine Patch.forLoop_inv' (fun p => p ∈ plane N) (plane N).zero_mem (fun k x y hx e => ?_) h
  obtain ⟨c, e1, e⟩ := bind_ok e
  obtain ⟨z, _, e⟩ := bind_ok e
  cases e
  exact (plane N).add_mem hx ((plane N).smul_mem _ (hcp c (Motion.vget_mem e1)))

theorem clamp_mem (x : ℝ) : 0 ≤ Domain.clamp x 0 1 ∧ Domain.clamp x 0 1 ≤ 1 := by
  unfold Domain.clamp
  constructor
  · exact le_max_left _ _
  · exact max_le zero_le_one (min_le_right _ _)

theorem eval {ε : ℝ} (hε : 0 < ε) (hN : P3.dot N N = 1) {r : Ribbon ℝ} (hr : Rib N r) {sd : P2 ℝ} (hs : r.kind = .coons ∨ 0 ≤ sd.x ∧ sd.x ≤ 1) {v : P3 ℝ} (h : r.eval ε sd = .ok v) : v ∈ plane N := by
  unfold Ribbon.eval at h
  rcases hr.kind with hk | hk
  · obtain ⟨h0, h1⟩ := hs.resolve_left (by rw [hk]; decide)
    rw [hk] at h
    dsimp only at h
    unfold Ribbon.baseEval at h
    obtain ⟨c, e, h⟩ := bind_ok h
    cases h
    exact (plane N).add_mem (curve_pt hr.curve h0 h1) ((plane N).smul_mem _ (cross hε hN hr h0 h1 e))
  · obtain ⟨c1, c2, c3, c4, c5, c6, c7⟩ := hr.coons hk
    rw [hk] at h
    dsimp only at h
    unfold Ribbon.coonsEval at h
    dsimp only at h
    obtain ⟨t, e, h⟩ := bind_ok h
    cases h
    have ht := bezierPt c3 e
    have sm : ∀ (x : ℝ) {v : P3 ℝ}, v ∈ plane N → x • v ∈ plane N := fun x _ hv => (plane N).smul_mem x hv
    have hc : ∀ {c : Curve ℝ} (x : ℝ), PlaneCurve N 0 c → c.pt (Domain.clamp x 0 1) ∈ plane N := fun x hc => curve_pt hc (clamp_mem x).1 (clamp_mem x).2
    have ad : ∀ {v w : P3 ℝ}, v ∈ plane N → w ∈ plane N → v + w ∈ plane N := fun hv hw => (plane N).add_mem hv hw
    exact (plane N).sub_mem (ad (ad (sm _ (hc _ hr.curve)) (sm _ ht)) (ad (sm _ (hc _ c1)) (sm _ (hc _ c2))))
      (ad (sm _ (ad (sm _ c4) (sm _ c5))) (sm _ (ad (sm _ c6) (sm _ c7))))

/-- What `update` of a ribbon needs. -/
structure Nbs (N : P3 ℝ) (nb : Neighbors ℝ) (c : Curve ℝ) : Prop where
  prev : PlaneCurve N 0 nb.prev
  next : PlaneCurve N 0 nb.next
  prev2 : PlaneCurve N 0 nb.prev2
  next2 : PlaneCurve N 0 nb.next2
  left : 0 < P3.dot N (P3.cross (nb.prev.der 1) (c.der 0))
  right : 0 < P3.dot N (P3.cross (c.der 1) (nb.next.der 0))

theorem baseUpdate {ε : ℝ} (hε : 0 < ε) (hN : P3.dot N N = 1) {nb : Neighbors ℝ} {r r' : Ribbon ℝ} (h : Ribbon.baseUpdate ε nb r = .ok r') (hc : PlaneCurve N 0 r.curve) (hn : Nbs N nb r.curve) :
    r' = { r with rmf := r'.rmf } ∧ FRmf N r'.rmf := by
  obtain ⟨a, b, f, e1, e2, e3, rfl⟩ := baseUpdate_parts h
  have ha := normalize_cross hN (curve_der hn.prev zero_le_one le_rfl) (curve_der hc le_rfl zero_le_one) hn.left e1
  have hb := normalize_cross hN (curve_der hc zero_le_one le_rfl) (curve_der hn.next le_rfl zero_le_one) hn.right e2
  subst ha
  rw [hb] at e3
  exact ⟨rfl, rmf_update hε hN hc e3⟩

theorem rib_update {ε : ℝ} (hε : 0 < ε) (hN : P3.dot N N = 1) {nb : Neighbors ℝ} {r r' : Ribbon ℝ} (hk : r.kind = .handler ∨ r.kind = .coons) (hc : PlaneCurve N 0 r.curve)
    (hf : ∀ f, r.fence = some f → ∀ s, 0 ≤ s → s ≤ 1 → f s = N) (hn : Nbs N nb r.curve) (h : r.update ε nb = .ok r') : Rib N r' := by
  unfold Ribbon.update at h
  rcases hk with hk | hk
  · rw [hk] at h
    dsimp only at h
    unfold Ribbon.handlerUpdate Ribbon.compatibleUpdate at h
    obtain ⟨q, e, h⟩ := bind_ok h
    obtain ⟨n, _, h⟩ := bind_ok h
    obtain ⟨v, _, h⟩ := bind_ok h
    cases h
    obtain ⟨e1, e2⟩ := baseUpdate hε hN e hc hn
    have hq : q.kind = .handler ∧ q.curve = r.curve ∧ q.fence = r.fence ∧ q.prevT = -nb.prev.der 1 ∧ q.nextT = nb.next.der 0 := by
      rw [e1]; exact ⟨hk, rfl, rfl, rfl, rfl⟩
    obtain ⟨q1, q2, q3, q4, q5⟩ := hq
    refine ⟨Or.inl q1, ?_, e2, ?_, fun _ => ⟨?_, ?_⟩, fun h => ?_⟩
    · dsimp only; rw [q2]; exact hc
    · dsimp only; rw [q3]; exact hf
    · dsimp only; rw [q4]; exact (plane N).neg_mem (curve_der hn.prev zero_le_one le_rfl)
    · dsimp only; rw [q5]; exact curve_der hn.next le_rfl zero_le_one
    · dsimp only at h; rw [q1] at h; cases h
  · rw [hk] at h
    dsimp only at h
    unfold Ribbon.coonsUpdate at h
    dsimp only at h
    obtain ⟨e1, e2⟩ := baseUpdate hε hN h hc hn
    have hp1 : nb.prev.pt 0 ∈ plane N := curve_pt hn.prev le_rfl zero_le_one
    have hq1 : nb.next.pt 1 ∈ plane N := curve_pt hn.next zero_le_one le_rfl
    rw [e1]
    refine ⟨Or.inr hk, hc, e2, hf, fun h => ?_, fun _ => ⟨hn.prev, hn.next, ?_, curve_pt hc le_rfl zero_le_one, curve_pt hc zero_le_one le_rfl, hp1, hq1⟩⟩
    · rw [show r.kind = _ from h] at hk; cases hk
    · dsimp only
      intro p hp
      split_ifs at hp
      · rw [List.mem_singleton.mp hp]; exact hp1
      · simp only [List.mem_cons, List.not_mem_nil, or_false] at hp
        rcases hp with rfl | rfl | rfl | rfl
        · exact hq1
        · exact (plane N).add_mem hq1 ((plane N).smul_mem _ (curve_der hn.next2 le_rfl zero_le_one))
        · exact (plane N).sub_mem hp1 ((plane N).smul_mem _ (curve_der hn.prev2 zero_le_one le_rfl))
        · exact hp1

/-! ### Corners and surfaces -/

/-- A corner in the plane. -/
structure Cor (N : P3 ℝ) (c : Corner ℝ) : Prop where
  point : c.point ∈ plane N
  tangent1 : c.tangent1 ∈ plane N
  tangent2 : c.tangent2 ∈ plane N
  twist1 : c.twist1 ∈ plane N
  twist2 : c.twist2 ∈ plane N

theorem vdiv {v w : P3 ℝ} {x : ℝ} (hv : v ∈ plane N) (h : Ribbon.vdiv v x = .ok w) : w ∈ plane N := by
  unfold Ribbon.vdiv at h
  obtain ⟨k, _, h⟩ := bind_ok h
  cases h
  exact (plane N).smul_mem _ hv

theorem cornerOf {ε : ℝ} (hε : 0 < ε) (hN : P3.dot N N = 1) {rs : List (Ribbon ℝ)} {i : ℕ} (hr : ∀ r ∈ rs, Rib N r) {c : Corner ℝ} (h : Surf.cornerOf ε rs i = .ok c) : Cor N c := by
  unfold Surf.cornerOf at h
  obtain ⟨r, e1, h⟩ := bind_ok h
  obtain ⟨q, e2, h⟩ := bind_ok h
  obtain ⟨d1, e3, h⟩ := bind_ok h
  obtain ⟨d2, e4, h⟩ := bind_ok h
  obtain ⟨t1, e5, h⟩ := bind_ok h
  obtain ⟨d3, e6, h⟩ := bind_ok h
  obtain ⟨d4, e7, h⟩ := bind_ok h
  obtain ⟨t2, e8, h⟩ := bind_ok h
  cases h
  have hr1 := hr r (Motion.vget_mem e1)
  have hr2 := hr q (Motion.vget_mem e2)
  have s0 : (0 : ℝ) ≤ Surf.cornerStep := by unfold Surf.cornerStep; norm_num
  have s1 : Surf.cornerStep ≤ (1 : ℝ) := by unfold Surf.cornerStep; norm_num
  exact ⟨curve_pt hr1.curve zero_le_one le_rfl, (plane N).neg_mem (curve_der hr1.curve zero_le_one le_rfl), curve_der hr2.curve le_rfl zero_le_one,
    vdiv ((plane N).sub_mem (cross hε hN hr1 (by linarith) (by linarith) e4) (cross hε hN hr1 zero_le_one le_rfl e3)) e5,
    vdiv ((plane N).sub_mem (cross hε hN hr2 s0 s1 e7) (cross hε hN hr2 le_rfl zero_le_one e6)) e8⟩

/-- Ribbons and corners in the plane. -/
structure Sf (N : P3 ℝ) (S : Surf ℝ) : Prop where
  ribbons : ∀ r ∈ S.ribbons, Rib N r
  corners : ∀ c ∈ S.corners, Cor N c

section surface

variable {ε : ℝ} {S : Surf ℝ}

theorem cornerCorrection (h : Sf N S) {i : ℕ} {s1 s2 : ℝ} {p : P3 ℝ} (e : S.cornerCorrection ε i s1 s2 = .ok p) : p ∈ plane N := by
  unfold Surf.cornerCorrection at e
  obtain ⟨g1, _, e⟩ := bind_ok e
  obtain ⟨g2, _, e⟩ := bind_ok e
  obtain ⟨c, e1, e⟩ := bind_ok e
  obtain ⟨t, e2, e⟩ := bind_ok e
  cases e
  have hc := h.corners c (Motion.vget_mem e1)
  have ht : t ∈ plane N := by
    unfold Surf.rationalTwist at e2
    split_ifs at e2
    · cases e2; exact (plane N).zero_mem
    · exact vdiv ((plane N).add_mem ((plane N).smul_mem _ hc.twist2) ((plane N).smul_mem _ hc.twist1)) e2
  exact (plane N).add_mem ((plane N).add_mem ((plane N).add_mem hc.point ((plane N).smul_mem _ hc.tangent1)) ((plane N).smul_mem _ hc.tangent2)) ((plane N).smul_mem _ ht)

theorem sideInterpolant (hε : 0 < ε) (hN : P3.dot N N = 1) (h : Sf N S) {i : ℕ} {s d : ℝ} {p : P3 ℝ} (e : S.sideInterpolant ε i s d = .ok p) : p ∈ plane N := by
  unfold Surf.sideInterpolant at e
  obtain ⟨g, _, e⟩ := bind_ok e
  obtain ⟨r, e1, e⟩ := bind_ok e
  exact eval hε hN (h.ribbons r (Motion.vget_mem e1)) (Or.inr (clamp_mem s)) e

theorem cornerInterpolant (hε : 0 < ε) (hN : P3.dot N N = 1) (h : Sf N S) {i : ℕ} {sds : List (P2 ℝ)} {p : P3 ℝ} (e : S.cornerInterpolant ε i sds = .ok p) : p ∈ plane N := by
  unfold Surf.cornerInterpolant at e
  obtain ⟨_, _, e⟩ := bind_ok e
  obtain ⟨_, _, e⟩ := bind_ok e
  obtain ⟨a, e1, e⟩ := bind_ok e
  obtain ⟨b, e2, e⟩ := bind_ok e
  obtain ⟨c, e3, e⟩ := bind_ok e
  cases e
  exact (plane N).sub_mem ((plane N).add_mem (sideInterpolant hε hN h e1) (sideInterpolant hε hN h e2)) (cornerCorrection h e3)

theorem sideBased (hε : 0 < ε) (hN : P3.dot N N = 1) (h : Sf N S) {sds : List (P2 ℝ)} {p : P3 ℝ} (e : S.sideBased ε sds = .ok p) : p ∈ plane N := by
  unfold Surf.sideBased at e
  obtain ⟨_, _, e⟩ := bind_ok e
  refine Patch.forLoop_inv' (fun p => p ∈ plane N) (plane N).zero_mem (fun k x y hx e => ?_) e
  obtain ⟨_, _, e⟩ := bind_ok e
  obtain ⟨q, e1, e⟩ := bind_ok e
  obtain ⟨_, _, e⟩ := bind_ok e
  cases e
  exact (plane N).add_mem hx ((plane N).smul_mem _ (sideInterpolant hε hN h e1))

theorem cornerLoop (hε : 0 < ε) (hN : P3.dot N N = 1) (h : Sf N S) {sds : List (P2 ℝ)} {blends : List ℝ} {m : ℕ} {p : P3 ℝ} (e : forLoop m (fun i p => do
    let q ← S.cornerInterpolant ε i sds
    let b ← vget blends i
    .ok (p + b • q)) 0 = .ok p) : p ∈ plane N := by
  refine Patch.forLoop_inv' (fun p => p ∈ plane N) (plane N).zero_mem (fun k x y hx e => ?_) e
  obtain ⟨q, e1, e⟩ := bind_ok e
  obtain ⟨_, _, e⟩ := bind_ok e
  cases e
  exact (plane N).add_mem hx ((plane N).smul_mem _ (cornerInterpolant hε hN h e1))

theorem cornerBased (hε : 0 < ε) (hN : P3.dot N N = 1) (h : Sf N S) {sds : List (P2 ℝ)} {p : P3 ℝ} (e : S.cornerBased ε sds = .ok p) : p ∈ plane N := by
  unfold Surf.cornerBased at e
  obtain ⟨_, _, e⟩ := bind_ok e
  exact cornerLoop hε hN h e

theorem coonsSum (hε : 0 < ε) (hN : P3.dot N N = 1) (h : Sf N S) {sds : List (P2 ℝ)} {b : List ℝ} {p : P3 ℝ} (e : S.coonsSum ε sds b = .ok p) : p ∈ plane N := by
  unfold Surf.coonsSum at e
  refine Patch.forLoop_inv' (fun p => p ∈ plane N) (plane N).zero_mem (fun k x y hx e => ?_) e
  obtain ⟨_, _, e⟩ := bind_ok e
  obtain ⟨_, _, e⟩ := bind_ok e
  obtain ⟨_, _, e⟩ := bind_ok e
  obtain ⟨_, _, e⟩ := bind_ok e
  obtain ⟨q, e1, e⟩ := bind_ok e
  obtain ⟨c, e2, e⟩ := bind_ok e
  cases e
  exact (plane N).sub_mem ((plane N).add_mem hx ((plane N).smul_mem _ (sideInterpolant hε hN h e1))) ((plane N).smul_mem _ (cornerCorrection h e2))

theorem generalizedCoons (hε : 0 < ε) (hN : P3.dot N N = 1) (h : Sf N S) {sds : List (P2 ℝ)} {p : P3 ℝ} (e : S.generalizedCoons ε sds = .ok p) : p ∈ plane N := by
  unfold Surf.generalizedCoons at e
  obtain ⟨_, _, e⟩ := bind_ok e
  exact coonsSum hε hN h e

theorem composite (hε : 0 < ε) (hN : P3.dot N N = 1) (h : Sf N S) {sds : List (P2 ℝ)} {p : P3 ℝ} (e : S.composite ε sds = .ok p) : p ∈ plane N := by
  unfold Surf.composite at e
  obtain ⟨_, _, e⟩ := bind_ok e
  obtain ⟨q, e1, e⟩ := bind_ok e
  cases e
  refine (plane N).smul_mem _ (Patch.forLoop_inv' (fun p => p ∈ plane N) (plane N).zero_mem (fun k x y hx e => ?_) e1)
  obtain ⟨_, _, e⟩ := bind_ok e
  obtain ⟨q, e1, e⟩ := bind_ok e
  obtain ⟨_, _, e⟩ := bind_ok e
  obtain ⟨_, _, e⟩ := bind_ok e
  cases e
  refine (plane N).add_mem hx ((plane N).smul_mem _ ?_)
  unfold Surf.compositeRibbon at e1
  dsimp only at e1
  obtain ⟨a, f1, e1⟩ := bind_ok e1
  obtain ⟨b, f2, e1⟩ := bind_ok e1
  obtain ⟨c, f3, e1⟩ := bind_ok e1
  obtain ⟨d, f4, e1⟩ := bind_ok e1
  obtain ⟨f, f5, e1⟩ := bind_ok e1
  cases e1
  have sm : ∀ (x : ℝ) {v : P3 ℝ}, v ∈ plane N → x • v ∈ plane N := fun x _ hv => (plane N).smul_mem x hv
  exact (plane N).sub_mem ((plane N).sub_mem ((plane N).add_mem ((plane N).add_mem (sm _ (sideInterpolant hε hN h f1)) (sm _ (sideInterpolant hε hN h f2)))
    (sm _ (sideInterpolant hε hN h f3))) (sm _ (cornerCorrection h f4))) (sm _ (cornerCorrection h f5))

theorem midpoint (hε : 0 < ε) (hN : P3.dot N N = 1) (h : Sf N S) {c : P3 ℝ} (hc : c ∈ plane N) {sds : List (P2 ℝ)} {p : P3 ℝ} (e : S.midpoint ε c sds = .ok p) : p ∈ plane N := by
  unfold Surf.midpoint at e
  obtain ⟨_, _, e⟩ := bind_ok e
  obtain ⟨q, e1, e⟩ := bind_ok e
  cases e
  exact (plane N).add_mem (cornerLoop hε hN h e1) ((plane N).smul_mem _ hc)

theorem midpointCoons (hε : 0 < ε) (hN : P3.dot N N = 1) (h : Sf N S) {c : P3 ℝ} (hc : c ∈ plane N) {sds : List (P2 ℝ)} {p : P3 ℝ} (e : S.midpointCoons ε c sds = .ok p) : p ∈ plane N := by
  unfold Surf.midpointCoons at e
  obtain ⟨_, _, e⟩ := bind_ok e
  obtain ⟨q, e1, e⟩ := bind_ok e
  cases e
  exact (plane N).add_mem (coonsSum hε hN h e1) ((plane N).smul_mem _ hc)

theorem c0Coons (hε : 0 < ε) (hN : P3.dot N N = 1) (h : Sf N S) (hk : ∀ r ∈ S.ribbons, r.kind = .coons) {sds : List (P2 ℝ)} {p : P3 ℝ} (e : S.c0Coons ε sds = .ok p) : p ∈ plane N := by
  unfold Surf.c0Coons at e
  refine Patch.forLoop_inv' (fun p => p ∈ plane N) (plane N).zero_mem (fun k x y hx e => ?_) e
  obtain ⟨_, _, e⟩ := bind_ok e
  obtain ⟨r, e1, e⟩ := bind_ok e
  obtain ⟨q, e2, e⟩ := bind_ok e
  cases e
  have hr := Motion.vget_mem e1
  exact (plane N).add_mem hx ((plane N).smul_mem _ (eval hε hN (h.ribbons r hr) (Or.inl (hk r hr)) e2))

end surface

/-! ### Surface objects -/

section patch

variable {ε : ℝ} {P P' : Patch ℝ}

/-- The input is flat. -/
structure Base (N : P3 ℝ) (P : Patch ℝ) : Prop where
  loop : FlatLoop N 0 P.curves
  kinds : ∀ r ∈ P.surf.ribbons, r.kind = P.kind.ribbon
  fence : ∀ r ∈ P.surf.ribbons, ∀ f, r.fence = some f → ∀ s, 0 ≤ s → s ≤ 1 → f s = N
  mid : P.midSet = true → P.mid ∈ plane N

/-- The input and the computed data are flat. -/
structure Full (N : P3 ℝ) (P : Patch ℝ) : Prop extends Base N P where
  surf : Sf N P.surf
  central : Motion.HasMid P.kind → P.central ∈ plane N

theorem evalWith (hε : 0 < ε) (hN : P3.dot N N = 1) (hs : Sf N P.surf) (hk : ∀ r ∈ P.surf.ribbons, r.kind = P.kind.ribbon) (hc : Motion.HasMid P.kind → P.central ∈ plane N) {sds : List (P2 ℝ)} {p : P3 ℝ}
    (e : P.evalWith ε sds = .ok p) : p ∈ plane N := by
  unfold Patch.evalWith at e
  cases k : P.kind <;> rw [k] at e hc hk <;> dsimp only at e
  · exact sideBased hε hN hs e
  · exact cornerBased hε hN hs e
  · exact generalizedCoons hε hN hs e
  · exact composite hε hN hs e
  · exact midpoint hε hN hs (hc (Or.inl rfl)) e
  · exact midpointCoons hε hN hs (hc (Or.inr rfl)) e
  · exact c0Coons hε hN hs hk e

theorem patch_eval (hε : 0 < ε) (hN : P3.dot N N = 1) (hs : Sf N P.surf) (hk : ∀ r ∈ P.surf.ribbons, r.kind = P.kind.ribbon) (hc : Motion.HasMid P.kind → P.central ∈ plane N) {uv : P2 ℝ} {x : P3 ℝ × Patch ℝ}
    (e : P.eval ε uv = .ok x) : x.1 ∈ plane N := by
  unfold Patch.eval at e
  obtain ⟨_, _, e⟩ := bind_ok e
  obtain ⟨p, e1, e⟩ := bind_ok e
  cases e
  exact evalWith hε hN hs hk hc e1

theorem Base.congr (h : Base N P) (h1 : P'.kind = P.kind) (h2 : P'.surf = P.surf) (h3 : P'.midSet = true → P'.mid ∈ plane N) : Base N P' :=
  ⟨by unfold Patch.curves; rw [h2]; exact h.loop, by rw [h2, h1]; exact h.kinds, by rw [h2]; exact h.fence, h3⟩

theorem Full.queried (h : Full N P) (hq : Patch.Queried ε P P') : Full N P' :=
  ⟨h.toBase.congr hq.kind hq.surf (by rw [hq.midSet, hq.mid]; exact h.mid), by rw [hq.surf]; exact h.surf, by rw [hq.kind, hq.central]; exact h.central⟩

theorem updateCentral (hε : 0 < ε) (hN : P3.dot N N = 1) (hb : Base N P) (hs : Sf N P.surf) (e : P.updateCentral ε = .ok P') : Full N P' := by
  unfold Patch.updateCentral at e
  obtain ⟨m, e1, e⟩ := bind_ok e
  obtain ⟨s, e2, e⟩ := bind_ok e
  obtain ⟨d, e3, e⟩ := bind_ok e
  have hm : m ∈ plane N := by
    unfold Patch.currentMid at e1
    split_ifs at e1 with hms
    · cases e1; exact hb.mid hms
    · unfold Patch.defaultMidpoint at e1
      obtain ⟨t, e4, e1⟩ := bind_ok e1
      refine vdiv (Patch.forLoop_inv' (fun p => p ∈ plane N) (plane N).zero_mem (fun k x y hx e => ?_) e4) e1
      obtain ⟨q, e5, e⟩ := bind_ok e
      cases e
      exact (plane N).add_mem hx (sideInterpolant hε hN hs e5)
  have hs1 : s.1 ∈ plane N := patch_eval (P := { P with mid := m, central := 0 }) hε hN hs hb.kinds (fun _ => (plane N).zero_mem) e2
  have hq := (Patch.eval_queried e2).trans (Patch.deficiency_queried e3)
  have hb' : ∀ c ∈ plane N, Full N { d.2 with central := c } := by
    intro c hc
    refine ⟨hb.congr hq.kind hq.surf ?_, ?_, fun _ => hc⟩
    · intro _
      change d.2.mid ∈ plane N
      rw [hq.mid]; exact hm
    · change Sf N d.2.surf
      rw [hq.surf]; exact hs
  split_ifs at e
  · cases e; exact hb' m hm
  · obtain ⟨c, e6, e⟩ := bind_ok e
    cases e
    exact hb' c (vdiv ((plane N).sub_mem hm hs1) e6)

theorem finish (hε : 0 < ε) (hN : P3.dot N N = 1) (hb : Base N P) (hs : Sf N P.surf) (e : P.finish ε = .ok P') : Full N P' := by
  unfold Patch.finish at e
  cases k : P.kind <;> rw [k] at e <;> dsimp only at e <;> first
    | exact updateCentral hε hN hb hs e
    | (cases e
       exact ⟨hb, hs, fun h => by rcases h with h | h <;> rw [k] at h <;> cases h⟩)

theorem map_tab {α β : Type} (n : ℕ) (f : ℕ → α) (g : α → β) : (tab n f).map g = tab n fun j => g (f j) := by
  unfold tab
  rw [List.map_map]; rfl

theorem mem_tab {α : Type} {n : ℕ} {f : ℕ → α} {x : α} : x ∈ tab n f ↔ ∃ j, j < n ∧ f j = x := by
  unfold tab
  rw [List.mem_map]
  exact ⟨fun ⟨j, h, e⟩ => ⟨j, List.mem_range.mp h, e⟩, fun ⟨j, h, e⟩ => ⟨j, List.mem_range.mpr h, e⟩⟩

theorem used (k : PatchKind) : k.ribbon = .handler ∨ k.ribbon = .coons := by
  cases k <;> first | exact Or.inl rfl | exact Or.inr rfl

theorem nbs (hl : FlatLoop N 0 (tab n c)) {j : ℕ} (hj : j < n) : Nbs N (Surf.nbOf n c j) (c j) := by
  obtain ⟨h1, h2⟩ := hl
  have hn : 0 < n := by omega
  have get : ∀ {k}, k < n → (tab n c)[k]? = some (c k) := fun hk => vget_eq_ok.mp (vget_tab c hk)
  have mem : ∀ {k}, k < n → PlaneCurve N 0 (c k) := fun hk => h1 _ (List.mem_of_getElem? (get hk))
  rw [length_tab] at h2
  refine ⟨mem (prevIx_lt hn), mem (nextIx_lt hn), mem (prevIx_lt hn), mem (nextIx_lt hn), ?_, ?_⟩
  · refine h2 (prevIx n j) _ _ (get (prevIx_lt hn)) ?_
    have : (prevIx n j + 1) % n = j := by
      have := nextIx_prevIx hj
      simpa [nextIx] using this
    rw [this]; exact get hj
  · exact h2 j _ _ (get hj) (get (Nat.mod_lt _ hn))

theorem update (hε : 0 < ε) (hN : P3.dot N N = 1) (hi : Patch.Inv ε P) (hb : Base N P) (e : P.update ε = .ok P') : Full N P' := by
  obtain ⟨D, S, e1, _, e2, e3⟩ := Patch.update_parts e
  obtain ⟨_, d1, d2, _, d4, d5, _⟩ := Patch.updateDomain_inv hi e1
  have hbD : Base N D := hb.congr d1 d2 (by rw [d4, d5]; exact hb.mid)
  haveI : Inhabited (Ribbon ℝ) := ⟨Ribbon.new .dummy ⟨fun _ => 0, fun _ => 0, fun _ _ => 0⟩⟩
  obtain ⟨r, hr⟩ := exists_tab D.surf.ribbons
  obtain ⟨r', q, u1, u2, rfl⟩ := (Surf.updateAll_iff hr).mp e2
  set n := D.surf.ribbons.length
  have hcs : D.curves = tab n fun j => (r j).curve := by unfold Patch.curves; rw [hr, map_tab]
  have hloop := hbD.loop
  rw [hcs] at hloop
  have mem : ∀ j < n, r j ∈ D.surf.ribbons := fun j hj => by rw [hr]; exact List.mem_of_getElem? (vget_eq_ok.mp (vget_tab r hj))
  have hR : ∀ x ∈ tab n r', Rib N x := by
    intro x hx
    obtain ⟨j, hj, rfl⟩ := mem_tab.mp hx
    have hnb := nbs hloop hj
    exact rib_update hε hN (by rw [hbD.kinds _ (mem j hj)]; exact used _) (hloop.1 _ (List.mem_of_getElem? (vget_eq_ok.mp (vget_tab (fun j => (r j).curve) hj))))
      (hbD.fence _ (mem j hj)) hnb (u1 j hj)
  refine finish hε hN (P := { D with surf := ⟨D.surf.useGamma, tab n r', tab n q⟩ }) ⟨?_, ?_, ?_, hbD.mid⟩ ⟨hR, ?_⟩ e3
  · have : Patch.curves { D with surf := ⟨D.surf.useGamma, tab n r', tab n q⟩ } = tab n fun j => (r j).curve := by
      unfold Patch.curves
      dsimp only
      rw [map_tab]
      exact tab_congr fun j hj => (Ribbon.update_keeps (u1 j hj)).2.1
    rw [this]; exact hloop
  · intro x hx
    obtain ⟨j, hj, rfl⟩ := mem_tab.mp hx
    rw [(Ribbon.update_keeps (u1 j hj)).1]
    exact hbD.kinds _ (mem j hj)
  · intro x hx
    obtain ⟨j, hj, rfl⟩ := mem_tab.mp hx
    rw [(Ribbon.update_keeps (u1 j hj)).2.2.1]
    exact hbD.fence _ (mem j hj)
  · intro x hx
    obtain ⟨j, hj, rfl⟩ := mem_tab.mp hx
    exact cornerOf hε hN hR (u2 j hj)

theorem onRibbon (hf : Full N P) {i : ℕ} {f : Ribbon ℝ → M (Ribbon ℝ)} (h : ∀ r r', vget P.surf.ribbons i = .ok r → Rib N r → f r = .ok r' → Rib N r' ∧ r'.kind = r.kind ∧ r'.curve = r.curve) (e : P.onRibbon i f = .ok P') : Full N P' := by
  unfold Patch.onRibbon at e
  obtain ⟨r, e1, e⟩ := bind_ok e
  obtain ⟨r', e2, e⟩ := bind_ok e
  obtain ⟨rs, e3, e⟩ := bind_ok e
  cases e
  have hr := Motion.vget_mem e1
  obtain ⟨h1, h2, h3⟩ := h r r' e1 (hf.surf.ribbons r hr) e2
  have hall : ∀ q ∈ rs, Rib N q := fun q hq => by
    rcases Patch.vset_mem e3 hq with rfl | hq
    · exact h1
    · exact hf.surf.ribbons q hq
  refine ⟨⟨?_, ?_, fun q hq => (hall q hq).fence, hf.mid⟩, ⟨hall, hf.surf.corners⟩, hf.central⟩
  · have : rs.map (·.curve) = P.surf.ribbons.map (·.curve) := by
      unfold vset at e3
      split_ifs at e3 with hi
      cases e3
      rw [List.map_set, h3]
      refine List.ext_getElem? fun k => ?_
      rw [List.getElem?_set]
      split_ifs with h4 h5
      · subst h4
        rw [List.getElem?_map, vget_eq_ok.mp e1]; rfl
      · subst h4
        rw [List.length_map] at h5
        omega
      · rfl
    unfold Patch.curves
    dsimp only
    rw [this]; exact hf.loop
  · intro q hq
    rcases Patch.vset_mem e3 hq with rfl | hq
    · rw [h2]; exact hf.kinds r hr
    · exact hf.kinds q hq

theorem updateCorner (hε : 0 < ε) (hN : P3.dot N N = 1) {S S' : Surf ℝ} {i : ℕ} (h : Sf N S) (e : S.updateCorner ε i = .ok S') : Sf N S' ∧ S'.ribbons = S.ribbons := by
  unfold Surf.updateCorner at e
  obtain ⟨c, e1, e⟩ := bind_ok e
  obtain ⟨cs, e2, e⟩ := bind_ok e
  cases e
  refine ⟨⟨h.ribbons, fun q hq => ?_⟩, rfl⟩
  rcases Patch.vset_mem e2 hq with rfl | hq
  · exact cornerOf hε hN h.ribbons e1
  · exact h.corners q hq

theorem updateSide (hε : 0 < ε) (hN : P3.dot N N = 1) (hi : Patch.Inv ε P) (hf : Full N P) {i : ℕ} (e : P.updateSide ε i = .ok P') : Full N P' := by
  unfold Patch.updateSide at e
  obtain ⟨D, e1, e⟩ := bind_ok e
  obtain ⟨_, d1, d2, _, d4, d5, d6⟩ := Patch.updateDomain_inv hi e1
  have hD : Full N D := ⟨hf.toBase.congr d1 d2 (by rw [d4, d5]; exact hf.mid), by rw [d2]; exact hf.surf, by rw [d1, d6]; exact hf.central⟩
  split_ifs at e
  obtain ⟨S, e2, e3⟩ := bind_ok e
  unfold Surf.updateOne at e2
  obtain ⟨rs, f1, e2⟩ := bind_ok e2
  obtain ⟨S1, f2, f3⟩ := bind_ok e2
  have hR : Full N { D with surf := { D.surf with ribbons := rs } } := by
    unfold Surf.updateRibbon at f1
    obtain ⟨nb, g1, f1⟩ := bind_ok f1
    obtain ⟨r, g2, f1⟩ := bind_ok f1
    obtain ⟨r', g3, f4⟩ := bind_ok f1
    haveI : Inhabited (Ribbon ℝ) := ⟨r⟩
    obtain ⟨q, hq⟩ := exists_tab D.surf.ribbons
    set n := D.surf.ribbons.length
    have hin : i < n := by
      by_contra hc
      rw [vget_oob (by omega)] at g2
      cases g2
    have hcs : D.curves = tab n fun j => (q j).curve := by unfold Patch.curves; rw [hq, map_tab]
    have hloop := hD.loop
    rw [hcs] at hloop
    have hnb := nbs hloop hin
    rw [hq, Surf.neighbors_tab hin] at g1
    have hqr : q i = r := by rw [hq, vget_tab _ hin] at g2; exact Except.ok.inj g2
    have hr := Motion.vget_mem g2
    cases g1
    refine onRibbon (i := i) (f := fun _ => .ok r') hD (fun a b ha _ e => ?_) (by
      unfold Patch.onRibbon
      rw [g2, M_bind_ok, M_bind_ok, f4, M_bind_ok])
    rw [g2] at ha
    cases ha
    cases e
    obtain ⟨k1, k2, _⟩ := Ribbon.update_keeps g3
    subst hqr
    exact ⟨rib_update hε hN (hD.surf.ribbons _ hr).kind (hD.surf.ribbons _ hr).curve (hD.surf.ribbons _ hr).fence hnb g3, k1, k2⟩
  obtain ⟨a1, a2⟩ := updateCorner hε hN hR.surf f2
  obtain ⟨b1, b2⟩ := updateCorner hε hN a1 f3
  have hrs : S.ribbons = rs := b2.trans a2
  refine finish hε hN (P := { D with surf := S }) ?_ b1 e3
  have := hR.toBase
  exact ⟨by have := this.loop; unfold Patch.curves at this ⊢; dsimp only at this ⊢; rw [hrs]; exact this, by have := this.kinds; dsimp only at this ⊢; rw [hrs]; exact this,
    by have := this.fence; dsimp only at this ⊢; rw [hrs]; exact this, hD.mid⟩

theorem step (hε : 0 < ε) (hN : P3.dot N N = 1) (hi : Patch.Inv ε P) (hf : Full N P) {c : Patch.Call ℝ} (hc : FlatCall N 0 c) (e : P.step ε c = .ok P') : Full N P' := by
  have query : ∀ {c : Patch.Call ℝ}, c.isQuery = true → P.step ε c = .ok P' → Full N P' := fun hc h => hf.queried (Patch.query_queried hc h)
  cases c with
  | gamma g => cases e; exact ⟨⟨hf.loop, hf.kinds, hf.fence, hf.mid⟩, ⟨hf.surf.ribbons, hf.surf.corners⟩, hf.central⟩
  | curve i c => exact hc.elim
  | curves cs => exact hc.elim
  | loop => exact hc.elim
  | handler i v =>
    refine onRibbon hf (fun r r' _ hr e => ?_) e
    unfold Ribbon.setHandler at e
    obtain ⟨_, _, e⟩ := bind_ok e
    cases e
    exact ⟨⟨hr.kind, hr.curve, hr.rmf, hr.fence, hr.handler, hr.coons⟩, rfl, rfl⟩
  | mult i m => exact onRibbon hf (fun r r' _ hr e => by cases e; exact ⟨⟨hr.kind, hr.curve, hr.rmf, hr.fence, hr.handler, hr.coons⟩, rfl, rfl⟩) e
  | fence i f =>
    refine onRibbon hf (fun r r' _ hr e => ?_) e
    cases e
    refine ⟨⟨hr.kind, hr.curve, hr.rmf, ?_, hr.handler, hr.coons⟩, rfl, rfl⟩
    rintro g rfl
    exact hc
  | reset i => exact onRibbon hf (fun r r' _ hr e => by cases e; exact ⟨⟨hr.kind, hr.curve, hr.rmf, hr.fence, hr.handler, hr.coons⟩, rfl, rfl⟩) e
  | setMid p =>
    unfold Patch.step at e
    dsimp only at e
    split_ifs at e
    exact updateCentral (P := { P with mid := p, midSet := true }) hε hN (hf.toBase.congr rfl rfl fun _ => hc) hf.surf e
  | unsetMid =>
    unfold Patch.step at e
    dsimp only at e
    split_ifs at e
    exact updateCentral (P := { P with midSet := false }) hε hN (hf.toBase.congr rfl rfl fun h => by cases h) hf.surf e
  | update => exact update hε hN hi hf.toBase e
  | updateSide i => exact updateSide hε hN hi hf e
  | eval uv => exact query rfl e
  | mesh res => exact query rfl e
  | domainParams res => exact query rfl e
  | mapSide i uv => exact query rfl e
  | mapSides uv => exact query rfl e

theorem run (hε : 0 < ε) (hN : P3.dot N N = 1) (hi : Patch.Inv ε P) (hf : Full N P) {cs : List (Patch.Call ℝ)} (hc : ∀ c ∈ cs, FlatCall N 0 c) (e : P.run ε cs = .ok P') : Full N P' := by
  induction cs generalizing P with
  | nil => cases e; exact hf
  | cons c cs ih =>
    unfold Patch.run at e
    obtain ⟨P1, e1, e⟩ := bind_ok e
    exact ih (Patch.step_inv hi e1).1 (step hε hN hi hf (hc c List.mem_cons_self) e1) (fun d hd => hc d (List.mem_cons_of_mem _ hd)) e

end patch

end Flat

end Transfinite
