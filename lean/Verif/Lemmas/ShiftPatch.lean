import Verif.Lemmas.ShiftParam
import Verif.Lemmas.ShiftSurf
import Verif.Lemmas.Regular
import Verif.Props.Loop
import Verif.Spec.Shift

/-! Surface objects with cyclically shifted sides. -/

namespace Transfinite

open Spec

variable {n k i : ℕ} {ε : ℝ}

/-! ### Orientation -/

theorem Loop.reverse_pt (c : Curve ℝ) : c.reverse.pt 0 = c.pt 1 ∧ c.reverse.pt 1 = c.pt 0 := by
  simp [Curve.reverse]

theorem Loop.norm_neg (a : P3 ℝ) : (-a).norm = a.norm := by
  unfold P3.norm P3.dot
  congr 1
  simp only [P3.neg_x, P3.neg_y, P3.neg_z]; ring

theorem Loop.dot_le (a b : P3 ℝ) : P3.dot a b ≤ a.norm * b.norm := by
  have h : P3.dot a b ^ 2 ≤ P3.dot a a * P3.dot b b := by
    simp only [P3.dot]
    nlinarith [sq_nonneg (a.x * b.y - a.y * b.x), sq_nonneg (a.x * b.z - a.z * b.x), sq_nonneg (a.y * b.z - a.z * b.y)]
  rw [← P3.norm_mul_self, ← P3.norm_mul_self] at h
  exact le_of_abs_le (abs_le_of_sq_le_sq (by nlinarith) (mul_nonneg a.norm_nonneg b.norm_nonneg))

theorem Loop.norm_add_le (a b : P3 ℝ) : (a + b).norm ≤ a.norm + b.norm := by
  have h1 := P3.norm_mul_self (a + b)
  have h2 : P3.dot (a + b) (a + b) = P3.dot a a + 2 * P3.dot a b + P3.dot b b := by
    simp only [P3.dot, P3.add_x, P3.add_y, P3.add_z]; ring
  have h3 := Loop.dot_le a b
  rw [h2, ← P3.norm_mul_self a, ← P3.norm_mul_self b] at h1
  have := a.norm_nonneg
  have := b.norm_nonneg
  exact le_of_sq_le_sq (by nlinarith) (by linarith)

theorem Loop.dist_triangle (a b c : P3 ℝ) : (a - c).norm ≤ (a - b).norm + (b - c).norm := by
  have := Loop.norm_add_le (a - b) (b - c)
  rwa [sub_add_sub_cancel] at this

theorem joins_unique {δ : ℝ} {a b : P3 ℝ} (hab : 4 * δ < (a - b).norm) {c x y : Curve ℝ} (hx : x = c ∨ x = c.reverse) (hy : y = c ∨ y = c.reverse)
    (jx : Joins δ x a b) (jy : Joins δ y a b) : x = y := by
  have key : ∀ p : P3 ℝ, (p - a).norm ≤ δ → (p - b).norm ≤ δ → False := by
    intro p h1 h2
    have h3 : (a - b).norm ≤ (a - p).norm + (p - b).norm := by
      exact Loop.dist_triangle a p b
    have h4 : (a - p).norm = (p - a).norm := by rw [← Loop.norm_neg, neg_sub]
    have h5 := P3.norm_nonneg (p - a)
    linarith
  have r0 : c.reverse.pt 0 = c.pt 1 := (Loop.reverse_pt c).1
  have r1 : c.reverse.pt 1 = c.pt 0 := (Loop.reverse_pt c).2
  rcases hx with rfl | rfl <;> rcases hy with rfl | rfl
  · rfl
  · exact (key _ jx.1 (by rw [← r1]; exact jy.2)).elim
  · exact (key _ jy.1 (by rw [← r1]; exact jx.2)).elim
  · rfl

theorem ClosedLoop.orient (hn : 3 ≤ n) {cs : List (Curve ℝ)} (hl : cs.length = n) (hc : ClosedLoop cs) (k : ℕ) :
    ∃ cs', orientLoop cs = .ok cs' ∧ orientLoop (cs.rotate k) = .ok (cs'.rotate k) ∧ cs'.length = n ∧ ClosedLoop cs' := by
  subst hl
  have h0 : 0 < cs.length := by omega
  obtain ⟨c, e⟩ := exists_tab' h0
  obtain ⟨δ, q, h1, h2⟩ := hc
  generalize cs.length = n at *
  subst e
  have hj : ∀ i < n, Joins δ (c i) (q ((i + n - 1) % n)) (q i) ∨ Joins δ (c i) (q i) (q ((i + n - 1) % n)) := fun i hi => h2 i hi _ (vget_eq_ok.mp (vget_tab c hi))
  obtain ⟨a, e1, ha⟩ := C26_orients hn h1 hj
  have hp : ∀ i, sh n k ((i + n - 1) % n) = (sh n k i + n - 1) % n := fun i => (prev_sh (j := 1) (by omega)).symm
  obtain ⟨b, e2, hb⟩ := C26_orients hn (c := fun i => c (sh n k i)) (q := fun i => q (sh n k i)) (δ := δ)
    (fun i hi j hj hij => h1 _ (sh_lt h0) _ (sh_lt h0) fun e => hij (sh_inj hi hj e)) fun i hi => by
      rw [hp]
      exact hj _ (sh_lt h0)
  have r : ∀ f : ℕ → Curve ℝ, (tab n f).rotate k = tab n fun i => f (sh n k i) := fun f => (Rot.of_tab fun i _ => rfl : Rot n k (tab n f) (tab n fun i => f (sh n k i))).eq.symm
  refine ⟨_, e1, ?_, length_tab _ _, δ, q, by rw [length_tab]; exact h1, fun i hi x hx => ?_⟩
  · rw [r, r, e2]
    congr 1
    refine tab_congr fun i hi => ?_
    obtain ⟨b1, b2⟩ := hb i hi
    obtain ⟨a1, a2⟩ := ha _ (sh_lt h0 (k := k) (i := i))
    rw [hp] at b2
    refine joins_unique (h1 _ (Nat.mod_lt _ h0) _ (sh_lt h0) ?_) b1 a1 b2 a2
    exact Param.prev_ne (by omega) (sh_lt h0)
  · rw [length_tab] at hi ⊢
    rw [vget_eq_ok.mp (vget_tab a hi)] at hx
    cases hx
    exact Or.inl (ha i hi).2

/-! ### The domain -/

/-- The rotation that maps side `i` of a regular domain to side `i + k`. -/
noncomputable def turnOf (n k : ℕ) : Turn ℝ where
  c := Real.cos (2 * Real.pi / n * k)
  s := Real.sin (2 * Real.pi / n * k)
  shift := 0
  ne := by
    have := Real.cos_sq_add_sin_sq (2 * Real.pi / n * k)
    rw [← sq, ← sq, this]
    exact one_ne_zero

theorem turnOf_q : (turnOf n k).q = 1 := by
  have := Real.cos_sq_add_sin_sq (2 * Real.pi / n * k)
  unfold Turn.q turnOf
  dsimp only
  rw [← sq, ← sq, this]

theorem turnOf_lin (uv : P2 ℝ) : (turnOf n k).lin uv = turned n k uv := rfl

theorem turnOf_pt (uv : P2 ℝ) : (turnOf n k).pt uv = turned n k uv := by
  unfold Turn.pt
  rw [turnOf_lin]
  exact add_zero _

theorem turned_zero : turned n k 0 = 0 := by
  unfold turned
  ext <;> simp

theorem turned_vertex (hn : 0 < n) (r φ : ℝ) (i : ℕ) : regularVertex n r φ (sh n k i) = turned n k (regularVertex n r φ i) := by
  unfold sh
  rw [regularVertex_mod hn]
  unfold regularVertex circ turned
  have e : φ + 2 * Real.pi / n * ((i + k : ℕ) : ℝ) = 2 * Real.pi / n * k + (φ + 2 * Real.pi / n * i) := by
    push_cast
    ring
  generalize φ + 2 * Real.pi / n * i = x at e ⊢
  generalize 2 * Real.pi / n * k = y at e ⊢
  rw [e, Real.cos_add, Real.sin_add]
  ext <;> simp <;> ring

theorem turned_domain (hn : 3 ≤ n) {vs : List (P2 ℝ)} {d : Domain ℝ} (h1 : Domain.regularVertices n = .ok vs) (h2 : Domain.updateFrom vs 0 = .ok d) :
    ∃ v a b, Turned (turnOf n k) n k d d v a b := by
  obtain ⟨r, φ, -, e⟩ := regularVertices_form' hn
  rw [e] at h1
  cases h1
  rw [updateFrom_eq] at h2
  cases h2
  have h0 : 0 < n := by omega
  set v := regularVertex n r φ
  have hv : ∀ i, v (sh n k i) = (turnOf n k).lin (v i) := fun i => turned_vertex h0 r φ i
  have hdu : ∀ i, duOf n v (sh n k i) = (turnOf n k).lin (duOf n v i) := by
    intro i
    unfold duOf
    rw [prev_sh (show 1 ≤ n by omega), hv, hv, ← (turnOf n k).pt_sub, turnOf_pt, turnOf_pt]
    rfl
  have hq : (turnOf n k).c * (turnOf n k).c + (turnOf n k).s * (turnOf n k).s = 1 := turnOf_q
  refine ⟨v, duOf n v, dvOf n v 0, rfl, rfl, length_tab _ _, rfl, fun i hi => ?_, fun i hi => ?_, fun i hi => vget_tab _ hi, fun i hi => ?_, fun i hi => vget_tab _ hi⟩
  · dsimp only
    rw [vget_tab _ (sh_lt h0), hv, turnOf_pt, turnOf_lin]
  · dsimp only
    rw [vget_tab _ (sh_lt h0), hdu]
  · dsimp only
    rw [vget_tab _ (sh_lt h0)]
    congr 1
    unfold dvOf
    dsimp only
    rw [hdu, hv]
    generalize duOf n v i = u
    generalize v i = w
    generalize turnOf n k = T at *
    have e : P2.dot (0 - T.lin w) ⟨(T.lin u).y, -(T.lin u).x⟩ = P2.dot (0 - w) ⟨u.y, -u.x⟩ := by
      simp only [P2.dot, Turn.lin, P2.sub_x, P2.sub_y, P2.zero_x, P2.zero_y]
      linear_combination (u.x * w.y - u.y * w.x) * hq
    rw [e]
    split_ifs <;> ext <;> simp only [Turn.lin, P2.neg_x, P2.neg_y] <;> ring

/-! ### The relation -/

/-- A parameterization without sides. -/
def NoSides (o : Param.Obj ℝ) : Prop := o.dom.vertices = [] ∧ ∀ x ∈ o.cache, x.2 = []

theorem NoSides.maps {o : Param.Obj ℝ} (h : NoSides o) (kind : Param.Kind ℝ) (uv : P2 ℝ) : ∃ o', Param.mapToRibbons ε kind uv o = .ok ([], o') ∧ NoSides o' := by
  have base : ∃ o', Param.mapToRibbonsBase ε kind uv o = .ok ([], o') ∧ NoSides o' := by
    unfold Param.mapToRibbonsBase
    cases hm : Param.mapFind o.cache uv with
    | some r =>
      have : r = [] := by
        unfold Param.mapFind at hm
        rw [Option.map_eq_some_iff] at hm
        obtain ⟨x, hx, rfl⟩ := hm
        exact h.2 x (List.mem_of_find?_eq_some hx)
      subst this
      exact ⟨o, rfl, h⟩
    | none =>
      rw [h.1]
      exact ⟨_, rfl, h.1, fun x hx => by
        rcases List.mem_cons.mp hx with rfl | hx
        · rfl
        · exact h.2 x hx⟩
  obtain ⟨o', e, h'⟩ := base
  unfold Param.mapToRibbons
  rw [e, M_bind_ok]
  cases kind with
  | interconnected =>
    refine ⟨o', ?_, h'⟩
    dsimp only
    rw [h'.1]
    rfl
  | _ => exact ⟨o', rfl, h'⟩

theorem Alike.of_fst {α β γ δ : Type} {r : α → β → Prop} {x : M (α × γ)} {y : M (β × δ)} (h : Alike r (Prod.fst <$> x) (Prod.fst <$> y)) : Alike (fun a b => r a.1 b.1) x y := by
  cases x <;> cases y <;> exact h

theorem Alike.withOk {α β : Type} {r : α → β → Prop} {x : M α} {y : M β} (h : Alike r x y) : Alike (fun a b => r a b ∧ x = .ok a ∧ y = .ok b) x y := by
  cases x <;> cases y <;> first | exact h | exact ⟨h, rfl, rfl⟩

theorem mapM_range_eq {β : Type} (n : ℕ) (f : ℕ → M β) : (List.range n).mapM f = forLoop n (fun i (r : List β) => do let x ← f i; .ok (r ++ [x])) [] := by
  rw [Alike.mapM_eq, List.length_range]
  refine forLoop_congr _ fun i s hi => ?_
  have : vget (List.range n) i = .ok i := by
    rw [vget_eq_ok, List.getElem?_range hi]
  rw [this, M_bind_ok]

/-- The second object is the first one with its sides shifted by `k`. -/
structure ShiftedPatch (ε : ℝ) (n k : ℕ) (P P' : Patch ℝ) : Prop where
  kind : P'.kind = P.kind
  reg : P.kind.regular = true
  surf : ShiftedSurf n k P.surf P'.surf
  linked : P'.linked = P.linked
  midSet : P'.midSet = P.midSet
  mid : P'.mid = P.mid
  central : P'.central = P.central
  dom : P'.dom.dom = P.dom.dom
  center : P.dom.dom.center = 0
  ready : (P.dom.dom.n = n ∧ Patch.ParamOk ε P ∧ Patch.ParamOk ε P' ∧ ∃ vs, Domain.regularVertices n = .ok vs ∧ Domain.updateFrom vs 0 = .ok P.dom.dom) ∨
    (P.dom.dom.n ≠ n ∧ NoSides P.param ∧ NoSides P'.param)
  loop : ClosedLoop P.curves

namespace ShiftedPatch

variable {P P' : Patch ℝ}

theorem curves (h : ShiftedPatch ε n k P P') : P'.curves = P.curves.rotate k := by
  unfold Patch.curves
  rw [h.surf.ribbons.eq, List.map_rotate]

theorem length (h : ShiftedPatch ε n k P P') : P.curves.length = n := by
  unfold Patch.curves
  rw [List.length_map, h.surf.len]

theorem maps (h : ShiftedPatch ε n k P P') (hn : 3 ≤ n) (hε : ε ≤ 1) (uv : P2 ℝ) :
    Alike (fun r r' => Rot n k r.1 r'.1 ∧ ShiftedPatch ε n k { P with param := r.2 } { P' with param := r'.2 })
      (Param.mapToRibbons ε P.kind.param (turned n k uv) P.param) (Param.mapToRibbons ε P'.kind.param uv P'.param) := by
  rcases h.ready with ⟨hd, p, p', vs, e1, e2⟩ | ⟨hd, o, o'⟩
  · obtain ⟨x, f1, g1⟩ := Patch.maps_eq p (turned n k uv)
    obtain ⟨x', f2, g2⟩ := Patch.maps_eq p' uv
    obtain ⟨v, a, b, T⟩ := turned_domain (k := k) hn e1 e2
    have hm : Rot n k x.mult x'.mult := by
      have := T.update P.kind
      rw [h.kind, h.dom] at f2
      obtain ⟨y, e3, e4⟩ := this.ok f1
      rw [f2] at e3
      cases e3
      exact e4
    have key : Alike (fun r r' => Rot n k r.1 r'.1) (Param.mapToRibbons ε P.kind.param (turned n k uv) P.param) (Param.mapToRibbons ε P'.kind.param uv P'.param) := by
      refine Alike.of_fst ?_
      rw [g1, g2, h.dom, T.l1, mapM_range_eq, mapM_range_eq]
      refine Alike.push fun i hi => ?_
      rw [← turnOf_pt, h.kind]
      exact T.mapRaw hn (fun _ => turnOf_q) hε hi hm uv
    refine key.withOk.mono ?_
    rintro r r' ⟨hr, k1, k2⟩
    refine ⟨hr, h.kind, h.reg, h.surf, h.linked, h.midSet, h.mid, h.central, h.dom, h.center, Or.inl ⟨hd, ?_, ?_, vs, e1, e2⟩, h.loop⟩
    · exact (Patch.maps_queried k1).paramOk p
    · exact (Patch.maps_queried k2).paramOk p'
  · obtain ⟨x, f1, g1⟩ := o.maps (ε := ε) P.kind.param (turned n k uv)
    obtain ⟨x', f2, g2⟩ := o'.maps (ε := ε) P'.kind.param uv
    rw [f1, f2]
    exact ⟨Rot.nil, h.kind, h.reg, h.surf, h.linked, h.midSet, h.mid, h.central, h.dom, h.center, Or.inr ⟨hd, g1, g2⟩, h.loop⟩

theorem evalWith (h : ShiftedPatch ε n k P P') {sds sds' : List (P2 ℝ)} (hs : Rot n k sds sds') : Alike (· = ·) (P.evalWith ε sds) (P'.evalWith ε sds') := by
  unfold Patch.evalWith
  rw [h.kind]
  have hr := h.reg
  cases hk : P.kind with
  | sideBased => exact h.surf.sideBased hs
  | cornerBased => exact h.surf.cornerBased hs
  | generalizedCoons => exact h.surf.generalizedCoons hs
  | compositeRibbon => exact h.surf.composite hs
  | midpoint =>
    dsimp only
    rw [h.central]
    exact h.surf.midpoint hs _
  | midpointCoons =>
    dsimp only
    rw [h.central]
    exact h.surf.midpointCoons hs _
  | c0Coons => exact h.surf.c0Coons hs

theorem eval (h : ShiftedPatch ε n k P P') (hn : 3 ≤ n) (hε : ε ≤ 1) (uv : P2 ℝ) :
    Alike (fun x x' => x.1 = x'.1 ∧ ShiftedPatch ε n k x.2 x'.2) (P.eval ε (turned n k uv)) (P'.eval ε uv) := by
  unfold Patch.eval
  refine (h.maps hn hε uv).bind fun r r' _ _ hr => ?_
  exact (h.evalWith hr.1).bindEq fun p _ _ => ⟨rfl, hr.2⟩

theorem deficiency (h : ShiftedPatch ε n k P P') (hn : 3 ≤ n) (hε : ε ≤ 1) (uv : P2 ℝ) :
    Alike (fun x x' => x.1 = x'.1 ∧ ShiftedPatch ε n k x.2 x'.2) (P.deficiency ε (turned n k uv)) (P'.deficiency ε uv) := by
  unfold Patch.deficiency
  refine (h.maps hn hε uv).bind fun r r' _ _ hr => ?_
  rw [h.surf.n1, h.surf.n2]
  refine (ShiftedSurf.blendCornerDeficient hr.1).bind fun b b' _ _ hb => ⟨?_, hr.2⟩
  rw [hb.sum]

theorem withMid (h : ShiftedPatch ε n k P P') (b : Bool) (m c : P3 ℝ) : ShiftedPatch ε n k { P with midSet := b, mid := m, central := c } { P' with midSet := b, mid := m, central := c } :=
  ⟨h.kind, h.reg, h.surf, h.linked, rfl, rfl, rfl, h.dom, h.center, h.ready, h.loop⟩

theorem updateCentral (h : ShiftedPatch ε n k P P') (hn : 3 ≤ n) (hε : ε ≤ 1) : Alike (ShiftedPatch ε n k) (P.updateCentral ε) (P'.updateCentral ε) := by
  unfold Patch.updateCentral
  have hm : Alike (· = ·) (P.currentMid ε) (P'.currentMid ε) := by
    unfold Patch.currentMid
    rw [h.midSet, h.mid]
    split_ifs
    · exact Alike.refl _
    · exact h.surf.defaultMidpoint
  refine hm.bindEq fun m _ _ => ?_
  dsimp only
  have h1 : ShiftedPatch ε n k { P with mid := m, central := 0 } { P' with mid := m, central := 0 } :=
    ⟨h.kind, h.reg, h.surf, h.linked, h.midSet, rfl, rfl, h.dom, h.center, h.ready, h.loop⟩
  have e1 := h1.eval hn hε 0
  rw [turned_zero] at e1
  rw [h.dom, h.center]
  refine e1.bind fun s s' _ _ hs => ?_
  have e2 := hs.2.deficiency hn hε 0
  rw [turned_zero] at e2
  refine e2.bind fun d d' _ _ hd => ?_
  rw [← hd.1, ← hs.1]
  split_ifs
  · exact ⟨hd.2.kind, hd.2.reg, hd.2.surf, hd.2.linked, hd.2.midSet, hd.2.mid, rfl, hd.2.dom, hd.2.center, hd.2.ready, hd.2.loop⟩
  · exact Alike.same fun c _ => ⟨hd.2.kind, hd.2.reg, hd.2.surf, hd.2.linked, hd.2.midSet, hd.2.mid, rfl, hd.2.dom, hd.2.center, hd.2.ready, hd.2.loop⟩

theorem finish (h : ShiftedPatch ε n k P P') (hn : 3 ≤ n) (hε : ε ≤ 1) : Alike (ShiftedPatch ε n k) (P.finish ε) (P'.finish ε) := by
  unfold Patch.finish
  rw [h.kind]
  split
  · exact h.updateCentral hn hε
  · exact h.updateCentral hn hε
  · exact h

theorem updateFrom_center {vs : List (P2 ℝ)} {c : P2 ℝ} {d : Domain ℝ} (h : Domain.updateFrom vs c = .ok d) : d.center = c := by
  unfold Domain.updateFrom at h
  obtain ⟨x, _, h⟩ := bind_ok h
  cases h
  rfl

theorem updateDomain (h : ShiftedPatch ε n k P P') : Alike (ShiftedPatch ε n k) P.updateDomain P'.updateDomain := by
  unfold Patch.updateDomain
  rw [h.kind, if_pos h.reg, if_pos h.reg, h.dom, h.surf.n1, h.surf.n2]
  unfold Domain.regularUpdate
  split_ifs with hd
  · rw [M_bind_ok, M_bind_ok]
    exact h
  · simp only [bind_assoc, M_bind_ok, if_true]
    refine Alike.same fun vs e1 => Alike.same fun d e2 => Alike.same fun o e3 => ?_
    have hdn : d.n = n := by rw [Patch.updateFrom_n e2, Patch.regularVertices_length e1]
    have hc : d.center = 0 := updateFrom_center e2
    exact ⟨rfl, h.reg, h.surf, h.linked, h.midSet, h.mid, h.central, rfl, hc,
      Or.inl ⟨hdn, ⟨o, [], e3, by simp, rfl⟩, ⟨o, [], e3, by simp, rfl⟩, vs, e1, e2⟩, h.loop⟩

theorem withSurf (h : ShiftedPatch ε n k P P') {S S' : Surf ℝ} (hS : ShiftedSurf n k S S') (hc : S.ribbons.map (·.curve) = P.curves) :
    ShiftedPatch ε n k { P with surf := S } { P' with surf := S' } :=
  ⟨h.kind, h.reg, hS, h.linked, h.midSet, h.mid, h.central, h.dom, h.center, h.ready, by
    have : Patch.curves { P with surf := S } = P.curves := hc
    rw [this]
    exact h.loop⟩

theorem update (h : ShiftedPatch ε n k P P') (hn : 3 ≤ n) (hε : ε ≤ 1) : Alike (ShiftedPatch ε n k) (P.update ε) (P'.update ε) := by
  unfold Patch.update
  refine h.updateDomain.bind fun D D' _ _ hD => ?_
  by_cases hL : D.linked = true
  on_goal 1 => rw [if_pos hL, if_pos (hD.linked.trans hL)]
  on_goal 2 => rw [if_neg hL, if_neg (by rw [hD.linked]; exact hL)]
  · exact (hD.surf.updateAll (by omega)).bind fun S S' e _ hS => (hD.withSurf hS (Surf.updateAll_curves e)).finish hn hε
  · trivial

theorem updateSide (h : ShiftedPatch ε n k P P') (hn : 3 ≤ n) (hε : ε ≤ 1) (hi : i < n) : Alike (ShiftedPatch ε n k) (P.updateSide ε (sh n k i)) (P'.updateSide ε i) := by
  unfold Patch.updateSide
  refine h.updateDomain.bind fun D D' _ _ hD => ?_
  by_cases hL : D.linked = true
  on_goal 1 => rw [if_pos hL, if_pos (hD.linked.trans hL)]
  on_goal 2 => rw [if_neg hL, if_neg (by rw [hD.linked]; exact hL)]
  · exact (hD.surf.updateOne hi).bind fun S S' e _ hS => (hD.withSurf hS (Surf.updateOne_curves e)).finish hn hε
  · trivial

theorem onRibbon (h : ShiftedPatch ε n k P P') (hi : i < n) {f : Ribbon ℝ → M (Ribbon ℝ)} (hf : ∀ r r', f r = .ok r' → r'.curve = r.curve) :
    Alike (ShiftedPatch ε n k) (P.onRibbon (sh n k i) f) (P'.onRibbon i f) := by
  unfold Patch.onRibbon
  rw [h.surf.ribbons.vget hi]
  refine Alike.same fun r e1 => Alike.same fun r' e2 => ?_
  rw [← h.surf.ribbons.vget hi] at e1
  refine (Alike.vset h.surf.ribbons hi r').bind fun l l' e3 _ hl => ?_
  refine h.withSurf ⟨h.surf.gamma, hl, ?_, h.surf.corners⟩ (Surf.vset_curves e1 (hf r r' e2) e3)
  have := congrArg List.length (Surf.vset_curves e1 (hf r r' e2) e3)
  rw [List.length_map, List.length_map, h.surf.len] at this
  exact this

theorem zipWith_snd {α β : Type} {l : List α} {m : List β} (h : l.length = m.length) : List.zipWith (fun (_ : α) c => c) l m = m := by
  induction l generalizing m with
  | nil => cases m with
    | nil => rfl
    | cons _ _ => cases h
  | cons a l ih => cases m with
    | nil => cases h
    | cons b m => rw [List.zipWith_cons_cons, ih (Nat.succ.inj h)]

theorem setHandler_curve {r r' : Ribbon ℝ} {v : P3 ℝ} (h : r.setHandler v = .ok r') : r'.curve = r.curve := by
  unfold Ribbon.setHandler at h
  obtain ⟨x, _, h⟩ := bind_ok h
  cases h
  rfl

theorem setupLoop (h : ShiftedPatch ε n k P P') (hn : 3 ≤ n) : Alike (ShiftedPatch ε n k) P.setupLoop P'.setupLoop := by
  obtain ⟨cs, e1, e2, hl, hc⟩ := ClosedLoop.orient hn h.length h.loop k
  unfold Patch.setupLoop
  rw [h.curves, e1, e2, M_bind_ok, M_bind_ok]
  have hz : (List.zipWith (fun (r : Ribbon ℝ) c => ({ r with curve := c } : Ribbon ℝ)) P.surf.ribbons cs).length = n := by
    rw [List.length_zipWith, h.surf.len, hl, min_self]
  refine ⟨h.kind, h.reg, ⟨h.surf.gamma, ⟨?_, Or.inl hz⟩, hz, h.surf.corners⟩, rfl, h.midSet, h.mid, h.central, h.dom, h.center, h.ready, ?_⟩
  · dsimp only
    rw [h.surf.ribbons.eq, List.zipWith_rotate_distrib _ _ _ _ (by rw [h.surf.len, hl])]
  · have : Patch.curves { P with surf := { P.surf with ribbons := List.zipWith (fun (r : Ribbon ℝ) c => ({ r with curve := c } : Ribbon ℝ)) P.surf.ribbons cs }, linked := true } = cs := by
      unfold Patch.curves
      dsimp only
      rw [List.map_zipWith]
      exact zipWith_snd (by rw [h.surf.len, hl])
    rw [this]
    exact hc

theorem setCurves (h : P'.kind = P.kind) (reg : P.kind.regular = true) (g : P'.surf.useGamma = P.surf.useGamma) (corners : Rot n k P.surf.corners P'.surf.corners)
    (midSet : P'.midSet = P.midSet) (mid : P'.mid = P.mid) (central : P'.central = P.central) (dom : P'.dom.dom = P.dom.dom) (center : P.dom.dom.center = 0)
    (ready : (P.dom.dom.n = n ∧ Patch.ParamOk ε P ∧ Patch.ParamOk ε P' ∧ ∃ vs, Domain.regularVertices n = .ok vs ∧ Domain.updateFrom vs 0 = .ok P.dom.dom) ∨
      (P.dom.dom.n ≠ n ∧ NoSides P.param ∧ NoSides P'.param)) {cs : List (Curve ℝ)} (hl : cs.length = n) (hc : ClosedLoop cs) :
    ShiftedPatch ε n k (P.setCurves cs) (P'.setCurves (cs.rotate k)) := by
  have hm : (cs.map (Ribbon.new P.kind.ribbon)).length = n := by rw [List.length_map, hl]
  refine ⟨h, reg, ⟨g, ⟨?_, Or.inl hm⟩, hm, corners⟩, rfl, midSet, mid, central, dom, center, ready, ?_⟩
  · unfold Patch.setCurves
    dsimp only
    rw [List.map_rotate, h]
  · have : (P.setCurves cs).curves = cs := by
      unfold Patch.setCurves Patch.curves
      dsimp only
      rw [List.map_map]
      exact List.map_id _
    rw [this]
    exact hc

theorem step (h : ShiftedPatch ε n k P P') (hn : 3 ≤ n) (hε : ε ≤ 1) {c c' : Patch.Call ℝ} (hc : SameCall n k c c') : Alike (ShiftedPatch ε n k) (P.step ε c) (P'.step ε c') := by
  cases hc with
  | gamma g => exact ⟨h.kind, h.reg, ⟨rfl, h.surf.ribbons, h.surf.len, h.surf.corners⟩, h.linked, h.midSet, h.mid, h.central, h.dom, h.center, h.ready, h.loop⟩
  | curves cs hl hc => exact setCurves h.kind h.reg h.surf.gamma h.surf.corners h.midSet h.mid h.central h.dom h.center h.ready hl hc
  | loop => exact h.setupLoop hn
  | handler i hi v => exact h.onRibbon hi fun r r' e => setHandler_curve e
  | mult i hi m => exact h.onRibbon hi fun r r' e => by cases e; rfl
  | fence i hi f => exact h.onRibbon hi fun r r' e => by cases e; rfl
  | reset i hi => exact h.onRibbon hi fun r r' e => by cases e; rfl
  | setMid p =>
    unfold Patch.step
    dsimp only
    rw [h.kind]
    split_ifs
    · exact updateCentral ⟨h.kind, h.reg, h.surf, h.linked, rfl, rfl, h.central, h.dom, h.center, h.ready, h.loop⟩ hn hε
    · trivial
  | unsetMid =>
    unfold Patch.step
    dsimp only
    rw [h.kind]
    split_ifs
    · exact updateCentral ⟨h.kind, h.reg, h.surf, h.linked, rfl, h.mid, h.central, h.dom, h.center, h.ready, h.loop⟩ hn hε
    · trivial
  | update => exact h.update hn hε
  | updateSide i hi => exact h.updateSide hn hε hi
  | eval uv => exact (h.eval hn hε uv).bind fun x x' _ _ hx => hx.2
  | mapSides uv => exact (h.maps hn hε uv).bind fun x x' _ _ hx => hx.2

theorem run (h : ShiftedPatch ε n k P P') (hn : 3 ≤ n) (hε : ε ≤ 1) {xs xs' : List (Patch.Call ℝ)} (hx : List.Forall₂ (SameCall n k) xs xs') :
    Alike (ShiftedPatch ε n k) (P.run ε xs) (P'.run ε xs') := by
  induction hx generalizing P P' with
  | nil => exact h
  | cons hc _ ih => exact (h.step hn hε hc).bind fun Q Q' _ _ hQ => ih hQ

end ShiftedPatch

end Transfinite
