import Verif.Lemmas.MotionHybrid
import Verif.Props.Hybrid
import Verif.Props.Motion
import Verif.Props.Affine

/-! # C111: moving the input of a hybrid patch moves the surface -/

namespace Transfinite

open Spec

namespace Hybrid

section field

variable {K : Type} [Field K] [LinearOrder K] [Libm K] [IsStrictOrderedRing K] {ε : K} {arc : List (P3 K) → K → K → K} {g : Motion K} {H H' H0 H0' : Hybrid K} {d l : ℕ}

/-- C111: rotations about the origin, any history: the same calls with rotated input fail in the same way, or lead to objects whose evaluation fails in the same way or gives rotated points. -/
theorem C111_rotation (hg : g.shift = 0) (ha : ∀ l, l ≠ [] → arc (l.map g.pt) = arc l) (cs : List (Call K)) :
    (∀ e, (Hybrid.new d l).run ε arc cs = .error e ↔ (Hybrid.new d l).run ε arc (cs.map g.hybridCall) = .error e) ∧
    ∀ H, (Hybrid.new d l).run ε arc cs = .ok H → ∃ H', (Hybrid.new d l).run ε arc (cs.map g.hybridCall) = .ok H' ∧
      ∀ uv, (∀ e, H.eval ε uv = .error e ↔ H'.eval ε uv = .error e) ∧ ∀ p Q, H.eval ε uv = .ok (p, Q) → ∃ Q', H'.eval ε uv = .ok (g.pt p, Q') := by
  have h0 : Motion.Hyb g True True (Hybrid.new d l) (Hybrid.new d l) :=
    ⟨⟨rfl, rfl, rfl, rfl, rfl, List.Forall₂.nil, fun _ => by change (0 : P3 K) = g.lin 0 + g.shift; rw [hg, map_zero, add_zero]⟩, Motion.new_moved g _⟩
  have h := Motion.hybrid_run ε h0 (new_inv ε d l) ha cs (fun _ _ _ => Or.inr hg) fun h => (h trivial).elim
  refine ⟨h.error_iff, fun H hH => ?_⟩
  obtain ⟨H', e, hm⟩ := h.ok hH
  refine ⟨H', e, fun uv => ?_⟩
  have hv := Motion.hybrid_eval ε hm (run_inv (new_inv ε d l) hH).kind uv
  refine ⟨hv.error_iff, fun p Q hp => ?_⟩
  obtain ⟨⟨p', Q'⟩, e, _, hq⟩ := hv.ok hp
  exact ⟨Q', by rw [e, show p' = g.pt p from hq trivial trivial]⟩

omit [LinearOrder K] [Libm K] [IsStrictOrderedRing K] in
private theorem nets_full {N N' : List (List (List (P3 K)))} (h : Motion.Nets g False N N') (hc : ∀ i j k p, GB.cpt N i j k = .ok p → GB.cpt N' i j k = .ok (g.pt p)) : Motion.Nets g True N N' := by
  refine List.forall₂_iff_get.mpr ⟨h.length_eq, fun i hi hi' => ?_⟩
  have h1 := (List.forall₂_iff_get.mp h).2 i hi hi'
  refine List.forall₂_iff_get.mpr ⟨h1.length_eq, fun j hj hj' => ?_⟩
  have h2 := (List.forall₂_iff_get.mp h1).2 j hj hj'
  refine List.forall₂_iff_get.mpr ⟨h2.length_eq, fun k hk hk' _ => ?_⟩
  have e : ∀ {α : Type} (l : List α) (i : ℕ) (hi : i < l.length), vget l i = .ok (l.get ⟨i, hi⟩) := fun l i hi => vget_eq_ok.mpr (List.getElem?_eq_getElem hi)
  have := hc i j k _ (by unfold GB.cpt; rw [e _ i hi, M_bind_ok, e _ j hj, M_bind_ok, e _ k hk])
  unfold GB.cpt at this
  rw [e _ i hi', M_bind_ok, e _ j hj', M_bind_ok, e _ k hk'] at this
  exact Except.ok.inj this

/-- C111: any rigid motion. First a network is set up in such a way that all control points are moved (those that were not set stay at the origin); the calls after that fail in the same
way as with moved input, or lead to objects, where the evaluation fails in the same way or gives moved points, if the central control point is moved. -/
theorem C111_motion (ha : ∀ l, l ≠ [] → arc (l.map g.pt) = arc l) {before later : List (Call K)} (hb : ∀ c ∈ before, ∃ x, c = .net x) (hl : ∀ c ∈ later, keepsNet c = true)
    (h0 : (Hybrid.new d l).run ε arc before = .ok H0) (h0' : (Hybrid.new d l).run ε arc (before.map g.hybridCall) = .ok H0')
    (hp : ∀ i j k p, H0.net.controlPoint i j k = .ok p → H0'.net.controlPoint i j k = .ok (g.pt p)) :
    (∀ e, H0.run ε arc later = .error e ↔ H0'.run ε arc (later.map g.hybridCall) = .error e) ∧
    ∀ H, H0.run ε arc later = .ok H → ∃ H', H0'.run ε arc (later.map g.hybridCall) = .ok H' ∧ (H'.net.central = g.pt H.net.central →
      ∀ uv, (∀ e, H.eval ε uv = .error e ↔ H'.eval ε uv = .error e) ∧ ∀ p Q, H.eval ε uv = .ok (p, Q) → ∃ Q', H'.eval ε uv = .ok (g.pt p, Q')) := by
  have m0 := Motion.hybrid_run ε (Motion.hybrid_new g d l False) (new_inv ε d l) ha before (fun h => h.elim) fun _ => hb
  obtain ⟨x, e, m0⟩ := m0.ok h0
  have : x = H0' := Except.ok.inj (e.symm.trans h0')
  subst this
  have i0 := run_inv (new_inv ε d l) h0
  have m1 : Motion.Hyb g True False H0 x := ⟨⟨m0.net.kind, m0.net.n, m0.net.degree, m0.net.layers, m0.net.squared, nets_full m0.net.nets hp, m0.net.central⟩, m0.patch⟩
  have h := Motion.hybrid_run ε m1 i0 ha later (fun _ c hc => Or.inl (hl c hc)) fun h => (h trivial).elim
  refine ⟨h.error_iff, fun H hH => ?_⟩
  obtain ⟨H', e, hm⟩ := h.ok hH
  refine ⟨H', e, fun hcen uv => ?_⟩
  have m2 : Motion.Hyb g True True H H' := ⟨⟨hm.net.kind, hm.net.n, hm.net.degree, hm.net.layers, hm.net.squared, hm.net.nets, fun _ => hcen⟩, hm.patch⟩
  have hv := Motion.hybrid_eval ε m2 (run_inv i0 hH).kind uv
  refine ⟨hv.error_iff, fun p Q hp => ?_⟩
  obtain ⟨⟨p', Q'⟩, e, _, hq⟩ := hv.ok hp
  exact ⟨Q', by rw [e, show p' = g.pt p from hq trivial trivial]⟩

omit [IsStrictOrderedRing K] in
/-- C111: the central control point has a weight at every parameter point, which does not depend on its position: setting it moves the surface point by the multiple of its movement. -/
theorem C111_central (H : Hybrid K) (uv : P2 K) : ∃ w : K, ∀ arc c, ∃ Hc, H.step ε arc (.net (.central c)) = .ok Hc ∧
    (∀ e, H.eval ε uv = .error e ↔ Hc.eval ε uv = .error e) ∧ ∀ p Q, H.eval ε uv = .ok (p, Q) → ∃ Q', Hc.eval ε uv = .ok (p + w • (c - H.net.central), Q') := by
  obtain ⟨w, hw⟩ := Motion.eval_central ε H uv
  refine ⟨w, fun arc c => ⟨⟨H.asNet.setCentral c, H.patch⟩, rfl, (hw c).error_iff, fun p Q hp => ?_⟩⟩
  obtain ⟨⟨p', Q'⟩, e, h⟩ := (hw c).ok hp
  exact ⟨Q', by rw [e]; exact congrArg (fun x => Except.ok (x, Q')) h⟩

/-- C111: any rigid motion, when the central control point may have been left at the origin: the surface is moved up to an error, which is the multiple of the missing movement of the
central control point by its weight. -/
theorem C111_unset (ha : ∀ l, l ≠ [] → arc (l.map g.pt) = arc l) {before later : List (Call K)} (hb : ∀ c ∈ before, ∃ x, c = .net x) (hl : ∀ c ∈ later, keepsNet c = true)
    (h0 : (Hybrid.new d l).run ε arc before = .ok H0) (h0' : (Hybrid.new d l).run ε arc (before.map g.hybridCall) = .ok H0')
    (hp : ∀ i j k p, H0.net.controlPoint i j k = .ok p → H0'.net.controlPoint i j k = .ok (g.pt p))
    (h1 : H0.run ε arc later = .ok H) (h1' : H0'.run ε arc (later.map g.hybridCall) = .ok H') (uv : P2 K) {p : P3 K} {Q : Hybrid K} (e : H.eval ε uv = .ok (p, Q)) :
    ∃ w : K, (∀ c, ∃ Hc Qc, H.step ε arc (.net (.central c)) = .ok Hc ∧ Hc.eval ε uv = .ok (p + w • (c - H.net.central), Qc)) ∧
      ∃ Q', H'.eval ε uv = .ok (g.pt p + w • (H'.net.central - g.pt H.net.central), Q') := by
  obtain ⟨w, hw⟩ := C111_central (ε := ε) H uv
  obtain ⟨w', hw'⟩ := C111_central (ε := ε) H' uv
  have key : ∀ c, ∃ Q, Hybrid.eval ε uv ⟨H'.asNet.setCentral (g.pt c), H'.patch⟩ = .ok (g.pt (p + w • (c - H.net.central)), Q) := by
    intro c
    obtain ⟨Hc, e1, _, e2⟩ := hw arc c
    obtain ⟨Qc, e2⟩ := e2 p Q e
    have r : H.run ε arc [.net (.central c)] = .ok Hc := by unfold run; rw [e1]; rfl
    obtain ⟨X, e3, hX⟩ := (C111_motion ha hb (later := later ++ [.net (.central c)]) (fun x hx => by
      rcases List.mem_append.mp hx with q | q
      · exact hl x q
      · rw [List.mem_singleton.mp q]; rfl) h0 h0' hp).2 Hc (run_join h1 r)
    rw [List.map_append] at e3
    obtain ⟨Y, e4, e5⟩ := run_split e3
    have : Y = H' := Except.ok.inj (e4.symm.trans h1')
    subst this
    have e6 : X = ⟨Y.asNet.setCentral (g.pt c), Y.patch⟩ := (Except.ok.inj e5).symm
    subst e6
    cases e1
    obtain ⟨Q', e7⟩ := (hX rfl uv).2 _ _ e2
    exact ⟨Q', e7⟩
  obtain ⟨e', he'⟩ : ∃ x : P3 K × Hybrid K, H'.eval ε uv = .ok x := by
    obtain ⟨Q1, k1⟩ := key 0
    obtain ⟨Hc, e1, e2, _⟩ := hw' arc (g.pt 0)
    cases e1
    cases h : H'.eval ε uv with
    | ok x => exact ⟨x, rfl⟩
    | error z =>
      have := k1.symm.trans ((e2 z).mp h)
      cases this
  have val : ∀ c, e'.1 + w' • (g.pt c - H'.net.central) = g.pt (p + w • (c - H.net.central)) := by
    intro c
    obtain ⟨Q1, k1⟩ := key c
    obtain ⟨Hc, e1, _, e2⟩ := hw' arc (g.pt c)
    cases e1
    obtain ⟨Q2, e2⟩ := e2 e'.1 e'.2 he'
    exact congrArg Prod.fst (Except.ok.inj (e2.symm.trans k1))
  have v0 := val H.net.central
  rw [sub_self, smul_zero, add_zero] at v0
  have v1 := val (H.net.central + ⟨1, 0, 0⟩)
  have hww : w' = w := by
    have h2 : w' • g.lin ⟨1, 0, 0⟩ = w • g.lin ⟨1, 0, 0⟩ := by
      have := congrArg₂ (· - ·) v1 v0
      simp only [Motion.pt, map_add, map_smul, add_sub_cancel_left] at this
      rw [← sub_eq_zero] at this ⊢
      rw [← this]
      module
    have h3 := congrArg (fun x => P3.dot x (g.lin ⟨1, 0, 0⟩)) h2
    simp only [P3.dot_smul_left, g.dot] at h3
    simpa [P3.dot] using h3
  refine ⟨w, fun c => ?_, e'.2, ?_⟩
  · obtain ⟨Hc, e1, _, e2⟩ := hw arc c
    obtain ⟨Qc, e2⟩ := e2 p Q e
    exact ⟨Hc, Qc, e1, e2⟩
  · rw [he']
    have : e'.1 = g.pt p + w • (H'.net.central - g.pt H.net.central) := by
      rw [← v0, hww, add_assoc, ← smul_add, sub_add_sub_cancel', sub_self, smul_zero, add_zero]
    exact congrArg (fun x => Except.ok (x, e'.2)) this

end field

/-! ### Examples -/

section examples

/-- The state before `setupLoop`. -/
theorem built_net {ε : ℝ} {arc : List (P3 ℝ) → ℝ → ℝ → ℝ} {n d : ℕ} (hn : n ≠ 0) {w : List (Name × P3 ℝ)} (hw : ∀ x ∈ w, x.1.InRange n d) (g l : ℕ) :
    ∃ H, (Hybrid.new g l).run ε arc ([.net (.init n d)] ++ w.map fun x => .net (.set x.1.side x.1.col x.1.row x.2)) = .ok H ∧
      GB.HasNet H.net n d fun i j k => netValue n d w ⟨i, j, k⟩ := by
  set H0 : Hybrid ℝ := Hybrid.new g l
  have hne : ¬(n = H0.asNet.n ∧ d = H0.asNet.degree) := fun h => hn h.1
  have hF1 := GB.initBase_net hne
  set G1 : GB ℝ := H0.asNet.initBase n d with hG1
  have hG1p : G1.param = H0.patch.param ∧ G1.dom = H0.patch.dom := by
    rw [hG1]
    unfold GB.initBase
    rw [if_neg hne]
    exact ⟨rfl, rfl⟩
  set H1 : Hybrid ℝ := ⟨G1, H0.patch⟩
  have s1 : H0.step ε arc (.net (.init n d)) = .ok H1 := by
    unfold step
    dsimp only
    have : H0.asNet.step ε arc (.init n d) = .ok G1 := rfl
    rw [if_pos (by rfl), this, M_bind_ok, hG1p.1]
  have r1 : H0.run ε arc [.net (.init n d)] = .ok H1 := by
    unfold run
    rw [s1]; rfl
  have a1 : H1.asNet = G1 := by
    unfold asNet
    dsimp only
    rw [← hG1p.1, ← hG1p.2]
  obtain ⟨G2, e2, k2, hF2⟩ := GB.writes_aux (ε := ε) (arc := arc) hw hF1
  rw [← a1] at e2
  obtain ⟨H2, r2, a2, p2⟩ := run_nets (fun x hx => by
    obtain ⟨y, _, rfl⟩ := List.mem_map.mp hx
    exact ⟨_, _, _, _, rfl⟩) e2
  rw [List.map_map] at r2
  refine ⟨H2, run_join r1 r2, ?_⟩
  rw [← a2] at hF2
  exact ⟨hF2.n_eq, hF2.degree, hF2.layers, hF2.nets⟩

/-- A length given by the end points, which does not change by motions. -/
noncomputable def endArc (l : List (P3 ℝ)) (a b : ℝ) : ℝ := (b - a) * (l.getLastD 0 - l.headD 0).norm

theorem endArc_moved (g : Motion ℝ) {l : List (P3 ℝ)} (hl : l ≠ []) : endArc (l.map g.pt) = endArc l := by
  obtain ⟨x, l, rfl⟩ := List.exists_cons_of_ne_nil hl
  have : ∀ (l : List (P3 ℝ)) (y : P3 ℝ), (l.map g.pt).getLastD (g.pt y) = g.pt (l.getLastD y) := by
    intro l
    induction l with
    | nil => intro y; rfl
    | cons z l ih => intro y; rw [List.map_cons, List.getLastD_cons, List.getLastD_cons]; exact ih z
  funext a b
  unfold endArc
  rw [List.map_cons, List.getLastD_cons, List.getLastD_cons, this, List.headD_cons, List.headD_cons, Motion.pt_sub, Motion.norm]

/-- All points of a quintic network are set, and then those of the boundary of the square. -/
private noncomputable def fullW : List (Name × P3 ℝ) := ((GB.everyName 4 5).map fun a => (a, (⟨4, 4, 1⟩ : P3 ℝ))) ++ sqNames.map fun a => (a, sqPt a)

private theorem full_value {i j : ℕ} (hi : i < 4) (hj : j ≤ 5) : netValue 4 5 fullW ⟨i, j, 0⟩ = (squareLoop i).pt (j / 5) := by
  have h1 : ∀ i < 4, ∀ j < 6, sqNames.foldl (fun (v : Option Name) x => if SamePoint 4 5 ⟨i, j, 0⟩ x then some x else v) none =
      some (if j = 5 then ⟨(i + 1) % 4, 0, 0⟩ else ⟨i, j, 0⟩) := by decide +kernel
  unfold netValue fullW
  rw [List.foldl_append, foldl_last, h1 i hi j (by omega)]
  change sqPt _ = _
  unfold sqPt
  split_ifs with h
  · subst h
    have := square_good.closed i hi
    dsimp only
    rw [show ((5 : ℕ) : ℝ) / 5 = 1 by norm_num, this]
    norm_num
  · rfl

private theorem full_rows {i : ℕ} (hi : i < 4) : rowOf endArc 4 5 fullW i = squareLoop i := by
  have key : ∀ p q : P3 ℝ, bezierCurve endArc (tab (5 + 1) fun j => (segment p q).pt ((j : ℝ) / 5)) = segment p q := fun p q => by
    have ha : endArc (tab (5 + 1) fun j => (segment p q).pt ((j : ℝ) / 5)) = sqArc (tab (5 + 1) fun j => (segment p q).pt ((j : ℝ) / 5)) := by
      funext a b
      unfold endArc sqArc
      simp [tab, List.range_succ]
    refine Eq.trans ?_ (bezier_line p q)
    unfold bezierCurve
    rw [ha]
  unfold rowOf
  rw [tab_congr (fun j hj => full_value hi (by omega))]
  interval_cases i <;> exact key _ _

private theorem full_range : ∀ x ∈ fullW, x.1.InRange 4 5 := by
  intro x hx
  rcases List.mem_append.mp hx with hx | hx
  · obtain ⟨a, ha, rfl⟩ := List.mem_map.mp hx
    exact GB.mem_everyName.mp ha
  · obtain ⟨a, ha, rfl⟩ := List.mem_map.mp hx
    have : ∀ a ∈ sqNames, a.side < 4 ∧ a.col ≤ 5 ∧ a.row < 3 := by decide
    exact this a ha

private theorem full_built : ∃ H, Patch.GoodLoop (1 / 10000) 4 (rowOf endArc 4 5 fullW) ∧
    (Hybrid.new 0 0).run (1 / 10000) endArc ([.net (.init 4 5)] ++ fullW.map (fun x => .net (.set x.1.side x.1.col x.1.row x.2)) ++ [.loop] ++ squareHandlers.map .surf ++ [.surf .update]) = .ok H ∧
    UpToDate (1 / 10000) endArc 4 5 (rowOf endArc 4 5 fullW) H := by
  have hne : (⟨1, 2, 3⟩ : P3 ℝ) ≠ 0 := fun h => by simpa using congrArg P3.x h
  have hm : ∀ j, (j + 1) % 4 < 4 := fun j => Nat.mod_lt _ (by norm_num)
  have hgood : Patch.GoodLoop (1 / 10000) 4 (rowOf endArc 4 5 fullW) := by
    refine ⟨by norm_num, fun j hj => ?_, fun j hj => ?_, fun j hj => ?_, fun j hj => ?_⟩
    · rw [full_rows hj, full_rows (hm j)]; exact square_good.closed j hj
    · rw [full_rows hj]; exact square_good.regular j hj
    · rw [full_rows hj]; exact square_good.exact j hj
    · rw [full_rows hj, full_rows (hm j)]; exact square_good.corner j hj
  obtain ⟨H1, r1, u1⟩ := C71_built (arc := endArc) (v := squareVertex) (ε := 1 / 10000) (by norm_num) (by norm_num) (by norm_num) full_range hgood (ctl := squareHandlers) (by
      intro x hx
      simp only [squareHandlers, List.mem_cons, List.not_mem_nil, or_false] at hx
      rcases hx with rfl | rfl | rfl | rfl <;> exact ⟨trivial, by norm_num, hne⟩) (by
      intro j hj
      right
      refine ⟨⟨1, 2, 3⟩, ?_⟩
      interval_cases j <;> simp [squareHandlers]) 0 0
  exact ⟨H1, hgood, r1, u1⟩

private theorem full_before (t : P3 ℝ) : [Call.net (.init 4 5)] ++ ((fullW.map fun z => (z.1, (quarterTurn t).pt z.2)).map fun x : Name × P3 ℝ => Call.net (.set x.1.side x.1.col x.1.row x.2)) =
    ([Call.net (.init 4 5)] ++ fullW.map fun x : Name × P3 ℝ => Call.net (.set x.1.side x.1.col x.1.row x.2)).map (quarterTurn t).hybridCall := by
  generalize fullW = w
  rw [List.map_append, List.map_map, List.map_map]
  rfl

private theorem full_points (t : P3 ℝ) {X X' : GB ℝ} (x2 : GB.HasNet X 4 5 fun i j k => netValue 4 5 fullW ⟨i, j, k⟩)
    (y2 : GB.HasNet X' 4 5 fun i j k => netValue 4 5 (fullW.map fun z => (z.1, (quarterTurn t).pt z.2)) ⟨i, j, k⟩) :
    ∀ i j k p, X.controlPoint i j k = .ok p → X'.controlPoint i j k = .ok ((quarterTurn t).pt p) := by
  intro i j k p hp
  have hr : i < 4 ∧ j < 6 ∧ k < 3 := by
    unfold GB.controlPoint GB.cpt at hp
    rw [x2.nets] at hp
    obtain ⟨a, h1, hp⟩ := bind_ok hp
    obtain ⟨b, h2, hp⟩ := bind_ok hp
    have i1 := (List.getElem?_eq_some_iff.mp (vget_eq_ok.mp h1)).1
    rw [GB.net3, length_tab] at i1
    rw [GB.net3, vget_tab _ i1] at h1
    cases h1
    have i2 := (List.getElem?_eq_some_iff.mp (vget_eq_ok.mp h2)).1
    rw [length_tab] at i2
    rw [vget_tab _ i2] at h2
    cases h2
    have i3 := (List.getElem?_eq_some_iff.mp (vget_eq_ok.mp hp)).1
    rw [length_tab] at i3
    exact ⟨i1, i2, i3⟩
  have e1 := x2.cpt hr.1 (show j ≤ 5 by omega) (show k < (5 + 1) / 2 by omega)
  have e2 := y2.cpt hr.1 (show j ≤ 5 by omega) (show k < (5 + 1) / 2 by omega)
  have : p = netValue 4 5 fullW ⟨i, j, k⟩ := Except.ok.inj (hp.symm.trans e1)
  rw [this]
  refine e2.trans (congrArg Except.ok ?_)
  refine GB.netValue_map (quarterTurn t).pt fullW ⟨i, j, k⟩ 0 0 (Or.inr ⟨(⟨i, j, k⟩, ⟨4, 4, 1⟩), ?_, rfl⟩)
  refine List.mem_append.mpr (Or.inl (List.mem_map.mpr ⟨⟨i, j, k⟩, GB.mem_everyName.mpr ⟨hr.1, by change j ≤ 5; omega, hr.2.2⟩, rfl⟩))

/-- C111_motion applies: a quarter turn and a translation of a quintic network on a square; a point of the second side. -/
example (t c : P3 ℝ) : ∃ H0 H0' H H' Q Q' : Hybrid ℝ, ∃ uv : P2 ℝ, ∃ before later : List (Call ℝ),
    (Hybrid.new 0 0).run (1 / 10000) endArc before = .ok H0 ∧ (Hybrid.new 0 0).run (1 / 10000) endArc (before.map (quarterTurn t).hybridCall) = .ok H0' ∧
    H0.run (1 / 10000) endArc later = .ok H ∧ H0'.run (1 / 10000) endArc (later.map (quarterTurn t).hybridCall) = .ok H' ∧ H.net.central = c ∧
    H.eval (1 / 10000) uv = .ok (⟨10, 5 / 2, 0⟩, Q) ∧ H'.eval (1 / 10000) uv = .ok (⟨-(5 / 2) + t.x, 10 + t.y, 0 + t.z⟩, Q') := by
  obtain ⟨H1, hgood, r1, u1⟩ := full_built
  rw [List.append_assoc, List.append_assoc] at r1
  obtain ⟨H0, r0, r1⟩ := run_split r1
  obtain ⟨X, x1, x2⟩ := built_net (ε := 1 / 10000) (arc := endArc) (n := 4) (by norm_num) full_range 0 0
  have : X = H0 := Except.ok.inj (x1.symm.trans r0)
  subst this
  obtain ⟨H0', y1, y2⟩ := built_net (ε := 1 / 10000) (arc := endArc) (n := 4) (d := 5) (w := fullW.map fun z => (z.1, (quarterTurn t).pt z.2)) (by norm_num) (by
    intro x hx
    obtain ⟨z, hz, rfl⟩ := List.mem_map.mp hx
    exact full_range z hz) 0 0
  obtain ⟨H, hH⟩ : ∃ H, H1.step (1 / 10000) endArc (.net (.central c)) = .ok H ∧ H.net.central = c := ⟨_, rfl, rfl⟩
  have rH : H1.run (1 / 10000) endArc [.net (.central c)] = .ok H := by unfold run; rw [hH.1]; rfl
  have r2 := run_join r1 rH
  rw [full_before] at y1
  have hlater : ∀ x ∈ ([.loop] ++ (squareHandlers.map .surf ++ [.surf .update])) ++ [.net (.central c)], keepsNet x = true := by
    intro x hx
    simp only [squareHandlers, List.mem_append, List.mem_cons, List.not_mem_nil, or_false, List.map_cons, List.map_nil] at hx
    rcases hx with (rfl | (rfl | rfl | rfl | rfl) | rfl) | rfl <;> rfl
  have hpts := full_points t x2 y2
  obtain ⟨H', e', hv⟩ := (C111_motion (g := quarterTurn t) (fun l hl => endArc_moved _ hl) (fun x hx => by
    rcases List.mem_append.mp hx with q | q
    · rw [List.mem_singleton.mp q]; exact ⟨_, rfl⟩
    · obtain ⟨y, _, rfl⟩ := List.mem_map.mp q
      exact ⟨_, rfl⟩) hlater r0 y1 hpts).2 H r2
  have hup : UpToDate (1 / 10000) endArc 4 5 (rowOf endArc 4 5 fullW) H := by
    obtain ⟨a1, a2, a3, a4, a5, a6, b1, b2, b3, b4, b5, b6, b7⟩ := u1
    refine ⟨a1, a2, a3, a4 ++ [.net (.central c)], a5, a6, b1, b2, b3, b4, ?_, run_join b6 rH, ?_⟩
    · intro x hx
      rcases List.mem_append.mp hx with q | q
      · exact b5 x q
      · rw [List.mem_singleton.mp q]; rfl
    · have := hH.1
      cases this
      exact b7
  have hloop : Loop 4 (rowOf endArc 4 5 fullW) := ⟨hgood.sides, hgood.closed, hgood.regular⟩
  obtain ⟨uv, Q, _, e⟩ := C71_side (by norm_num) (by norm_num) hloop (by norm_num) hup (i := 1) (by norm_num) (s := 1 / 4) (Or.inl (by norm_num))
  have hpt : (rowOf endArc 4 5 fullW 1).pt (1 / 4) = ⟨10, 5 / 2, 0⟩ := by
    rw [full_rows (by norm_num)]
    ext <;> norm_num [squareLoop, segment]
  rw [hpt] at e
  have hcen : H'.net.central = (quarterTurn t).pt H.net.central := by
    rw [List.map_append] at e'
    obtain ⟨Y, _, e2⟩ := run_split e'
    unfold run at e2
    obtain ⟨Z, e3, e2⟩ := bind_ok e2
    cases e2
    cases e3
    rw [hH.2]
    rfl
  obtain ⟨Q', e2⟩ := (hv hcen uv).2 _ _ e
  refine ⟨X, H0', H, H', Q, Q', uv, _, _, r0, y1, r2, e', hH.2, e, ?_⟩
  rw [e2]
  rfl

/-- C111_unset applies: the same without setting the central control point, at a point of the second side. -/
example (t : P3 ℝ) : ∃ H H' Q Q' : Hybrid ℝ, ∃ uv : P2 ℝ, ∃ cs : List (Call ℝ), (Hybrid.new 0 0).run (1 / 10000) endArc cs = .ok H ∧
    (Hybrid.new 0 0).run (1 / 10000) endArc (cs.map (quarterTurn t).hybridCall) = .ok H' ∧ H.eval (1 / 10000) uv = .ok (⟨10, 5 / 2, 0⟩, Q) ∧
    ∃ w : ℝ, H'.eval (1 / 10000) uv = .ok ((quarterTurn t).pt ⟨10, 5 / 2, 0⟩ + w • (H'.net.central - (quarterTurn t).pt H.net.central), Q') := by
  obtain ⟨H, hgood, r, hup⟩ := full_built
  rw [List.append_assoc, List.append_assoc] at r
  obtain ⟨H0, r0, r1⟩ := run_split r
  obtain ⟨X, x1, x2⟩ := built_net (ε := 1 / 10000) (arc := endArc) (n := 4) (by norm_num) full_range 0 0
  have : X = H0 := Except.ok.inj (x1.symm.trans r0)
  subst this
  obtain ⟨H0', y1, y2⟩ := built_net (ε := 1 / 10000) (arc := endArc) (n := 4) (d := 5) (w := fullW.map fun z => (z.1, (quarterTurn t).pt z.2)) (by norm_num) (by
    intro x hx
    obtain ⟨z, hz, rfl⟩ := List.mem_map.mp hx
    exact full_range z hz) 0 0
  rw [full_before] at y1
  have hlater : ∀ x ∈ ([.loop] ++ (squareHandlers.map .surf ++ [.surf .update]) : List (Call ℝ)), keepsNet x = true := by
    intro x hx
    simp only [squareHandlers, List.mem_append, List.mem_cons, List.not_mem_nil, or_false, List.map_cons, List.map_nil] at hx
    rcases hx with rfl | (rfl | rfl | rfl | rfl) | rfl <;> rfl
  have hbefore : ∀ x ∈ ([.net (.init 4 5)] ++ fullW.map fun x => .net (.set x.1.side x.1.col x.1.row x.2) : List (Call ℝ)), ∃ y, x = .net y := fun x hx => by
    rcases List.mem_append.mp hx with q | q
    · rw [List.mem_singleton.mp q]; exact ⟨_, rfl⟩
    · obtain ⟨y, _, rfl⟩ := List.mem_map.mp q
      exact ⟨_, rfl⟩
  have hpts := full_points t x2 y2
  have harc : ∀ l : List (P3 ℝ), l ≠ [] → endArc (l.map (quarterTurn t).pt) = endArc l := fun l hl => endArc_moved _ hl
  obtain ⟨H', e', _⟩ := (C111_motion harc hbefore hlater r0 y1 hpts).2 H r1
  have hloop : Loop 4 (rowOf endArc 4 5 fullW) := ⟨hgood.sides, hgood.closed, hgood.regular⟩
  obtain ⟨uv, Q, _, e⟩ := C71_side (by norm_num) (by norm_num) hloop (by norm_num) hup (i := 1) (by norm_num) (s := 1 / 4) (Or.inl (by norm_num))
  have hpt : (rowOf endArc 4 5 fullW 1).pt (1 / 4) = ⟨10, 5 / 2, 0⟩ := by
    rw [full_rows (by norm_num)]
    ext <;> norm_num [squareLoop, segment]
  rw [hpt] at e
  obtain ⟨w, _, Q', e2⟩ := C111_unset harc hbefore hlater r0 y1 hpts r1 e' uv e
  refine ⟨H, H', Q, Q', uv, _, run_join r0 r1, ?_, e, w, e2⟩
  rw [List.map_append]
  exact run_join y1 e'

/-- C111_rotation applies to the same input, without setting all points. -/
example : ∃ H H' : Hybrid ℝ, ∃ cs : List (Call ℝ), (Hybrid.new 0 0).run (1 / 10000) sqArc cs = .ok H ∧ (Hybrid.new 0 0).run (1 / 10000) sqArc (cs.map (quarterTurn 0).hybridCall) = .ok H' ∧
    ∃ uv Q Q', H.eval (1 / 10000) uv = .ok (⟨10, 5 / 2, 0⟩, Q) ∧ H'.eval (1 / 10000) uv = .ok ((quarterTurn 0).pt ⟨10, 5 / 2, 0⟩, Q') := by
  obtain ⟨H, hr, h⟩ := sq_built 0 0
  have hz : (quarterTurn 0).pt 0 = 0 := by unfold Motion.pt; rw [map_zero, zero_add]; rfl
  have ha : ∀ l : List (P3 ℝ), l ≠ [] → sqArc (l.map (quarterTurn 0).pt) = sqArc l := fun l _ => by
    have : ∀ i, (l.map (quarterTurn 0).pt).getD i 0 = (quarterTurn 0).pt (l.getD i 0) := fun i => by
      rw [List.getD_eq_getElem?_getD, List.getD_eq_getElem?_getD, List.getElem?_map]
      cases l[i]? with
      | none => exact hz.symm
      | some x => rfl
    funext a b
    unfold sqArc
    rw [this, this, Motion.pt_sub, Motion.norm]
  obtain ⟨H', e', hv⟩ := (C111_rotation (g := quarterTurn 0) rfl ha _).2 H hr
  have hl : Loop 4 (rowOf sqArc 4 5 sqW) := ⟨sq_good.sides, sq_good.closed, sq_good.regular⟩
  obtain ⟨uv, Q, _, e⟩ := C71_side (by norm_num) (by norm_num) hl (by norm_num) h (i := 1) (by norm_num) (s := 1 / 4) (Or.inl (by norm_num))
  have hpt : (rowOf sqArc 4 5 sqW 1).pt (1 / 4) = ⟨10, 5 / 2, 0⟩ := by
    rw [sq_rows (by norm_num)]
    ext <;> norm_num [squareLoop, segment]
  rw [hpt] at e
  obtain ⟨Q', e2⟩ := (hv uv).2 _ _ e
  exact ⟨H, H', _, hr, e', uv, Q, Q', e, e2⟩

end examples

end Hybrid

end Transfinite
