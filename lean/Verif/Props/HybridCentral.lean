import Verif.Props.MotionHybrid
import Verif.Lemmas.Square

/-! # C111: the weight of the central control point of four-sided hybrid patches -/

namespace Transfinite

open Spec Param

namespace Hybrid

section real

variable {ε : ℝ} {arc : List (P3 ℝ) → ℝ → ℝ → ℝ} {d : ℕ} {c : ℕ → Curve ℝ} {H : Hybrid ℝ}

/-- C111: in a four-sided hybrid patch of degree at least 3 the weight of the central control point is the middle tensor product Bernstein function if the degree is even, and zero if it is odd
(the domain is the square with the corners (±1, ±1)). -/
theorem C111_square (hε : 0 < ε) (hε1 : ε ≤ 1) (hd : 3 ≤ d) (hl : Loop 4 c) (h : UpToDate ε arc 4 d c H) {u w : ℝ} (u0 : 0 ≤ u) (u1 : u ≤ 1) (w0 : 0 ≤ w) (w1 : w ≤ 1)
    (hc : ∀ a b : ℝ, (a = 0 ∨ a = 1) → (b = 0 ∨ b = 1) → ε ≤ |u - a| + |w - b|) :
    ∃ p Q, H.eval ε ⟨1 - 2 * w, 2 * u - 1⟩ = .ok (p, Q) ∧ ∀ x, ∃ Hx Qx, H.step ε arc (.net (.central x)) = .ok Hx ∧
      Hx.eval ε ⟨1 - 2 * w, 2 * u - 1⟩ = .ok (p + (if d % 2 = 0 then bern d (d / 2) u * bern d (d / 2) w else 0) • (x - H.net.central), Qx) := by
  obtain ⟨inv, hr, F, hF⟩ := upToDate_state (by omega) h
  have hreg : H.patch.kind.regular = true := by rw [inv.kind]; rfl
  obtain ⟨vs, e1, e2⟩ := (hr.inv.regular hreg).resolve_left (by rw [hr.dom hreg]; omega)
  rw [hr.dom hreg] at e1
  obtain ⟨r, φ, hr1, hr2, hdom, hleft⟩ := square_domain e1 e2
  obtain ⟨hkp, hkw⟩ := param_eq inv
  have hfresh : Fresh ε H.patch.kind.param H.patch.dom.dom H.patch.param := hr.inv.param.resolve_left (by rw [hdom.n_eq]; omega)
  have hm : ∀ p, Fresh ε H.patch.kind.param H.patch.dom.dom p → ∃ o, mapToRibbons ε H.patch.kind.param ⟨1 - 2 * w, 2 * u - 1⟩ p = .ok (tab 4 (sqPar u w), o) := fun p hp =>
    hp.maps_of_raw hdom.length_eq fun o _ j hj => by
      rw [hkw]
      exact sq_baryMap hr1 hr2 hdom hleft u0 u1 w0 w1 hε hε1 hj
  have habs : |u - 0| = u ∧ |u - 1| = 1 - u ∧ |w - 0| = w ∧ |w - 1| = 1 - w := by
    refine ⟨?_, ?_, ?_, ?_⟩
    · rw [sub_zero, abs_of_nonneg u0]
    · rw [abs_sub_comm, abs_of_nonneg (by linarith)]
    · rw [sub_zero, abs_of_nonneg w0]
    · rw [abs_sub_comm, abs_of_nonneg (by linarith)]
  obtain ⟨a1, a2, a3, a4⟩ := habs
  have hc' : ∀ i < 4, ε ≤ sqDist u w i + sqDist u w (nextIx 4 i) := by
    have k00 := hc 0 0 (Or.inl rfl) (Or.inl rfl)
    have k01 := hc 0 1 (Or.inl rfl) (Or.inr rfl)
    have k10 := hc 1 0 (Or.inr rfl) (Or.inl rfl)
    have k11 := hc 1 1 (Or.inr rfl) (Or.inr rfl)
    rw [a1, a3] at k00
    rw [a1, a4] at k01
    rw [a2, a3] at k10
    rw [a2, a4] at k11
    intro i hi
    interval_cases i <;> norm_num [sqDist, nextIx] <;> linarith
  have hy : ∀ j < 4, 0 ≤ (sqPar u w j).y := by
    intro j hj
    unfold sqPar sqDist
    dsimp only
    split_ifs <;> linarith
  obtain ⟨q, hq, _⟩ := side_values hε hl hr inv hy
  obtain ⟨o, ho⟩ := hm _ hfresh
  have hF' : GB.HasNet H.asNet 4 d F := ⟨hF.n_eq, hF.degree, hF.layers, hF.nets⟩
  have hW : ∀ p, Fresh ε H.asNet.kind.param H.patch.dom.dom p → ∀ i < 4, ∀ j ≤ d, ∀ k < (d + 1) / 2,
      Prod.fst <$> ({ H.asNet with param := p } : GB ℝ).weight ε i j k ⟨1 - 2 * w, 2 * u - 1⟩ = .ok (GB.wt H.net.squared 4 d (sqPar u w) i j k) := by
    intro p hp i hi j hj k hk
    rw [hkp] at hp
    obtain ⟨o, e⟩ := hm p hp
    have c2 := hc' (prevIx 4 i) (prevIx_lt (by omega))
    rw [nextIx_prevIx hi] at c2
    exact GB.weight_eq (G := { H.asNet with param := p }) hε ⟨hF.n_eq, hF.degree, hF.layers, hF.nets⟩ inv.net (by rw [← hkp] at e; exact e) hi hj hk (hc' i hi) c2
  obtain ⟨o', _, e⟩ := evalNet_eq hF' hW (0 : P3 ℝ × (ℕ → ℝ) × ℝ) (by rw [hkp]; exact hfresh.maps ho)
  have ea : (⟨0, List.replicate H.net.n 0, 0, o⟩ : Acc ℝ) = acc 4 0 o := by
    unfold acc
    rw [hF.n_eq, replicate_eq_tab]
    rfl
  rw [← ea] at e
  have hsum : 1 - (0 + ∑ i ∈ Finset.range 4, ∑ k ∈ Finset.range ((d + 1) / 2), ∑ j ∈ Finset.range (d + 1), delta (GB.wt H.net.squared 4 d (sqPar u w)) F i k j).2.2 =
      if d % 2 = 0 then bern d (d / 2) u * bern d (d / 2) w else 0 := by
    have s2 := GB.sum_square (V := ℝ) hd H.net.squared hε hc' (F := fun _ _ _ => 1) (P := fun _ _ => 1) fun _ _ _ _ _ _ => rfl
    have one : tensor d (fun _ _ => (1 : ℝ)) u w = 1 := by
      unfold tensor
      simp only [smul_eq_mul, mul_one]
      rw [Finset.sum_congr rfl fun j _ => (Finset.mul_sum _ _ _).symm, bern_sum, Finset.sum_congr rfl fun j _ => mul_one _, bern_sum]
    simp only [smul_eq_mul, mul_one] at s2
    rw [one] at s2
    rw [zero_add, Prod.snd_sum, Prod.snd_sum]
    simp only [Prod.snd_sum]
    have hdl : ∀ i k j, (delta (GB.wt H.net.squared 4 d (sqPar u w)) F i k j).2.2 = GB.wt H.net.squared 4 d (sqPar u w) i j k := fun i k j => by
      unfold delta
      split_ifs <;> rfl
    simp only [hdl]
    linarith
  have hev : ∃ x, H.eval ε ⟨1 - 2 * w, 2 * u - 1⟩ = .ok x := by
    unfold eval
    rw [ho, M_bind_ok]
    dsimp only
    rw [e, M_bind_ok]
    unfold acc
    dsimp only
    rw [hF.n_eq, evalRibbons_eq hq, M_bind_ok]
    exact ⟨_, rfl⟩
  obtain ⟨⟨p, Q⟩, hp⟩ := hev
  refine ⟨p, Q, hp, fun x => ?_⟩
  obtain ⟨⟨p', Q'⟩, e', hx⟩ := (Motion.eval_central_sum ho e x).ok hp
  refine ⟨⟨H.asNet.setCentral x, H.patch⟩, Q', rfl, ?_⟩
  rw [e']
  refine congrArg (fun x => Except.ok (x, Q')) ?_
  rw [← hsum]
  exact hx

end real

/-! ### Translations -/

section kept

variable {K : Type} [Field K] [LinearOrder K] [Libm K] {ε : K} {arc : List (P3 K) → K → K → K} {H H' : Hybrid K}

/-- All calls but setCentralControlPoint(). -/
def notCentral : Call K → Bool
  | .net (.central _) => false
  | _ => true

theorem step_keepsCentral {x : Call K} (hx : notCentral x = true) (e : H.step ε arc x = .ok H') : H'.net.central = H.net.central := by
  cases x with
  | net c =>
    unfold step at e
    dsimp only at e
    split_ifs at e with hc
    obtain ⟨G, e1, e⟩ := bind_ok e
    cases e
    change G.central = H.asNet.central
    cases c with
    | init n d =>
      have e1 : H.asNet.initNetwork n d = .ok G := e1
      obtain ⟨rfl, _⟩ := GB.initNetwork_eq e1
      unfold GB.initBase
      split_ifs <;> rfl
    | set i j k p =>
      have e1 : H.asNet.setControlPoint i j k p = .ok G := e1
      unfold GB.setControlPoint at e1
      obtain ⟨N, _, e1⟩ := bind_ok e1
      split_ifs at e1
      all_goals first
        | (cases e1; rfl)
        | (obtain ⟨N', _, e1⟩ := bind_ok e1; cases e1; rfl)
    | setIndividual i j k p =>
      obtain ⟨N, _, e1⟩ := bind_ok (show (GB.cptSet H.asNet.nets i j k p >>= _) = _ from e1)
      cases e1
      rfl
    | central p => cases hx
    | squared b => cases e1; rfl
    | weight i j k uv =>
      obtain ⟨r, e2, e1⟩ := bind_ok (show (H.asNet.weight ε i j k uv >>= _) = _ from e1)
      cases e1
      rw [(weight_state e2).1]
    | curves _ => cases hc
    | loop => cases hc
    | eval _ => cases hc
  | surf c =>
    unfold step at e
    dsimp only at e
    split_ifs at e with hc
    obtain ⟨P, _, e⟩ := bind_ok e
    cases e
    rfl
  | loop =>
    have e : H.setupLoop arc = .ok H' := e
    unfold setupLoop at e
    obtain ⟨_, _, e⟩ := bind_ok e
    obtain ⟨_, _, e⟩ := bind_ok e
    obtain ⟨_, _, e⟩ := bind_ok e
    cases e
    rfl
  | eval uv =>
    obtain ⟨r, e1, e⟩ := bind_ok (show (H.eval ε uv >>= _) = _ from e)
    cases e
    unfold eval at e1
    obtain ⟨_, _, e1⟩ := bind_ok e1
    obtain ⟨_, _, e1⟩ := bind_ok e1
    obtain ⟨_, _, e1⟩ := bind_ok e1
    cases e1
    rfl

theorem run_keepsCentral {xs : List (Call K)} (hx : ∀ x ∈ xs, notCentral x = true) (e : H.run ε arc xs = .ok H') : H'.net.central = H.net.central := by
  induction xs generalizing H with
  | nil => cases e; rfl
  | cons x xs ih =>
    unfold run at e
    obtain ⟨H1, e1, e⟩ := bind_ok e
    rw [ih (fun y hy => hx y (List.mem_cons_of_mem _ hy)) e, step_keepsCentral (hx x (by simp)) e1]

end kept

section witness

/-- A translation. -/
noncomputable def shiftBy (t : P3 ℝ) : Motion ℝ := ⟨LinearMap.id, t, fun _ _ => rfl, fun _ _ => rfl⟩

/-- A point of the square of `squareLoop`. -/
private noncomputable def sqPt4 (a : Name) : P3 ℝ := (squareLoop a.side).pt (a.col / 4)

/-- The boundary points of a quartic network. -/
private def sqNames4 : List Name := (List.range 4).flatMap fun i => (List.range 4).map fun j => ⟨i, j, 0⟩

/-- All points of a quartic network are set, and then those of the boundary of the square. -/
private noncomputable def fullW4 : List (Name × P3 ℝ) := ((GB.everyName 4 4).map fun a => (a, (⟨4, 4, 1⟩ : P3 ℝ))) ++ sqNames4.map fun a => (a, sqPt4 a)

private theorem full_value4 {i j : ℕ} (hi : i < 4) (hj : j ≤ 4) : netValue 4 4 fullW4 ⟨i, j, 0⟩ = (squareLoop i).pt (j / 4) := by
  have h1 : ∀ i < 4, ∀ j < 5, sqNames4.foldl (fun (v : Option Name) x => if SamePoint 4 4 ⟨i, j, 0⟩ x then some x else v) none =
      some (if j = 4 then ⟨(i + 1) % 4, 0, 0⟩ else ⟨i, j, 0⟩) := by decide +kernel
  unfold netValue fullW4
  rw [List.foldl_append, foldl_last, h1 i hi j (by omega)]
  change sqPt4 _ = _
  unfold sqPt4
  split_ifs with h
  · subst h
    have := square_good.closed i hi
    dsimp only
    rw [show ((4 : ℕ) : ℝ) / 4 = 1 by norm_num, this]
    norm_num
  · rfl

private theorem full_rows4 {i : ℕ} (hi : i < 4) : rowOf endArc 4 4 fullW4 i = squareLoop i := by
  have key : ∀ p q : P3 ℝ, bezierCurve endArc (tab (4 + 1) fun j => (segment p q).pt ((j : ℝ) / 4)) = segment p q := fun p q => by
    have e : (tab (4 + 1) fun j : ℕ => (segment p q).pt ((j : ℝ) / 4)) = [p, p + (1 / 4 : ℝ) • (q - p), p + (2 / 4 : ℝ) • (q - p), p + (3 / 4 : ℝ) • (q - p), q] := by
      simp [tab, segment, List.range_succ]
    rw [e]
    unfold bezierCurve segment endArc bezier bern
    simp only [Finset.sum_range_succ, Finset.sum_range_zero, List.length_cons, List.length_nil]
    congr 1
    · funext u
      simp [Nat.choose]
      module
    · funext u
      simp
      module
  unfold rowOf
  rw [tab_congr (fun j hj => full_value4 hi (by omega))]
  interval_cases i <;> exact key _ _

private theorem full_range4 : ∀ x ∈ fullW4, x.1.InRange 4 4 := by
  intro x hx
  rcases List.mem_append.mp hx with hx | hx
  · obtain ⟨a, ha, rfl⟩ := List.mem_map.mp hx
    exact GB.mem_everyName.mp ha
  · obtain ⟨a, ha, rfl⟩ := List.mem_map.mp hx
    have : ∀ a ∈ sqNames4, a.side < 4 ∧ a.col ≤ 4 ∧ a.row < 2 := by decide
    exact this a ha

private theorem full_built4 : ∃ H, Patch.GoodLoop (1 / 10000) 4 (rowOf endArc 4 4 fullW4) ∧
    (Hybrid.new 0 0).run (1 / 10000) endArc ([.net (.init 4 4)] ++ fullW4.map (fun x => .net (.set x.1.side x.1.col x.1.row x.2)) ++ [.loop] ++ squareHandlers.map .surf ++ [.surf .update]) = .ok H ∧
    UpToDate (1 / 10000) endArc 4 4 (rowOf endArc 4 4 fullW4) H := by
  have hne : (⟨1, 2, 3⟩ : P3 ℝ) ≠ 0 := fun h => by simpa using congrArg P3.x h
  have hm : ∀ j, (j + 1) % 4 < 4 := fun j => Nat.mod_lt _ (by norm_num)
  have hgood : Patch.GoodLoop (1 / 10000) 4 (rowOf endArc 4 4 fullW4) := by
    refine ⟨by norm_num, fun j hj => ?_, fun j hj => ?_, fun j hj => ?_, fun j hj => ?_⟩
    · rw [full_rows4 hj, full_rows4 (hm j)]; exact square_good.closed j hj
    · rw [full_rows4 hj]; exact square_good.regular j hj
    · rw [full_rows4 hj]; exact square_good.exact j hj
    · rw [full_rows4 hj, full_rows4 (hm j)]; exact square_good.corner j hj
  obtain ⟨H1, r1, u1⟩ := C71_built (arc := endArc) (v := squareVertex) (ε := 1 / 10000) (by norm_num) (by norm_num) (by norm_num) full_range4 hgood (ctl := squareHandlers) (by
      intro x hx
      simp only [squareHandlers, List.mem_cons, List.not_mem_nil, or_false] at hx
      rcases hx with rfl | rfl | rfl | rfl <;> exact ⟨trivial, by norm_num, hne⟩) (by
      intro j hj
      right
      refine ⟨⟨1, 2, 3⟩, ?_⟩
      interval_cases j <;> simp [squareHandlers]) 0 0
  exact ⟨H1, hgood, r1, u1⟩

private theorem full_before4 (t : P3 ℝ) : [Call.net (.init 4 4)] ++ ((fullW4.map fun z => (z.1, (shiftBy t).pt z.2)).map fun x : Name × P3 ℝ => Call.net (.set x.1.side x.1.col x.1.row x.2)) =
    ([Call.net (.init 4 4)] ++ fullW4.map fun x : Name × P3 ℝ => Call.net (.set x.1.side x.1.col x.1.row x.2)).map (shiftBy t).hybridCall := by
  generalize fullW4 = w
  rw [List.map_append, List.map_map, List.map_map]
  rfl

private theorem full_points4 (t : P3 ℝ) {X X' : GB ℝ} (x2 : GB.HasNet X 4 4 fun i j k => netValue 4 4 fullW4 ⟨i, j, k⟩)
    (y2 : GB.HasNet X' 4 4 fun i j k => netValue 4 4 (fullW4.map fun z => (z.1, (shiftBy t).pt z.2)) ⟨i, j, k⟩) :
    ∀ i j k p, X.controlPoint i j k = .ok p → X'.controlPoint i j k = .ok ((shiftBy t).pt p) := by
  intro i j k p hp
  have hr : i < 4 ∧ j < 5 ∧ k < 2 := by
    unfold GB.controlPoint GB.cpt at hp
    rw [x2.nets] at hp
    obtain ⟨a, h1, hp⟩ := bind_ok hp
    obtain ⟨b, h2, hp⟩ := bind_ok hp
    have i1 := (List.getElem?_eq_some_iff.mp (vget_eq_ok.mp h1)).1
    rw [GB.net3, length_tab] at i1
    rw [GB.net3, vget_tab _ i1] at h1
    cases h1
    have i2 := (List.getElem?_eq_some_iff.mp (vget_eq_ok.mp h2)).1
    rw [length_tab] at i2
    rw [vget_tab _ i2] at h2
    cases h2
    have i3 := (List.getElem?_eq_some_iff.mp (vget_eq_ok.mp hp)).1
    rw [length_tab] at i3
    exact ⟨i1, i2, i3⟩
  have e1 := x2.cpt hr.1 (show j ≤ 4 by omega) (show k < (4 + 1) / 2 by omega)
  have e2 := y2.cpt hr.1 (show j ≤ 4 by omega) (show k < (4 + 1) / 2 by omega)
  have : p = netValue 4 4 fullW4 ⟨i, j, k⟩ := Except.ok.inj (hp.symm.trans e1)
  rw [this]
  refine e2.trans (congrArg Except.ok ?_)
  refine GB.netValue_map (shiftBy t).pt fullW4 ⟨i, j, k⟩ 0 0 (Or.inr ⟨(⟨i, j, k⟩, ⟨4, 4, 1⟩), ?_, rfl⟩)
  refine List.mem_append.mpr (Or.inl (List.mem_map.mpr ⟨⟨i, j, k⟩, GB.mem_everyName.mpr ⟨hr.1, by change j ≤ 4; omega, hr.2.2⟩, rfl⟩))

/-- C111: translating the arguments of all calls does not translate the surface. There is a history that sets every control point of a quartic network with a square boundary (but not the central
one), where the midpoint of the patch stays behind by 9/64 of the translation. -/
theorem C111_stays (t : P3 ℝ) : ∃ (cs : List (Call ℝ)) (H H' Q Q' : Hybrid ℝ) (p : P3 ℝ), (Hybrid.new 0 0).run (1 / 10000) endArc cs = .ok H ∧
    (Hybrid.new 0 0).run (1 / 10000) endArc (cs.map (shiftBy t).hybridCall) = .ok H' ∧ H.eval (1 / 10000) 0 = .ok (p, Q) ∧ H'.eval (1 / 10000) 0 = .ok (p + t - (9 / 64 : ℝ) • t, Q') := by
  obtain ⟨H, hgood, r, hup⟩ := full_built4
  rw [List.append_assoc, List.append_assoc] at r
  obtain ⟨H0, r0, r1⟩ := run_split r
  obtain ⟨X, x1, x2⟩ := built_net (ε := 1 / 10000) (arc := endArc) (n := 4) (by norm_num) full_range4 0 0
  have : X = H0 := Except.ok.inj (x1.symm.trans r0)
  subst this
  obtain ⟨H0', y1, y2⟩ := built_net (ε := 1 / 10000) (arc := endArc) (n := 4) (d := 4) (w := fullW4.map fun z => (z.1, (shiftBy t).pt z.2)) (by norm_num) (by
    intro x hx
    obtain ⟨z, hz, rfl⟩ := List.mem_map.mp hx
    exact full_range4 z hz) 0 0
  rw [full_before4] at y1
  have hlater : ∀ x ∈ ([.loop] ++ (squareHandlers.map .surf ++ [.surf .update]) : List (Call ℝ)), keepsNet x = true ∧ notCentral x = true := by
    intro x hx
    simp only [squareHandlers, List.mem_append, List.mem_cons, List.not_mem_nil, or_false, List.map_cons, List.map_nil] at hx
    rcases hx with rfl | (rfl | rfl | rfl | rfl) | rfl <;> exact ⟨rfl, rfl⟩
  have hbefore : ∀ x ∈ ([.net (.init 4 4)] ++ fullW4.map fun x => .net (.set x.1.side x.1.col x.1.row x.2) : List (Call ℝ)), (∃ y, x = .net y) ∧ notCentral x = true := fun x hx => by
    rcases List.mem_append.mp hx with q | q
    · rw [List.mem_singleton.mp q]; exact ⟨⟨_, rfl⟩, rfl⟩
    · obtain ⟨y, _, rfl⟩ := List.mem_map.mp q
      exact ⟨⟨_, rfl⟩, rfl⟩
  have hmoved : ∀ x : Call ℝ, notCentral x = true → notCentral ((shiftBy t).hybridCall x) = true := by
    intro x hx
    cases x with
    | net c => cases c <;> first | rfl | cases hx
    | surf c => rfl
    | loop => rfl
    | eval uv => rfl
  have hpts := full_points4 t x2 y2
  have harc : ∀ l : List (P3 ℝ), l ≠ [] → endArc (l.map (shiftBy t).pt) = endArc l := fun l hl => endArc_moved _ hl
  obtain ⟨H', e', _⟩ := (C111_motion harc (fun x hx => (hbefore x hx).1) (fun x hx => (hlater x hx).1) r0 y1 hpts).2 H r1
  have hloop : Loop 4 (rowOf endArc 4 4 fullW4) := ⟨hgood.sides, hgood.closed, hgood.regular⟩
  obtain ⟨p, Q, e, hw⟩ := C111_square (u := 1 / 2) (w := 1 / 2) (by norm_num) (by norm_num) (by norm_num) hloop hup (by norm_num) (by norm_num) (by norm_num) (by norm_num) (by
    rintro a b (rfl | rfl) (rfl | rfl) <;> norm_num [abs_of_nonneg, abs_of_neg])
  rw [show (⟨1 - 2 * (1 / 2), 2 * (1 / 2) - 1⟩ : P2 ℝ) = 0 by ext <;> norm_num] at e hw
  rw [show (if 4 % 2 = 0 then bern 4 (4 / 2) (1 / 2 : ℝ) * bern 4 (4 / 2) (1 / 2 : ℝ) else 0) = 9 / 64 by norm_num [bern, Nat.choose]] at hw
  obtain ⟨w, hw', Q', e2⟩ := C111_unset harc (fun x hx => (hbefore x hx).1) (fun x hx => (hlater x hx).1) r0 y1 hpts r1 e' 0 e
  have c1 : H.net.central = 0 := (run_keepsCentral (fun x hx => (hlater x hx).2) r1).trans (run_keepsCentral (fun x hx => (hbefore x hx).2) r0)
  have c2 : H'.net.central = 0 := by
    refine (run_keepsCentral (fun x hx => ?_) e').trans (run_keepsCentral (fun x hx => ?_) y1)
    · obtain ⟨y, hy, rfl⟩ := List.mem_map.mp hx
      exact hmoved y (hlater y hy).2
    · obtain ⟨y, hy, rfl⟩ := List.mem_map.mp hx
      exact hmoved y (hbefore y hy).2
  have hww : w = 9 / 64 := by
    obtain ⟨A, A', f1, f2⟩ := hw ⟨1, 0, 0⟩
    obtain ⟨B, B', g1, g2⟩ := hw' ⟨1, 0, 0⟩
    have : A = B := Except.ok.inj (f1.symm.trans g1)
    subst this
    have h := congrArg (fun x : P3 ℝ × Hybrid ℝ => x.1.x) (Except.ok.inj (f2.symm.trans g2))
    simp [c1] at h
    exact h.symm
  refine ⟨_, H, H', Q, Q', p, run_join r0 r1, ?_, e, ?_⟩
  · rw [List.map_append]
    exact run_join y1 e'
  · rw [e2, c1, c2, hww]
    refine congrArg (fun x => Except.ok (x, Q')) ?_
    unfold Motion.pt shiftBy
    simp only [LinearMap.id_coe, id_eq]
    module

end witness

end Hybrid

end Transfinite
