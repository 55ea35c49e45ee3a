import Verif.Lemmas.Hybrid
import Verif.Props.Total

/-! # C71: hybrid patches

The two outer layers of the control network of a hybrid patch only serve to define the boundary curves in `setupLoop`. -/

namespace Transfinite

open Spec Param

namespace Hybrid

/-! ### Specification -/

/-- An object with a network of degree `d` and the boundary curves `c`, no overridden normal fence, brought up to date by `update()` at some time after the
last change of the curves; after that the control points can be changed in any way. -/
def UpToDate (ε : ℝ) (arc : List (P3 ℝ) → ℝ → ℝ → ℝ) (n d : ℕ) (c : ℕ → Curve ℝ) (H : Hybrid ℝ) : Prop :=
  ∃ g l before later H0 H1, (Hybrid.new g l).run ε arc before = .ok H0 ∧ H0.patch.curves = tab n c ∧ (∀ r ∈ H0.patch.surf.ribbons, r.fence = none) ∧
    H0.step ε arc (.surf .update) = .ok H1 ∧ (∀ x ∈ later, Call.keeps x = true) ∧ H1.run ε arc later = .ok H ∧ H.net.degree = d

/-- `eval(domain()->edgePoint(i, s))` is the point `p`. -/
def SideValue (ε : ℝ) (H : Hybrid ℝ) (i : ℕ) (s : ℝ) (p : P3 ℝ) : Prop :=
  ∃ uv H', H.patch.dom.dom.edgePoint i s = .ok uv ∧ H.eval ε uv = .ok (p, H')

/-! ### Interpolation -/

section real

variable {ε : ℝ} {arc : List (P3 ℝ) → ℝ → ℝ → ℝ} {n d : ℕ} {c : ℕ → Curve ℝ} {H : Hybrid ℝ}

theorem upToDate_state (hn : 3 ≤ n) (h : UpToDate ε arc n d c H) : Inv ε H ∧ Patch.Ready ε H.patch n c ∧ ∃ F, GB.HasNet H.net n d F := by
  obtain ⟨g, l, before, later, H0, H1, e1, h1, h2, e2, hl, e3, rfl⟩ := h
  have i0 := run_inv (new_inv ε g l) e1
  obtain ⟨i1, _, hg, e4, s4⟩ := step_surf_inv i0 e2
  obtain ⟨r1, _⟩ := update_makes_ready hn i0.patch h1 h2 (show H0.patch.update ε = .ok H1.patch from e4)
  obtain ⟨i2, r2, n2, d2⟩ := run_keeps i1 r1 (by omega) hl e3
  have hN : H.net.n = n := by
    rw [n2, s4, hg]
    have := congrArg List.length h1
    unfold Patch.curves at this
    rw [List.length_map, length_tab] at this
    exact this
  refine ⟨i2, r2, ?_⟩
  rcases i2.shape with q | ⟨F, q⟩
  · omega
  · rw [hN] at q
    exact ⟨F, q⟩

theorem side_values (hε : 0 < ε) (hl : Loop n c) (hr : Patch.Ready ε H.patch n c) (hi : Inv ε H) {f : ℕ → P2 ℝ} (h0 : ∀ j < n, 0 ≤ (f j).y) :
    ∃ q : ℕ → P3 ℝ, (∀ j < n, H.patch.surf.sideInterpolant ε j (f j).x (f j).y = .ok (q j)) ∧
      ∀ j < n, (f j).y = 0 → 0 ≤ (f j).x → (f j).x ≤ 1 → q j = (c j).pt (f j).x := by
  have hS : H.patch.surf.Ready ε .handler n c := by
    have := hr.surf
    rwa [hi.kind] at this
  have : ∀ j, ∃ q, j < n → H.patch.surf.sideInterpolant ε j (f j).x (f j).y = .ok q := by
    intro j
    by_cases hj : j < n
    · obtain ⟨q, e⟩ := (sides_of_ready hε hS hl.regular hj).1 (f j).x (f j).y (h0 j hj)
      exact ⟨q, fun _ => e⟩
    · exact ⟨0, fun q => absurd q hj⟩
  choose q hq using this
  refine ⟨q, hq, fun j hj y0 x0 x1 => ?_⟩
  have e := hq j hj
  rw [y0, (sides_of_ready hε hS hl.regular hj).2 _ x0 x1] at e
  exact (Except.ok.inj e).symm

private theorem domain (hl : Loop n c) (hr : Patch.Ready ε H.patch n c) (hi : Inv ε H) : ∃ v, ConvexDomain H.patch.dom.dom n v := by
  obtain ⟨r, φ, _, hd⟩ := hr.regularDomain (by rw [hi.kind]; rfl) hl.sides
  exact ⟨_, hd⟩

theorem param_eq (hi : Inv ε H) : H.asNet.kind.param = H.patch.kind.param ∧ (H.patch.kind.param : Kind ℝ) = .bary .wachspress := by
  rw [hi.kind]
  change H.net.kind.param = _ ∧ _
  rw [hi.net]
  exact ⟨rfl, rfl⟩

/-- The local parameters at a point of a side, for any state of the caches. -/
private theorem side_params (hε : 0 < ε) (hε1 : ε ≤ 1) (hl : Loop n c) (hr : Patch.Ready ε H.patch n c) (hi : Inv ε H) {v : ℕ → P2 ℝ}
    (hd : ConvexDomain H.patch.dom.dom n v) {i : ℕ} (hin : i < n) {s : ℝ} (s0 : 0 ≤ s) (s1 : s ≤ 1) :
    ∃ f, GB.OnSide ε n i s f ∧ Fresh ε H.patch.kind.param H.patch.dom.dom H.patch.param ∧ ∀ p, Fresh ε H.patch.kind.param H.patch.dom.dom p →
      ∃ o, mapToRibbons ε H.patch.kind.param (sidePoint n v i s) p = .ok (tab n f, o) := by
  obtain ⟨f, hf, hs, hfar⟩ := bary_sideParams hd hε hε1 hin s0 s1
  have hn := hl.sides
  refine ⟨f, ⟨hs.self, hs.next, hs.prevY, hs.prevX, hfar⟩, ?_, ?_⟩
  · exact hr.inv.param.resolve_left (by rw [hd.n_eq]; omega)
  · intro p hp
    refine hp.maps_of_raw hd.length_eq fun o _ j hj => ?_
    rw [(param_eq hi).2]
    exact hf j hj

/-- C71: the surface of an up-to-date object of degree at least 2 interpolates its boundary curves, outside of the corner tolerance and at the corners. -/
theorem C71_side (hε : 0 < ε) (hε1 : ε ≤ 1 / 2) (hl : Loop n c) (hd : 2 ≤ d) (h : UpToDate ε arc n d c H) {i : ℕ} (hi : i < n) {s : ℝ}
    (hs : ε ≤ s ∧ s ≤ 1 - ε ∨ s = 0 ∨ s = 1) : SideValue ε H i s ((c i).pt s) := by
  have hn := hl.sides
  obtain ⟨inv, hr, F, hF⟩ := upToDate_state hn h
  obtain ⟨v, hv⟩ := domain hl hr inv
  have hkp := (param_eq inv).1
  have hF' : GB.HasNet H.asNet n d F := ⟨hF.n_eq, hF.degree, hF.layers, hF.nets⟩
  have corner : ∀ i < n, SideValue ε H i 0 ((c i).pt 0) := by
    intro i hi
    obtain ⟨f, ho, hf, hm⟩ := side_params hε (by linarith) hl hr inv hv hi le_rfl zero_le_one
    obtain ⟨o, e⟩ := hm _ hf
    have hp : prevIx n i < n := prevIx_lt (by omega)
    have hpi : prevIx n i ≠ i := by
      rw [prevIx_eq hi]; split_ifs <;> omega
    have y0 : ∀ j < n, 0 ≤ (f j).y := by
      intro j hj
      rcases GB.onSide_y ho hj with ⟨q, _⟩ | ⟨q, _⟩ | ⟨q, _⟩ | ⟨q, _⟩ <;> rw [q] <;> norm_num
    obtain ⟨q, hq, hb⟩ := side_values hε hl hr inv y0
    have q1 : q i = (c i).pt 0 := by
      have := hb i hi (by rw [ho.self]) (by rw [ho.self]) (by rw [ho.self]; exact zero_le_one)
      rwa [ho.self] at this
    have q2 : q (prevIx n i) = (c i).pt 0 := by
      have x1 := ho.prevX (by linarith)
      have := hb _ hp ho.prevY (by rw [x1]; exact zero_le_one) (by rw [x1])
      rw [x1, hl.closed _ hp] at this
      change _ = (c (nextIx n (prevIx n i))).pt 0 at this
      rwa [nextIx_prevIx hi] at this
    obtain ⟨H', e'⟩ := eval_first (W := cornerW n d i) inv (by omega) hF hf e (fun p hp i' hi' j hj k hk => by
      rw [hkp] at hp
      obtain ⟨o, e⟩ := hm p hp
      exact weight_corner hε hε1 hn (by omega) (G := { H.asNet with param := p }) inv.net ⟨hF.n_eq, hF.degree, hF.layers, hF.nets⟩
        (by rw [← hkp] at e; exact e) hi ho hi' hj hk) (fun i' _ j _ k _ k0 => by
      unfold cornerW
      rw [if_neg (fun w => k0 w.2.2), if_neg (fun w => k0 w.2.2)]) hq
    refine ⟨_, H', hv.edgePoint hi 0, ?_⟩
    rw [e']
    have hB : ∀ i', (∑ j ∈ Finset.range (d + 1), cornerW n d i i' j 0) = if i' = i then 1 / 2 else if i' = prevIx n i then 1 / 2 else 0 := by
      intro i'
      unfold cornerW
      by_cases a : i' = i
      · subst a
        rw [if_pos rfl, Finset.sum_eq_single 0]
        · simp
        · intro j _ hj
          simp [hj, hpi.symm]
        · simp
      · rw [if_neg a]
        by_cases b : i' = prevIx n i
        · rw [if_pos b, Finset.sum_eq_single d]
          · simp [a, b, hpi]
          · intro j _ hj
            simp [hj, a]
          · simp
        · rw [if_neg b]
          simp [a, b]
    have key : ∀ {V : Type} [AddCommGroup V] [Module ℝ V] (P : ℕ → V), (∑ i' ∈ Finset.range n, (∑ j ∈ Finset.range (d + 1), cornerW n d i i' j 0) • P i') =
        (1 / 2 : ℝ) • P i + (1 / 2 : ℝ) • P (prevIx n i) := by
      intro V _ _ P
      rw [← Finset.sum_erase_add _ _ (Finset.mem_range.mpr hi), ← Finset.sum_erase_add _ _ (Finset.mem_erase.mpr ⟨hpi, Finset.mem_range.mpr hp⟩),
        Finset.sum_eq_zero, zero_add, add_comm, hB, hB, if_pos rfl, if_neg hpi, if_pos rfl]
      intro a ha
      rw [Finset.mem_erase, Finset.mem_erase] at ha
      rw [hB, if_neg ha.2.1, if_neg ha.1, zero_smul]
    have e1 := key (V := ℝ) (fun _ => 1)
    simp only [smul_eq_mul, mul_one] at e1
    rw [key, e1, q1, q2, ← add_smul]
    norm_num
  rcases hs with ⟨s0, s1⟩ | rfl | rfl
  · obtain ⟨f, ho, hf, hm⟩ := side_params hε (by linarith) hl hr inv hv hi (by linarith : (0 : ℝ) ≤ s) (by linarith)
    obtain ⟨o, e⟩ := hm _ hf
    have y0 : ∀ j < n, 0 ≤ (f j).y := by
      intro j hj
      rcases GB.onSide_y ho hj with ⟨q, _⟩ | ⟨q, _⟩ | ⟨q, _⟩ | ⟨q, _⟩ <;> rw [q] <;> linarith
    obtain ⟨q, hq, hb⟩ := side_values hε hl hr inv y0
    have q1 : q i = (c i).pt s := by
      have := hb i hi (by rw [ho.self]) (by rw [ho.self]; dsimp only; linarith) (by rw [ho.self]; dsimp only; linarith)
      rwa [ho.self] at this
    have co : ∀ j < n, ε ≤ (f j).y + (f (nextIx n j)).y := by
      intro j hj
      rcases GB.onSide_corners hε hε1 hn hi ho (by linarith) (by linarith) hj with q | ⟨_, q⟩ | ⟨_, q⟩
      · exact q
      · linarith
      · linarith
    obtain ⟨H', e'⟩ := eval_first (W := fun i' j k => if i' = i then (if k = 0 then bern d j s else 0) else 0) inv (by omega) hF hf e
      (fun p hp i' hi' j hj k hk => by
        rw [hkp] at hp
        obtain ⟨o, e⟩ := hm p hp
        have hF2 : GB.HasNet ({ H.asNet with param := p } : GB ℝ) n d F := ⟨hF.n_eq, hF.degree, hF.layers, hF.nets⟩
        have c2 := co (prevIx n i') (prevIx_lt (by omega))
        rw [nextIx_prevIx hi'] at c2
        rw [GB.weight_eq hε hF2 inv.net (by rw [← hkp] at e; exact e) hi' hj hk (co i' hi') c2,
          GB.wt_side hε hn hd hi ho s0 (by linarith) _ hi' hj hk])
      (fun i' _ j _ k _ k0 => by simp [k0]) hq
    refine ⟨_, H', hv.edgePoint hi s, ?_⟩
    rw [e']
    have hB : ∀ i', (∑ j ∈ Finset.range (d + 1), if i' = i then (if (0 : ℕ) = 0 then bern d j s else 0) else 0) = if i' = i then (1 : ℝ) else 0 := by
      intro i'
      by_cases a : i' = i
      · simp only [a, if_true, bern_sum]
      · simp [a]
    have a1 : (∑ i' ∈ Finset.range n, if i' = i then (1 : ℝ) else 0) = 1 := by simp [hi]
    have a2 : (∑ i' ∈ Finset.range n, (if i' = i then (1 : ℝ) else 0) • q i') = q i := by simp [ite_smul, hi]
    rw [Finset.sum_congr rfl (fun i' _ => hB i'), a1, Finset.sum_congr rfl (fun i' _ => by rw [hB i']), a2, sub_self, zero_smul, zero_add, q1]
  · exact corner i hi
  · obtain ⟨uv, H', e1, e2⟩ := corner (nextIx n i) (nextIx_lt (by omega))
    rw [hl.closed i hi]
    refine ⟨uv, H', ?_, e2⟩
    rw [hv.edgePoint hi, ← e1, hv.edgePoint (nextIx_lt (by omega))]
    unfold sidePoint
    change Except.ok ((1 - 1 : ℝ) • v (prevIx n i) + (1 : ℝ) • v i) = .ok ((1 - 0 : ℝ) • v (prevIx n (nextIx n i)) + (0 : ℝ) • v (nextIx n i))
    rw [prevIx_nextIx hi]
    simp

/-! ### The curves -/

/-- The network part of the calls before `setupLoop`: no `setIndividualControlPoint`. -/
def Call.regular : Call ℝ → Bool
  | .net (.setIndividual _ _ _ _) => false
  | _ => true

private theorem step_netOk {H' : Hybrid ℝ} (h : GB.NetOk H.net) (hi : Inv ε H) {x : Call ℝ} (hx : x.regular = true) (e : H.step ε arc x = .ok H') :
    GB.NetOk H'.net := by
  cases x with
  | net x =>
    unfold step at e
    dsimp only at e
    split_ifs at e with hc
    obtain ⟨G, e1, e⟩ := bind_ok e
    cases e
    refine GB.step_netOk (G := H.asNet) (arc := arc) (ε := ε) (c := x) ?_ (h.congr rfl rfl rfl rfl) e1
    cases x <;> first | rfl | (cases hc; done) | (cases hx; done)
  | surf x =>
    obtain ⟨_, _, _, _, s⟩ := step_surf_inv hi e
    rw [s]; exact h
  | loop =>
    unfold step setupLoop at e
    dsimp only at e
    obtain ⟨curves, e1, e⟩ := bind_ok e
    obtain ⟨P, e2, e⟩ := bind_ok e
    obtain ⟨P', e3, e⟩ := bind_ok e
    cases e
    exact h.congr (GB.pushLoop_length e1) rfl rfl rfl
  | eval uv =>
    obtain ⟨_, _, _, _, s⟩ := step_eval_inv hi e
    rw [s]; exact h

private theorem run_netOk {H' : Hybrid ℝ} {xs : List (Call ℝ)} (h : GB.NetOk H.net) (hi : Inv ε H) (hx : ∀ x ∈ xs, x.regular = true) (e : H.run ε arc xs = .ok H') :
    GB.NetOk H'.net := by
  induction xs generalizing H with
  | nil => cases e; exact h
  | cons c cs ih =>
    unfold run at e
    obtain ⟨H1, e1, e⟩ := bind_ok e
    exact ih (step_netOk h hi (hx c (by simp)) e1) (step_inv hi e1) (fun y hy => hx y (List.mem_cons_of_mem _ hy)) e

/-- The first row of side `i`. -/
noncomputable def row (arc : List (P3 ℝ) → ℝ → ℝ → ℝ) (d : ℕ) (F : ℕ → ℕ → ℕ → P3 ℝ) (i : ℕ) : Curve ℝ := bezierCurve arc (tab (d + 1) fun j => F i j 0)

private theorem loop_eq (inv : Inv ε H) {F : ℕ → ℕ → ℕ → P3 ℝ} (h : GB.HasNet H.net n d F) (hd : 1 ≤ d)
    (hcons : ∀ a b : Name, a.InRange n d → b.InRange n d → SamePoint n d a b → F a.side a.col a.row = F b.side b.col b.row)
    {H' : Hybrid ℝ} (e : H.setupLoop arc = .ok H') :
    H'.net = H.net ∧ H'.patch.linked = true ∧ H'.patch.surf.ribbons = tab n fun i => Ribbon.new H.patch.kind.ribbon (row arc d F i) := by
  unfold setupLoop at e
  obtain ⟨curves, e1, e⟩ := bind_ok e
  obtain ⟨P, e2, e⟩ := bind_ok e
  obtain ⟨P', e3, e⟩ := bind_ok e
  cases e
  have hcur : curves = tab n (row arc d F) := by
    rw [h.n_eq] at e1
    rw [forLoop_push n _ (row arc d F) [] (fun i l hi => by rw [GB.boundary_eq h hd hi, M_bind_ok]; rfl)] at e1
    exact (Except.ok.inj e1).symm
  have hclosed : ∀ i < n, (row arc d F i).pt 1 = (row arc d F ((i + 1) % n)).pt 0 := by
    intro i hi
    unfold row
    rw [GB.bezierCurve_pt, GB.bezierCurve_pt]
    unfold bezier
    rw [Finset.sum_eq_single d, Finset.sum_eq_single 0, bern_at_one le_rfl, bern_at_zero, if_pos rfl, if_pos rfl, one_smul, one_smul]
    · exact hcons ⟨i, d, 0⟩ ⟨nextIx n i, 0, 0⟩ ⟨hi, le_rfl, by dsimp only; omega⟩ ⟨nextIx_lt (by omega), Nat.zero_le _, by dsimp only; omega⟩
        (GB.samePoint_corner hd hi)
    · intro j _ hj; rw [bern_at_zero, if_neg hj, zero_smul]
    · simp
    · intro j hj hne; rw [Finset.mem_range] at hj; rw [bern_at_one (by omega), if_neg hne, zero_smul]
    · simp
  have hr0 : (H.patch.setCurves curves).surf.ribbons = tab n (fun j => Ribbon.new H.patch.kind.ribbon (row arc d F j)) := by
    rw [hcur]
    change (tab n _).map (Ribbon.new H.patch.kind.ribbon) = _
    unfold tab
    rw [List.map_map]
    rfl
  have hP : P = { H.patch.setCurves curves with linked := true } := by
    unfold Patch.setupLoop at e2
    rw [Patch.curves_tab (c := row arc d F) hr0 (fun j _ => rfl), C26_oriented hclosed, M_bind_ok, hr0] at e2
    have z : List.zipWith (fun (r : Ribbon ℝ) c => ({ r with curve := c } : Ribbon ℝ)) (tab n (fun j => Ribbon.new H.patch.kind.ribbon (row arc d F j))) (tab n (row arc d F)) =
        tab n fun j => Ribbon.new H.patch.kind.ribbon (row arc d F j) := by
      unfold tab
      rw [List.zipWith_map, List.zipWith_self]
      rfl
    rw [z, ← hr0] at e2
    exact (Except.ok.inj e2).symm
  obtain ⟨b1, _⟩ := Patch.step_inv (c := .curves curves) inv.patch (show _ = Except.ok (H.patch.setCurves curves) from rfl)
  obtain ⟨b2, _⟩ := Patch.step_inv (c := .loop) b1 e2
  obtain ⟨_, _, hk1, hk2, _⟩ := Patch.updateDomain_inv b2 e3
  refine ⟨?_, ?_, ?_⟩
  · change { H.net with n := curves.length } = H.net
    rw [hcur, length_tab, ← h.n_eq]
  · rw [hk2, hP]
  · rw [hk1, hP]
    exact hr0

private theorem loop_ok (inv : Inv ε H) {F : ℕ → ℕ → ℕ → P3 ℝ} (h : GB.HasNet H.net n d F) (hn : 3 ≤ n) (hd : 1 ≤ d)
    (hclosed : ∀ i < n, (row arc d F i).pt 1 = (row arc d F ((i + 1) % n)).pt 0) : ∃ H', H.setupLoop arc = .ok H' := by
  unfold setupLoop
  rw [h.n_eq, forLoop_push n _ (row arc d F) [] (fun i l hi => by rw [GB.boundary_eq h hd hi, M_bind_ok]; rfl), M_bind_ok, List.nil_append]
  have hr0 : (H.patch.setCurves (tab n (row arc d F))).surf.ribbons = tab n (fun j => Ribbon.new H.patch.kind.ribbon (row arc d F j)) := by
    change (tab n _).map (Ribbon.new H.patch.kind.ribbon) = _
    unfold tab
    rw [List.map_map]
    rfl
  change ∃ H', ((H.patch.setCurves (tab n (row arc d F))).setupLoop >>= _) = Except.ok H'
  obtain ⟨P, e1, hP⟩ : ∃ P, (H.patch.setCurves (tab n (row arc d F))).setupLoop = .ok P ∧ P.surf.n = n := by
    unfold Patch.setupLoop
    rw [Patch.curves_tab (c := row arc d F) hr0 (fun j _ => rfl), C26_oriented hclosed, M_bind_ok, hr0]
    refine ⟨_, rfl, ?_⟩
    simp [Surf.n, length_tab]
  obtain ⟨i1, k1⟩ := Patch.step_inv (ε := ε) (c := .curves (tab n (row arc d F))) inv.patch (show _ = Except.ok (H.patch.setCurves (tab n (row arc d F))) from rfl)
  obtain ⟨i2, k2⟩ := Patch.step_inv (c := .loop) i1 e1
  obtain ⟨P', e2⟩ := Patch.updateDomain_total (P := P) hn hP (by rw [k2, k1, inv.kind]; intro q; cases q)
  rw [e1, M_bind_ok, e2, M_bind_ok]
  exact ⟨_, rfl⟩

/-- C71: after `setupLoop`, when the two names of every control point agree, the boundary curves are the Bézier curves of the first rows of control points, oriented
as these rows. -/
theorem C71_curves (hd : 1 ≤ d) {g l : ℕ} {before : List (Call ℝ)} (hb : ∀ x ∈ before, x.regular = true) {H : Hybrid ℝ}
    (e : (Hybrid.new g l).run ε arc (before ++ [.loop]) = .ok H) (hn : H.net.n = n) (hn0 : n ≠ 0) (hdeg : H.net.degree = d) :
    ∃ c : ℕ → Curve ℝ, H.patch.curves = tab n c ∧ (∀ r ∈ H.patch.surf.ribbons, r.fence = none) ∧
      ∀ i < n, ∃ cp : ℕ → P3 ℝ, (∀ j ≤ d, H.net.controlPoint i j 0 = .ok (cp j)) ∧ ∀ u, (c i).pt u = bezier d cp u := by
  obtain ⟨H0, e0, e1⟩ := run_split e
  have i0 := run_inv (new_inv ε g l) e0
  unfold run at e1
  obtain ⟨H1, e1, e2⟩ := bind_ok e1
  cases e2
  have e1 : H0.setupLoop arc = .ok H := e1
  have hok := run_netOk (Or.inl ⟨rfl, rfl⟩) (new_inv ε g l) hb e0
  have hsame : H0.net.n = H.net.n ∧ H0.net.degree = H.net.degree := by
    unfold setupLoop at e1
    obtain ⟨curves, q1, e⟩ := bind_ok e1
    obtain ⟨P, e2, e⟩ := bind_ok e
    obtain ⟨P', e3, e⟩ := bind_ok e
    cases e
    exact ⟨(GB.pushLoop_length q1).symm, rfl⟩
  rw [hn, hdeg] at hsame
  rcases hok with q | ⟨F, hF, hcons⟩
  · omega
  rw [hsame.1, hsame.2] at hF hcons
  obtain ⟨a1, a2, a3⟩ := loop_eq i0 hF hd hcons e1
  refine ⟨row arc d F, Patch.curves_tab a3 (fun j _ => rfl), ?_, fun i hi => ⟨fun j => F i j 0, fun j hj => ?_, fun u => ?_⟩⟩
  · intro r hr
    rw [a3] at hr
    unfold tab at hr
    obtain ⟨j, _, rfl⟩ := List.mem_map.mp hr
    rfl
  · rw [a1]
    exact hF.cpt hi hj (by omega)
  · exact GB.bezierCurve_pt arc d (fun j => F i j 0) u

/-! ### Construction -/

theorem run_nets {xs : List (GB.Call ℝ)} (hx : ∀ x ∈ xs, ∃ i j k p, x = .set i j k p) {G : GB ℝ} (e : H.asNet.run ε arc xs = .ok G) :
    ∃ H', H.run ε arc (xs.map .net) = .ok H' ∧ H'.asNet = G ∧ H'.patch = { H.patch with param := H'.patch.param } := by
  induction xs generalizing H with
  | nil => cases e; exact ⟨H, rfl, rfl, rfl⟩
  | cons x xs ih =>
    obtain ⟨i, j, k, p, rfl⟩ := hx x (by simp)
    unfold GB.run at e
    obtain ⟨G1, e1, e⟩ := bind_ok e
    have hk := GB.setControlPoint_keeps (show H.asNet.setControlPoint i j k p = .ok G1 from e1)
    have hs : H.step ε arc (.net (.set i j k p)) = .ok ⟨G1, { H.patch with param := G1.param }⟩ := by
      unfold step
      dsimp only
      rw [if_pos (by rfl), e1, M_bind_ok]
    have ha : (⟨G1, { H.patch with param := G1.param }⟩ : Hybrid ℝ).asNet = G1 := by
      unfold asNet
      dsimp only
      rw [hk]
      rfl
    obtain ⟨H2, e2, h1, h2⟩ := ih (H := ⟨G1, { H.patch with param := G1.param }⟩) (fun y hy => hx y (List.mem_cons_of_mem _ hy)) (by rw [ha]; exact e)
    refine ⟨H2, ?_, h1, ?_⟩
    · rw [List.map_cons]
      unfold run
      rw [hs, M_bind_ok, e2]
    · rw [h2]

private theorem run_ctl {xs : List (Patch.Call ℝ)} (hx : ∀ x ∈ xs, IsControl x) {P : Patch ℝ} (hn : H.net.n = H.patch.surf.n) (e : H.patch.run ε xs = .ok P) :
    H.run ε arc (xs.map .surf) = .ok ⟨H.net, P⟩ ∧ P.surf.n = H.patch.surf.n := by
  induction xs generalizing H with
  | nil => cases e; exact ⟨rfl, rfl⟩
  | cons x xs ih =>
    unfold Patch.run at e
    obtain ⟨P1, e1, e⟩ := bind_ok e
    have hc := hx x (by simp)
    have hn1 : P1.surf.n = H.patch.surf.n := by
      have on : ∀ {i : ℕ} {f : Ribbon ℝ → M (Ribbon ℝ)}, H.patch.onRibbon i f = .ok P1 → P1.surf.n = H.patch.surf.n := by
        intro i f e
        unfold Patch.onRibbon at e
        obtain ⟨r, _, e⟩ := bind_ok e
        obtain ⟨r', _, e⟩ := bind_ok e
        obtain ⟨rs, e2, e⟩ := bind_ok e
        cases e
        unfold vset at e2
        split_ifs at e2
        cases e2
        simp [Surf.n]
      cases x with
      | gamma g => cases e1; rfl
      | handler i v => exact on e1
      | mult i m => exact on e1
      | reset i => exact on e1
      | _ => cases hc
    have hs : H.step ε arc (.surf x) = .ok ⟨H.net, P1⟩ := by
      unfold step
      dsimp only
      have hsf : isSurf x = true := by cases x <;> first | rfl | (cases hc; done)
      rw [if_pos ⟨hsf, hn⟩, e1, M_bind_ok]
    obtain ⟨h1, h2⟩ := ih (H := ⟨H.net, P1⟩) (fun y hy => hx y (List.mem_cons_of_mem _ hy)) (hn.trans hn1.symm) e
    refine ⟨?_, h2.trans hn1⟩
    rw [List.map_cons]
    unfold run
    rw [hs, M_bind_ok, h1]

/-- The boundary curves of the network with the assignments `w`. -/
noncomputable def rowOf (arc : List (P3 ℝ) → ℝ → ℝ → ℝ) (n d : ℕ) (w : List (Name × P3 ℝ)) (i : ℕ) : Curve ℝ :=
  bezierCurve arc (tab (d + 1) fun j => netValue n d w ⟨i, j, 0⟩)

/-- The state after `setupLoop`. -/
theorem built_loop (hn : 3 ≤ n) (hd : 1 ≤ d) {w : List (Name × P3 ℝ)} (hw : ∀ x ∈ w, x.1.InRange n d)
    (hclosed : ∀ i < n, (rowOf arc n d w i).pt 1 = (rowOf arc n d w ((i + 1) % n)).pt 0) (g l : ℕ) :
    ∃ H, (Hybrid.new g l).run ε arc ([.net (.init n d)] ++ (w.map fun x => .net (.set x.1.side x.1.col x.1.row x.2)) ++ [.loop]) = .ok H ∧
      H.net.n = n ∧ H.net.degree = d ∧ H.patch.linked = true ∧ H.patch.surf.ribbons = tab n fun j => Ribbon.new .handler (rowOf arc n d w j) := by
  set H0 : Hybrid ℝ := Hybrid.new g l
  have hne : ¬(n = H0.asNet.n ∧ d = H0.asNet.degree) := by
    rintro ⟨h, -⟩
    change n = 0 at h
    omega
  have hF1 := GB.initBase_net hne
  set G1 : GB ℝ := H0.asNet.initBase n d with hG1
  have hG1p : G1.param = H0.patch.param ∧ G1.dom = H0.patch.dom := by
    rw [hG1]
    unfold GB.initBase
    rw [if_neg hne]
    exact ⟨rfl, rfl⟩
  set H1 : Hybrid ℝ := ⟨G1, H0.patch⟩
  have s1 : H0.step ε arc (.net (.init n d)) = .ok H1 := by
    unfold step
    dsimp only
    have : H0.asNet.step ε arc (.init n d) = .ok G1 := rfl
    rw [if_pos (by rfl), this, M_bind_ok, hG1p.1]
  have r1 : H0.run ε arc [.net (.init n d)] = .ok H1 := by
    unfold run
    rw [s1]; rfl
  have a1 : H1.asNet = G1 := by
    unfold asNet
    dsimp only
    rw [← hG1p.1, ← hG1p.2]
  obtain ⟨G2, e2, k2, hF2⟩ := GB.writes_aux (ε := ε) (arc := arc) hw hF1
  rw [← a1] at e2
  obtain ⟨H2, r2, a2, p2⟩ := run_nets (fun x hx => by
    obtain ⟨y, _, rfl⟩ := List.mem_map.mp hx
    exact ⟨_, _, _, _, rfl⟩) e2
  rw [List.map_map] at r2
  have r12 := run_join r1 r2
  have i2 := run_inv (new_inv ε g l) r12
  have hF2' : GB.HasNet H2.net n d (fun i j k => netValue n d w ⟨i, j, k⟩) := by
    rw [← a2] at hF2
    exact ⟨hF2.n_eq, hF2.degree, hF2.layers, hF2.nets⟩
  have hcons : ∀ a b : Name, a.InRange n d → b.InRange n d → SamePoint n d a b → netValue n d w ⟨a.side, a.col, a.row⟩ = netValue n d w ⟨b.side, b.col, b.row⟩ := by
    have hok := run_netOk (Or.inl ⟨rfl, rfl⟩) (new_inv ε g l) (xs := [.net (.init n d)] ++ (w.map fun x => .net (.set x.1.side x.1.col x.1.row x.2))) (by
      intro x hx
      rcases List.mem_append.mp hx with q | q
      · rw [List.mem_singleton.mp q]; rfl
      · obtain ⟨y, _, rfl⟩ := List.mem_map.mp q
        rfl) r12
    rcases hok with q | ⟨F, q1, q2⟩
    · have := hF2'.n_eq
      omega
    · rw [hF2'.n_eq, hF2'.degree] at q1 q2
      have hFw : ∀ a : Name, a.InRange n d → F a.side a.col a.row = netValue n d w ⟨a.side, a.col, a.row⟩ := fun a ha =>
        Except.ok.inj ((q1.cpt ha.1 ha.2.1 ha.2.2).symm.trans (hF2'.cpt ha.1 ha.2.1 ha.2.2))
      intro a b ha hb hab
      rw [← hFw a ha, ← hFw b hb, q2 a b ha hb hab]
  obtain ⟨H3, e3⟩ := loop_ok i2 hF2' hn hd (arc := arc) hclosed
  obtain ⟨b1, b2, b3⟩ := loop_eq i2 hF2' hd hcons e3
  have r3 : H2.run ε arc [.loop] = .ok H3 := by
    unfold run
    have : H2.step ε arc .loop = .ok H3 := e3
    rw [this]; rfl
  refine ⟨H3, run_join r12 r3, by rw [b1, hF2'.n_eq], by rw [b1, hF2'.degree], b2, ?_⟩
  rw [b3, i2.kind]
  rfl

/-- C71: an object is built from a network with good boundary curves, when every side has been given a handler or has a default one, and is up to date then. -/
theorem C71_built (hε : 0 < ε) (hε1 : ε ≤ 1) (hd : 1 ≤ d) {w : List (Name × P3 ℝ)} (hw : ∀ x ∈ w, x.1.InRange n d) (hl : Patch.GoodLoop ε n (rowOf arc n d w)) {v : ℕ → P2 ℝ}
    {ctl : List (Patch.Call ℝ)} (hctl : ∀ x ∈ ctl, IsControl x ∧ Patch.Allowed ε .compositeRibbon n (rowOf arc n d w) v x)
    (hh : ∀ j < n, Patch.HasDefault ε n (rowOf arc n d w) j ∨ ∃ h, Patch.Call.handler j h ∈ ctl) (g l : ℕ) :
    ∃ H, (Hybrid.new g l).run ε arc ([.net (.init n d)] ++ (w.map fun x => .net (.set x.1.side x.1.col x.1.row x.2)) ++ [.loop] ++ ctl.map .surf ++
      [.surf .update]) = .ok H ∧ UpToDate ε arc n d (rowOf arc n d w) H := by
  have hn := hl.sides
  obtain ⟨H3, r123, bn, bd, b2, b3⟩ := built_loop (ε := ε) hn hd hw hl.closed g l
  have i3 := run_inv (new_inv ε g l) r123
  have hn3 : H3.net.n = H3.patch.surf.n := by
    unfold Surf.n
    rw [bn, b3, length_tab]
  have hl3 : Loaded ε n (rowOf arc n d w) ctl H3.patch (fun j => Ribbon.new .handler (rowOf arc n d w j)) :=
    ⟨i3.patch, b2, b3, fun j _ => ⟨rfl, rfl⟩, Or.inr fun j hj => Or.inr (hh j hj)⟩
  obtain ⟨P4, r, e4, h4⟩ := loaded_run (kind := .compositeRibbon) i3.kind hl3 hctl
  obtain ⟨r4, n4⟩ := run_ctl (arc := arc) (fun x hx => (hctl x hx).1) hn3 e4
  have r1234 := run_join r123 r4
  have i4 := run_inv (new_inv ε g l) r1234
  obtain ⟨P5, e5⟩ := Patch.update_total hε hε1 h4.inv h4.linked hl h4.ribbons (fun j hj => (h4.curve j hj).1) (fun j hj => (h4.curve j hj).2)
    (by rw [show P4.kind = .compositeRibbon from i4.kind]; intro q; cases q) (by
      intro q j hj
      rcases h4.handlers.resolve_left q j hj with a | a | ⟨y, a⟩
      · exact Or.inl a
      · exact Or.inr (a.ribbon (h4.curve j hj).1 (h4.curve j hj).2)
      · cases a)
  have s5 : (⟨H3.net, P4⟩ : Hybrid ℝ).step ε arc (.surf .update) = .ok ⟨H3.net, P5⟩ := by
    unfold step
    dsimp only
    have : P4.step ε .update = .ok P5 := e5
    rw [if_pos ⟨by rfl, hn3.trans n4.symm⟩, this, M_bind_ok]
  have r5 : (⟨H3.net, P4⟩ : Hybrid ℝ).run ε arc [.surf .update] = .ok ⟨H3.net, P5⟩ := by
    unfold run
    rw [s5]; rfl
  refine ⟨_, run_join r1234 r5, g, l, _, [], _, _, r1234, Patch.curves_tab h4.ribbons (fun j hj => (h4.curve j hj).1), ?_, s5, by simp, rfl, ?_⟩
  · intro q hq
    change q ∈ P4.surf.ribbons at hq
    rw [h4.ribbons] at hq
    unfold tab at hq
    obtain ⟨j, hj, rfl⟩ := List.mem_map.mp hq
    exact (h4.curve j (List.mem_range.mp hj)).2
  · change H3.net.degree = d
    rw [bd]

end real

/-! ### The two outer layers -/

section outer

variable {K : Type} [Field K] [LinearOrder K] [Libm K]

private theorem weight_nets {ε : K} {i j k : ℕ} {uv : P2 K} (G : GB K) (hk : G.kind = .side) (N : List (List (List (P3 K)))) :
    ({ G with nets := N } : GB K).weight ε i j k uv = (fun r => (r.1, { r.2 with nets := N })) <$> G.weight ε i j k uv := by
  obtain ⟨kind, n, degree, layers, central, nets, sq, dom, param, curves⟩ := G
  cases hk
  unfold GB.weight
  dsimp only
  split_ifs
  · rfl
  · cases mapToRibbons ε (GBKind.side (K := K)).param uv param with
    | error e => rfl
    | ok r =>
      rw [M_bind_ok, M_bind_ok]
      have hs : GB.sideWeight ε ⟨GBKind.side, n, degree, layers, central, N, sq, dom, param, curves⟩ i j k r.1 =
        GB.sideWeight ε ⟨GBKind.side, n, degree, layers, central, nets, sq, dom, param, curves⟩ i j k r.1 := rfl
      rw [hs]
      cases GB.sideWeight ε ⟨GBKind.side, n, degree, layers, central, nets, sq, dom, param, curves⟩ i j k r.1 <;> rfl

private theorem step_congr {ε : K} {uv : P2 K} {G : GB K} (hk : G.kind = .side) {N : List (List (List (P3 K)))} {n d : ℕ} {F F' : ℕ → ℕ → ℕ → P3 K}
    (hF : GB.HasNet G n d F) (hF' : GB.HasNet ({ G with nets := N } : GB K) n d F') {i j k : ℕ} (hi : i < n) (hj : j ≤ d) (hkl : k < (d + 1) / 2)
    (h : 2 ≤ k → k ≤ j → j ≤ d - k → F' i j k = F i j k) (a : Acc K) :
    evalStep ε { G with nets := N } uv i k j a = evalStep ε G uv i k j a := by
  unfold evalStep
  have e := weight_nets (ε := ε) (i := i) (j := j) (k := k) (uv := uv) { G with param := a.param } hk N
  change GB.weight ε i j k uv { ({ G with nets := N } : GB K) with param := a.param } = _ at e
  rw [e]
  cases e1 : GB.weight ε i j k uv { G with param := a.param } with
  | error x => rfl
  | ok r =>
    change addBlend N i j k r.1 _ = addBlend G.nets i j k r.1 _
    unfold addBlend
    split_ifs with h2
    · have c1 : GB.cpt N i j k = .ok (F' i j k) := hF'.cpt hi hj hkl
      rw [c1, hF.cpt hi hj hkl, M_bind_ok, M_bind_ok]
      by_cases hz : k ≤ j ∧ j ≤ d - k
      · rw [h h2 hz.1 hz.2]
      · have hr : r.1 = 0 := by
          unfold GB.weight at e1
          dsimp only at e1
          rw [hk] at e1
          dsimp only at e1
          rw [hF.degree, if_pos] at e1
          · cases e1; rfl
          · refine ⟨h2, ?_⟩
            unfold usub
            rw [if_pos (by omega)]
            omega
        rw [hr, zero_smul, zero_smul]
    · rfl

private theorem eval_congr {ε : K} {uv : P2 K} {H : Hybrid K} (hk : H.net.kind = .side) {N : List (List (List (P3 K)))} {n d : ℕ} {F F' : ℕ → ℕ → ℕ → P3 K}
    (hF : GB.HasNet H.net n d F) (hF' : GB.HasNet ({ H.net with nets := N } : GB K) n d F')
    (h : ∀ i < n, ∀ j ≤ d, ∀ k < (d + 1) / 2, 2 ≤ k → k ≤ j → j ≤ d - k → F' i j k = F i j k) :
    Prod.fst <$> (⟨{ H.net with nets := N }, H.patch⟩ : Hybrid K).eval ε uv = Prod.fst <$> H.eval ε uv := by
  unfold eval
  change Prod.fst <$> (mapToRibbons ε H.patch.kind.param uv H.patch.param >>= _) = _
  cases mapToRibbons ε H.patch.kind.param uv H.patch.param with
  | error e => rfl
  | ok r =>
    rw [M_bind_ok, M_bind_ok]
    have e : ∀ a, evalNet ε (⟨{ H.net with nets := N }, H.patch⟩ : Hybrid K).asNet uv a = evalNet ε H.asNet uv a := by
      intro a
      unfold evalNet
      change forLoop H.net.n _ _ = forLoop H.net.n _ _
      refine forLoop_congr _ fun i a hi => ?_
      change forLoop H.net.layers _ _ = forLoop H.net.layers _ _
      refine forLoop_congr _ fun k a hk' => ?_
      change forLoop (H.net.degree + 1) _ _ = forLoop (H.net.degree + 1) _ _
      refine forLoop_congr _ fun j a hj => ?_
      rw [hF.n_eq] at hi
      rw [hF.layers] at hk'
      rw [hF.degree] at hj
      exact step_congr (G := H.asNet) hk (N := N) ⟨hF.n_eq, hF.degree, hF.layers, hF.nets⟩ ⟨hF'.n_eq, hF'.degree, hF'.layers, hF'.nets⟩ hi (by omega) hk'
        (h i hi j (by omega) k hk') a
    rw [e]
    change Prod.fst <$> (evalNet ε H.asNet uv ⟨0, List.replicate H.net.n 0, 0, r.2⟩ >>= _) = _
    cases evalNet ε H.asNet uv ⟨0, List.replicate H.net.n 0, 0, r.2⟩ with
    | error e => rfl
    | ok a =>
      rw [M_bind_ok, M_bind_ok]
      change Prod.fst <$> (evalRibbons ε H.patch.surf H.net.n r.1 a.blends (a.pt + (1 - a.sum) • H.net.central) >>= _) = _
      cases evalRibbons ε H.patch.surf H.net.n r.1 a.blends (a.pt + (1 - a.sum) • H.net.central) <;> rfl

/-- C71: in every reachable state, `setControlPoint` on a point of the two outer layers (under either of its names) has no effect on the points of the
surface (until the next `setupLoop`). -/
theorem C71_outer {ε : K} {arc : List (P3 K) → K → K → K} {g l : ℕ} {calls : List (Call K)} {H H' : Hybrid K} (hr : (Hybrid.new g l).run ε arc calls = .ok H)
    {a : Name} (ha : a.InRange H.net.n H.net.degree) (h2 : a.row < 2) {p : P3 K} (e : H.step ε arc (.net (.set a.side a.col a.row p)) = .ok H') (uv : P2 K) :
    Prod.fst <$> H'.eval ε uv = Prod.fst <$> H.eval ε uv := by
  have inv := run_inv (new_inv ε g l) hr
  rcases inv.shape with q | ⟨F, hF⟩
  · have := ha.1
    omega
  have hF0 : GB.HasNet H.asNet H.net.n H.net.degree F := ⟨rfl, rfl, hF.layers, hF.nets⟩
  obtain ⟨G', e1, k1, hF'⟩ := GB.setControlPoint_eq hF0 ha p
  have hs : H.step ε arc (.net (.set a.side a.col a.row p)) = .ok ⟨G', { H.patch with param := G'.param }⟩ := by
    unfold step
    dsimp only
    have : H.asNet.step ε arc (.set a.side a.col a.row p) = .ok G' := e1
    rw [if_pos (by rfl), this, M_bind_ok]
  rw [hs] at e
  have hG : (⟨G', { H.patch with param := G'.param }⟩ : Hybrid K) = ⟨{ H.asNet with nets := G'.nets }, H.patch⟩ := by
    rw [k1]
    rfl
  have hH : H' = ⟨{ H.asNet with nets := G'.nets }, H.patch⟩ := by
    rw [← hG]; exact (Except.ok.inj e).symm
  rw [hH]
  have hn : ∀ x : GB K, (∀ y, Prod.fst <$> (⟨x, H.patch⟩ : Hybrid K).eval ε y = Prod.fst <$> (⟨{ x with dom := H.net.dom, param := H.net.param }, H.patch⟩ : Hybrid K).eval ε y) := by
    intro x y
    unfold eval
    change Prod.fst <$> (mapToRibbons ε H.patch.kind.param y H.patch.param >>= _) = Prod.fst <$> (mapToRibbons ε H.patch.kind.param y H.patch.param >>= _)
    cases mapToRibbons ε H.patch.kind.param y H.patch.param with
    | error e => rfl
    | ok r =>
      rw [M_bind_ok, M_bind_ok]
      change Prod.fst <$> (evalNet ε (⟨x, H.patch⟩ : Hybrid K).asNet y _ >>= _) = Prod.fst <$> (evalNet ε (⟨x, H.patch⟩ : Hybrid K).asNet y _ >>= _)
      cases evalNet ε (⟨x, H.patch⟩ : Hybrid K).asNet y ⟨0, List.replicate x.n 0, 0, r.2⟩ with
      | error e => rfl
      | ok b =>
        change Prod.fst <$> (evalRibbons ε H.patch.surf x.n r.1 b.blends (b.pt + (1 - b.sum) • x.central) >>= _) = _
        change _ = Prod.fst <$> (evalRibbons ε H.patch.surf x.n r.1 b.blends (b.pt + (1 - b.sum) • x.central) >>= _)
        cases evalRibbons ε H.patch.surf x.n r.1 b.blends (b.pt + (1 - b.sum) • x.central) <;> rfl
  rw [hn]
  have hw : GB.HasNet ({ H.net with nets := G'.nets } : GB K) H.net.n H.net.degree (GB.write H.net.n H.net.degree F a p) :=
    ⟨rfl, rfl, hF.layers, hF'.nets⟩
  refine eval_congr (H := H) inv.net hF hw ?_
  intro i hi j hj k hk k2 k3 k4
  unfold GB.write
  rw [if_neg]
  rintro (h | ⟨_, _, h⟩ | ⟨_, _, h⟩)
  · rw [← h] at h2
    dsimp only at h2
    omega
  · rw [h] at h2
    dsimp only at h2
    omega
  · rw [Name.mk.injEq] at h
    omega

end outer

/-! ### Examples -/

section examples

/-- A point of the square of `squareLoop`. -/
noncomputable def sqPt (a : Name) : P3 ℝ := (squareLoop a.side).pt (a.col / 5)

/-- The boundary points of a quintic network, and a point in its interior. -/
def sqNames : List Name := (List.range 4).flatMap fun i => (List.range 5).map fun j => ⟨i, j, 0⟩

noncomputable def sqW : List (Name × P3 ℝ) := (⟨0, 2, 2⟩, ⟨4, 4, 1⟩) :: sqNames.map fun a => (a, sqPt a)

theorem foldl_last {n d : ℕ} (f : Name → P3 ℝ) (a : Name) (l : List Name) (v : P3 ℝ) :
    (l.map fun a => (a, f a)).foldl (fun v x => if SamePoint n d a x.1 then x.2 else v) v =
      (l.foldl (fun (v : Option Name) x => if SamePoint n d a x then some x else v) none).elim v f := by
  suffices h : ∀ (o : Option Name), (l.map fun a => (a, f a)).foldl (fun v x => if SamePoint n d a x.1 then x.2 else v) (o.elim v f) =
      (l.foldl (fun (v : Option Name) x => if SamePoint n d a x then some x else v) o).elim v f from h none
  induction l with
  | nil => intro o; rfl
  | cons x l ih =>
    intro o
    rw [List.map_cons, List.foldl_cons, List.foldl_cons, ← ih]
    congr 1
    split_ifs <;> rfl

private theorem sq_value {i j : ℕ} (hi : i < 4) (hj : j ≤ 5) : netValue 4 5 sqW ⟨i, j, 0⟩ = (squareLoop i).pt (j / 5) := by
  have h1 : ∀ i < 4, ∀ j < 6, sqNames.foldl (fun (v : Option Name) x => if SamePoint 4 5 ⟨i, j, 0⟩ x then some x else v) none =
      some (if j = 5 then ⟨(i + 1) % 4, 0, 0⟩ else ⟨i, j, 0⟩) := by decide +kernel
  unfold netValue sqW
  rw [List.foldl_cons, foldl_last, h1 i hi j (by omega)]
  change sqPt _ = _
  unfold sqPt
  split_ifs with h
  · subst h
    have := square_good.closed i hi
    dsimp only
    rw [show ((5 : ℕ) : ℝ) / 5 = 1 by norm_num, this]
    norm_num
  · rfl

/-- The length of a segment, given by the Bézier points. -/
noncomputable def sqArc (l : List (P3 ℝ)) (a b : ℝ) : ℝ := (b - a) * (l.getD 5 0 - l.getD 0 0).norm

theorem bezier_line (p q : P3 ℝ) :
    bezierCurve sqArc (tab (5 + 1) fun j => (segment p q).pt ((j : ℝ) / 5)) = segment p q := by
  have e : (tab (5 + 1) fun j : ℕ => (segment p q).pt ((j : ℝ) / 5)) = [p, p + (1 / 5 : ℝ) • (q - p), p + (2 / 5 : ℝ) • (q - p), p + (3 / 5 : ℝ) • (q - p),
      p + (4 / 5 : ℝ) • (q - p), q] := by
    simp [tab, segment, List.range_succ]
  rw [e]
  unfold bezierCurve segment sqArc bezier bern
  simp only [Finset.sum_range_succ, Finset.sum_range_zero, List.length_cons, List.length_nil]
  congr 1
  · funext u
    simp [Nat.choose]
    module
  · funext u
    simp [Nat.choose]
    module

theorem sq_rows {i : ℕ} (hi : i < 4) : rowOf sqArc 4 5 sqW i = squareLoop i := by
  unfold rowOf
  rw [tab_congr (fun j hj => sq_value hi (by omega))]
  interval_cases i <;> exact bezier_line _ _

theorem sq_good : Patch.GoodLoop (1 / 10000) 4 (rowOf sqArc 4 5 sqW) := by
  have hm : ∀ j, (j + 1) % 4 < 4 := fun j => Nat.mod_lt _ (by norm_num)
  refine ⟨by norm_num, fun j hj => ?_, fun j hj => ?_, fun j hj => ?_, fun j hj => ?_⟩
  · rw [sq_rows hj, sq_rows (hm j)]; exact square_good.closed j hj
  · rw [sq_rows hj]; exact square_good.regular j hj
  · rw [sq_rows hj]; exact square_good.exact j hj
  · rw [sq_rows hj, sq_rows (hm j)]; exact square_good.corner j hj

/-- C71_built applies: a quintic network with a square boundary, and one inner control point that is not zero. -/
theorem sq_built (g l : ℕ) : ∃ H, (Hybrid.new g l).run (1 / 10000) sqArc ([.net (.init 4 5)] ++ (sqW.map fun x => .net (.set x.1.side x.1.col x.1.row x.2)) ++ [.loop] ++
    squareHandlers.map .surf ++ [.surf .update]) = .ok H ∧ UpToDate (1 / 10000) sqArc 4 5 (rowOf sqArc 4 5 sqW) H := by
  have hne : (⟨1, 2, 3⟩ : P3 ℝ) ≠ 0 := fun h => by simpa using congrArg P3.x h
  refine C71_built (v := squareVertex) (by norm_num) (by norm_num) (by norm_num) ?_ sq_good ?_ ?_ g l
  · intro x hx
    rcases List.mem_cons.mp hx with rfl | q
    · exact ⟨by norm_num, by norm_num, by norm_num⟩
    · obtain ⟨a, ha, rfl⟩ := List.mem_map.mp q
      have : ∀ a ∈ sqNames, a.side < 4 ∧ a.col ≤ 5 ∧ a.row < 3 := by decide
      exact this a ha
  · intro x hx
    simp only [squareHandlers, List.mem_cons, List.not_mem_nil, or_false] at hx
    rcases hx with rfl | rfl | rfl | rfl <;> exact ⟨trivial, by norm_num, hne⟩
  · intro j hj
    right
    refine ⟨⟨1, 2, 3⟩, ?_⟩
    interval_cases j <;> simp [squareHandlers]

/-- C71_side applies to it: the point of the surface at a quarter of the second side, and a corner. -/
example : ∃ H, SideValue (1 / 10000) H 1 (1 / 4) (⟨10, 5 / 2, 0⟩ : P3 ℝ) ∧ SideValue (1 / 10000) H 2 1 (⟨0, 10, 0⟩ : P3 ℝ) := by
  obtain ⟨H, _, h⟩ := sq_built 0 0
  have hl : Loop 4 (rowOf sqArc 4 5 sqW) := ⟨sq_good.sides, sq_good.closed, sq_good.regular⟩
  refine ⟨H, ?_, ?_⟩
  · have := C71_side (by norm_num) (by norm_num) hl (by norm_num) h (i := 1) (by norm_num) (s := 1 / 4) (Or.inl (by norm_num))
    rw [sq_rows (by norm_num)] at this
    convert this using 1
    ext <;> norm_num [squareLoop, segment]
  · have := C71_side (by norm_num) (by norm_num) hl (by norm_num) h (i := 2) (by norm_num) (s := 1) (Or.inr (Or.inr rfl))
    rw [sq_rows (by norm_num)] at this
    convert this using 1
    ext <;> norm_num [squareLoop, segment]

/-- C71_outer applies to it: a point of the second layer. -/
example : ∃ H H' : Hybrid ℝ, H.step (1 / 10000) sqArc (.net (.set 0 2 1 ⟨7, 8, 9⟩)) = .ok H' ∧ H'.net.controlPoint 0 2 1 = .ok ⟨7, 8, 9⟩ ∧
    ∀ uv, Prod.fst <$> H'.eval (1 / 10000) uv = Prod.fst <$> H.eval (1 / 10000) uv := by
  obtain ⟨H, hr, h⟩ := sq_built 0 0
  obtain ⟨_, _, F, hF⟩ := upToDate_state (by norm_num) h
  have ha : (⟨0, 2, 1⟩ : Name).InRange 4 5 := ⟨by norm_num, by norm_num, by norm_num⟩
  have hF0 : GB.HasNet H.asNet 4 5 F := ⟨hF.n_eq, hF.degree, hF.layers, hF.nets⟩
  obtain ⟨G', e1, k1, hF'⟩ := GB.setControlPoint_eq hF0 ha ⟨7, 8, 9⟩
  have hs : H.step (1 / 10000) sqArc (.net (.set 0 2 1 ⟨7, 8, 9⟩)) = .ok ⟨G', { H.patch with param := G'.param }⟩ := by
    unfold step
    dsimp only
    have : H.asNet.step (1 / 10000) sqArc (.set 0 2 1 ⟨7, 8, 9⟩) = .ok G' := e1
    rw [if_pos (by rfl), this, M_bind_ok]
  refine ⟨H, _, hs, ?_, C71_outer hr (a := ⟨0, 2, 1⟩) (by rw [hF.n_eq, hF.degree]; exact ha) (by norm_num) hs⟩
  have := hF'.cpt (i := 0) (j := 2) (k := 1) (by norm_num) (by norm_num) (by norm_num)
  refine this.trans ?_
  unfold GB.write
  rw [if_pos (samePoint_refl 4 5 _)]

private theorem surf_net {ε : ℝ} {arc : List (P3 ℝ) → ℝ → ℝ → ℝ} {H H' : Hybrid ℝ} {xs : List (Patch.Call ℝ)} (hi : Inv ε H) (e : H.run ε arc (xs.map .surf) = .ok H') :
    Inv ε H' ∧ H'.net = H.net := by
  induction xs generalizing H with
  | nil => cases e; exact ⟨hi, rfl⟩
  | cons x xs ih =>
    rw [List.map_cons] at e
    unfold run at e
    obtain ⟨H1, e1, e⟩ := bind_ok e
    obtain ⟨i1, _, _, _, n1⟩ := step_surf_inv hi e1
    obtain ⟨i2, n2⟩ := ih i1 e
    exact ⟨i2, n2.trans n1⟩

/-- C71_curves applies to the first part of the calls. -/
example : ∃ H : Hybrid ℝ, (Hybrid.new 0 0).run (1 / 10000) sqArc (([.net (.init 4 5)] ++ (sqW.map fun x => .net (.set x.1.side x.1.col x.1.row x.2))) ++ [.loop]) = .ok H ∧
    H.net.n = 4 ∧ H.net.degree = 5 ∧ ∃ c : ℕ → Curve ℝ, H.patch.curves = tab 4 c := by
  obtain ⟨H, hr, h⟩ := sq_built 0 0
  obtain ⟨_, _, F, hF⟩ := upToDate_state (by norm_num) h
  obtain ⟨H2, h2, h4⟩ := run_split hr
  obtain ⟨H1, h1, h3⟩ := run_split h2
  obtain ⟨i2, n2⟩ := surf_net (run_inv (new_inv _ 0 0) h1) h3
  obtain ⟨_, n3⟩ := surf_net (xs := [.update]) i2 h4
  rw [n3, n2] at hF
  have hb : ∀ x ∈ ([.net (.init 4 5)] ++ (sqW.map fun x => .net (.set x.1.side x.1.col x.1.row x.2)) : List (Call ℝ)), x.regular = true := by
    intro x hx
    rcases List.mem_append.mp hx with q | q
    · rw [List.mem_singleton.mp q]; rfl
    · obtain ⟨y, _, rfl⟩ := List.mem_map.mp q
      rfl
  obtain ⟨c, hc, _⟩ := C71_curves (by norm_num) hb h1 hF.n_eq (by norm_num) hF.degree
  exact ⟨H1, h1, hF.n_eq, hF.degree, c, hc⟩

end examples

end Hybrid

end Transfinite
