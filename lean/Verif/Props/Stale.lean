import Verif.Props.PartialUpdate

/-! # C39: `update(i)` is not sufficient after a change of curve `i` -/

namespace Transfinite

open Spec Patch Ribbon

variable {ε : ℝ} {n : ℕ} {c : ℕ → Curve ℝ} {P : Patch ℝ}

/-! ### Helper lemmas -/

/-- The last row of control points of the Coons ribbon, for more than three sides. -/
private noncomputable def topNet (nb : Neighbors ℝ) (i : ℕ) : P3 ℝ :=
  if i = 0 then nb.next.pt 1 else if i = 1 then nb.next.pt 1 + (1 / 3 : ℝ) • nb.next2.der 0
  else if i = 2 then nb.prev.pt 0 - (1 / 3 : ℝ) • nb.prev2.der 1 else nb.prev.pt 0

/-- The point of the Coons ribbon at `(1/2, d)`. -/
private noncomputable def coonsAt (nb : Neighbors ℝ) (c : Curve ℝ) (d : ℝ) : P3 ℝ :=
  (1 - d) • c.pt (1 / 2) + d • Spec.bezier 3 (topNet nb) (1 / 2 : ℝ) + ((1 / 2 : ℝ) • nb.prev.pt (1 - d) + (1 / 2 : ℝ) • nb.next.pt d) -
    ((1 - d) • ((1 / 2 : ℝ) • c.pt 0 + (1 / 2 : ℝ) • c.pt 1) + d • ((1 / 2 : ℝ) • nb.prev.pt 0 + (1 / 2 : ℝ) • nb.next.pt 1))

private theorem coons_ready_eval {nb : Neighbors ℝ} {c : Curve ℝ} {r : Ribbon ℝ} (h3 : nb.three = false) (hr : RibbonReady ε nb .coons c r)
    {d : ℝ} (h0 : 0 ≤ d) (h1 : d ≤ 1) : r.eval ε ⟨1 / 2, d⟩ = .ok (coonsAt nb c d) := by
  obtain ⟨r0, r1, k1, k2, k3, k4, k5⟩ := hr
  rw [k5, (Ribbon.controls_irrelevant ε r1 r.mult r.handlerV r.handlerInit).2]
  obtain ⟨k, a1, a2, a3, a4, a5, a6, a7, a8⟩ := coons_parts k1 k4
  rw [h3, if_neg (by simp)] at a8
  have ht : bezierPt r1.top (1 / 2) = .ok (Spec.bezier 3 (topNet nb) (1 / 2 : ℝ)) := by
    rw [← bezierPt_eq 3 (topNet nb) (1 / 2), a8]
    rfl
  have c1 : Domain.clamp (1 / 2 : ℝ) 0 1 = 1 / 2 := by norm_num [Domain.clamp]
  have c2 : Domain.clamp d 0 1 = d := by unfold Domain.clamp; rw [min_eq_left h1, max_eq_right h0]
  have c3 : Domain.clamp (1 - d) 0 1 = 1 - d := by
    unfold Domain.clamp; rw [min_eq_left (by linarith), max_eq_right (by linarith)]
  unfold Ribbon.eval
  rw [k]
  dsimp only
  unfold coonsEval
  dsimp only
  rw [c1, c2, c3, show (1 : ℝ) - 1 / 2 = 1 / 2 by norm_num, c1, ht, M_bind_ok, a1, a2, a3, a4, a5, a6, a7, k2]
  rfl

/-- The central point of the surface with C0 Coons patches. -/
private theorem c0_centre (hn : 4 ≤ n) (hε1 : ε ≤ 1) (hε2 : ε ≤ 2 / n) (hk : P.kind = .c0Coons) {r φ : ℝ} (hr : 1 ≤ r)
    (hd : ConvexDomain P.dom.dom n (regularVertex n r φ)) (hp : ParamOk ε P) {R : ℕ → Ribbon ℝ} (hR : P.surf.ribbons = tab n R)
    {nb : ℕ → Neighbors ℝ} (hnb : ∀ j < n, (nb j).three = false) {cv : ℕ → Curve ℝ} (h : ∀ j < n, RibbonReady ε (nb j) .coons (cv j) (R j)) :
    ∃ Q, P.eval ε 0 = .ok (∑ j ∈ Finset.range n, (1 / n : ℝ) • coonsAt (nb j) (cv j) (1 - 2 / n), Q) := by
  have hn0 : (0 : ℝ) < n := by positivity
  have hn4 : (4 : ℝ) ≤ n := by exact_mod_cast hn
  have t1 : (2 : ℝ) / n ≤ 1 / 2 := by rw [div_le_div_iff₀ hn0 (by norm_num)]; linarith
  have t0 : (0 : ℝ) < 2 / n := by positivity
  obtain ⟨o, e⟩ := maps_of_raw hp hd.length_eq (uv := 0) (f := fun _ => ⟨1 / 2, 1 - 2 / n⟩) (by
    intro o _ j hj
    rw [hk]
    exact baryMap_centre (by linarith) hd hε1 hε2 hj)
  refine ⟨_, eval_of e ?_⟩
  unfold evalWith
  rw [hk]
  dsimp only
  unfold Surf.c0Coons
  have hl : P.surf.n = n := by unfold Surf.n; rw [hR, length_tab]
  rw [hl, forLoop_sum n _ (fun j => (1 / n : ℝ) • coonsAt (nb j) (cv j) (1 - 2 / n)), zero_add]
  intro j p hj
  rw [vget_tab _ hj, M_bind_ok, hR, vget_tab _ hj, M_bind_ok]
  dsimp only
  rw [coons_ready_eval (hnb j hj) (h j hj) (by linarith) (by linarith), M_bind_ok]
  congr 3
  field_simp
  ring

private theorem take_drop_tab {α : Type} (r : ℕ → α) {i : ℕ} (hi : i < n) (a : α) :
    (tab n r).take i ++ [a] ++ (tab n r).drop (i + 1) = tab n (Function.update r i a) := by
  have hs : (tab n r).set i a = tab n (Function.update r i a) := by
    have := vset_tab r a hi
    unfold vset at this
    rw [if_pos (by rw [length_tab]; exact hi)] at this
    exact Except.ok.inj this
  rw [← hs, List.set_eq_take_append_cons_drop, if_pos (by rw [length_tab]; exact hi), List.append_assoc]
  rfl

private theorem corner_coons {rs : List (Ribbon ℝ)} (hk : ∀ r ∈ rs, r.kind = .coons) {j : ℕ} (hj : j < rs.length) :
    ∃ x, Surf.cornerOf ε rs j = .ok x := by
  have hx : nextIx rs.length j < rs.length := nextIx_lt (by omega)
  unfold Surf.cornerOf
  rw [vget_of_lt hj, M_bind_ok, vget_of_lt hx, M_bind_ok]
  have hc : ∀ r ∈ rs, ∀ s, crossDerivative ε r s = .ok 0 := by
    intro r hr s
    unfold crossDerivative
    rw [hk r hr]
  rw [hc _ (List.getElem_mem hj), M_bind_ok, hc _ (List.getElem_mem hj), M_bind_ok, hc _ (List.getElem_mem hx)]
  have hv : vdiv (0 - 0 : P3 ℝ) Surf.cornerStep = .ok ((1 / Surf.cornerStep : ℝ) • (0 - 0)) := by
    unfold vdiv
    rw [fdiv_of_ne (by unfold Surf.cornerStep; norm_num), M_bind_ok]
  rw [hv, M_bind_ok, M_bind_ok, hc _ (List.getElem_mem hx), M_bind_ok, hv, M_bind_ok]
  exact ⟨_, rfl⟩

private theorem nextIx_ne {i : ℕ} (hn : 2 ≤ n) (hi : i < n) : nextIx n i ≠ i := by
  unfold nextIx
  rcases Nat.lt_or_ge (i + 1) n with h | h
  · rw [Nat.mod_eq_of_lt h]; omega
  · have : i + 1 = n := by omega
    rw [this, Nat.mod_self]; omega

private theorem next_ne_prev {i : ℕ} (hn : 3 ≤ n) (hi : i < n) : nextIx n i ≠ prevIx n i := by
  intro h
  unfold nextIx prevIx at h
  rcases Nat.lt_or_ge (i + 1) n with h1 | h1
  · rw [Nat.mod_eq_of_lt h1] at h
    rcases Nat.eq_zero_or_pos i with rfl | h2
    · rw [Nat.mod_eq_of_lt (by omega)] at h; omega
    · rw [show i + n - 1 = i - 1 + n by omega, Nat.add_mod_right, Nat.mod_eq_of_lt (by omega)] at h; omega
  · have e : i + 1 = n := by omega
    rw [e, Nat.mod_self, show i + n - 1 = i - 1 + n by omega, Nat.add_mod_right, Nat.mod_eq_of_lt (by omega)] at h
    omega

/-! ### C39 -/

/-- C39: take an up-to-date surface with C0 Coons patches, at least four sides, and replace curve `i` by another one with the same end points
and end tangents. Then the results of `setCurve(i, ...)`, `setupLoop()`, `update(i)` and `setCurve(i, ...)`, `setupLoop()`, `update()` differ at the
centre of the domain by the average of the differences of the curves at the parameters `2/n` and `1 - 2/n`, divided by `n`. -/
theorem C39_difference (hε : 0 < ε) (hε1 : ε ≤ 1) (hε2 : ε ≤ 2 / n) (hn : 4 ≤ n) {i : ℕ} (hi : i < n) {c' : Curve ℝ}
    (hl' : GoodLoop ε n (Function.update c i c')) (h0 : c'.pt 0 = (c i).pt 0) (h1 : c'.pt 1 = (c i).pt 1)
    (d0 : c'.der 0 = (c i).der 0) (d1 : c'.der 1 = (c i).der 1) (h : UpToDate ε .c0Coons n c P) :
    ∃ Q Q' p p' R R', P.run ε [.curve i c', .loop, .updateSide i] = .ok Q ∧ P.run ε [.curve i c', .loop, .update] = .ok Q' ∧
      Q.eval ε 0 = .ok (p, R) ∧ Q'.eval ε 0 = .ok (p', R') ∧
      p' - p = (1 / n : ℝ) • ((1 / 2 : ℝ) • (c'.pt (2 / n) - (c i).pt (2 / n)) + (1 / 2 : ℝ) • (c'.pt (1 - 2 / n) - (c i).pt (1 - 2 / n))) := by
  obtain ⟨hr, hk⟩ := upToDate_ready h (by omega)
  obtain ⟨r, φ, hr1, hd⟩ := hr.regularDomain (by rw [hk]; rfl) (by omega)
  have hpar : ParamOk ε P := hr.inv.param.resolve_left (by rw [hd.n_eq]; omega)
  obtain ⟨ρ, hρ, hready⟩ := hr.surf.ribs
  obtain ⟨q, hq, _⟩ := hr.surf.corners
  rw [hk] at hready
  set cc := Function.update c i c' with hcc
  set ρ2 := Function.update ρ i (Ribbon.new .coons c') with hρ2
  set P1 : Patch ℝ := { P with surf := { P.surf with ribbons := tab n ρ2 }, linked := false } with hP1
  set P2 : Patch ℝ := { P with surf := { P.surf with ribbons := tab n ρ2 }, linked := true } with hP2
  have e1 : P.step ε (.curve i c') = .ok P1 := by
    change P.setCurve i c' = _
    unfold setCurve
    dsimp only
    rw [hρ, length_tab, if_neg (by omega), take_drop_tab _ hi]
    have : P.kind.ribbon = .coons := by rw [hk]; rfl
    rw [this]
  have hcur : ∀ j < n, (ρ2 j).curve = cc j := by
    intro j hj
    rw [hρ2, hcc]
    by_cases hji : j = i
    · rw [hji, Function.update_self, Function.update_self]; rfl
    · rw [Function.update_of_ne hji, Function.update_of_ne hji]; exact (hready j hj).basic.2.1
  have e2 : P1.step ε .loop = .ok P2 := by
    change P1.setupLoop = _
    unfold setupLoop
    rw [curves_tab (P := P1) rfl hcur, C26_oriented hl'.closed, M_bind_ok]
    have z : List.zipWith (fun (r : Ribbon ℝ) c => ({ r with curve := c } : Ribbon ℝ)) (tab n ρ2) (tab n cc) = tab n ρ2 := by
      unfold tab
      rw [List.zipWith_map, List.zipWith_self]
      refine List.map_congr_left fun j hj => ?_
      rw [← hcur j (List.mem_range.mp hj)]
    rw [hP1]
    dsimp only
    rw [z]
  have v1 := (step_inv hr.inv e1).1
  have v2 := (step_inv v1 e2).1
  have hlen : P2.surf.n = n := by unfold Surf.n; rw [hP2]; simp
  have hkind : ∀ j < n, (ρ2 j).kind = .coons := by
    intro j hj
    rw [hρ2]
    by_cases hji : j = i
    · rw [hji, Function.update_self]; rfl
    · rw [Function.update_of_ne hji]; exact (hready j hj).basic.1
  have hfence : ∀ j < n, (ρ2 j).fence = none := by
    intro j hj
    rw [hρ2]
    by_cases hji : j = i
    · rw [hji, Function.update_self]; rfl
    · rw [Function.update_of_ne hji]; exact (hready j hj).basic.2.2
  -- update()
  obtain ⟨Q', e4⟩ := Patch.update_total hε hε1 v2 rfl hl' (P := P2) (r := ρ2) rfl hcur hfence (fun x => by
    change P.kind = _ at x; rw [hk] at x; cases x) (fun x => absurd hk x)
  have hQ' : Ready ε Q' n cc := by
    refine update_ready v2 (r := ρ2) rfl (fun j hj => ⟨?_, hcur j hj, hfence j hj⟩) (by omega) e4
    change _ = P.kind.ribbon
    rw [hk]; exact hkind j hj
  have hkQ' : Q'.kind = .c0Coons := (step_inv v2 (c := .update) e4).2.trans hk
  -- update(i)
  have hup : P2.updateDomain = .ok P2 := by
    unfold updateDomain Domain.regularUpdate
    have hk2 : P2.kind = .c0Coons := hk
    have hn2 : P2.dom.dom.n = P2.surf.n := by rw [hlen]; exact hd.n_eq
    rw [hk2, if_pos (show PatchKind.c0Coons.regular = true from rfl), if_pos hn2, M_bind_ok]
    dsimp only
    rw [if_neg (by simp)]
  have hmem : ∀ {ρ' : ℕ → Ribbon ℝ}, (∀ j < n, (ρ' j).kind = .coons) → ∀ x ∈ tab n ρ', x.kind = .coons := by
    intro ρ' h x hx
    unfold tab at hx
    obtain ⟨j, hj, rfl⟩ := List.mem_map.mp hx
    exact h j (List.mem_range.mp hj)
  obtain ⟨ri, hri⟩ := Ribbon.coons_total hε (r := ρ2 i) (nb := Surf.nbOf n cc i) (hkind i hi) (by rw [hcur i hi]; exact hl'.updatable hi)
  have hki : ∀ j < n, (Function.update ρ2 i ri j).kind = .coons := by
    intro j hj
    by_cases hji : j = i
    · rw [hji, Function.update_self, (Ribbon.update_keeps hri).1]; exact hkind i hi
    · rw [Function.update_of_ne hji]; exact hkind j hj
  have hpi : prevIx n i < n := prevIx_lt (by omega)
  obtain ⟨x1, hx1⟩ := corner_coons (ε := ε) (hmem hki) (j := prevIx n i) (by rw [length_tab]; exact hpi)
  obtain ⟨x2, hx2⟩ := corner_coons (ε := ε) (hmem hki) (j := i) (by rw [length_tab]; exact hi)
  obtain ⟨S, hS, hSr⟩ : ∃ S, P2.surf.updateOne ε i = .ok S ∧ S.ribbons = tab n (Function.update ρ2 i ri) := by
    refine ⟨⟨P.surf.useGamma, tab n (Function.update ρ2 i ri), tab n (Function.update (Function.update q (prevIx n i) x1) i x2)⟩, ?_, rfl⟩
    have hs2 : P2.surf = ⟨P.surf.useGamma, tab n ρ2, tab n q⟩ := by rw [hP2]; dsimp only; rw [hq]
    rw [hs2]
    exact (Surf.updateOne_iff hi).mpr ⟨ri, x1, x2, by rw [Surf.nbOf_congr hcur hi]; exact hri, hx1, hx2, rfl⟩
  have e3 : P2.updateSide ε i = .ok { P2 with surf := S } := by
    unfold updateSide
    rw [hup, M_bind_ok, if_pos (by rw [hP2]), hS, M_bind_ok]
    refine finish_other ?_
    unfold Mid
    change ¬(P.kind = _ ∨ P.kind = _)
    rw [hk]; simp
  -- values at the centre
  have h3 : ∀ (cv : ℕ → Curve ℝ) j, (Surf.nbOf n cv j).three = false := by
    intro cv j
    unfold Surf.nbOf
    exact decide_eq_false (by omega)
  have hvQ : ∀ j < n, RibbonReady ε (if j = i then Surf.nbOf n cc i else Surf.nbOf n c j) .coons (cc j) (Function.update ρ2 i ri j) := by
    intro j hj
    by_cases hji : j = i
    · rw [if_pos hji, hji, Function.update_self]
      exact ⟨ρ2 i, ri, hkind i hi, hcur i hi, hfence i hi, hri, rfl⟩
    · rw [if_neg hji, Function.update_of_ne hji, hρ2, Function.update_of_ne hji, hcc, Function.update_of_ne hji]
      exact hready j hj
  obtain ⟨R, hR⟩ := c0_centre (P := { P2 with surf := S }) hn hε1 hε2 hk hr1 hd hpar hSr
    (nb := fun j => if j = i then Surf.nbOf n cc i else Surf.nbOf n c j) (fun j _ => by beta_reduce; split_ifs <;> exact h3 _ _) hvQ
  obtain ⟨r', φ', hr1', hd'⟩ := hQ'.regularDomain (by rw [hkQ']; rfl) (by omega)
  obtain ⟨ρ', hρ', hready'⟩ := hQ'.surf.ribs
  rw [hkQ'] at hready'
  obtain ⟨R', hR'⟩ := c0_centre hn hε1 hε2 hkQ' hr1' hd' (hQ'.inv.param.resolve_left (by rw [hd'.n_eq]; omega)) hρ'
    (nb := fun j => Surf.nbOf n cc j) (fun j _ => h3 _ _) hready'
  refine ⟨_, Q', _, _, R, R', ?_, ?_, hR, hR', ?_⟩
  · unfold run
    rw [e1, M_bind_ok]
    unfold run
    rw [e2, M_bind_ok]
    exact calls_one e3
  · unfold run
    rw [e1, M_bind_ok]
    unfold run
    rw [e2, M_bind_ok]
    exact calls_one e4
  · rw [← Finset.sum_sub_distrib]
    have hne : nextIx n i ≠ i := nextIx_ne (by omega) hi
    have hxi : nextIx n i < n := nextIx_lt (by omega)
    have hpn : nextIx n (prevIx n i) = i := nextIx_prevIx hi
    have hpx : prevIx n (nextIx n i) = i := Surf.prevIx_nextIx' hi
    have hpe : prevIx n i ≠ i := fun x => nextIx_ne (by omega) hpi (by rw [hpn]; exact x.symm)
    have hnp : nextIx n i ≠ prevIx n i := next_ne_prev (by omega) hi
    have ccp : ∀ j, (cc j).pt 0 = (c j).pt 0 ∧ (cc j).pt 1 = (c j).pt 1 ∧ (cc j).der 0 = (c j).der 0 ∧ (cc j).der 1 = (c j).der 1 := by
      intro j
      rw [hcc]
      by_cases hji : j = i
      · rw [hji, Function.update_self]; exact ⟨h0, h1, d0, d1⟩
      · rw [Function.update_of_ne hji]; exact ⟨rfl, rfl, rfl, rfl⟩
    have htop : ∀ j, topNet (Surf.nbOf n cc j) = topNet (Surf.nbOf n c j) := by
      intro j
      funext k
      unfold topNet Surf.nbOf
      dsimp only
      rw [(ccp _).1, (ccp _).2.1, (ccp _).2.2.1, (ccp _).2.2.2]
    have hdiff : ∀ j, coonsAt (Surf.nbOf n cc j) (cc j) (1 - 2 / n) - coonsAt (Surf.nbOf n c j) (cc j) (1 - 2 / n) =
        (1 / 2 : ℝ) • ((cc (prevIx n j)).pt (2 / n) - (c (prevIx n j)).pt (2 / n)) +
        (1 / 2 : ℝ) • ((cc (nextIx n j)).pt (1 - 2 / n) - (c (nextIx n j)).pt (1 - 2 / n)) := by
      intro j
      unfold coonsAt
      rw [htop]
      unfold Surf.nbOf
      dsimp only
      rw [(ccp _).1, (ccp _).2.1, (ccp (prevIx n j)).1, (ccp (nextIx n j)).2.1, sub_sub_cancel]
      module
    have hterm : ∀ j ∈ Finset.range n, (1 / n : ℝ) • coonsAt (Surf.nbOf n cc j) (cc j) (1 - 2 / n) -
        (1 / n : ℝ) • coonsAt (if j = i then Surf.nbOf n cc i else Surf.nbOf n c j) (cc j) (1 - 2 / n) =
        (if j = nextIx n i then (1 / n : ℝ) • (1 / 2 : ℝ) • (c'.pt (2 / n) - (c i).pt (2 / n)) else 0) +
        (if j = prevIx n i then (1 / n : ℝ) • (1 / 2 : ℝ) • (c'.pt (1 - 2 / n) - (c i).pt (1 - 2 / n)) else 0) := by
      intro j hj
      have hj := Finset.mem_range.mp hj
      by_cases hji : j = i
      · rw [if_pos hji, hji, sub_self, if_neg hne.symm, if_neg hpe.symm, add_zero]
      · rw [if_neg hji, ← smul_sub, hdiff]
        by_cases hjn : j = nextIx n i
        · rw [if_pos hjn, if_neg (by rw [hjn]; exact hnp), hjn, hpx]
          have : nextIx n (nextIx n i) ≠ i := by
            intro x
            apply hnp
            rw [← x, Surf.prevIx_nextIx' hxi, x]
          rw [hcc, Function.update_self, Function.update_of_ne this, sub_self, smul_zero, add_zero, add_zero]
        · rw [if_neg hjn]
          have hp' : prevIx n j ≠ i := fun x => hjn (by rw [← x, nextIx_prevIx hj])
          by_cases hjp : j = prevIx n i
          · rw [if_pos hjp, hcc, Function.update_of_ne hp', hjp, hpn, Function.update_self, sub_self, smul_zero, zero_add, zero_add]
          · have hx' : nextIx n j ≠ i := fun x => hjp (by rw [← x, Surf.prevIx_nextIx' hj])
            rw [if_neg hjp, hcc, Function.update_of_ne hp', Function.update_of_ne hx', sub_self, sub_self]
            simp
    rw [Finset.sum_congr rfl hterm, Finset.sum_add_distrib, Finset.sum_ite_eq', Finset.sum_ite_eq', if_pos (Finset.mem_range.mpr hxi),
      if_pos (Finset.mem_range.mpr hpi), ← smul_add]

/-! ### A witness -/

/-- The segment from `p` to `q`, traversed with varying speed: `u + u²(1 - u)²` instead of `u`. -/
noncomputable def unevenSegment (p q : P3 ℝ) : Curve ℝ :=
  ⟨fun u => p + (u + u ^ 2 * (1 - u) ^ 2) • (q - p), fun u => (1 + 2 * u * (1 - u) * (1 - 2 * u)) • (q - p),
    fun a b => (b + b ^ 2 * (1 - b) ^ 2 - (a + a ^ 2 * (1 - a) ^ 2)) * (q - p).norm⟩

private theorem speed_pos {u : ℝ} (h0 : 0 ≤ u) (h1 : u ≤ 1) : 0 < 1 + 2 * u * (1 - u) * (1 - 2 * u) := by
  have a : 0 ≤ u * (1 - u) := mul_nonneg h0 (by linarith)
  have b : u * (1 - u) ≤ 1 / 4 := by nlinarith [sq_nonneg (u - 1 / 2)]
  nlinarith

private theorem advance {a b : ℝ} (h0 : 0 ≤ a) (h1 : a ≤ b) (h2 : b ≤ 1) :
    (b - a) / 2 ≤ b + b ^ 2 * (1 - b) ^ 2 - (a + a ^ 2 * (1 - a) ^ 2) := by
  have e : b + b ^ 2 * (1 - b) ^ 2 - (a + a ^ 2 * (1 - a) ^ 2) = (b - a) * (1 + (b * (1 - b) + a * (1 - a)) * (1 - a - b)) := by ring
  rw [e]
  have x : 0 ≤ b * (1 - b) := mul_nonneg (by linarith) (by linarith)
  have y : 0 ≤ a * (1 - a) := mul_nonneg h0 (by linarith)
  have x' : b * (1 - b) ≤ 1 / 4 := by nlinarith [sq_nonneg (b - 1 / 2)]
  have y' : a * (1 - a) ≤ 1 / 4 := by nlinarith [sq_nonneg (a - 1 / 2)]
  have : 1 / 2 ≤ 1 + (b * (1 - b) + a * (1 - a)) * (1 - a - b) := by nlinarith
  nlinarith

private theorem uneven_exact {p q : P3 ℝ} (hε : 0 < ε) (hε4 : ε ≤ 4) (h : 40000 * ε ≤ P3.dot (q - p) (q - p)) : ExactCurve ε (unevenSegment p q) := by
  have hne : q - p ≠ 0 := by
    intro h0
    rw [h0, P3.dot_zero_left] at h
    linarith
  have hd : ∀ a b, (unevenSegment p q).pt b - (unevenSegment p q).pt a = (b + b ^ 2 * (1 - b) ^ 2 - (a + a ^ 2 * (1 - a) ^ 2)) • (q - p) := by
    intro a b
    unfold unevenSegment
    dsimp only
    module
  have hn := P3.norm_mul_self (q - p)
  have hnp := P3.norm_pos hne
  have hT : ∀ a, 0 ≤ a → a ≤ 1 → unitTangent (unevenSegment p q) a = (q - p).norm⁻¹ • (q - p) := by
    intro a a0 a1
    unfold unitTangent unevenSegment
    dsimp only
    have hp := speed_pos a0 a1
    have e : ((1 + 2 * a * (1 - a) * (1 - 2 * a)) • (q - p)).norm = (1 + 2 * a * (1 - a) * (1 - 2 * a)) * (q - p).norm := by
      show Real.sqrt _ = _ * Real.sqrt _
      rw [P3.dot_smul_left, P3.dot_smul_right, ← mul_assoc, Real.sqrt_mul (mul_self_nonneg _), Real.sqrt_mul_self hp.le]
    rw [e, smul_smul]
    congr 1
    field_simp
  have hk : ∀ k < RMF.resolution, (0 : ℝ) ≤ k / (RMF.resolution : ℕ) ∧ (k : ℝ) / (RMF.resolution : ℕ) ≤ ((k + 1 : ℕ) : ℝ) / (RMF.resolution : ℕ) ∧
      ((k + 1 : ℕ) : ℝ) / (RMF.resolution : ℕ) ≤ 1 ∧ ((k + 1 : ℕ) : ℝ) / (RMF.resolution : ℕ) - k / (RMF.resolution : ℕ) = 1 / 100 := by
    intro k hk
    unfold RMF.resolution at hk ⊢
    have : (k : ℝ) + 1 ≤ 100 := by exact_mod_cast hk
    push_cast
    refine ⟨by positivity, by linarith, by linarith, by ring⟩
  have adv : ∀ k < RMF.resolution, (1 / 200 : ℝ) ≤ ((k + 1 : ℕ) : ℝ) / (RMF.resolution : ℕ) + (((k + 1 : ℕ) : ℝ) / (RMF.resolution : ℕ)) ^ 2 * (1 - ((k + 1 : ℕ) : ℝ) / (RMF.resolution : ℕ)) ^ 2 -
      ((k : ℝ) / (RMF.resolution : ℕ) + ((k : ℝ) / (RMF.resolution : ℕ)) ^ 2 * (1 - (k : ℝ) / (RMF.resolution : ℕ)) ^ 2) := by
    intro k h
    obtain ⟨a, b, c, d⟩ := hk k h
    have := advance a b c
    rw [d] at this
    linarith
  refine ⟨?_, ?_, ?_⟩
  · intro k hk'
    have h1 : (k : ℝ) / (RMF.resolution : ℕ) ≤ 1 := by
      unfold RMF.resolution at hk' ⊢
      have : (k : ℝ) ≤ 100 := by exact_mod_cast hk'
      push_cast
      linarith
    exact smul_ne_zero (speed_pos (by positivity) h1).ne' hne
  · intro k hk'
    obtain ⟨a, b, c, d⟩ := hk k hk'
    have w := adv k hk'
    rw [← sub_nonneg] at w
    apply ExactStep.of_forward hε
    · rw [hd, P3.dot_smul_left, P3.dot_smul_right]
      generalize ((k + 1 : ℕ) : ℝ) / (RMF.resolution : ℕ) + _ - _ = z at *
      have hz : 1 / 200 ≤ z := by linarith
      have hzz : 1 / 40000 ≤ z * z := by nlinarith
      have : 40000 * ε * (1 / 40000) ≤ P3.dot (q - p) (q - p) * (z * z) :=
        mul_le_mul h hzz (by norm_num) (le_trans (by linarith) h)
      nlinarith
    · rw [hd, hT _ a (b.trans c), hT _ (a.trans b) c]
      generalize ((k + 1 : ℕ) : ℝ) / (RMF.resolution : ℕ) + _ - _ = z at *
      simp only [P3.dot_smul_left, P3.dot_smul_right, P3.dot_add_left]
      rw [← hn]
      field_simp
      have : 0 < z := by linarith
      nlinarith [mul_pos hnp hnp, mul_pos this this]
  · apply ne_of_gt
    apply Finset.sum_pos
    · intro j hj
      have w := adv j (Finset.mem_range.mp hj)
      unfold unevenSegment
      dsimp only
      exact mul_pos (by linarith) hnp
    · exact ⟨0, by simp [RMF.resolution]⟩

/-- The square with one side traversed unevenly. -/
theorem uneven_good : GoodLoop (1 / 10000) 4 (Function.update squareLoop 1 (unevenSegment ⟨10, 0, 0⟩ ⟨10, 10, 0⟩)) := by
  have hne : ∀ j, j ≠ 1 → Function.update squareLoop 1 (unevenSegment ⟨10, 0, 0⟩ ⟨10, 10, 0⟩) j = squareLoop j :=
    fun j hj => Function.update_of_ne hj _ _
  have he : Function.update squareLoop 1 (unevenSegment ⟨10, 0, 0⟩ ⟨10, 10, 0⟩) 1 = unevenSegment ⟨10, 0, 0⟩ ⟨10, 10, 0⟩ := Function.update_self _ _ _
  have g := square_good
  refine ⟨by norm_num, ?_, ?_, ?_, ?_⟩
  · intro j hj
    interval_cases j
    · rw [hne 0 (by norm_num), he]; ext <;> norm_num [squareLoop, segment, unevenSegment]
    · rw [he, hne ((1 + 1) % 4) (by norm_num)]; ext <;> norm_num [squareLoop, segment, unevenSegment]
    · rw [hne 2 (by norm_num), hne ((2 + 1) % 4) (by norm_num)]; exact g.closed 2 (by norm_num)
    · rw [hne 3 (by norm_num), hne ((3 + 1) % 4) (by norm_num)]; exact g.closed 3 (by norm_num)
  · intro j hj s s0 s1
    by_cases h1 : j = 1
    · rw [h1, he]
      refine smul_ne_zero (speed_pos s0 s1).ne' ?_
      intro h
      have := congrArg P3.y h
      norm_num at this
    · rw [hne j h1]; exact g.regular j hj s s0 s1
  · intro j hj
    by_cases h1 : j = 1
    · rw [h1, he]
      exact uneven_exact (by norm_num) (by norm_num) (by norm_num [P3.dot])
    · rw [hne j h1]; exact g.exact j hj
  · intro j hj
    interval_cases j
    · rw [hne 0 (by norm_num), he]
      intro h
      have := congrArg P3.z h
      norm_num [squareLoop, segment, unevenSegment, P3.cross] at this
    · rw [he, hne ((1 + 1) % 4) (by norm_num)]
      intro h
      have := congrArg P3.z h
      norm_num [squareLoop, segment, unevenSegment, P3.cross] at this
    · rw [hne 2 (by norm_num), hne ((2 + 1) % 4) (by norm_num)]; exact g.corner 2 (by norm_num)
    · rw [hne 3 (by norm_num), hne ((3 + 1) % 4) (by norm_num)]; exact g.corner 3 (by norm_num)

/-- C39: there are a history of calls, a side and a curve such that, after `setCurve(i, ...)` and `setupLoop()`, both `update(i)` and `update()`
succeed but the surfaces have different points. -/
theorem C39_insufficient : ∃ (ε : ℝ) (kind : PatchKind) (cs : List (Call ℝ)) (i : ℕ) (c' : Curve ℝ) (P Q Q' : Patch ℝ) (uv : P2 ℝ) (p p' : P3 ℝ) (R R' : Patch ℝ),
    0 < ε ∧ (Patch.new kind).run ε (cs ++ [.update]) = .ok P ∧ P.run ε [.curve i c', .loop, .updateSide i] = .ok Q ∧
    P.run ε [.curve i c', .loop, .update] = .ok Q' ∧ Q.eval ε uv = .ok (p, R) ∧ Q'.eval ε uv = .ok (p', R') ∧ p ≠ p' := by
  obtain ⟨P, v, e, h, -, -⟩ := square_built .c0Coons
  obtain ⟨Q, Q', p, p', R, R', h1, h2, h3, h4, h5⟩ := C39_difference (by norm_num) (by norm_num) (by norm_num) (by norm_num) (by norm_num) uneven_good
    (by ext <;> norm_num [squareLoop, segment, unevenSegment]) (by ext <;> norm_num [squareLoop, segment, unevenSegment])
    (by ext <;> norm_num [squareLoop, segment, unevenSegment]) (by ext <;> norm_num [squareLoop, segment, unevenSegment]) h.1
  refine ⟨1 / 10000, .c0Coons, _, 1, _, P, Q, Q', 0, p, p', R, R', by norm_num, e, h1, h2, h3, h4, ?_⟩
  intro hp
  rw [hp, sub_self] at h5
  have := congrArg P3.y h5
  norm_num [squareLoop, segment, unevenSegment] at this

/-- The hypotheses of C39_difference hold for the square, with one side replaced by the same segment with uneven speed. -/
example : ∃ P : Patch ℝ, UpToDate (1 / 10000) .c0Coons 4 squareLoop P ∧ GoodLoop (1 / 10000) 4 (Function.update squareLoop 1 (unevenSegment ⟨10, 0, 0⟩ ⟨10, 10, 0⟩)) := by
  obtain ⟨P, v, e, h, -, -⟩ := square_built .c0Coons
  exact ⟨P, h.1, uneven_good⟩

end Transfinite
