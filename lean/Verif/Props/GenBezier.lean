import Verif.Lemmas.GenBezierState
import Verif.Lemmas.SideParams
import Verif.Lemmas.Total
import Verif.Lemmas.Regular

/-! # C42, C43: boundary interpolation and weights of Generalized Bézier patches -/

namespace Transfinite

open Spec Param

namespace GB

section real

variable {ε : ℝ} {arc : List (P3 ℝ) → ℝ → ℝ → ℝ} {n d : ℕ} {calls : List (Call ℝ)} {G : GB ℝ}

theorem Usable.domain (h : Usable ε arc .side n d calls G) (hn : 3 ≤ n) : ∃ v, ConvexDomain G.dom.dom n v := by
  obtain ⟨hi, hk, hdn, _, _⟩ := h.state (by omega)
  rcases hi.regular hk with q | ⟨vs, e1, e2⟩
  · omega
  · rw [hdn] at e1
    obtain ⟨r, φ, _, hd, _⟩ := regular_convex hn e1 e2
    exact ⟨_, hd⟩

theorem Usable.maps (h : Usable ε arc .side n d calls G) (hn : 3 ≤ n) {uv : P2 ℝ} {f : ℕ → P2 ℝ}
    (hf : ∀ j < n, baryMap ε .wachspress G.dom.dom j uv = .ok (f j)) : ∃ o, mapToRibbons ε G.kind.param uv G.param = .ok (tab n f, o) := by
  obtain ⟨hi, hk, hdn, _, _⟩ := h.state (by omega)
  refine (hi.param.resolve_left (by omega)).maps_of_raw (by rw [hi.len, hdn]) fun o _ j hj => ?_
  rw [hk]
  exact hf j hj

theorem Usable.onSide (h : Usable ε arc .side n d calls G) (hn : 3 ≤ n) (hε : 0 < ε) (hε1 : ε ≤ 1) {i : ℕ} (hi : i < n) {s : ℝ} (h0 : 0 ≤ s)
    (h1 : s ≤ 1) : ∃ uv f o, G.dom.dom.edgePoint i s = .ok uv ∧ mapToRibbons ε G.kind.param uv G.param = .ok (tab n f, o) ∧ OnSide ε n i s f := by
  obtain ⟨v, hd⟩ := h.domain hn
  obtain ⟨f, hf, hs, hfar⟩ := bary_sideParams hd hε hε1 hi h0 h1
  obtain ⟨o, ho⟩ := h.maps hn hf
  exact ⟨_, f, o, hd.edgePoint hi s, ho, hs.self, hs.next, hs.prevY, hs.prevX, hfar⟩

theorem eval_side {K : Type} [Field K] [LinearOrder K] [Libm K] {ε : K} {G : GB K} (hk : G.kind = .side) {uv : P2 K} {l : List (P2 K)} {o : Param.Obj K} {p : P3 K}
    (h1 : mapToRibbons ε G.kind.param uv G.param = .ok (l, o)) (h2 : G.sideEval ε l = .ok p) : ∃ G', G.eval ε uv = .ok (p, G') := by
  unfold eval
  rw [h1, M_bind_ok]
  unfold evalWith
  rw [hk]
  dsimp only
  rw [h2, M_bind_ok]
  exact ⟨_, rfl⟩

/-- C42: a patch of degree at least 2 interpolates the Bézier curves of the first rows of its network; here outside of the corner tolerance, for any
network (even with copies of points that differ), and for both variants of the rational weights. -/
theorem C42_side (hε : 0 < ε) (hε1 : ε ≤ 1 / 2) (hn : 3 ≤ n) (hd : 2 ≤ d) (h : Usable ε arc .side n d calls G) {i : ℕ} (hi : i < n) {s : ℝ} (h0 : ε ≤ s)
    (h1 : s ≤ 1 - ε) : ∃ uv cp G', G.dom.dom.edgePoint i s = .ok uv ∧ (∀ j ≤ d, G.controlPoint i j 0 = .ok (cp j)) ∧
      G.eval ε uv = .ok (bezier d cp s, G') := by
  obtain ⟨uv, f, o, e1, e2, hs⟩ := h.onSide hn hε (by linarith) hi (by linarith : 0 ≤ s) (by linarith)
  obtain ⟨_, hk, _, ⟨F, hF⟩, _⟩ := h.state (by omega)
  obtain ⟨G', e3⟩ := eval_side hk e2 (sideEval_side hε hε1 hn hF hd hi hs h0 (by linarith))
  exact ⟨uv, fun j => F i j 0, G', e1, fun j hj => hF.cpt hi hj (by omega), e3⟩

theorem Usable.consistent {kind : GBKind ℝ} (h : Usable ε arc kind n d calls G) (hn : 3 ≤ n) (hc : ∀ c ∈ calls, c.regular = true) :
    ∃ F, HasNet G n d F ∧ ∀ a b : Name, a.InRange n d → b.InRange n d → SamePoint n d a b → F a.side a.col a.row = F b.side b.col b.row := by
  obtain ⟨g, l, before, later, rfl, e, hb, hl, rfl, rfl⟩ := h
  rcases run_netOk hc (new_netOk _ g l) e with ⟨h0, _⟩ | q
  · omega
  · exact q

theorem samePoint_corner {n d i : ℕ} (hd : 1 ≤ d) (hi : i < n) : SamePoint n d ⟨i, d, 0⟩ ⟨nextIx n i, 0, 0⟩ := by
  refine Or.inr (Or.inr ⟨?_, ?_, ?_⟩)
  · dsimp only; omega
  · dsimp only; omega
  · dsimp only
    rw [Name.mk.injEq]
    exact ⟨(prevIx_nextIx hi).symm, by omega, rfl⟩

/-- C42 in the corner tolerance: the value is the corner control point. -/
theorem C42_corner (hε : 0 < ε) (hε1 : ε ≤ 1 / 2) (hn : 3 ≤ n) (hd : 1 ≤ d) (h : Usable ε arc .side n d calls G) (hc : ∀ c ∈ calls, c.regular = true)
    {i : ℕ} (hi : i < n) {s : ℝ} (h0 : 0 ≤ s) (h1 : s ≤ 1) :
    ∃ uv a b, G.dom.dom.edgePoint i s = .ok uv ∧ G.controlPoint i 0 0 = .ok a ∧ G.controlPoint i d 0 = .ok b ∧
      (s < ε → ∃ G', G.eval ε uv = .ok (a, G')) ∧ (1 - s < ε → ∃ G', G.eval ε uv = .ok (b, G')) := by
  obtain ⟨uv, f, o, e1, e2, hs⟩ := h.onSide hn hε (by linarith) hi h0 h1
  obtain ⟨_, hk, _, _, _⟩ := h.state (by omega)
  obtain ⟨F, hF, hcons⟩ := h.consistent hn hc
  have cons : ∀ i < n, F i d 0 = F (nextIx n i) 0 0 := fun i hi =>
    hcons ⟨i, d, 0⟩ ⟨nextIx n i, 0, 0⟩ ⟨hi, le_rfl, by dsimp only; omega⟩ ⟨nextIx_lt (by omega), Nat.zero_le _, by dsimp only; omega⟩
      (samePoint_corner hd hi)
  have hp : prevIx n i < n := prevIx_lt (by omega)
  refine ⟨uv, F i 0 0, F i d 0, e1, hF.cpt hi (by omega) (by omega), hF.cpt hi le_rfl (by omega), fun q => ?_, fun q => ?_⟩
  · refine eval_side hk e2 (sideEval_corner hε hF hd hp ?_ (fun j hj hne => ?_) ?_ ?_)
    · rw [nextIx_prevIx hi, hs.self, hs.prevY]
      dsimp only
      linarith
    · rcases onSide_corners hε hε1 hn hi hs h0 h1 hj with w | ⟨_, w⟩ | ⟨w, _⟩
      · exact w
      · linarith
      · exact absurd w hne
    · rw [cons _ hp, nextIx_prevIx hi]
    · rw [nextIx_prevIx hi]
  · refine eval_side hk e2 (sideEval_corner hε hF hd hi ?_ (fun j hj hne => ?_) rfl (cons i hi).symm)
    · rw [hs.self, hs.next]
      dsimp only
      linarith
    · rcases onSide_corners hε hε1 hn hi hs h0 h1 hj with w | ⟨w, _⟩ | ⟨_, w⟩
      · exact w
      · exact absurd w hne
      · linarith

/-- Calls that change neither the network nor the curves. -/
def Call.query : Call ℝ → Bool
  | .eval _ => true
  | .weight _ _ _ _ => true
  | .central _ => true
  | .squared _ => true
  | _ => false

theorem step_query {ε : ℝ} {G G' : GB ℝ} {c : Call ℝ} (hc : c.query = true) (e : G.step ε arc c = .ok G') :
    G'.curves = G.curves ∧ G'.nets = G.nets ∧ G'.n = G.n ∧ G'.degree = G.degree := by
  cases c with
  | central p => cases e; exact ⟨rfl, rfl, rfl, rfl⟩
  | squared b => cases e; exact ⟨rfl, rfl, rfl, rfl⟩
  | eval uv =>
    obtain ⟨r, e1, e⟩ := bind_ok (show (G.eval ε uv >>= fun r => .ok r.2) = .ok G' from e)
    cases e
    have k := eval_keeps e1
    refine ⟨?_, k.nets, k.n_eq, k.degree⟩
    unfold eval at e1
    obtain ⟨x, _, e1⟩ := bind_ok e1
    obtain ⟨p, _, e1⟩ := bind_ok e1
    cases e1
    rfl
  | weight i j k uv =>
    obtain ⟨r, e1, e⟩ := bind_ok (show (G.weight ε i j k uv >>= fun r => .ok r.2) = .ok G' from e)
    cases e
    have k := weight_keeps e1
    refine ⟨?_, k.nets, k.n_eq, k.degree⟩
    unfold weight at e1
    split at e1
    · split_ifs at e1
      · cases e1; rfl
      · obtain ⟨x, _, e1⟩ := bind_ok e1
        obtain ⟨p, _, e1⟩ := bind_ok e1
        cases e1; rfl
    · obtain ⟨x, _, e1⟩ := bind_ok e1
      obtain ⟨p, _, e1⟩ := bind_ok e1
      cases e1; rfl
  | _ => cases hc

theorem run_query {ε : ℝ} {G G' : GB ℝ} {cs : List (Call ℝ)} (hc : ∀ c ∈ cs, c.query = true) (e : G.run ε arc cs = .ok G') :
    G'.curves = G.curves ∧ G'.nets = G.nets ∧ G'.n = G.n ∧ G'.degree = G.degree := by
  induction cs generalizing G with
  | nil => cases e; exact ⟨rfl, rfl, rfl, rfl⟩
  | cons c cs ih =>
    unfold run at e
    obtain ⟨G1, e1, e⟩ := bind_ok e
    obtain ⟨a1, a2, a3, a4⟩ := step_query (hc c (by simp)) e1
    obtain ⟨b1, b2, b3, b4⟩ := ih (fun x hx => hc x (List.mem_cons_of_mem _ hx)) e
    exact ⟨b1.trans a1, b2.trans a2, b3.trans a3, b4.trans a4⟩

theorem boundary_eq {K : Type} [Field K] [LinearOrder K] [Libm K] {G : GB K} {n d : ℕ} {F : ℕ → ℕ → ℕ → P3 K} (h : HasNet G n d F) (hd : 1 ≤ d)
    {i : ℕ} (hi : i < n) : G.boundary i = .ok (tab (d + 1) fun j => F i j 0) := by
  unfold boundary
  rw [h.degree]
  refine (forLoop_push (d + 1) _ (fun j => F i j 0) [] fun j l hj => ?_).trans rfl
  rw [h.cpt hi (by omega) (by omega), M_bind_ok]

theorem bezierCurve_pt {K : Type} [Field K] (arc : List (P3 K) → K → K → K) (d : ℕ) (p : ℕ → P3 K) (u : K) :
    (bezierCurve arc (tab (d + 1) p)).pt u = bezier d p u := by
  unfold bezierCurve
  dsimp only
  rw [length_tab, Nat.add_sub_cancel]
  unfold bezier
  apply Finset.sum_congr rfl
  intro j hj
  rw [Finset.mem_range] at hj
  congr 1
  simp [tab, List.getD, hj]

/-- The boundary curves of a consistent network form a loop, so `setupLoop` does not reverse any of them. -/
theorem loop_curves {G G' : GB ℝ} {F : ℕ → ℕ → ℕ → P3 ℝ} (h : HasNet G n d F) (hd : 1 ≤ d)
    (hcons : ∀ a b : Name, a.InRange n d → b.InRange n d → SamePoint n d a b → F a.side a.col a.row = F b.side b.col b.row)
    (e : G.setupLoop arc = .ok G') : G'.curves = tab n fun i => bezierCurve arc (tab (d + 1) fun j => F i j 0) := by
  obtain ⟨curves, cs, e1, e2, e3, e4⟩ := setupLoop_parts e
  rw [(updateDomain_keeps e4).2]
  change cs = _
  have hcur : curves = tab n fun i => bezierCurve arc (tab (d + 1) fun j => F i j 0) := by
    rw [h.n_eq] at e1
    rw [forLoop_push n _ (fun i => bezierCurve arc (tab (d + 1) fun j => F i j 0)) [] (fun i l hi => by rw [boundary_eq h hd hi, M_bind_ok])] at e1
    exact (Except.ok.inj e1).symm
  rw [hcur, C26_oriented] at e2
  · exact (Except.ok.inj e2).symm
  · intro i hi
    rw [bezierCurve_pt, bezierCurve_pt]
    unfold bezier
    rw [Finset.sum_eq_single d, Finset.sum_eq_single 0, bern_at_one le_rfl, bern_at_zero, if_pos rfl, if_pos rfl, one_smul, one_smul]
    · exact hcons ⟨i, d, 0⟩ ⟨nextIx n i, 0, 0⟩ ⟨hi, le_rfl, by dsimp only; omega⟩ ⟨nextIx_lt (by omega), Nat.zero_le _, by dsimp only; omega⟩
        (samePoint_corner hd hi)
    · intro j _ hj; rw [bern_at_zero, if_neg hj, zero_smul]
    · simp
    · intro j hj hne; rw [Finset.mem_range] at hj; rw [bern_at_one (by omega), if_neg hne, zero_smul]
    · simp

/-- C42 in terms of the curves that `setupLoop` gives to the ribbons: on side `i` the patch interpolates the curve of ribbon `i`. -/
theorem C42_curve (hε : 0 < ε) (hε1 : ε ≤ 1 / 2) (hn : 3 ≤ n) (hd : 2 ≤ d) {g l : ℕ} {before later : List (Call ℝ)}
    (h : (GB.new .side g l).run ε arc (before ++ .loop :: later) = .ok G) (hb : ∀ c ∈ before, c.regular = true) (hl : ∀ c ∈ later, c.query = true)
    (hGn : G.n = n) (hGd : G.degree = d) {i : ℕ} (hi : i < n) {s : ℝ} (h0 : 0 ≤ s) (h1 : s ≤ 1) :
    ∃ c uv p G', vget G.curves i = .ok c ∧ G.dom.dom.edgePoint i s = .ok uv ∧ G.eval ε uv = .ok (p, G') ∧
      (ε ≤ s → s ≤ 1 - ε → p = c.pt s) ∧ (s < ε → p = c.pt 0) ∧ (1 - s < ε → p = c.pt 1) := by
  have hreg : ∀ c ∈ before ++ .loop :: later, c.regular = true := by
    intro c hc
    rcases List.mem_append.mp hc with q | q
    · exact hb c q
    · rcases List.mem_cons.mp q with rfl | q
      · rfl
      · have := hl c q
        cases c <;> first | rfl | cases this
  have hu : Usable ε arc .side n d (before ++ .loop :: later) G := by
    refine ⟨g, l, before, later, rfl, h, fun c hc => ?_, fun c hc => ?_, hGn, hGd⟩
    · have := hb c hc
      cases c <;> first | rfl | cases this
    · have := hl c hc
      cases c <;> first | rfl | cases this
  obtain ⟨G0, e0, e1⟩ := run_split h
  unfold run at e1
  obtain ⟨G1, e1, e2⟩ := bind_ok e1
  have e1 : G0.setupLoop arc = .ok G1 := e1
  have k1 := setupLoop_keeps e1
  obtain ⟨k2, k3, k4, k5⟩ := run_query hl e2
  have n0 : G0.n = n := by rw [← k1.n_eq, ← k4, hGn]
  have d0 : G0.degree = d := by rw [← k1.degree, ← k5, hGd]
  rcases run_netOk hb (new_netOk _ g l) e0 with ⟨h0, _⟩ | ⟨F, hF, hcons⟩
  · omega
  rw [n0, d0] at hF hcons
  have hcur := loop_curves hF (by omega) hcons e1
  rw [← k2] at hcur
  have hcp : ∀ j ≤ d, ∀ {q}, G.controlPoint i j 0 = .ok q → q = F i j 0 := by
    intro j hj q hq
    have e : G.controlPoint i j 0 = .ok (F i j 0) := by
      unfold controlPoint
      rw [k3, k1.nets]
      exact hF.cpt hi hj (by omega)
    rw [hq] at e
    exact Except.ok.inj e
  refine ⟨bezierCurve arc (tab (d + 1) fun j => F i j 0), ?_⟩
  obtain ⟨uv, a, b, w1, w2, w3, w4, w5⟩ := C42_corner hε hε1 hn (by omega) hu hreg hi h0 h1
  have ends : bezier d (fun j => F i j 0) (0 : ℝ) = F i 0 0 ∧ bezier d (fun j => F i j 0) (1 : ℝ) = F i d 0 := by
    unfold bezier
    constructor
    · rw [Finset.sum_eq_single 0, bern_at_zero, if_pos rfl, one_smul]
      · intro j _ hj; rw [bern_at_zero, if_neg hj, zero_smul]
      · simp
    · rw [Finset.sum_eq_single d, bern_at_one le_rfl, if_pos rfl, one_smul]
      · intro j hj hne; rw [Finset.mem_range] at hj; rw [bern_at_one (by omega), if_neg hne, zero_smul]
      · simp
  have ea := hcp 0 (by omega) w2
  have eb := hcp d le_rfl w3
  rw [bezierCurve_pt, bezierCurve_pt, bezierCurve_pt, ends.1, ends.2]
  rcases lt_or_ge s ε with q | q
  · obtain ⟨G', w⟩ := w4 q
    exact ⟨uv, _, G', by rw [hcur, vget_tab _ hi], w1, w, fun _ _ => by linarith, fun _ => ea, fun _ => by linarith⟩
  · rcases lt_or_ge (1 - s) ε with q' | q'
    · obtain ⟨G', w⟩ := w5 q'
      exact ⟨uv, _, G', by rw [hcur, vget_tab _ hi], w1, w, fun _ _ => by linarith, fun _ => by linarith, fun _ => eb⟩
    · obtain ⟨uv', cp, G', u1, u2, u3⟩ := C42_side hε hε1 hn hd hu hi q (by linarith)
      rw [w1] at u1
      cases u1
      refine ⟨uv, _, G', by rw [hcur, vget_tab _ hi], w1, u3, fun _ _ => ?_, fun _ => by linarith, fun _ => by linarith⟩
      unfold bezier
      apply Finset.sum_congr rfl
      intro j hj
      rw [Finset.mem_range] at hj
      rw [hcp j (by omega) (u2 j (by omega))]

/-! ### C43 -/

theorem wt_nonneg {K : Type} [Field K] [LinearOrder K] [IsStrictOrderedRing K] (sq : Bool) {n d : ℕ} {f : ℕ → P2 K} (hf : Surf.InSquare n f) {i : ℕ}
    (hi : i < n) (j k : ℕ) : 0 ≤ wt sq n d f i j k := by
  have rat : ∀ {x y : K}, 0 ≤ x → 0 ≤ y → 0 ≤ ratVal sq x y := by
    intro x y hx hy
    unfold ratVal
    split_ifs
    · exact div_nonneg (mul_self_nonneg _) (add_nonneg (mul_self_nonneg _) (mul_self_nonneg _))
    · exact div_nonneg hx (add_nonneg hx hy)
  have h1 := hf i hi
  have h2 := hf (prevIx n i) (prevIx_lt (by omega))
  have h3 := hf (nextIx n i) (nextIx_lt (by omega))
  have b := mul_nonneg (bern_nonneg d j h1.1 h1.2.1) (bern_nonneg d k h1.2.2.1 h1.2.2.2)
  have ra := rat h2.2.2.1 h1.2.2.1
  have rb := rat h3.2.2.1 h1.2.2.1
  unfold wt factor
  split_ifs
  · exact mul_nonneg b ra
  · exact mul_nonneg b rb
  · exact mul_nonneg b (by norm_num)
  · exact le_rfl
  · exact b

/-- C43: in every point of the domain where no two consecutive side distances are both near zero, `eval` and `weight` succeed and the value is the sum of
all control points with these weights, the central point taking the remaining weight; the weights are not negative. -/
theorem C43_sum (hε : 0 < ε) (hε1 : ε ≤ 1) (hn : 3 ≤ n) (h : Usable ε arc .side n d calls G) {v : ℕ → P2 ℝ} (hv : G.dom.dom.vertices = tab n v) {uv : P2 ℝ}
    (hin : InsideClosed n v uv) : ∃ f o, mapToRibbons ε G.kind.param uv G.param = .ok (tab n f, o) ∧
      ((∀ i < n, ε ≤ (f i).y + (f ((i + 1) % n)).y) → ∃ W cp p G', G.eval ε uv = .ok (p, G') ∧
        (∀ i < n, ∀ j ≤ d, ∀ k < (d + 1) / 2, Prod.fst <$> G.weight ε i j k uv = .ok (W i j k) ∧ G.controlPoint i j k = .ok (cp i j k) ∧ 0 ≤ W i j k) ∧
        p = weightedSum n d W cp G.central) := by
  obtain ⟨w, hd⟩ := h.domain hn
  have hin' : InsideClosed n w uv := by
    intro i hi
    have e := hv.symm.trans hd.vertices_eq
    have := hin i hi
    unfold leftOf at this ⊢
    rw [← tab_inj e hi, ← tab_inj e (Nat.mod_lt _ (by omega))]
    exact this
  obtain ⟨f, hf, hsq⟩ := bary_total hd hε hε1 hin'
  obtain ⟨o, ho⟩ := h.maps hn hf
  refine ⟨f, o, ho, fun hc => ?_⟩
  obtain ⟨_, hk, _, ⟨F, hF⟩, _⟩ := h.state (by omega)
  obtain ⟨G', e⟩ := eval_side hk ho (sideEval_eq hε hF hc)
  refine ⟨wt G.squared n d f, F, _, G', e, fun i hi j hj k hk' => ⟨?_, hF.cpt hi hj hk', wt_nonneg _ hsq hi j k⟩, rfl⟩
  have hp := hc (prevIx n i) (prevIx_lt (by omega))
  exact weight_eq hε hF hk ho hi hj hk' (hc i hi) (by change ε ≤ _ + (f (nextIx n (prevIx n i))).y at hp; rwa [nextIx_prevIx hi] at hp)

/-- C43 exactly in a corner of a consistent network: the two names of the corner point have weight 1/2, all other weights are 0. -/
theorem C43_corner (hε : 0 < ε) (hε1 : ε ≤ 1 / 2) (hn : 3 ≤ n) (hd : 1 ≤ d) (h : Usable ε arc .side n d calls G) (hc : ∀ c ∈ calls, c.regular = true)
    {i : ℕ} (hi : i < n) : ∃ uv W cp p G', G.dom.dom.edgePoint i 0 = .ok uv ∧ G.eval ε uv = .ok (p, G') ∧
      (∀ i < n, ∀ j ≤ d, ∀ k < (d + 1) / 2, Prod.fst <$> G.weight ε i j k uv = .ok (W i j k) ∧ G.controlPoint i j k = .ok (cp i j k) ∧ 0 ≤ W i j k) ∧
      p = weightedSum n d W cp G.central := by
  obtain ⟨uv, f, o, e1, e2, hs⟩ := h.onSide hn hε (by linarith) hi le_rfl zero_le_one
  obtain ⟨_, hk, _, _, _⟩ := h.state (by omega)
  obtain ⟨F, hF, hcons⟩ := h.consistent hn hc
  obtain ⟨uv', a, b, e1', ea, _, e3, _⟩ := C42_corner hε hε1 hn hd h hc hi le_rfl zero_le_one
  rw [e1] at e1'
  cases e1'
  obtain ⟨G', e3⟩ := e3 hε
  have ha : a = F i 0 0 := Except.ok.inj (ea.symm.trans (hF.cpt hi (by omega) (by omega)))
  have hp : prevIx n i < n := prevIx_lt (by omega)
  have hpi : prevIx n i ≠ i := by
    unfold prevIx
    rcases Nat.eq_zero_or_pos i with q | q
    · subst q; rw [Nat.zero_add, Nat.mod_eq_of_lt (by omega)]; omega
    · rw [show i + n - 1 = (i - 1) + n by omega, Nat.add_mod_right, Nat.mod_eq_of_lt (by omega)]; omega
  have hy : ∀ j < n, j ≠ i → j ≠ prevIx n i → (f j).y = 1 := by
    intro j hj h1 h2
    rcases onSide_y hs hj with ⟨_, q⟩ | ⟨q, _⟩ | ⟨_, q⟩ | ⟨q, _⟩
    · exact absurd q h1
    · rw [q, sub_zero]
    · exact absurd q h2
    · exact q
  have hy0 : ∀ j < n, 0 ≤ (f j).y := by
    intro j hj
    rcases onSide_y hs hj with ⟨q, _⟩ | ⟨q, _⟩ | ⟨q, _⟩ | ⟨q, _⟩ <;> rw [q] <;> norm_num
  set W : ℕ → ℕ → ℕ → ℝ := fun i' j k => if i' = i ∧ j = 0 ∧ k = 0 then 1 / 2 else if i' = prevIx n i ∧ j = d ∧ k = 0 then 1 / 2 else 0 with hW
  have guard : ∀ {i' j k : ℕ}, G.sideWeight ε i' j k (tab n f) = .ok (W i' j k) → (k ≠ 0 → W i' j k = 0) →
      Prod.fst <$> G.weight ε i' j k uv = .ok (W i' j k) := by
    intro i' j k q1 q2
    unfold weight
    rw [hk] at e2 ⊢
    dsimp only
    split_ifs with hz
    · rw [q2 (by omega)]; rfl
    · rw [e2, M_bind_ok, q1]; rfl
  refine ⟨uv, W, F, a, G', e1, e3, fun i' hi' j hj k hk' => ⟨guard ?_ ?_, hF.cpt hi' hj hk', ?_⟩, ?_⟩
  · by_cases a1 : i' = i
    · subst a1
      unfold sideWeight
      rw [hF.n_eq, hF.degree, vget_tab _ hi', M_bind_ok, vget_tab _ hp, M_bind_ok, vget_tab _ (nextIx_lt (by omega)), M_bind_ok, hs.self, hs.next, hs.prevY,
        if_neg (by dsimp only; linarith), if_pos (by dsimp only; linarith)]
      simp only [hW, true_and]
      congr 1
      by_cases q : j = 0 ∧ k = 0
      · rw [if_pos q, if_pos q]
      · rw [if_neg q, if_neg q, if_neg (fun w => hpi w.1.symm)]
    · by_cases a2 : i' = prevIx n i
      · subst a2
        unfold sideWeight
        rw [hF.n_eq, hF.degree, vget_tab _ hp, M_bind_ok, vget_tab _ (prevIx_lt (by omega)), M_bind_ok, vget_tab _ (nextIx_lt (by omega)), M_bind_ok,
          nextIx_prevIx hi, hs.self, hs.prevY, if_pos (by dsimp only; linarith)]
        simp only [hW, true_and]
        congr 1
        rw [if_neg (fun w : prevIx n i = i ∧ _ => hpi w.1)]
      · have y1 := hy i' hi' a1 a2
        rw [hW]
        dsimp only
        rw [if_neg (fun w => a1 w.1), if_neg (fun w => a2 w.1)]
        have b0 : bern d k (1 : ℝ) = 0 := by rw [bern_at_one (by omega), if_neg (by omega)]
        unfold sideWeight
        have yn := hy0 (nextIx n i') (nextIx_lt (by omega))
        have yp := hy0 (prevIx n i') (prevIx_lt (by omega))
        rw [hF.n_eq, hF.degree, vget_tab _ hi', M_bind_ok, vget_tab _ (prevIx_lt (by omega)), M_bind_ok, vget_tab _ (nextIx_lt (by omega)), M_bind_ok, y1,
          if_neg (by linarith), if_neg (by linarith), bernsteinOne_eq hj, M_bind_ok, bernsteinOne_eq (by omega), M_bind_ok, b0, mul_zero]
        dsimp only
        rw [rationalWeight_eq hε (by linarith), rationalWeight_eq hε (by linarith)]
        simp
  · intro k0
    rw [hW]
    dsimp only
    rw [if_neg (fun w => k0 w.2.2), if_neg (fun w => k0 w.2.2)]
  · rw [hW]
    dsimp only
    split_ifs <;> norm_num
  · have hl : 0 < (d + 1) / 2 := by omega
    have key : ∀ {V : Type} [AddCommGroup V] [Module ℝ V] (P : ℕ → ℕ → ℕ → V), (∑ i' ∈ Finset.range n, ∑ k ∈ Finset.range ((d + 1) / 2),
        ∑ j ∈ Finset.range (d + 1), W i' j k • P i' j k) = (1 / 2 : ℝ) • P i 0 0 + (1 / 2 : ℝ) • P (prevIx n i) d 0 := by
      intro V _ _ P
      rw [← Finset.sum_erase_add _ _ (Finset.mem_range.mpr hi), ← Finset.sum_erase_add _ _ (Finset.mem_erase.mpr ⟨hpi, Finset.mem_range.mpr hp⟩),
        Finset.sum_eq_zero, zero_add, add_comm]
      · congr 1
        · rw [Finset.sum_eq_single 0, Finset.sum_eq_single 0]
          · simp [hW]
          · intro j _ hj
            simp [hW, hj, hpi.symm]
          · simp
          · intro k _ hk0
            apply Finset.sum_eq_zero
            intro j _
            simp [hW, hk0]
          · intro q; exact absurd (Finset.mem_range.mpr hl) q
        · rw [Finset.sum_eq_single 0, Finset.sum_eq_single d]
          · simp [hW, hpi]
          · intro j _ hj
            simp [hW, hj, hpi]
          · simp
          · intro k _ hk0
            apply Finset.sum_eq_zero
            intro j _
            simp [hW, hk0]
          · intro q; exact absurd (Finset.mem_range.mpr hl) q
      · intro i' hi'
        rw [Finset.mem_erase, Finset.mem_erase] at hi'
        apply Finset.sum_eq_zero
        intro k _
        apply Finset.sum_eq_zero
        intro j _
        simp [hW, hi'.1, hi'.2.1]
    have e4 := key (V := ℝ) (fun _ _ _ => 1)
    simp only [smul_eq_mul, mul_one] at e4
    have ec : F (prevIx n i) d 0 = F i 0 0 := by
      have := hcons ⟨prevIx n i, d, 0⟩ ⟨nextIx n (prevIx n i), 0, 0⟩ ⟨hp, le_rfl, hl⟩ ⟨nextIx_lt (by omega), Nat.zero_le _, hl⟩ (samePoint_corner hd hp)
      dsimp only at this
      rwa [nextIx_prevIx hi] at this
    unfold weightedSum
    rw [key, e4, ec, ha, ← add_smul]
    norm_num

end real

/-! ### Affine invariance -/

section affine

variable {K : Type} [Field K] [LinearOrder K] [Libm K]

/-- The object with all control points (also the central one) moved by `A`. -/
def mapPoints (A : P3 K → P3 K) (G : GB K) : GB K := { G with nets := G.nets.map (List.map (List.map A)), central := A G.central }

theorem vget_map' {α β : Type} (f : α → β) (l : List α) (i : ℕ) : vget (l.map f) i = f <$> vget l i := by
  by_cases h : i < l.length
  · rw [vget_of_lt h, vget_of_lt (by simpa using h)]
    simp
  · rw [vget_oob (l := l.map f) (by rw [List.length_map]; omega), vget_oob (l := l) (by omega)]
    rfl

theorem cpt_map (A : P3 K → P3 K) (nets : List (List (List (P3 K)))) (i j k : ℕ) :
    cpt (nets.map (List.map (List.map A))) i j k = A <$> cpt nets i j k := by
  unfold cpt
  rw [vget_map']
  cases vget nets i with
  | error e => rfl
  | ok a =>
    change (vget (a.map (List.map A)) j >>= fun b => vget b k) = A <$> (vget a j >>= fun b => vget b k)
    rw [vget_map']
    cases vget a j with
    | error e => rfl
    | ok b => exact vget_map' A b k

theorem forLoop_sim {σ τ : Type} (T : σ → τ) {m : ℕ} {body : ℕ → σ → M σ} {body' : ℕ → τ → M τ} (h : ∀ i s, body' i (T s) = T <$> body i s) (s : σ) :
    forLoop m body' (T s) = T <$> forLoop m body s := by
  induction m with
  | zero => rfl
  | succ m ih =>
    rw [forLoop_succ, forLoop_succ, ih]
    cases forLoop m body s with
    | error e => rfl
    | ok r => exact h m r

/-- The effect on a sum of weighted points. -/
def sumMap (L : P3 K →ₗ[K] P3 K) (t : P3 K) (st : P3 K × K) : P3 K × K := (L st.1 + st.2 • t, st.2)

theorem sum_map_step (L : P3 K →ₗ[K] P3 K) (t : P3 K) (st : P3 K × K) (w : K) (p : P3 K) :
    sumMap L t (st.1 + w • p, st.2 + w) = ((sumMap L t st).1 + w • (L p + t), (sumMap L t st).2 + w) := by
  unfold sumMap
  dsimp only
  rw [map_add, map_smul]
  congr 1
  module

theorem sideSum_map (L : P3 K →ₗ[K] P3 K) (t : P3 K) (G : GB K) (i : ℕ) (a b : K) (bs bd : List K) (st : P3 K × K) :
    (G.mapPoints fun p => L p + t).sideSum i a b bs bd (sumMap L t st) = sumMap L t <$> G.sideSum i a b bs bd st := by
  unfold sideSum
  refine forLoop_sim _ (fun k s => forLoop_sim _ (fun j s => ?_) s) st
  cases vget bs j with
  | error e => rfl
  | ok x =>
    rw [M_bind_ok, M_bind_ok]
    cases vget bd k with
    | error e => rfl
    | ok y =>
      rw [M_bind_ok, M_bind_ok]
      change (cpt (G.nets.map _) i j k >>= _) = _
      rw [cpt_map]
      cases cpt G.nets i j k with
      | error e => rfl
      | ok p =>
        change Except.ok _ = Except.ok _
        rw [sum_map_step]
        rfl

/-- The effect on the state of the evaluation. -/
def stMap (L : P3 K →ₗ[K] P3 K) (t : P3 K) : P3 K ⊕ P3 K × K → P3 K ⊕ P3 K × K
  | .inl p => .inl (L p + t)
  | .inr st => .inr (sumMap L t st)

theorem evalSide_map (ε : K) (L : P3 K →ₗ[K] P3 K) (t : P3 K) (G : GB K) (sds : List (P2 K)) (i : ℕ) (st : P3 K ⊕ P3 K × K) :
    (G.mapPoints fun p => L p + t).evalSide ε sds i (stMap L t st) = stMap L t <$> G.evalSide ε sds i st := by
  cases st with
  | inl p => rfl
  | inr st =>
    unfold evalSide stMap
    dsimp only
    change (vget sds i >>= _) = _ <$> (vget sds i >>= _)
    cases vget sds i with
    | error e => rfl
    | ok sd =>
      rw [M_bind_ok, M_bind_ok]
      change (vget sds (prevIx G.n i) >>= _) = _
      cases vget sds (prevIx G.n i) with
      | error e => rfl
      | ok sp =>
        rw [M_bind_ok, M_bind_ok]
        change (vget sds (nextIx G.n i) >>= _) = _
        cases vget sds (nextIx G.n i) with
        | error e => rfl
        | ok sn =>
          rw [M_bind_ok, M_bind_ok]
          split_ifs with h1 h2
          · change (cpt (G.nets.map _) i G.degree 0 >>= _) = _
            rw [cpt_map]
            cases cpt G.nets i G.degree 0 <;> rfl
          · change (cpt (G.nets.map _) i 0 0 >>= _) = _
            rw [cpt_map]
            cases cpt G.nets i 0 0 <;> rfl
          · change (rational G.squared sp.y sd.y >>= _) = _
            cases rational G.squared sp.y sd.y with
            | error e => rfl
            | ok al =>
              rw [M_bind_ok, M_bind_ok]
              change (rational G.squared sn.y sd.y >>= _) = _
              cases rational G.squared sn.y sd.y with
              | error e => rfl
              | ok be =>
                rw [M_bind_ok, M_bind_ok]
                change (bernsteinAll G.degree sd.x >>= _) = _
                cases bernsteinAll G.degree sd.x with
                | error e => rfl
                | ok bs =>
                  rw [M_bind_ok, M_bind_ok]
                  change (bernsteinAll G.degree sd.y >>= _) = _
                  cases bernsteinAll G.degree sd.y with
                  | error e => rfl
                  | ok bd =>
                    rw [M_bind_ok, M_bind_ok, sideSum_map]
                    cases G.sideSum i al be bs bd st <;> rfl

theorem cornerStep_map (L : P3 K →ₗ[K] P3 K) (t : P3 K) (G : GB K) (sds : List (P2 K)) (i : ℕ) (st : P3 K × K) :
    (G.mapPoints fun p => L p + t).cornerStep sds i (sumMap L t st) = sumMap L t <$> G.cornerStep sds i st := by
  unfold cornerStep
  change (vget sds i >>= _) = _ <$> (vget sds i >>= _)
  cases vget sds i with
  | error e => rfl
  | ok sd =>
    rw [M_bind_ok, M_bind_ok]
    change (vget sds (nextIx G.n i) >>= _) = _
    cases vget sds (nextIx G.n i) with
    | error e => rfl
    | ok sn =>
      rw [M_bind_ok, M_bind_ok]
      change (bernsteinAll G.degree sd.y >>= _) = _
      cases bernsteinAll G.degree sd.y with
      | error e => rfl
      | ok bd =>
        rw [M_bind_ok, M_bind_ok]
        change (bernsteinAll G.degree sn.y >>= _) = _
        cases bernsteinAll G.degree sn.y with
        | error e => rfl
        | ok bn =>
          rw [M_bind_ok, M_bind_ok]
          refine forLoop_sim _ (fun j s => forLoop_sim _ (fun k s => ?_) s) st
          cases vget bn j with
          | error e => rfl
          | ok x =>
            rw [M_bind_ok, M_bind_ok]
            cases vget bd k with
            | error e => rfl
            | ok y =>
              rw [M_bind_ok, M_bind_ok]
              change (cpt (G.nets.map _) i (usub G.degree j) k >>= _) = _
              rw [cpt_map]
              cases cpt G.nets i (usub G.degree j) k with
              | error e => rfl
              | ok p =>
                change Except.ok _ = Except.ok _
                rw [sum_map_step]

/-- C43, affine invariance, in every state of an object of either class and at every point: moving all control points by an affine map moves the point of
the surface by the same map (and the evaluation fails in the same cases). -/
theorem C43_affine (ε : K) (L : P3 K →ₗ[K] P3 K) (t : P3 K) (G : GB K) (uv : P2 K) :
    Prod.fst <$> (G.mapPoints fun p => L p + t).eval ε uv = (fun p => L p + t) <$> Prod.fst <$> G.eval ε uv := by
  unfold eval
  change Prod.fst <$> (mapToRibbons ε G.kind.param uv G.param >>= _) = _
  cases mapToRibbons ε G.kind.param uv G.param with
  | error e => rfl
  | ok r =>
    rw [M_bind_ok, M_bind_ok]
    have key : (G.mapPoints fun p => L p + t).evalWith ε r.1 = (fun p => L p + t) <$> G.evalWith ε r.1 := by
      unfold evalWith
      change (match G.kind with | .side => _ | .corner _ => _) = _
      cases G.kind with
      | side =>
        dsimp only
        unfold sideEval
        have e := forLoop_sim (stMap L t) (m := G.n) (evalSide_map ε L t G r.1) (.inr (0, 0))
        have e0 : stMap L t (.inr (0, 0)) = .inr (0, 0) := by simp [stMap, sumMap]
        rw [e0] at e
        change (forLoop G.n _ _ >>= _) = _
        rw [e]
        cases forLoop G.n (G.evalSide ε r.1) (.inr (0, 0)) with
        | error e => rfl
        | ok st =>
          change Except.ok _ = Except.ok _
          congr 1
          cases st with
          | inl p => rfl
          | inr st =>
            change L st.1 + st.2 • t + (1 - st.2) • (L G.central + t) = L (st.1 + (1 - st.2) • G.central) + t
            rw [map_add, map_smul]
            module
      | corner f =>
        dsimp only
        unfold cornerEval
        have e := forLoop_sim (sumMap L t) (m := G.n) (cornerStep_map L t G r.1) (0, 0)
        have e0 : sumMap L t (0, 0) = (0, 0) := by simp [sumMap]
        rw [e0] at e
        change (forLoop G.n _ _ >>= _) = _
        rw [e]
        cases forLoop G.n (G.cornerStep r.1) (0, 0) with
        | error e => rfl
        | ok st =>
          change Except.ok _ = Except.ok _
          congr 1
          change L st.1 + st.2 • t + (1 - st.2) • (L G.central + t) = L (st.1 + (1 - st.2) • G.central) + t
          rw [map_add, map_smul]
          module
    rw [key]
    cases G.evalWith ε r.1 <;> rfl

end affine

end GB

end Transfinite
