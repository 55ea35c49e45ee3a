import Verif.Lemmas.TangentParams

/-! # Barycentric parameters along a path that starts on a side -/

namespace Transfinite

namespace Surf

open Spec Set Filter Topology Real Param

variable {n : ℕ} {v : ℕ → P2 ℝ} {ε : ℝ} {i : ℕ} {s : ℝ} {p : ℝ → P2 ℝ} {w : P2 ℝ} {d : Domain ℝ}

theorem RightDer.prod {n : ℕ} {H : ℕ → ℝ → ℝ} (h : ∀ j < n, ∃ x, RightDer (H j) x) : ∃ x, RightDer (fun t => ∏ j ∈ Finset.range n, H j t) x := by
  induction n with
  | zero => exact ⟨0, by simpa using RightDer.const 1⟩
  | succ k ih =>
    obtain ⟨a, ha⟩ := ih fun j hj => h j (by omega)
    obtain ⟨b, hb⟩ := h k (by omega)
    exact ⟨_, (ha.mul hb).congr (Eventually.of_forall fun t => Finset.prod_range_succ _ _)⟩

/-- The inner points of a side are on no other side. -/
theorem side_pos (hn : 3 ≤ n) (hc : StrictConvex n v) (hi : i < n) (t0 : 0 < s) (t1 : s < 1) {j : ℕ} (hj : j < n) (h : j ≠ i) :
    0 < leftOf n v j (sidePoint n v i s) := by
  have hpi : prevIx n i < n := prevIx_lt (by omega)
  have hpj : prevIx n j < n := prevIx_lt (by omega)
  rw [leftOf_side]
  have nn : ∀ k < n, 0 ≤ leftOf n v j (v k) := by
    intro k hk
    by_cases a : k = j
    · rw [a]; exact (leftOf_self n v j).ge
    · by_cases b : k = prevIx n j
      · rw [b]; exact (leftOf_prev n v j).ge
      · exact (hc j hj k hk a b).le
  have q1 := nn _ hpi
  have q2 := nn _ hi
  by_cases a : i = prevIx n j
  · have : 0 < leftOf n v j (v (prevIx n i)) := by
      apply hc j hj _ hpi
      · intro e
        have := Param.next_ne_prev hn hj
        apply this
        rw [← a, ← e, nextIx_prevIx hi]
      · intro e
        exact Param.prev_ne (n := n) (by omega) hi (e.trans a.symm)
    have := mul_pos (sub_pos.mpr t1) this
    have := mul_nonneg t0.le q2
    linarith
  · have : 0 < leftOf n v j (v i) := hc j hj i hi h.symm a
    have := mul_pos t0 this
    have := mul_nonneg (sub_pos.mpr t1).le q1
    linarith

/-- The Wachspress coordinates. -/
noncomputable def lam (n : ℕ) (v : ℕ → P2 ℝ) (uv : P2 ℝ) (j : ℕ) : ℝ :=
  weightOf (fun _ => 1) n v uv j / ∑ k ∈ Finset.range n, weightOf (fun _ => 1) n v uv k

theorem lam_eq (h : ConvexDomain d n v) (hε1 : ε ≤ 1) {uv : P2 ℝ} (hin : InsideClosed n v uv) :
    barycentric ε .wachspress d uv = .ok (tab n (lam n v uv)) := by
  have hn := h.hn
  have hpos := weights_sum_pos hn h.convex hin (r := fun _ => 1) (fun _ _ => one_pos)
  unfold barycentric
  rw [h.vertices_eq, length_tab]
  exact baryWith_eq (by omega) v uv (fun _ _ => hε1) hpos.ne'

theorem lam_side (h : ConvexDomain d n v) (hi : i < n) (t0 : 0 ≤ s) (t1 : s ≤ 1) {j : ℕ} (hj : j < n) :
    lam n v (sidePoint n v i s) j = if j = i then s else if j = prevIx n i then 1 - s else 0 := by
  have e1 := lam_eq h (ε := 1) le_rfl (h.insideClosed_side hi t0 t1)
  have e2 : barycentric 1 .wachspress d (sidePoint n v i s) = .ok (tab n fun j => if j = i then s else if j = prevIx n i then 1 - s else 0) := by
    unfold barycentric
    rw [h.vertices_eq, length_tab]
    exact baryWith_side h.hn h.convex one_pos hi t0 t1 (fun _ _ => le_rfl)
  rw [e2] at e1
  have := congrArg (fun l : List ℝ => vget l j) (Except.ok.inj e1)
  rw [vget_tab _ hj, vget_tab _ hj] at this
  exact (Except.ok.inj this).symm

theorem lam_range (h : ConvexDomain d n v) {uv : P2 ℝ} (hin : InsideClosed n v uv) : (∀ j < n, 0 ≤ lam n v uv j) ∧ ∑ j ∈ Finset.range n, lam n v uv j = 1 := by
  have hpos := weights_sum_pos h.hn h.convex hin (r := fun _ => 1) (fun _ _ => one_pos)
  refine ⟨fun j hj => div_nonneg (weightOf_nonneg h.hn h.convex hin hj) hpos.le, ?_⟩
  unfold lam
  rw [← Finset.sum_div, div_self hpos.ne']

/-- Derivatives of the Wachspress coordinates. -/
theorem lam_path (h : ConvexDomain d n v) (hi : i < n) (t0 : 0 < s) (t1 : s < 1) (hp : DomainPath n v i s p w) :
    ∃ l' : ℕ → ℝ, (∀ j < n, RightDer (fun t => lam n v (p t) j) (l' j)) ∧ (∀ j < n, j ≠ i → j ≠ prevIx n i → 0 ≤ l' j ∧ (0 < inward n v i w → 0 < l' j)) ∧
      ∑ j ∈ Finset.range n, l' j = 0 := by
  have hn := h.hn
  have hpi : prevIx n i < n := prevIx_lt (by omega)
  have w0 := inward_nonneg hp hi
  have h0 : leftOf n v i (sidePoint n v i s) = 0 := leftOf_sidePoint n v i s
  have dA : ∀ j < n, ∃ x, RightDer (fun t => areaOf n v (p t) j) x := fun j hj =>
    ⟨_, ((leftOf_path hp (nextIx n j)).div (RightDer.const 2) two_ne_zero).congr (Eventually.of_forall fun t => areaOf_eq_leftOf n v (p t) hj)⟩
  have dP : ∀ (P : ℕ → Prop) [DecidablePred P], ∃ x, RightDer (fun t => prodBut n (areaOf n v (p t)) P) x := by
    intro P _
    refine RightDer.prod fun j hj => ?_
    by_cases q : P j
    · exact ⟨0, (RightDer.const 1).congr (Eventually.of_forall fun t => if_pos q)⟩
    · obtain ⟨x, hx⟩ := dA j hj
      exact ⟨x, hx.congr (Eventually.of_forall fun t => if_neg q)⟩
  have dW : ∀ j, ∃ x, j < n → RightDer (fun t => weightOf (fun _ => 1) n v (p t) j) x := by
    intro j
    by_cases hj : j < n
    · obtain ⟨x, hx⟩ := dP (fun k => k = j ∨ k = prevIx n j)
      exact ⟨_, fun _ => ((RightDer.const (cornerArea n v j / 2)).mul hx).congr (Eventually.of_forall fun t => weightOf_wachspress hn v (p t) hj)⟩
    · exact ⟨0, fun q => absurd q hj⟩
  choose g' hg using dW
  have hW0 : 0 < ∑ k ∈ Finset.range n, weightOf (fun _ => 1) n v (p 0) k := by
    rw [hp.start]
    exact weights_sum_pos hn h.convex (h.insideClosed_side hi t0.le t1.le) (r := fun _ => 1) (fun _ _ => one_pos)
  have dS := RightDer.sum (n := n) (H := fun k t => weightOf (fun _ => 1) n v (p t) k) (H' := g') hg
  have dL : ∀ j, ∃ x, j < n → RightDer (fun t => lam n v (p t) j) x := by
    intro j
    by_cases hj : j < n
    · exact ⟨_, fun _ => (hg j hj).div dS hW0.ne'⟩
    · exact ⟨0, fun q => absurd q hj⟩
  choose l' hl using dL
  refine ⟨l', hl, ?_, ?_⟩
  · intro j hj a b
    -- the weight vanishes with the distance from side `i`
    have b' : prevIx n j ≠ prevIx n i := fun e => a (by rw [← nextIx_prevIx hj, e, nextIx_prevIx hi])
    have split : ∀ t, prodBut n (areaOf n v (p t)) (fun k => k = j ∨ k = prevIx n j) =
        leftOf n v i (p t) / 2 * prodBut n (areaOf n v (p t)) (fun k => (k = j ∨ k = prevIx n j) ∨ k = prevIx n i) := by
      intro t
      unfold prodBut
      rw [← Finset.mul_prod_erase _ _ (Finset.mem_range.mpr hpi),
        ← Finset.mul_prod_erase (Finset.range n) (fun k => if (k = j ∨ k = prevIx n j) ∨ k = prevIx n i then 1 else areaOf n v (p t) k) (Finset.mem_range.mpr hpi)]
      rw [if_neg (by rintro (e | e); exacts [b e.symm, b' e.symm]), if_pos (Or.inr rfl), one_mul, areaOf_eq_leftOf n v (p t) hpi, nextIx_prevIx hi]
      congr 1
      apply Finset.prod_congr rfl
      intro k hk
      have := (Finset.mem_erase.mp hk).1
      simp [this]
    obtain ⟨x, hx⟩ := dP (fun k => (k = j ∨ k = prevIx n j) ∨ k = prevIx n i)
    have R0 : 0 < prodBut n (areaOf n v (p 0)) (fun k => (k = j ∨ k = prevIx n j) ∨ k = prevIx n i) := by
      apply prodBut_pos
      intro k hk q
      rw [areaOf_eq_leftOf n v _ hk, hp.start]
      have : 0 < leftOf n v (nextIx n k) (sidePoint n v i s) :=
        side_pos hn h.convex hi t0 t1 (nextIx_lt (by omega)) (fun e => q (Or.inr (by rw [← e, prevIx_nextIx hk])))
      linarith
    have hc := cornerArea_pos hn h.convex hj
    have dw : RightDer (fun t => weightOf (fun _ => 1) n v (p t) j)
        (cornerArea n v j / 2 * (inward n v i w / 2 * prodBut n (areaOf n v (p 0)) (fun k => (k = j ∨ k = prevIx n j) ∨ k = prevIx n i))) := by
      refine (((RightDer.const (cornerArea n v j / 2)).mul (((leftOf_path hp i).div (RightDer.const 2) two_ne_zero).mul hx)).congr
        (Eventually.of_forall fun t => ?_)).congr_der ?_
      · rw [weightOf_wachspress hn v (p t) hj, split]
      · rw [hp.start, h0]
        ring
    have w00 : weightOf (fun _ => 1) n v (p 0) j = 0 := by
      rw [weightOf_wachspress hn v (p 0) hj, split, hp.start, h0]
      ring
    have e := RightDer.unique (hl j hj) (dw.div dS hW0.ne')
    rw [w00, zero_mul, sub_zero] at e
    rw [e]
    have pos : ∀ {c l R W : ℝ}, 0 < c → 0 < R → 0 < W → 0 ≤ l → 0 ≤ c / 2 * (l / 2 * R) * W / W ^ 2 ∧ (0 < l → 0 < c / 2 * (l / 2 * R) * W / W ^ 2) :=
      fun hc hR hW hl => ⟨by positivity, fun _ => by positivity⟩
    exact pos hc R0 hW0 w0
  · refine RightDer.unique (RightDer.sum (n := n) (H := fun k t => lam n v (p t) k) (H' := l') hl) ((RightDer.const 1).congr ?_)
    filter_upwards [hp.inside] with t hin
    exact (lam_range h hin).2

/-- A value, or an arbitrary one for a failure. -/
noncomputable def orZero (m : M (P2 ℝ)) : P2 ℝ := match m with
  | .ok q => q
  | .error _ => ⟨0, 0⟩

/-- The local parameters of the barycentric parameterization. -/
noncomputable def baryF (ε : ℝ) (d : Domain ℝ) (uv : P2 ℝ) (j : ℕ) : P2 ℝ := orZero (baryMap ε .wachspress d j uv)

theorem baryF_spec (h : ConvexDomain d n v) (hε : 0 < ε) (hε1 : ε ≤ 1) {uv : P2 ℝ} (hin : InsideClosed n v uv) {j : ℕ} (hj : j < n) :
    baryMap ε .wachspress d j uv = .ok (baryF ε d uv j) ∧ (0 ≤ (baryF ε d uv j).x ∧ (baryF ε d uv j).x ≤ 1) ∧
      (0 ≤ (baryF ε d uv j).y ∧ (baryF ε d uv j).y ≤ 1) ∧ (baryF ε d uv j).y = 1 - lam n v uv j - lam n v uv (prevIx n j) ∧
      (ε ≤ lam n v uv (prevIx n j) + lam n v uv j → (baryF ε d uv j).x = lam n v uv j / (lam n v uv (prevIx n j) + lam n v uv j)) := by
  obtain ⟨x, y, e, x0, x1, y0, y1⟩ := (C13_unit_square h hε hε1 hin).2 j hj
  have eF : baryF ε d uv j = ⟨x, y⟩ := by unfold baryF; rw [e]; rfl
  obtain ⟨z, e2, k, _⟩ := baryMapWith_spec h hε (lam n v uv) hj hin
  have e3 : baryMap ε .wachspress d j uv = .ok ⟨z, 1 - lam n v uv j - lam n v uv (prevIx n j)⟩ := by
    unfold baryMap
    rw [lam_eq h hε1 hin, M_bind_ok, e2]
  have e4 : (⟨x, y⟩ : P2 ℝ) = _ := Except.ok.inj (e.symm.trans e3)
  have ex : x = z := congrArg P2.x e4
  rw [eF]
  refine ⟨e, ⟨x0, x1⟩, ⟨y0, y1⟩, congrArg P2.y e4, fun q => ?_⟩
  rw [ex]
  exact k q

/-- Results about the barycentric parameters along a path. -/
structure BaryPath (ε : ℝ) (n i : ℕ) (s : ℝ) (f : ℝ → ℕ → P2 ℝ) (x' y' : ℕ → ℝ) (l : ℝ) : Prop where
  path : SidePath ε n i s f x' y'
  leaves : Leaves n i x' y' l
  le_one : ∀ᶠ t in near0, ∀ j < n, (f t j).y ≤ 1
  dy : ∀ j < n, RightDer (fun t => (f t j).y) (y' j)
  farY : ∀ j < n, j ≠ i → j ≠ nextIx n i → j ≠ prevIx n i → (f 0 j).y = 1
  nextLe : s * x' (nextIx n i) ≤ y' i
  prevLe : -((1 - s) * x' (prevIx n i)) ≤ y' i

/-- The Wachspress parameterization. -/
theorem bary_path (h : ConvexDomain d n v) (hε : 0 < ε) (hi : i < n) (s0 : ε < s) (s1 : ε < 1 - s) (hp : DomainPath n v i s p w) :
    (∀ᶠ t in near0, ∀ j < n, baryMap ε .wachspress d j (p t) = .ok (baryF ε d (p t) j)) ∧
      ∃ x' y' : ℕ → ℝ, BaryPath ε n i s (fun t => baryF ε d (p t)) x' y' (inward n v i w) := by
  have hn := h.hn
  have hε1 : ε ≤ 1 := by linarith
  have hpi : prevIx n i < n := prevIx_lt (by omega)
  have hxi : nextIx n i < n := nextIx_lt (by omega)
  have hppi : prevIx n (prevIx n i) < n := prevIx_lt (by omega)
  have nei := Param.next_ne (n := n) (by omega) hi
  have pei := Param.prev_ne (n := n) (by omega) hi
  have nep := Param.next_ne_prev hn hi
  have ppi : prevIx n (prevIx n i) ≠ i := fun e => Param.next_ne_prev hn hpi (by rw [e, nextIx_prevIx hi])
  have ppp : prevIx n (prevIx n i) ≠ prevIx n i := Param.prev_ne (n := n) (by omega) hpi
  have t0 : 0 < s := by linarith
  have t1 : s < 1 := by linarith
  obtain ⟨l', hl, hnn, hsum⟩ := lam_path h hi t0 t1 hp
  have v0 : ∀ j < n, lam n v (p 0) j = if j = i then s else if j = prevIx n i then 1 - s else 0 := fun j hj => by rw [hp.start]; exact lam_side h hi t0.le t1.le hj
  have vi : lam n v (p 0) i = s := by rw [v0 i hi, if_pos rfl]
  have vp : lam n v (p 0) (prevIx n i) = 1 - s := by rw [v0 _ hpi, if_neg pei, if_pos rfl]
  have vo : ∀ j < n, j ≠ i → j ≠ prevIx n i → lam n v (p 0) j = 0 := fun j hj a b => by rw [v0 j hj, if_neg a, if_neg b]
  have vn := vo _ hxi nei nep
  have vpp := vo _ hppi ppi ppp
  have spec : ∀ᶠ t in near0, ∀ j < n, _ := hp.inside.mono fun t hin j hj => baryF_spec h hε hε1 hin hj
  have sp0 := spec.self_of_nhdsWithin (show (0 : ℝ) ∈ Ici 0 by simp)
  -- side parameters of the side and its neighbours
  have xi : RightDer (fun t => (baryF ε d (p t) i).x) ((l' i * 1 - s * (l' (prevIx n i) + l' i)) / 1 ^ 2) := by
    have e1 : lam n v (p 0) (prevIx n i) + lam n v (p 0) i = 1 := by rw [vi, vp]; ring
    have q := (hl i hi).div ((hl _ hpi).add (hl i hi)) (by rw [e1]; exact one_ne_zero)
    rw [e1, vi] at q
    refine q.congr ?_
    filter_upwards [spec, ((hl _ hpi).add (hl i hi)).gt (c := ε) (by rw [e1]; linarith)] with t a b
    exact (a i hi).2.2.2.2 b.le
  have xn : RightDer (fun t => (baryF ε d (p t) (nextIx n i)).x) (l' (nextIx n i) / s) := by
    have q := ratio_first (hl _ hxi) (hl i hi) vn (by rw [vi]; exact t0)
    rw [vi] at q
    refine q.congr ?_
    filter_upwards [spec, ((hl i hi).add (hl _ hxi)).gt (c := ε) (by rw [vi, vn]; linarith)] with t a b
    have := (a _ hxi).2.2.2.2 (by rw [prevIx_nextIx hi]; exact b.le)
    rw [this, prevIx_nextIx hi, add_comm]
  have xp : RightDer (fun t => (baryF ε d (p t) (prevIx n i)).x) (-(l' (prevIx n (prevIx n i)) / (1 - s))) := by
    have q := ratio_second (hl _ hppi) (hl _ hpi) vpp (by rw [vp]; linarith)
    rw [vp] at q
    refine q.congr ?_
    filter_upwards [spec, ((hl _ hppi).add (hl _ hpi)).gt (c := ε) (by rw [vp, vpp]; linarith)] with t a b
    have := (a _ hpi).2.2.2.2 b.le
    rw [this, add_comm]
  have yd : ∀ j < n, RightDer (fun t => (baryF ε d (p t) j).y) (0 - l' j - l' (prevIx n j)) := by
    intro j hj
    refine (((RightDer.const 1).sub (hl j hj)).sub (hl _ (prevIx_lt (by omega)))).congr ?_
    filter_upwards [spec] with t a
    exact (a j hj).2.2.2.1
  have yv : ∀ j < n, (baryF ε d (p 0) j).y = 1 - lam n v (p 0) j - lam n v (p 0) (prevIx n j) := fun j hj => (sp0 j hj).2.2.2.1
  obtain ⟨nn0, nn1⟩ := hnn _ hxi nei nep
  obtain ⟨pp0, pp1⟩ := hnn _ hppi ppi ppp
  -- the distance from the side
  have yge : ∀ k < n, k ≠ i → k ≠ prevIx n i → l' k ≤ 0 - l' i - l' (prevIx n i) := by
    intro k hk a b
    have e1 : ∑ j ∈ Finset.range n, (if j = i then 0 else if j = prevIx n i then 0 else l' j) = 0 - l' i - l' (prevIx n i) := by
      have e2 := sum_two hn hi (q := fun j => l' j - (if j = i then 0 else if j = prevIx n i then 0 else l' j)) (fun j _ x y => by rw [if_neg x, if_neg y, sub_self])
      rw [Finset.sum_sub_distrib, hsum, if_pos rfl, if_neg pei, if_pos rfl] at e2
      linarith
    rw [← e1]
    have := Finset.single_le_sum (s := Finset.range n) (f := fun j => if j = i then 0 else if j = prevIx n i then 0 else l' j)
      (fun j hj => by
        have hj := Finset.mem_range.mp hj
        split_ifs with x y
        · exact le_rfl
        · exact le_rfl
        · exact (hnn j hj x y).1) (Finset.mem_range.mpr hk)
    rwa [if_neg a, if_neg b] at this
  have gn := yge _ hxi nei nep
  have gp := yge _ hppi ppi ppp
  refine ⟨spec.mono fun t a j hj => (a j hj).1, fun j => if j = i then (l' i * 1 - s * (l' (prevIx n i) + l' i)) / 1 ^ 2 else
    if j = nextIx n i then l' (nextIx n i) / s else -(l' (prevIx n (prevIx n i)) / (1 - s)), fun j => 0 - l' j - l' (prevIx n j), ?_⟩
  refine ⟨⟨?_, ?_, ?_, ?_, ?_, ?_, ?_⟩, ⟨?_, ?_, ?_, ?_⟩, spec.mono fun t a j hj => (a j hj).2.2.1.2, yd, ?_, ?_, ?_⟩
  · apply P2.ext
    · rw [(sp0 i hi).2.2.2.2 (by rw [vi, vp]; linarith), vi, vp]
      change s / (1 - s + s) = s
      rw [sub_add_cancel, div_one]
    · rw [yv i hi, vi, vp]
      change 1 - s - (1 - s) = 0
      ring
  · apply P2.ext
    · rw [(sp0 _ hxi).2.2.2.2 (by rw [prevIx_nextIx hi, vi, vn]; linarith), vn, zero_div]
    · rw [yv _ hxi, prevIx_nextIx hi, vi, vn]
      change 1 - 0 - s = 1 - s
      ring
  · apply P2.ext
    · rw [(sp0 _ hpi).2.2.2.2 (by rw [vpp, vp]; linarith), vpp, vp, zero_add]
      exact div_self (by linarith)
    · rw [yv _ hpi, vp, vpp]
      change 1 - (1 - s) - 0 = s
      ring
  · rintro j (rfl | rfl | rfl)
    · rw [if_pos rfl]; exact xi
    · rw [if_neg nei, if_pos rfl]; exact xn
    · rw [if_neg pei, if_neg nep.symm]; exact xp
  · rintro j (rfl | rfl | rfl)
    · exact yd _ hi
    · exact yd _ hxi
    · exact yd _ hpi
  · exact spec.mono fun t a j hj => ⟨(a j hj).2.1, (a j hj).2.2.1.1⟩
  · refine (Filter.eventually_all_finite (finite_lt_nat n)).mpr fun j hj => ?_
    by_cases a : j = i
    · exact Eventually.of_forall fun t q => absurd a q
    have hpj : prevIx n j < n := prevIx_lt (by omega)
    refine ((yd j hj).gt (c := ε) ?_).mono fun t q _ => q.le
    rw [yv j hj]
    by_cases b : j = prevIx n i
    · rw [b, vp, vpp]; linarith
    have c : prevIx n j ≠ prevIx n i := fun e => a (by rw [← nextIx_prevIx hj, e, nextIx_prevIx hi])
    rw [vo j hj a b]
    by_cases e : prevIx n j = i
    · rw [e, vi]; linarith
    · rw [vo _ hpj e c]; linarith
  · rw [if_neg nei, if_pos rfl]; positivity
  · rw [if_neg pei, if_neg nep.symm]
    have : 0 ≤ l' (prevIx n (prevIx n i)) / (1 - s) := div_nonneg pp0 (by linarith)
    linarith
  · linarith
  · intro q
    rw [if_neg nei, if_pos rfl, if_neg pei, if_neg nep.symm]
    have : 0 < l' (prevIx n (prevIx n i)) / (1 - s) := div_pos (pp1 q) (by linarith)
    have := nn1 q
    exact ⟨by positivity, by linarith, by linarith⟩
  · intro j hj a b c
    have hpj : prevIx n j < n := prevIx_lt (by omega)
    rw [yv j hj, vo j hj a c, vo _ hpj (fun e => b (by rw [← e, nextIx_prevIx hj])) (fun e => a (by rw [← nextIx_prevIx hj, e, nextIx_prevIx hi]))]
    ring
  · rw [if_neg nei, if_pos rfl, mul_div_cancel₀ _ t0.ne']
    exact gn
  · rw [if_neg pei, if_neg nep.symm, mul_neg, neg_neg, mul_div_cancel₀ _ (by linarith)]
    exact gp

end Surf

end Transfinite
