import Verif.Lemmas.TangentHybrid
import Verif.Props.Hybrid
import Verif.Props.Fences

/-! # C97: hybrid patches have the tangent planes of their ribbons -/

namespace Transfinite

open Spec Set Filter Topology Param

namespace Hybrid

/-! ### Specification -/

/-- An object with a network of degree `d` and the boundary curves `c`, brought up to date by `update()` at some time after the last change of the curves
and the fences; after that the control points can be changed in any way. -/
def UpdatedNet (ε : ℝ) (arc : List (P3 ℝ) → ℝ → ℝ → ℝ) (n d : ℕ) (c : ℕ → Curve ℝ) (H : Hybrid ℝ) : Prop :=
  ∃ g l before later H0 H1, (Hybrid.new g l).run ε arc before = .ok H0 ∧ H0.patch.curves = tab n c ∧
    H0.step ε arc (.surf .update) = .ok H1 ∧ (∀ x ∈ later, Call.keeps x = true) ∧ H1.run ε arc later = .ok H ∧ H.net.degree = d

/-- The curves and the cross derivatives `T` of the ribbons are differentiable. -/
structure SmoothNet (ε : ℝ) (n : ℕ) (c : ℕ → Curve ℝ) (T T' : ℕ → ℝ → P3 ℝ) (H : Hybrid ℝ) : Prop where
  sides : 3 ≤ n
  curve : ∀ j < n, ∀ s, 0 ≤ s → s ≤ 1 → UnitDer (c j).pt ((c j).der s) s
  value : ∀ j < n, ∃ r, vget H.patch.surf.ribbons j = .ok r ∧ ∀ s, 0 ≤ s → s ≤ 1 → r.crossDerivative ε s = .ok (T j s)
  cross : ∀ j < n, ∀ s, 0 ≤ s → s ≤ 1 → UnitDer (T j) (T' j s) s

/-- Along every path of the polygon `v` that starts at the point `s` of side `i`, the patch starts at the point of the boundary curve, and
its derivative is a combination of the derivative of the boundary curve and the vector `T`. The factor of `T` is positive if the path leaves the side. -/
def DerivativeAt (ε : ℝ) (H : Hybrid ℝ) (n : ℕ) (v : ℕ → P2 ℝ) (c : ℕ → Curve ℝ) (T : P3 ℝ) (i : ℕ) (s : ℝ) : Prop :=
  ∀ p w, DomainPath n v i s p w → ∃ (X : ℝ → P3 ℝ) (α β : ℝ),
    (∀ᶠ t in nhdsWithin 0 (Set.Ici 0), ∃ H', H.eval ε (p t) = .ok (X t, H')) ∧ X 0 = (c i).pt s ∧
      RightDer3 X (α • (c i).der s + β • T) ∧ 0 ≤ β ∧ (0 < inward n v i w → 0 < β)

/-- A point of a ribbon. -/
noncomputable def ribbonPoint (H : Hybrid ℝ) (c : ℕ → Curve ℝ) (T : ℕ → ℝ → P3 ℝ) (j : ℕ) (s d : ℝ) : P3 ℝ :=
  (c j).pt s + (if H.patch.surf.useGamma then d / (2 * d + 1) else d) • T j s

variable {ε : ℝ} {arc : List (P3 ℝ) → ℝ → ℝ → ℝ} {n d : ℕ} {c : ℕ → Curve ℝ} {H : Hybrid ℝ} {T T' N N' : ℕ → ℝ → P3 ℝ} {i : ℕ} {s : ℝ}

/-! ### The state -/

private theorem step_agreed' {H' : Hybrid ℝ} (h : Inv ε H) {F : ℕ → Option (ℝ → P3 ℝ)} (hr : Patch.Agreed ε H.patch n c F) (hn : n ≠ 0)
    {x : Call ℝ} (hx : x.keeps = true) (e : H.step ε arc x = .ok H') : Patch.Agreed ε H'.patch n c F ∧ H'.net.n = H.net.n := by
  cases x with
  | net x =>
    obtain ⟨i1, s1, s2, s3⟩ := step_net_inv h e
    refine ⟨hr.congr i1.patch (i1.kind.trans h.kind.symm) (by rw [s2]) s1, ?_⟩
    unfold step at e
    dsimp only at e
    split_ifs at e with hc
    obtain ⟨G, e1, e⟩ := bind_ok e
    cases e
    have hre : x.reshapes = false := by cases x <;> first | rfl | (cases hx; done) | (cases hc; done)
    obtain ⟨k1, k2, _⟩ := (GB.step_inv h.gb e1).2.2 hre
    exact k1
  | surf x =>
    obtain ⟨i1, s1, s2, s3, s4⟩ := step_surf_inv h e
    exact ⟨Patch.step_agreed hn hr hx s3, by rw [s4]⟩
  | loop => cases hx
  | eval uv =>
    obtain ⟨i1, s1, s2, s3, s4⟩ := step_eval_inv h e
    exact ⟨hr.congr i1.patch (i1.kind.trans h.kind.symm) (by rw [s2]) s1, by rw [s4]⟩

private theorem run_agreed' {H' : Hybrid ℝ} (h : Inv ε H) {F : ℕ → Option (ℝ → P3 ℝ)} (hr : Patch.Agreed ε H.patch n c F) (hn : n ≠ 0)
    {xs : List (Call ℝ)} (hx : ∀ x ∈ xs, x.keeps = true) (e : H.run ε arc xs = .ok H') :
    Inv ε H' ∧ Patch.Agreed ε H'.patch n c F ∧ H'.net.n = H.net.n := by
  induction xs generalizing H with
  | nil => cases e; exact ⟨h, hr, rfl⟩
  | cons c cs ih =>
    unfold run at e
    obtain ⟨H1, e1, e⟩ := bind_ok e
    obtain ⟨r1, n1⟩ := step_agreed' h hr hn (hx c (by simp)) e1
    obtain ⟨i2, r2, n2⟩ := ih (step_inv h e1) r1 (fun y hy => hx y (List.mem_cons_of_mem _ hy)) e
    exact ⟨i2, r2, n2.trans n1⟩

theorem UpdatedNet.state (hn : 3 ≤ n) (h : UpdatedNet ε arc n d c H) :
    Inv ε H ∧ (∃ F, Patch.Agreed ε H.patch n c F) ∧ ∃ F, GB.HasNet H.net n d F := by
  obtain ⟨g, l, before, later, H0, H1, e1, h1, e2, hl, e3, rfl⟩ := h
  have i0 := run_inv (new_inv ε g l) e1
  obtain ⟨i1, _, hg, e4, s4⟩ := step_surf_inv i0 e2
  have hlen : H0.patch.surf.ribbons.length = n := by
    have := congrArg List.length h1
    simpa [Patch.curves] using this
  obtain ⟨r, hr⟩ := exists_tab' (l := H0.patch.surf.ribbons) (by omega)
  rw [hlen] at hr
  have hmem : ∀ j < n, r j ∈ H0.patch.surf.ribbons := by
    intro j hj
    rw [hr]; unfold tab
    exact List.mem_map.mpr ⟨j, List.mem_range.mpr hj, rfl⟩
  have hcurve : ∀ j < n, (r j).curve = c j := by
    intro j hj
    unfold Patch.curves at h1
    rw [hr] at h1
    have e := congrArg (fun l => l[j]?) h1
    simpa [tab, hj] using e
  have ha := Patch.update_agreed (F := fun j => (r j).fence) i0.patch hr (fun j hj => ⟨i0.patch.kinds _ (hmem j hj), hcurve j hj, rfl⟩) (by omega)
    (show H0.patch.update ε = .ok H1.patch from e4)
  obtain ⟨i2, r2, n2⟩ := run_agreed' i1 ha (by omega) hl e3
  refine ⟨i2, ⟨_, r2⟩, ?_⟩
  have hN : H.net.n = n := by
    rw [n2, s4, hg]
    exact hlen
  rcases i2.shape with q | ⟨F, q⟩
  · omega
  · rw [hN] at q
    exact ⟨F, q⟩

theorem UpToDate.updated (h : UpToDate ε arc n d c H) : UpdatedNet ε arc n d c H := by
  obtain ⟨g, l, before, later, H0, H1, e1, h1, _, e2, hl, e3, e4⟩ := h
  exact ⟨g, l, before, later, H0, H1, e1, h1, e2, hl, e3, e4⟩

private theorem domain (hn : 3 ≤ n) (hi : Inv ε H) {F : ℕ → Option (ℝ → P3 ℝ)} (h : Patch.Agreed ε H.patch n c F) : ∃ v, ConvexDomain H.patch.dom.dom n v := by
  have hr : H.patch.kind.regular = true := by rw [hi.kind]; rfl
  obtain ⟨vs, e1, e2⟩ := (h.inv.regular hr).resolve_left (by rw [h.dom hr]; omega)
  rw [h.dom hr] at e1
  obtain ⟨r, φ, hr, hd, _⟩ := regular_convex hn e1 e2
  exact ⟨_, hd⟩

private theorem smoothSides (hs : SmoothNet ε n c T T' H) (hi : Inv ε H) {F : ℕ → Option (ℝ → P3 ℝ)} (h : Patch.Agreed ε H.patch n c F) :
    H.patch.surf.SmoothSides ε n c T T' := by
  refine ⟨fun j hj => ?_, hs.curve, hs.cross⟩
  obtain ⟨r, e, hv⟩ := hs.value j hj
  obtain ⟨q, hq⟩ := h.surf
  have e' := e
  rw [hq.ribs, vget_tab _ hj] at e'
  cases e'
  have b := (hq.ready j hj).basic
  rw [hi.kind] at b
  exact ⟨_, e, b.2.1, by rw [b.1]; simp [PatchKind.ribbon], by rw [b.1]; simp [PatchKind.ribbon], hv⟩

/-! ### Theorems -/

/-- C97: the derivative of a hybrid patch of degree at least 3 on its sides. With squared weights it is given by the boundary curve and the ribbon; with the
weights of other Generalized Bézier patches there is an error, which depends on the adjacent ribbons. -/
theorem C97_derivative (hε : 0 < ε) (hd : 3 ≤ d) (h : UpdatedNet ε arc n d c H) (hs : SmoothNet ε n c T T' H) (hi : i < n) (s0 : ε < s) (s1 : ε < 1 - s) :
    ∃ v, ConvexDomain H.patch.dom.dom n v ∧ DerivativeAt ε H n v c (T i s - if H.net.squared then 0 else
      copyError d s (fun _ => (c i).pt s) (fun _ => ribbonPoint H c T ((i + n - 1) % n) 1 s) +
        copyError d (1 - s) (fun _ => (c i).pt s) (fun _ => ribbonPoint H c T ((i + 1) % n) 0 (1 - s))) i s := by
  have hn := hs.sides
  obtain ⟨inv, ⟨N, ha⟩, F, hF⟩ := h.state hn
  obtain ⟨v, hv⟩ := domain hn inv ha
  have hS := smoothSides hs inv ha
  refine ⟨v, hv, fun p w hp => ?_⟩
  obtain ⟨f1, x', y', hb⟩ := Surf.bary_path hv hε hi s0 s1 hp
  obtain ⟨m, rfl⟩ := Nat.exists_eq_add_of_le (show 1 ≤ d by omega)
  rw [add_comm 1 m] at *
  have der := patch_der (m := m) (sq := H.net.squared) hε hn (by omega) hi s0 s1 hb hS F H.net.central
  have hkp : H.asNet.kind.param = H.patch.kind.param ∧ (H.patch.kind.param : Kind ℝ) = .bary .wachspress := by
    rw [inv.kind]
    change H.net.kind.param = _ ∧ _
    rw [inv.net]
    exact ⟨rfl, rfl⟩
  have fresh : Fresh ε H.patch.kind.param H.patch.dom.dom H.patch.param := inv.patch.param.resolve_left (by rw [hv.n_eq]; omega)
  have hev : ∀ᶠ t in near0, ∃ H', H.eval ε (p t) = .ok ((∑ j ∈ Finset.range n, ∑ k ∈ Finset.range ((m + 1 + 1) / 2), ∑ a ∈ Finset.range (m + 1 + 1),
        GB.wt H.net.squared n (m + 1) (Surf.baryF ε H.patch.dom.dom (p t)) j a k •
          (if 2 ≤ k then F j a k else H.patch.surf.sideF c T j (Surf.baryF ε H.patch.dom.dom (p t) j).x (Surf.baryF ε H.patch.dom.dom (p t) j).y)) +
      (1 - ∑ j ∈ Finset.range n, ∑ k ∈ Finset.range ((m + 1 + 1) / 2), ∑ a ∈ Finset.range (m + 1 + 1),
        GB.wt H.net.squared n (m + 1) (Surf.baryF ε H.patch.dom.dom (p t)) j a k) • H.net.central, H') := by
    filter_upwards [f1, hb.path.far, hb.path.range] with t h1 h2 h3
    have hm : ∀ q, Fresh ε H.patch.kind.param H.patch.dom.dom q →
        ∃ o, mapToRibbons ε H.patch.kind.param (p t) q = .ok (tab n (Surf.baryF ε H.patch.dom.dom (p t)), o) := by
      intro q hq
      refine hq.maps_of_raw hv.length_eq fun o _ j hj => ?_
      rw [hkp.2]
      exact h1 j hj
    have co : ∀ j < n, ε ≤ (Surf.baryF ε H.patch.dom.dom (p t) j).y + (Surf.baryF ε H.patch.dom.dom (p t) (nextIx n j)).y := by
      intro j hj
      have hx : nextIx n j < n := nextIx_lt (by omega)
      by_cases a : j = i
      · have := h2 _ hx (by rw [a]; exact Param.next_ne (by omega) hi)
        have := (h3 j hj).2
        linarith
      · have := h2 j hj a
        have := (h3 _ hx).2
        linarith
    obtain ⟨o, e⟩ := hm _ fresh
    refine eval_all (W := fun j a k => GB.wt H.net.squared n (m + 1) (Surf.baryF ε H.patch.dom.dom (p t)) j a k) inv hF fresh e (fun q hq j hj a ha k hk => ?_)
      (fun j hj => hS.side_eq hj (h3 j hj).1.1 (h3 j hj).1.2 (h3 j hj).2)
    rw [hkp.1] at hq
    obtain ⟨o, e⟩ := hm q hq
    have c2 := co (prevIx n j) (prevIx_lt (by omega))
    rw [nextIx_prevIx hj] at c2
    exact GB.weight_eq (G := { H.asNet with param := q }) hε ⟨hF.n_eq, hF.degree, hF.layers, hF.nets⟩ inv.net (by rw [← hkp.1] at e; exact e) hj ha hk (co j hj) c2
  refine ⟨_, x' i, y' i, hev, ?_, der, hb.leaves.self, fun hl => (hb.leaves.strict hl).2.2⟩
  have hf0 : GB.OnSide ε n i s (Surf.baryF ε H.patch.dom.dom (p 0)) :=
    ⟨hb.path.self, hb.path.next, by rw [hb.path.prev], fun _ => by rw [hb.path.prev], hb.farY⟩
  have hw : ∀ j < n, ∀ k < (m + 1 + 1) / 2, ∀ a ≤ m + 1, GB.wt H.net.squared n (m + 1) (Surf.baryF ε H.patch.dom.dom (p 0)) j a k =
      if j = i then (if k = 0 then bern (m + 1) a s else 0) else 0 := fun j hj k hk a ha =>
    GB.wt_side hε hn (by omega) hi hf0 s0.le (by linarith) _ hj ha hk
  have z : H.patch.surf.sideF c T i (Surf.baryF ε H.patch.dom.dom (p 0) i).x (Surf.baryF ε H.patch.dom.dom (p 0) i).y = (c i).pt s := by
    rw [hb.path.self]
    unfold Surf.sideF
    rw [Surf.gam_zero, zero_smul, add_zero]
  have sums : ∀ {V : Type} [AddCommGroup V] [Module ℝ V] (Q : ℕ → ℕ → ℕ → V), (∑ j ∈ Finset.range n, ∑ k ∈ Finset.range ((m + 1 + 1) / 2), ∑ a ∈ Finset.range (m + 1 + 1),
      GB.wt H.net.squared n (m + 1) (Surf.baryF ε H.patch.dom.dom (p 0)) j a k • Q j a k) = ∑ a ∈ Finset.range (m + 1 + 1), bern (m + 1) a s • Q i a 0 := by
    intro V _ _ Q
    rw [Finset.sum_eq_single i, Finset.sum_eq_single 0]
    · refine Finset.sum_congr rfl fun a ha => ?_
      rw [hw i hi 0 (by omega) a (by rw [Finset.mem_range] at ha; omega), if_pos rfl, if_pos rfl]
    · intro k hk hk0
      rw [Finset.mem_range] at hk
      refine Finset.sum_eq_zero fun a ha => ?_
      rw [hw i hi k hk a (by rw [Finset.mem_range] at ha; omega), if_pos rfl, if_neg hk0, zero_smul]
    · intro h; exact absurd (Finset.mem_range.mpr (by omega)) h
    · intro j hj hne
      rw [Finset.mem_range] at hj
      refine Finset.sum_eq_zero fun k hk => Finset.sum_eq_zero fun a ha => ?_
      rw [Finset.mem_range] at hk ha
      rw [hw j hj k hk a (by omega), if_neg hne, zero_smul]
    · intro h; exact absurd (Finset.mem_range.mpr hi) h
  have s1 := sums (V := ℝ) (fun _ _ _ => 1)
  simp only [smul_eq_mul, mul_one] at s1
  rw [bern_sum] at s1
  have k0 : ¬(2 ≤ 0) := by omega
  rw [sums, s1, sub_self, zero_smul, add_zero]
  simp only [if_neg k0]
  rw [z, ← Finset.sum_smul, bern_sum, one_smul]

/-- C97: hybrid patches of degree at least 3 with squared weights have the derivatives of their ribbons on their sides: the control points have no effect. -/
theorem C97_side (hε : 0 < ε) (hd : 3 ≤ d) (h : UpdatedNet ε arc n d c H) (hs : SmoothNet ε n c T T' H) (hq : H.net.squared = true) (hi : i < n)
    (s0 : ε < s) (s1 : ε < 1 - s) : ∃ v, ConvexDomain H.patch.dom.dom n v ∧ DerivativeAt ε H n v c (T i s) i s := by
  obtain ⟨v, hv, hder⟩ := C97_derivative hε hd h hs hi s0 s1
  rw [hq, if_pos rfl, sub_zero] at hder
  exact ⟨v, hv, hder⟩

private theorem net_squared {G G' : GB ℝ} {x : GB.Call ℝ} (hc : isNet x = true) (hx : x ≠ .squared false) (h : G.squared = true)
    (e : G.step ε arc x = .ok G') : G'.squared = true := by
  cases x with
  | init a b =>
    have hb : (G.initBase a b).squared = true := by
      unfold GB.initBase
      split_ifs <;> exact h
    have hG : G' = G.initBase a b := by
      change G.initNetwork a b = .ok G' at e
      unfold GB.initNetwork at e
      split at e
      · exact (Except.ok.inj e).symm
      · split_ifs at e
        exact (Except.ok.inj e).symm
    rw [hG]; exact hb
  | set i j k p => rw [GB.setControlPoint_keeps e]; exact h
  | setIndividual i j k p =>
    change G.setIndividualControlPoint i j k p = .ok G' at e
    unfold GB.setIndividualControlPoint at e
    obtain ⟨y, _, e⟩ := bind_ok e
    cases e
    exact h
  | central p => cases e; exact h
  | squared q =>
    cases e
    cases q
    · exact absurd rfl hx
    · rfl
  | weight i j k uv =>
    change (do let r ← G.weight ε i j k uv; Except.ok r.2) = .ok G' at e
    obtain ⟨r, e1, e⟩ := bind_ok e
    cases e
    rw [(weight_state e1).1]
    exact h
  | _ => cases hc

/-- C97: hybrid patches use squared weights, unless the user switches these off. -/
theorem C97_squared {g l : ℕ} {calls : List (Call ℝ)} (hc : Call.net (.squared false) ∉ calls) (e : (Hybrid.new g l).run ε arc calls = .ok H) :
    H.net.squared = true := by
  suffices h : ∀ (H0 : Hybrid ℝ), Inv ε H0 → H0.net.squared = true → H0.run ε arc calls = .ok H → H.net.squared = true from h _ (new_inv ε g l) rfl e
  clear e
  induction calls with
  | nil => intro H0 _ h e; cases e; exact h
  | cons x xs ih =>
    intro H0 hi h e
    unfold run at e
    obtain ⟨H1, e1, e⟩ := bind_ok e
    refine ih (fun q => hc (List.mem_cons_of_mem _ q)) H1 (step_inv hi e1) ?_ e
    cases x with
    | net x =>
      unfold step at e1
      dsimp only at e1
      split_ifs at e1 with hn
      obtain ⟨G, e2, e1⟩ := bind_ok e1
      cases e1
      exact net_squared hn (fun q => hc (by rw [q]; simp)) (show H0.asNet.squared = true from h) e2
    | surf x =>
      obtain ⟨_, _, _, _, s⟩ := step_surf_inv hi e1
      rw [s]; exact h
    | loop =>
      unfold step setupLoop at e1
      dsimp only at e1
      obtain ⟨curves, _, e1⟩ := bind_ok e1
      obtain ⟨P, _, e1⟩ := bind_ok e1
      obtain ⟨P', _, e1⟩ := bind_ok e1
      cases e1
      exact h
    | eval uv =>
      obtain ⟨_, _, _, _, s⟩ := step_eval_inv hi e1
      rw [s]; exact h

/-- C97: the normal vector computed from the boundary curve and a derivative to the inside is a positive multiple of the one computed from the boundary curve and
the ribbon. -/
theorem C97_normal (hε : 0 < ε) (hd : 3 ≤ d) (h : UpdatedNet ε arc n d c H) (hs : SmoothNet ε n c T T' H) (hq : H.net.squared = true) (hi : i < n)
    (s0 : ε < s) (s1 : ε < 1 - s) : ∃ v, ConvexDomain H.patch.dom.dom n v ∧
      ∀ p w, DomainPath n v i s p w → 0 < inward n v i w → ∃ (X : ℝ → P3 ℝ) (X' : P3 ℝ) (β : ℝ),
        (∀ᶠ t in nhdsWithin 0 (Set.Ici 0), ∃ H', H.eval ε (p t) = .ok (X t, H')) ∧ RightDer3 X X' ∧ 0 < β ∧
          P3.cross ((c i).der s) X' = β • P3.cross ((c i).der s) (T i s) := by
  obtain ⟨v, hv, hder⟩ := C97_side hε hd h hs hq hi s0 s1
  refine ⟨v, hv, fun p w hp hw => ?_⟩
  obtain ⟨X, α, β, h1, _, h3, _, h5⟩ := hder p w hp
  refine ⟨X, _, β, h1, h3, h5 hw, ?_⟩
  ext <;> simp [P3.cross] <;> ring

/-- C97: hybrid patches with normal fences have differentiable ribbons, with cross derivatives that are perpendicular to the fences. -/
theorem C97_fences {D L : ℝ} (h : UpdatedNet ε arc n d c H) (hl : FencedLoop n c N N' D L)
    (hf : ∀ j < n, ∃ r, vget H.patch.surf.ribbons j = .ok r ∧ r.fence = some (N j)) :
    ∃ T T', SmoothNet ε n c T T' H ∧ ∀ j < n, ∀ s, 0 ≤ s → s ≤ 1 → P3.dot (T j s) (N j s) = 0 := by
  obtain ⟨inv, ⟨F, ha⟩, _⟩ := h.state hl.sides
  obtain ⟨r, hr⟩ := ha.surf
  rw [inv.kind] at hr
  have hf' : ∀ j < n, F j = some (N j) := by
    intro j hj
    obtain ⟨q, e, h1⟩ := hf j hj
    rw [hr.ribs, vget_tab _ hj] at e
    cases e
    exact (hr.ready j hj).basic.2.2.symm.trans h1
  refine ⟨fun j => Ribbon.fenceT (-(c (prevIx n j)).der 1) (r j).central ((c (nextIx n j)).der 0) (N j),
    fun j => Ribbon.fenceT' (-(c (prevIx n j)).der 1) (r j).central ((c (nextIx n j)).der 0) (N j) (N' j), ⟨hl.sides, hl.curve, ?_, ?_⟩, ?_⟩
  · intro j hj
    refine ⟨r j, by rw [hr.ribs, vget_tab _ hj], fun s _ _ => ?_⟩
    have q := hr.ready j hj
    rw [hf' j hj] at q
    exact Ribbon.fence_cross q s
  · intro j hj s s0 s1
    exact Ribbon.fenceT_der _ _ _ (hl.fence j hj s s0 s1)
  · intro j hj s s0 s1
    exact Ribbon.fenceT_perp _ _ _ (hl.unit j hj s s0 s1)

/-- C97: along a side with a normal fence the patch is perpendicular to the fence: two patches that share a curve and a fence have common tangent planes. -/
theorem C97_plane {D L : ℝ} (hε : 0 < ε) (hd : 3 ≤ d) (h : UpdatedNet ε arc n d c H) (hq : H.net.squared = true) (hl : FencedLoop n c N N' D L)
    (hf : ∀ j < n, ∃ r, vget H.patch.surf.ribbons j = .ok r ∧ r.fence = some (N j)) (hi : i < n) (s0 : ε < s) (s1 : ε < 1 - s)
    (hc : P3.dot ((c i).der s) (N i s) = 0) : ∃ v, ConvexDomain H.patch.dom.dom n v ∧ ∀ p w, DomainPath n v i s p w → ∃ (X : ℝ → P3 ℝ) (X' : P3 ℝ),
      (∀ᶠ t in nhdsWithin 0 (Set.Ici 0), ∃ H', H.eval ε (p t) = .ok (X t, H')) ∧ X 0 = (c i).pt s ∧ RightDer3 X X' ∧ P3.dot X' (N i s) = 0 := by
  obtain ⟨T, T', hs, hT⟩ := C97_fences h hl hf
  obtain ⟨v, hv, hder⟩ := C97_side hε hd h hs hq hi s0 s1
  refine ⟨v, hv, fun p w hp => ?_⟩
  obtain ⟨X, α, β, h1, h2, h3, _, _⟩ := hder p w hp
  refine ⟨X, _, h1, h2, h3, ?_⟩
  have ht := hT i hi s (by linarith) (by linarith)
  simp only [P3.dot, P3.add_x, P3.add_y, P3.add_z, P3.smul_x, P3.smul_y, P3.smul_z] at hc ht ⊢
  linear_combination α * hc + β * ht

/-! ### Construction -/

private theorem run_ribbon {xs : List (Patch.Call ℝ)} (hx : ∀ x ∈ xs, (∃ j v, x = .fence j v) ∨ ∃ j v, x = .handler j v) {P : Patch ℝ} (hn : H.net.n = H.patch.surf.n)
    (e : H.patch.run ε xs = .ok P) : H.run ε arc (xs.map .surf) = .ok ⟨H.net, P⟩ ∧ P.surf.n = H.patch.surf.n := by
  induction xs generalizing H with
  | nil => cases e; exact ⟨rfl, rfl⟩
  | cons x xs ih =>
    unfold Patch.run at e
    obtain ⟨P1, e1, e⟩ := bind_ok e
    have on : ∀ {i : ℕ} {f : Ribbon ℝ → M (Ribbon ℝ)}, H.patch.onRibbon i f = .ok P1 → P1.surf.n = H.patch.surf.n := by
      intro i f e
      unfold Patch.onRibbon at e
      obtain ⟨r, _, e⟩ := bind_ok e
      obtain ⟨r', _, e⟩ := bind_ok e
      obtain ⟨rs, e2, e⟩ := bind_ok e
      cases e
      unfold vset at e2
      split_ifs at e2
      cases e2
      simp [Surf.n]
    have hn1 : P1.surf.n = H.patch.surf.n := by
      rcases hx x (by simp) with ⟨j, v, rfl⟩ | ⟨j, v, rfl⟩ <;> exact on e1
    have hs : H.step ε arc (.surf x) = .ok ⟨H.net, P1⟩ := by
      unfold step
      dsimp only
      have hsf : isSurf x = true := by rcases hx x (by simp) with ⟨j, v, rfl⟩ | ⟨j, v, rfl⟩ <;> rfl
      rw [if_pos ⟨hsf, hn⟩, e1, M_bind_ok]
    obtain ⟨h1, h2⟩ := ih (H := ⟨H.net, P1⟩) (fun y hy => hx y (List.mem_cons_of_mem _ hy)) (hn.trans hn1.symm) e
    refine ⟨?_, h2.trans hn1⟩
    rw [List.map_cons]
    unfold run
    rw [hs, M_bind_ok, h1]

/-- The calls that build a hybrid patch with normal fences and handlers. -/
noncomputable def fencedCalls (n d : ℕ) (w : List (Name × P3 ℝ)) (N : ℕ → ℝ → P3 ℝ) (a : ℕ → P3 ℝ) : List (Call ℝ) :=
  [.net (.init n d)] ++ (w.map fun x => .net (.set x.1.side x.1.col x.1.row x.2)) ++ [.loop] ++
    (tab n (fun j => Patch.Call.fence j (N j)) ++ tab n (fun j => Patch.Call.handler j (a j))).map .surf ++ [.surf .update]

/-- C97: a hybrid patch is built from a network with good boundary curves, normal fences and handlers. -/
theorem C97_built {D L : ℝ} (hε : 0 < ε) (hε1 : ε ≤ 1) (hd : 1 ≤ d) {w : List (Name × P3 ℝ)} (hw : ∀ x ∈ w, x.1.InRange n d)
    (hg : Patch.GoodLoop ε n (rowOf arc n d w)) (hl : FencedLoop n (rowOf arc n d w) N N' D L) {a : ℕ → P3 ℝ} (h0 : ∀ j < n, a j ≠ 0) (g l : ℕ) :
    ∃ H, (Hybrid.new g l).run ε arc (fencedCalls n d w N a) = .ok H ∧ UpdatedNet ε arc n d (rowOf arc n d w) H ∧ H.net.squared = true ∧
      ∀ j < n, ∃ r, vget H.patch.surf.ribbons j = .ok r ∧ r.fence = some (N j) := by
  have hn := hg.sides
  obtain ⟨H3, r3, bn, bd, b2, b3⟩ := built_loop (ε := ε) hn hd hw hg.closed g l
  have i3 := run_inv (new_inv ε g l) r3
  have hn3 : H3.net.n = H3.patch.surf.n := by
    unfold Surf.n
    rw [bn, b3, length_tab]
  let R0 : ℕ → Ribbon ℝ := fun j => Ribbon.new .handler (rowOf arc n d w j)
  let R1 : ℕ → Ribbon ℝ := fun j => { R0 j with fence := some (N j) }
  let R2 : ℕ → Ribbon ℝ := fun j => { R1 j with handlerV := (a j).norm⁻¹ • a j, handlerInit := true }
  let with_ : (ℕ → Ribbon ℝ) → Patch ℝ := fun r => { H3.patch with surf := { H3.patch.surf with ribbons := tab n r } }
  have s1 : (with_ R0).run ε (tab n fun j => .fence j (N j)) = .ok (with_ R1) :=
    Patch.run_stage H3.patch R0 R1 (fun j r => .ok (r.overrideNormalFence (some (N j)))) _ (fun j _ => rfl) (fun j Q => rfl)
  have s2 : (with_ R1).run ε (tab n fun j => .handler j (a j)) = .ok (with_ R2) := by
    refine Patch.run_stage H3.patch R1 R2 (fun j r => r.setHandler (a j)) _ (fun j hj => ?_) (fun j Q => rfl)
    unfold Ribbon.setHandler
    rw [P3.normalize_ok (h0 j hj), M_bind_ok]
  have hP : H3.patch = with_ R0 := by
    change H3.patch = { H3.patch with surf := { H3.patch.surf with ribbons := tab n R0 } }
    rw [← b3]
  have s12 := calls_append s1 s2
  rw [← hP] at s12
  obtain ⟨r4, n4⟩ := run_ribbon (arc := arc) (by
    intro x hx
    rcases List.mem_append.mp hx with q | q
    · unfold tab at q
      obtain ⟨j, _, rfl⟩ := List.mem_map.mp q
      exact Or.inl ⟨_, _, rfl⟩
    · unfold tab at q
      obtain ⟨j, _, rfl⟩ := List.mem_map.mp q
      exact Or.inr ⟨_, _, rfl⟩) hn3 s12
  have r34 := run_join r3 r4
  have i4 := run_inv (new_inv ε g l) r34
  have hk : (with_ R2).kind = .compositeRibbon := i4.kind
  have hS : (with_ R2).surf.ribbons = tab n R2 := rfl
  obtain ⟨P5, e5⟩ := Patch.update_total_of hε hε1 i4.patch (show (with_ R2).linked = true from b2) hg hS (fun j _ => rfl)
    (by rw [hk]; intro q; cases q) (fun _ j hj => Or.inl rfl) (by
    intro S hSu
    refine ⟨fun _ => ?_, fun q => ?_⟩
    · obtain ⟨r', hr'⟩ := Surf.updateAll_agreed (k := .handler) (c := rowOf arc n d w) (F := fun j => some (N j)) hS (fun j hj => ⟨rfl, rfl, rfl⟩) hSu
      exact hr'.fenced hl fun j _ => rfl
    · rw [hk] at q
      cases q)
  have s5 : (⟨H3.net, with_ R2⟩ : Hybrid ℝ).step ε arc (.surf .update) = .ok ⟨H3.net, P5⟩ := by
    unfold step
    dsimp only
    have : (with_ R2).step ε .update = .ok P5 := e5
    rw [if_pos ⟨by rfl, hn3.trans n4.symm⟩, this, M_bind_ok]
  have r5 : (⟨H3.net, with_ R2⟩ : Hybrid ℝ).run ε arc [.surf .update] = .ok ⟨H3.net, P5⟩ := by
    unfold run
    rw [s5]; rfl
  have r := run_join r34 r5
  refine ⟨_, r, ⟨g, l, _, [], _, _, r34, Patch.curves_tab hS (fun j hj => rfl), s5, by simp, rfl, bd⟩, C97_squared ?_ r, fun j hj => ?_⟩
  · intro q
    simp only [List.mem_append, List.mem_singleton, List.mem_map, reduceCtorEq, and_false, exists_false, or_false] at q
    rcases q with q | ⟨x, _, q⟩
    · cases q
    · cases q
  · have hu := Patch.updatedFrom i4.patch e5
    obtain ⟨r', q, h1, h2, h3⟩ := (Surf.updateAll_iff hS).mp hu.surf
    exact ⟨r' j, by rw [h3, vget_tab _ hj], (Ribbon.update_keeps (h1 j hj)).2.2.1⟩

/-! ### Examples -/

/-- C97_built applies: the quintic network of C71 with the normals (0,0,1) and the handlers (1,2,3). -/
theorem sq_fenced (g l : ℕ) : ∃ H, (Hybrid.new g l).run (1 / 10000) sqArc (fencedCalls 4 5 sqW (fun _ _ => ⟨0, 0, 1⟩) fun _ => ⟨1, 2, 3⟩) = .ok H ∧
    UpdatedNet (1 / 10000) sqArc 4 5 squareLoop H ∧ H.net.squared = true ∧
      ∀ j < 4, ∃ r, vget H.patch.surf.ribbons j = .ok r ∧ r.fence = some fun _ => ⟨0, 0, 1⟩ := by
  have hm : ∀ j, (j + 1) % 4 < 4 := fun j => Nat.mod_lt _ (by norm_num)
  have hp : ∀ j, (j + 4 - 1) % 4 < 4 := fun j => Nat.mod_lt _ (by norm_num)
  have hne : (⟨1, 2, 3⟩ : P3 ℝ) ≠ 0 := fun h => by simpa using congrArg P3.x h
  have sf := square_fences
  obtain ⟨H, h1, h2, h3, h4⟩ := C97_built (ε := 1 / 10000) (arc := sqArc) (n := 4) (d := 5) (w := sqW) (N := fun _ _ => ⟨0, 0, 1⟩) (N' := fun _ _ => 0) (D := 0) (L := 0)
    (by norm_num) (by norm_num) (by norm_num) (by
      intro x hx
      rcases List.mem_cons.mp hx with rfl | q
      · exact ⟨by norm_num, by norm_num, by norm_num⟩
      · obtain ⟨a, ha, rfl⟩ := List.mem_map.mp q
        have : ∀ a ∈ sqNames, a.side < 4 ∧ a.col ≤ 5 ∧ a.row < 3 := by decide
        exact this a ha) sq_good
    ⟨sf.sides, sq_good.closed, fun j hj => by rw [sq_rows hj]; exact sf.curve j hj, sf.fence, sf.unit, sf.bound, sf.lip,
      fun j hj => by rw [sq_rows (hp j)]; exact sf.start j hj, fun j hj => by rw [sq_rows (hm j)]; exact sf.fin j hj⟩
    (a := fun _ => ⟨1, 2, 3⟩) (fun _ _ => hne) g l
  refine ⟨H, h1, ?_, h3, h4⟩
  obtain ⟨g, l, before, later, H0, H1, e1, e, r⟩ := h2
  exact ⟨g, l, before, later, H0, H1, e1, e.trans (tab_congr fun j hj => sq_rows hj), r⟩

/-- C97_fences and C97_side (and so C97_derivative and C97_normal) apply to it. -/
example : ∃ (H : Hybrid ℝ) (T T' : ℕ → ℝ → P3 ℝ) (v : ℕ → P2 ℝ), UpdatedNet (1 / 10000) sqArc 4 5 squareLoop H ∧ SmoothNet (1 / 10000) 4 squareLoop T T' H ∧
    H.net.squared = true ∧ ConvexDomain H.patch.dom.dom 4 v ∧ DerivativeAt (1 / 10000) H 4 v squareLoop (T 1 (1 / 4)) 1 (1 / 4) ∧ P3.dot (T 1 (1 / 4)) ⟨0, 0, 1⟩ = 0 ∧
      ∃ p w, DomainPath 4 v 1 (1 / 4) p w ∧ 0 < inward 4 v 1 w := by
  obtain ⟨H, _, h1, h2, h3⟩ := sq_fenced 0 0
  obtain ⟨T, T', hs, hT⟩ := C97_fences h1 square_fences h3
  obtain ⟨v, hv, hd⟩ := C97_side (i := 1) (s := 1 / 4) (by norm_num) (by norm_num) h1 hs h2 (by norm_num) (by norm_num) (by norm_num)
  refine ⟨H, T, T', v, h1, hs, h2, hv, hd, hT 1 (by norm_num) _ (by norm_num) (by norm_num), _, _, straight_path hv (by norm_num) (by norm_num) (by norm_num)⟩

/-- C97_plane applies to it. -/
example : ∃ H v, ConvexDomain H.patch.dom.dom 4 v ∧ ∀ p w, DomainPath 4 v 1 (1 / 4) p w → ∃ (X : ℝ → P3 ℝ) (X' : P3 ℝ),
    (∀ᶠ t in nhdsWithin 0 (Set.Ici 0), ∃ H', Hybrid.eval (1 / 10000) (p t) H = .ok (X t, H')) ∧ X 0 = ⟨10, 5 / 2, 0⟩ ∧ RightDer3 X X' ∧ P3.dot X' ⟨0, 0, 1⟩ = 0 := by
  obtain ⟨H, _, h1, h2, h3⟩ := sq_fenced 0 0
  obtain ⟨v, hv, hd⟩ := C97_plane (i := 1) (s := 1 / 4) (by norm_num) (by norm_num) h1 h2 square_fences h3 (by norm_num) (by norm_num) (by norm_num)
    (by norm_num [squareLoop, segment, P3.dot])
  refine ⟨H, v, hv, fun p w hp => ?_⟩
  obtain ⟨X, X', e1, e2, e3⟩ := hd p w hp
  refine ⟨X, X', e1, e2.trans ?_, e3⟩
  ext <;> norm_num [squareLoop, segment]

end Hybrid

end Transfinite
