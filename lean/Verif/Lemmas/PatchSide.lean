import Verif.Lemmas.Ready
import Verif.Lemmas.SideParams

/-! Values of updated surface objects at the points of a side. -/

namespace Transfinite

open Spec Real

variable {ε : ℝ} {n : ℕ} {c : ℕ → Curve ℝ}

namespace Surf

theorem Ready.compatible (hε : 0 < ε) {S : Surf ℝ} (h : S.Ready ε .handler n c) (hn : 3 ≤ n)
    (closed : ∀ j < n, (c j).pt 1 = (c ((j + 1) % n)).pt 0) (hex : ∀ j < n, ExactCurve ε (c j))
    (hd : ∀ j < n, ∀ s, 0 ≤ s → s ≤ 1 → (c j).der s ≠ 0) : Compatible ε S n c := by
  obtain ⟨r, h1, h2⟩ := h.ribs
  obtain ⟨q, h3, h4⟩ := h.corners
  refine ⟨hn, by unfold Surf.n; rw [h1, length_tab], ?_, ?_, closed⟩
  · intro j hj
    obtain ⟨r0, r1, k1, k2, k3, k4, k5⟩ := h2 j hj
    have hb := (h2 j hj).basic
    have hc : ∀ s, Ribbon.crossDerivative ε (r j) s = Ribbon.crossDerivative ε r1 s := by
      intro s
      rw [k5]
      exact (Ribbon.controls_irrelevant ε r1 _ _ _).1 s
    refine ⟨r j, by rw [h1, vget_tab _ hj], hb.2.1, by rw [hb.1]; simp, by rw [hb.1]; simp, ?_, ?_, ?_⟩
    · rw [hc]; exact C23_start hε (Or.inr k1) k3 k4
    · rw [hc]; exact C23_end hε (Or.inr k1) k3 (by rw [k2]; exact hex j hj) k4
    · intro s s0 s1
      rw [hc]; exact C22_defined hε (Or.inr k1) k4 s0 (by rw [k2]; exact hd j hj s s0 s1)
  · intro j hj
    obtain ⟨t1, t2, e⟩ := h4 j hj
    exact ⟨t1, t2, by rw [h3, vget_tab _ hj, e]⟩

theorem Ready.coons {S : Surf ℝ} (h : S.Ready ε .coons n c) (hn : 3 ≤ n)
    (closed : ∀ j < n, (c j).pt 1 = (c ((j + 1) % n)).pt 0) :
    ∀ j < n, ∃ r, vget S.ribbons j = .ok r ∧ (∀ x, 0 ≤ x → x ≤ 1 → r.eval ε ⟨x, 0⟩ = .ok ((c j).pt x)) ∧
      (∀ x, 0 ≤ x → x ≤ 1 → r.eval ε ⟨0, x⟩ = .ok ((c (prevIx n j)).pt (1 - x))) ∧
      (∀ x, 0 ≤ x → x ≤ 1 → r.eval ε ⟨1, x⟩ = .ok ((c (nextIx n j)).pt x)) ∧ ∀ sd, ∃ q, r.eval ε sd = .ok q := by
  obtain ⟨r, h1, h2⟩ := h.ribs
  intro j hj
  obtain ⟨r0, r1, k1, k2, k3, k4, k5⟩ := h2 j hj
  have hp : prevIx n j < n := prevIx_lt (by omega)
  have hx : nextIx n j < n := nextIx_lt (by omega)
  have hca : ClosedAround (nbOf n c j) r0.curve := by
    rw [k2]
    refine ⟨?_, closed j hj, ?_⟩
    · have := closed _ hp
      change _ = (c (nextIx n (prevIx n j))).pt 0 at this
      rwa [nextIx_prevIx hj] at this
    · intro h3
      have h3 : n = 3 := by simpa [nbOf] using h3
      have e := closed _ hx
      change _ = (c (nextIx n (nextIx n j))).pt 0 at e
      have e' : nextIx n (nextIx n j) = prevIx n j := by
        subst h3
        interval_cases j <;> rfl
      rw [e'] at e
      exact e
  have hc : ∀ sd, Ribbon.eval ε (r j) sd = Ribbon.eval ε r1 sd := by
    intro sd
    rw [k5]
    exact (Ribbon.controls_irrelevant ε r1 _ _ _).2 sd
  have mm : ∀ x : ℝ, 0 ≤ x → x ≤ 1 → max 0 (min x 1) = x := fun x a b => by rw [min_eq_left b, max_eq_right a]
  refine ⟨r j, by rw [h1, vget_tab _ hj], ?_, ?_, ?_, ?_⟩
  · intro x x0 x1
    rw [hc, C25_bottom k1 k4 hca, mm x x0 x1, k2]
  · intro x x0 x1
    rw [hc, C25_left k1 k4 hca, mm x x0 x1]; rfl
  · intro x x0 x1
    rw [hc, C25_right k1 k4 hca, mm x x0 x1]; rfl
  · intro sd
    rw [hc]; exact C25_defined k1 k4 hca sd

end Surf

namespace Patch

/-- The domain of an updated surface with a regular domain. -/
theorem Ready.regularDomain {P : Patch ℝ} (h : Ready ε P n c) (hr : P.kind.regular = true) (hn : 3 ≤ n) :
    ∃ r φ, 1 ≤ r ∧ ConvexDomain P.dom.dom n (regularVertex n r φ) := by
  obtain ⟨vs, e1, e2⟩ := (h.inv.regular hr).resolve_left (by rw [h.dom hr]; omega)
  rw [h.dom hr] at e1
  obtain ⟨r, φ, hr, hd, _⟩ := regular_convex hn e1 e2
  exact ⟨r, φ, hr, hd⟩

/-- From local parameters to the value of the surface. -/
theorem Ready.eval_side {P : Patch ℝ} (h : Ready ε P n c) {v : ℕ → P2 ℝ} (hd : ConvexDomain P.dom.dom n v)
    {uv : P2 ℝ} {f : ℕ → P2 ℝ} {p : P3 ℝ}
    (hf : ∀ o : Param.Obj ℝ, Param.update P.kind.param P.dom.dom = .ok o → ∀ j < n,
      Param.mapRaw ε P.kind.param P.dom.dom o.mult j uv = .ok (f j))
    (hp : P.evalWith ε (tab n f) = .ok p) : ∃ P', P.eval ε uv = .ok (p, P') := by
  have hpar : ParamOk ε P := h.inv.param.resolve_left (by rw [hd.n_eq]; have := hd.hn; omega)
  obtain ⟨o, e⟩ := maps_of_raw hpar hd.length_eq hf
  exact ⟨_, eval_of e hp⟩

/-- The parallel parameterization at a point of a side. -/
theorem parallel_side {d : Domain ℝ} {v : ℕ → P2 ℝ} (h : ConvexDomain d n v) (hε : 0 < ε) {uv : P2 ℝ}
    {mult : List ℝ} (hm : Param.parallelMultipliers d = .ok mult) :
    ∃ f : ℕ → P2 ℝ, (∀ j < n, Param.parallelMap ε mult d j uv = .ok (f j)) ∧
      (∀ j < n, leftOf n v j uv = 0 → (f j).y = 0) ∧
      (∀ j < n, (∀ k < n, ε * leftOf n v j (v k) ≤ leftOf n v j uv) → ε ≤ (f j).y) ∧
      (∀ j < n, ∀ s t, Param.bilinearMap ε d j uv = .ok ⟨s, t⟩ → (f j).x = s) := by
  obtain ⟨m', far, e1, h1, h2, h3, h4⟩ := C15_parallel h ε
  rw [hm] at e1
  cases e1
  have hs : ∀ j, ∃ s, j < n → Param.bilinearSide ε d j uv = .ok s := by
    intro j
    by_cases hj : j < n
    · obtain ⟨s, hs⟩ := h4 hε j hj uv
      exact ⟨s, fun _ => hs⟩
    · exact ⟨0, fun q => absurd q hj⟩
  choose s hs using hs
  refine ⟨fun j => ⟨s j, leftOf n v j uv / far j⟩, fun j hj => h2 j hj uv _ (hs j hj), ?_, ?_, ?_⟩
  · intro j hj e
    change _ / _ = _
    rw [e, zero_div]
  · intro j hj hk
    obtain ⟨f0, ⟨k, hk1, hk2⟩, _⟩ := h1 j hj
    have := hk k hk1
    rw [← hk2] at this
    exact (le_div_iff₀ f0).mpr this
  · intro j hj x t e
    have := h3 j hj uv x t e
    rw [hs j hj] at this
    exact Except.ok.inj this

end Patch

end Transfinite
