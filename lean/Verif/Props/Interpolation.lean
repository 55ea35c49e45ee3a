import Verif.Lemmas.PatchSide

/-! # C30-C35: the surfaces interpolate their boundary curves

The statements are about whole objects: any history of calls, then a successful `update()`, then any calls that do not change the
boundary curves or the normal fences (queries, ribbon controls, midpoints, further updates). -/

namespace Transfinite

open Spec Real

/-! ### Specification -/

/-- A closed loop of at least three curves with nonzero derivatives. -/
structure Loop (n : ℕ) (c : ℕ → Curve ℝ) : Prop where
  sides : 3 ≤ n
  closed : ∀ j < n, (c j).pt 1 = (c ((j + 1) % n)).pt 0
  regular : ∀ j < n, ∀ s, 0 ≤ s → s ≤ 1 → (c j).der s ≠ 0

/-- An object with the curves `c`, no overridden normal fence, brought up to date by `update()` at some time after
the last change of the curves. -/
def UpToDate (ε : ℝ) (kind : PatchKind) (n : ℕ) (c : ℕ → Curve ℝ) (P : Patch ℝ) : Prop :=
  ∃ before later P0 P1, (Patch.new kind).run ε before = .ok P0 ∧ P0.curves = tab n c ∧ (∀ r ∈ P0.surf.ribbons, r.fence = none) ∧
    P0.update ε = .ok P1 ∧ (∀ x ∈ later, Patch.Call.keepsLoop x = true) ∧ P1.run ε later = .ok P

/-- `eval(domain()->edgePoint(i, s))` is the point `p`. -/
def SideValue (ε : ℝ) (P : Patch ℝ) (i : ℕ) (s : ℝ) (p : P3 ℝ) : Prop :=
  ∃ uv P', P.dom.dom.edgePoint i s = .ok uv ∧ P.eval ε uv = .ok (p, P')

/-! ### Common steps -/

/-- `update()` on an object with the curves `c`. -/
theorem update_makes_ready {ε : ℝ} {n : ℕ} {c : ℕ → Curve ℝ} {P0 P1 : Patch ℝ} (hn : 3 ≤ n) (hi : Patch.Inv ε P0) (h2 : P0.curves = tab n c)
    (h3 : ∀ r ∈ P0.surf.ribbons, r.fence = none) (h4 : P0.update ε = .ok P1) : Patch.Ready ε P1 n c ∧ P1.kind = P0.kind := by
  have hlen : P0.surf.ribbons.length = n := by
    have := congrArg List.length h2
    simpa [Patch.curves] using this
  obtain ⟨r, hr⟩ := exists_tab' (l := P0.surf.ribbons) (by omega)
  rw [hlen] at hr
  have hmem : ∀ j < n, r j ∈ P0.surf.ribbons := by
    intro j hj
    rw [hr]; unfold tab
    exact List.mem_map.mpr ⟨j, List.mem_range.mpr hj, rfl⟩
  have hcurve : ∀ j < n, (r j).curve = c j := by
    intro j hj
    unfold Patch.curves at h2
    rw [hr] at h2
    have e := congrArg (fun l => l[j]?) h2
    simpa [tab, hj] using e
  exact ⟨Patch.update_ready hi hr (fun j hj => ⟨hi.kinds _ (hmem j hj), hcurve j hj, h3 _ (hmem j hj)⟩) (by omega) h4,
    (Patch.updatedFrom hi h4).kind⟩

theorem upToDate_ready {ε : ℝ} {kind : PatchKind} {n : ℕ} {c : ℕ → Curve ℝ} {P : Patch ℝ} (h : UpToDate ε kind n c P) (hn : 3 ≤ n) :
    Patch.Ready ε P n c ∧ P.kind = kind := by
  obtain ⟨before, later, P0, P1, h1, h2, h3, h4, h5, h6⟩ := h
  obtain ⟨hi, hk⟩ := Patch.run_inv (Patch.new_inv ε kind) h1
  obtain ⟨hr1, hk1⟩ := update_makes_ready hn hi h2 h3 h4
  refine ⟨Patch.run_ready (by omega) hr1 h5 h6, ?_⟩
  rw [(Patch.run_inv hr1.inv h6).2, hk1, hk]
  rfl

private theorem value {ε : ℝ} {n : ℕ} {c : ℕ → Curve ℝ} {P : Patch ℝ} (h : Patch.Ready ε P n c) {v : ℕ → P2 ℝ}
    (hd : ConvexDomain P.dom.dom n v) {i : ℕ} (hi : i < n) {s : ℝ} {f : ℕ → P2 ℝ} {p : P3 ℝ}
    (hf : ∀ o : Param.Obj ℝ, Param.update P.kind.param P.dom.dom = .ok o → ∀ j < n,
      Param.mapRaw ε P.kind.param P.dom.dom o.mult j (sidePoint n v i s) = .ok (f j))
    (hp : P.evalWith ε (tab n f) = .ok p) : SideValue ε P i s p := by
  obtain ⟨P', e⟩ := h.eval_side hd hf hp
  exact ⟨_, P', hd.edgePoint hi s, e⟩

variable {ε : ℝ} {n : ℕ} {c : ℕ → Curve ℝ} {P : Patch ℝ} {i : ℕ} {s : ℝ}

/-! ### C30: side-based -/

/-- Tolerance of the bilinear side parameter at the point `s` of side `i`: the distances of the next vertices in both directions from
the side (relative to its length) are equal, or differ by the tolerance. -/
def SideTol (ε : ℝ) (n : ℕ) (v : ℕ → P2 ℝ) (i : ℕ) (s : ℝ) : Prop :=
  let l2 := P2.dot (v i - v ((i + n - 1) % n)) (v i - v ((i + n - 1) % n))
  let h1 := leftOf n v i (v ((i + n - 2) % n)) / l2
  let h2 := leftOf n v i (v ((i + 1) % n)) / l2
  (h1 = h2 ∧ ε ≤ h1) ∨ (ε ≤ |h1 - h2| ∧ ε ≤ (h1 * (1 - s) + h2 * s) ^ 2)

/-- `p` is not within the tolerance of side `j`, relative to the vertex farthest from the side. -/
def AwayFrom (ε : ℝ) (n : ℕ) (v : ℕ → P2 ℝ) (j : ℕ) (p : P2 ℝ) : Prop := ∀ k < n, ε * leftOf n v j (v k) ≤ leftOf n v j p

private theorem side_bilinear {d : Domain ℝ} {v : ℕ → P2 ℝ} (hd : ConvexDomain d n v) (hε : 0 < ε) (hi : i < n) (h0 : 0 ≤ s) (h1 : s ≤ 1)
    (ht : SideTol ε n v i s) : Param.bilinearMap ε d i (sidePoint n v i s) = .ok ⟨s, 0⟩ := by
  obtain ⟨p1, p2, _, _, _, _, k1, k2, _, k3⟩ := Param.bilinearMap_inverts hd hε hi
  have hdu : 0 < P2.dot (duOf n v i) (duOf n v i) := hd.du_pos hi
  have e := k3 s 0 h0 h1 le_rfl zero_le_one (Or.inr zero_lt_one) ?_
  · have e2 : bilinear (v ((i + n - 2) % n)) (v ((i + n - 1) % n)) (v i) (v ((i + 1) % n)) s 0 = sidePoint n v i s := by
      unfold bilinear sidePoint
      module
    rwa [e2] at e
  · unfold SideTol at ht
    dsimp only at ht
    rw [show v i - v ((i + n - 1) % n) = duOf n v i from rfl, k1, k2, mul_div_cancel_left₀ _ hdu.ne', mul_div_cancel_left₀ _ hdu.ne'] at ht
    unfold Param.BilinearTol
    simpa using ht

/-- C30: the side-based surface interpolates its boundary curves, when its (angular) domain is convex, at the points of the sides that
are not within the tolerance of another side. -/
theorem C30_side (hε : 0 < ε) (hl : Loop n c) (hex : ∀ j < n, ExactCurve ε (c j)) (h : UpToDate ε .sideBased n c P)
    {v : ℕ → P2 ℝ} (hd : ConvexDomain P.dom.dom n v) (hi : i < n) (h0 : 0 ≤ s) (h1 : s ≤ 1) (ht : SideTol ε n v i s)
    (haway : ∀ j < n, j ≠ i → AwayFrom ε n v j (sidePoint n v i s)) : SideValue ε P i s ((c i).pt s) := by
  have hn := hl.sides
  obtain ⟨hr, hk⟩ := upToDate_ready h hn
  have hsurf := hr.surf
  rw [hk] at hsurf
  have hcomp := Surf.Ready.compatible hε hsurf hn hl.closed hex hl.regular
  obtain ⟨mult, _, e, _⟩ := C15_parallel hd ε
  obtain ⟨f, f1, f2, f3, f4⟩ := Patch.parallel_side hd hε (uv := sidePoint n v i s) e
  refine value hr hd hi (f := f) ?_ ?_
  · intro o ho j hj
    rw [hk] at ho ⊢
    unfold Param.update at ho
    dsimp only [PatchKind.param] at ho
    rw [e, M_bind_ok] at ho
    cases ho
    exact f1 j hj
  · unfold Patch.evalWith; rw [hk]; dsimp only
    refine Surf.sideBased_inner hcomp hε hi h0 h1 ?_ (fun j hj hne => f3 j hj (haway j hj hne))
    have e1 := f4 i hi s 0 (side_bilinear hd hε hi h0 h1 ht)
    have e2 := f2 i hi (by unfold leftOf sidePoint area2; simp; ring)
    cases hfi : f i with
    | mk x y => rw [hfi] at e1 e2; simp only at e1 e2; rw [e1, e2]

/-- C30: at the corners. -/
theorem C30_corner (hε : 0 < ε) (hl : Loop n c) (hex : ∀ j < n, ExactCurve ε (c j)) (h : UpToDate ε .sideBased n c P)
    {v : ℕ → P2 ℝ} (hd : ConvexDomain P.dom.dom n v) (hi : i < n) (ht : SideTol ε n v i 1) (ht' : SideTol ε n v ((i + 1) % n) 0)
    (haway : ∀ j < n, j ≠ i → j ≠ (i + 1) % n → AwayFrom ε n v j (v i)) : SideValue ε P i 1 ((c i).pt 1) := by
  have hn := hl.sides
  obtain ⟨hr, hk⟩ := upToDate_ready h hn
  have hsurf := hr.surf
  rw [hk] at hsurf
  have hcomp := Surf.Ready.compatible hε hsurf hn hl.closed hex hl.regular
  have hx : nextIx n i < n := nextIx_lt (by omega)
  have p1 : sidePoint n v i 1 = v i := by unfold sidePoint; simp
  have p0 : sidePoint n v (nextIx n i) 0 = v i := by
    unfold sidePoint
    change (1 - (0 : ℝ)) • v (prevIx n (nextIx n i)) + _ = _
    rw [prevIx_nextIx hi]; simp
  obtain ⟨mult, _, e, _⟩ := C15_parallel hd ε
  obtain ⟨f, f1, f2, f3, f4⟩ := Patch.parallel_side hd hε (uv := v i) e
  refine value hr hd hi (f := f) ?_ ?_
  · intro o ho j hj
    rw [hk] at ho ⊢
    unfold Param.update at ho
    dsimp only [PatchKind.param] at ho
    rw [e, M_bind_ok] at ho
    cases ho
    rw [p1]
    exact f1 j hj
  · unfold Patch.evalWith; rw [hk]; dsimp only
    have b1 := side_bilinear hd hε hi zero_le_one le_rfl ht
    have b0 := side_bilinear hd hε hx le_rfl zero_le_one ht'
    rw [p1] at b1
    rw [p0] at b0
    refine Surf.sideBased_corner hcomp hε hi ?_ ?_ (fun j hj hne hne' => f3 j hj (haway j hj hne hne'))
    · have e1 := f4 i hi 1 0 b1
      have e2 := f2 i hi (by unfold leftOf area2; ring)
      cases hfi : f i with
      | mk x y => rw [hfi] at e1 e2; simp only at e1 e2; rw [e1, e2]
    · have e1 := f4 _ hx 0 0 b0
      have e2 := f2 _ hx (by
        unfold leftOf area2
        change _ * (_ - (v (prevIx n (nextIx n i))).y) - _ * (_ - (v (prevIx n (nextIx n i))).x) = _
        rw [prevIx_nextIx hi]; simp)
      cases hfi : f (nextIx n i) with
      | mk x y => rw [hfi] at e1 e2; simp only at e1 e2; rw [e1, e2]

/-! ### C31: corner-based -/

/-- C31: the corner-based surface interpolates its boundary curves. The tolerance has to be less than
`sin (2π/n)`; for triangles the parameters with `ε ≤ 1 - s < ε / sin (2π/3)` are excluded. -/
theorem C31_side (hε : 0 < ε) (hε2 : ε ≤ 1 / 2) (hεn : ε ≤ sin (2 * π / n)) (hl : Loop n c) (hex : ∀ j < n, ExactCurve ε (c j))
    (h : UpToDate ε .cornerBased n c P) (hi : i < n) (h0 : 0 ≤ s) (h1 : s ≤ 1)
    (h3 : n = 3 → 1 - s < ε ∨ ε ≤ sin (2 * π / 3) * (1 - s)) : SideValue ε P i s ((c i).pt s) := by
  have hn := hl.sides
  obtain ⟨hr, hk⟩ := upToDate_ready h hn
  have hsurf := hr.surf
  rw [hk] at hsurf
  have hcomp := Surf.Ready.compatible hε hsurf hn hl.closed hex hl.regular
  obtain ⟨r, φ, r1, hd⟩ := hr.regularDomain (by rw [hk]; rfl) hn
  obtain ⟨f, f1, f2⟩ := bilinear_sideParams (by linarith) hd hε hεn hi h0 h1 h3
  refine value hr hd hi (f := f) ?_ ?_
  · intro o _ j hj
    rw [hk]
    exact f1 j hj
  · unfold Patch.evalWith; rw [hk]; dsimp only
    exact Surf.cornerBased_side hcomp hε hε2 hi h0 h1 f2

/-! ### C32: generalized Coons -/

/-- C32: the generalized Coons surface interpolates its boundary curves. The tolerance has to be less than
`sin (2π/n) sin (π/n) / 2`; for triangles the parameters with `0 < 1 - s < ε / sin (2π/3)` are excluded. -/
theorem C32_side (hε : 0 < ε) (hεn : ε ≤ sin (2 * π / n) * sin (π / n) / 2) (hl : Loop n c) (hex : ∀ j < n, ExactCurve ε (c j))
    (h : UpToDate ε .generalizedCoons n c P) (hi : i < n) (h0 : 0 ≤ s) (h1 : s ≤ 1)
    (h3 : n = 3 → s = 1 ∨ ε ≤ sin (2 * π / 3) * (1 - s)) : SideValue ε P i s ((c i).pt s) := by
  have hn := hl.sides
  obtain ⟨sp1, sp2⟩ := sin_pi_div_pos hn
  have hε2 : ε ≤ 1 / 2 := by nlinarith [sin_le_one (π / n), sin_le_one (2 * π / n)]
  obtain ⟨hr, hk⟩ := upToDate_ready h hn
  have hsurf := hr.surf
  rw [hk] at hsurf
  have hcomp := Surf.Ready.compatible hε hsurf hn hl.closed hex hl.regular
  obtain ⟨r, φ, r1, hd⟩ := hr.regularDomain (by rw [hk]; rfl) hn
  obtain ⟨f, f1, f2⟩ := interconnected_sideParams (by linarith) hd hε hεn hi h0 h1 h3
  refine value hr hd hi (f := f) ?_ ?_
  · intro o _ j hj
    rw [hk]
    exact f1 j hj
  · unfold Patch.evalWith; rw [hk]; dsimp only
    exact Surf.generalizedCoons_side hcomp hε hε2 hi h0 h1 f2

/-! ### C33: composite ribbon -/

/-- C33: the composite ribbon surface interpolates its boundary curves. -/
theorem C33_side (hε : 0 < ε) (hε2 : ε ≤ 1 / 2) (hl : Loop n c) (hex : ∀ j < n, ExactCurve ε (c j))
    (h : UpToDate ε .compositeRibbon n c P) (hi : i < n) (h0 : 0 ≤ s) (h1 : s ≤ 1) : SideValue ε P i s ((c i).pt s) := by
  have hn := hl.sides
  obtain ⟨hr, hk⟩ := upToDate_ready h hn
  have hsurf := hr.surf
  rw [hk] at hsurf
  have hcomp := Surf.Ready.compatible hε hsurf hn hl.closed hex hl.regular
  obtain ⟨r, φ, r1, hd⟩ := hr.regularDomain (by rw [hk]; rfl) hn
  obtain ⟨f, f1, f2, _⟩ := bary_sideParams hd hε (by linarith) hi h0 h1
  refine value hr hd hi (f := f) ?_ ?_
  · intro o _ j hj
    rw [hk]
    exact f1 j hj
  · unfold Patch.evalWith; rw [hk]; dsimp only
    exact Surf.composite_side hcomp hε hε2 hi h0 h1 f2

/-! ### C34: midpoint and midpoint Coons -/

/-- C34: the midpoint surface interpolates its boundary curves, whatever midpoint is set (the calls after the update may
set it), except within the tolerance of the corners. -/
theorem C34_midpoint (hε : 0 < ε) (hε1 : ε ≤ 1) (hl : Loop n c) (hex : ∀ j < n, ExactCurve ε (c j))
    (h : UpToDate ε .midpoint n c P) (hi : i < n) (h0 : ε ≤ s ∨ s = 0) (h1 : ε ≤ 1 - s ∨ s = 1) : SideValue ε P i s ((c i).pt s) := by
  have s0 : 0 ≤ s := by rcases h0 with h | h <;> linarith
  have s1 : s ≤ 1 := by rcases h1 with h | h <;> linarith
  have hn := hl.sides
  obtain ⟨hr, hk⟩ := upToDate_ready h hn
  have hsurf := hr.surf
  rw [hk] at hsurf
  have hcomp := Surf.Ready.compatible hε hsurf hn hl.closed hex hl.regular
  obtain ⟨r, φ, r1, hd⟩ := hr.regularDomain (by rw [hk]; rfl) hn
  obtain ⟨f, f1, f2, f3⟩ := bary_sideParams hd hε hε1 hi s0 s1
  refine value hr hd hi (f := f) ?_ ?_
  · intro o _ j hj
    rw [hk]
    exact f1 j hj
  · unfold Patch.evalWith; rw [hk]; dsimp only
    exact Surf.midpoint_side hcomp hε hε1 hi h0 h1 f2 f3 _

/-- C34: the midpoint Coons surface also does, for a tolerance less than `sin (2π/n)² sin (π/n) / 2`. -/
theorem C34_midpointCoons (hε : 0 < ε) (hεn : ε ≤ sin (2 * π / n) ^ 2 * sin (π / n) / 2) (hl : Loop n c)
    (hex : ∀ j < n, ExactCurve ε (c j)) (h : UpToDate ε .midpointCoons n c P) (hi : i < n) (h0 : ε ≤ s ∨ s = 0)
    (h1 : ε ≤ 1 - s ∨ s = 1) : SideValue ε P i s ((c i).pt s) := by
  have s0 : 0 ≤ s := by rcases h0 with h | h <;> linarith
  have hn := hl.sides
  obtain ⟨sp1, sp2⟩ := sin_pi_div_pos hn
  have q := sin_sq_le_one (2 * π / n)
  have hε1 : ε ≤ 1 := by nlinarith [sin_le_one (π / n)]
  obtain ⟨hr, hk⟩ := upToDate_ready h hn
  have hsurf := hr.surf
  rw [hk] at hsurf
  have hcomp := Surf.Ready.compatible hε hsurf hn hl.closed hex hl.regular
  obtain ⟨r, φ, r1, hd⟩ := hr.regularDomain (by rw [hk]; rfl) hn
  obtain ⟨f, f1, f2, f3⟩ := constrained_sideParams r1 hd hε hεn hi s0 h1
  refine value hr hd hi (f := f) ?_ ?_
  · intro o _ j hj
    rw [hk]
    exact f1 j hj
  · unfold Patch.evalWith; rw [hk]; dsimp only
    exact Surf.midpointCoons_side hcomp hε hε1 hi h0 h1 f2 f3 _

/-! ### C35: C0 Coons -/

/-- C35: the C0 Coons surface interpolates its boundary curves (which need not be smooth), except within the tolerance of the
end of the side. -/
theorem C35_side (hε : 0 < ε) (hε1 : ε ≤ 1) (hn : 3 ≤ n) (hc : ∀ j < n, (c j).pt 1 = (c ((j + 1) % n)).pt 0)
    (h : UpToDate ε .c0Coons n c P) (hi : i < n) (h0 : 0 ≤ s) (h1 : ε ≤ 1 - s ∨ s = 1) : SideValue ε P i s ((c i).pt s) := by
  have s1 : s ≤ 1 := by rcases h1 with h | h <;> linarith
  obtain ⟨hr, hk⟩ := upToDate_ready h hn
  have hsurf := hr.surf
  rw [hk] at hsurf
  obtain ⟨r, φ, r1, hd⟩ := hr.regularDomain (by rw [hk]; rfl) hn
  obtain ⟨f, f1, f2, f3⟩ := bary_sideParams hd hε hε1 hi h0 s1
  refine value hr hd hi (f := f) ?_ ?_
  · intro o _ j hj
    rw [hk]
    exact f1 j hj
  · unfold Patch.evalWith; rw [hk]; dsimp only
    exact Surf.c0Coons_side hn hr.length hε hi h0 s1 h1 f2 f3 (Surf.Ready.coons hsurf hn hc)

end Transfinite
