import Verif.Lemmas.TangentFence
import Verif.Props.Tangent
import Verif.Props.Total

/-! # C81: surfaces with common normal fences have common tangent planes along their sides -/

namespace Transfinite

open Spec Set Filter Topology Real

/-! ### Specification -/

/-- A closed differentiable loop with unit normals `N j s` along its sides, perpendicular to the adjacent curves in the corners.
The derivatives of the normals are bounded by `D`, and they have the Lipschitz constant `L`. -/
structure FencedLoop (n : ℕ) (c : ℕ → Curve ℝ) (N N' : ℕ → ℝ → P3 ℝ) (D L : ℝ) : Prop where
  sides : 3 ≤ n
  closed : ∀ j < n, (c j).pt 1 = (c ((j + 1) % n)).pt 0
  curve : ∀ j < n, ∀ s, 0 ≤ s → s ≤ 1 → UnitDer (c j).pt ((c j).der s) s
  fence : ∀ j < n, ∀ s, 0 ≤ s → s ≤ 1 → UnitDer (N j) (N' j s) s
  unit : ∀ j < n, ∀ s, 0 ≤ s → s ≤ 1 → P3.dot (N j s) (N j s) = 1
  bound : ∀ j < n, ∀ s, 0 ≤ s → s ≤ 1 → Close D (N' j s) 0
  lip : ∀ j < n, ∀ s t, 0 ≤ s → s ≤ 1 → 0 ≤ t → t ≤ 1 → Close (L * |s - t|) (N' j s) (N' j t)
  start : ∀ j < n, P3.dot ((c ((j + n - 1) % n)).der 1) (N j 0) = 0
  fin : ∀ j < n, P3.dot ((c ((j + 1) % n)).der 0) (N j 1) = 0

/-- The ribbons of `P` have the normal fences `N`, and central derivatives (the handlers, scaled) with coordinates up to `M`. -/
def HasFences (P : Patch ℝ) (n : ℕ) (N : ℕ → ℝ → P3 ℝ) (M : ℝ) : Prop :=
  ∀ j < n, ∃ r, vget P.surf.ribbons j = .ok r ∧ r.fence = some (N j) ∧ Close M r.central 0

variable {ε δ : ℝ} {kind : PatchKind} {n : ℕ} {c : ℕ → Curve ℝ} {P : Patch ℝ} {T T' N N' : ℕ → ℝ → P3 ℝ} {D L M : ℝ} {i : ℕ} {s : ℝ}

/-! ### The cross derivatives -/

theorem Ribbon.fenceT_perp (a m b : P3 ℝ) {N : ℝ → P3 ℝ} {s : ℝ} (hu : P3.dot (N s) (N s) = 1) : P3.dot (Ribbon.fenceT a m b N s) (N s) = 0 := by
  have h : ∀ v : P3 ℝ, P3.dot (Ribbon.project (N s) v) (N s) = 0 := by
    intro v
    unfold Ribbon.project
    have : P3.dot (v - P3.dot v (N s) • N s) (N s) = P3.dot v (N s) - P3.dot v (N s) * P3.dot (N s) (N s) := by
      simp only [P3.dot, P3.sub_x, P3.sub_y, P3.sub_z, P3.smul_x, P3.smul_y, P3.smul_z]; ring
    rw [this, hu]; ring
  have ha := h a
  have hm := h m
  have hb := h b
  unfold Ribbon.fenceT
  generalize Ribbon.project (N s) a = x at *
  generalize Ribbon.project (N s) m = y at *
  generalize Ribbon.project (N s) b = z at *
  simp only [P3.dot, P3.add_x, P3.add_y, P3.add_z, P3.smul_x, P3.smul_y, P3.smul_z] at *
  linear_combination (2 * (s - 1) * (s - 1 / 2)) * ha + (-4 * s * (s - 1)) * hm + (2 * s * (s - 1 / 2)) * hb

theorem Ribbon.fenceT_zero (a m b : P3 ℝ) {N : ℝ → P3 ℝ} (h : P3.dot a (N 0) = 0) : Ribbon.fenceT a m b N 0 = a := by
  unfold Ribbon.fenceT Ribbon.project
  rw [h]
  ext <;> simp

theorem Ribbon.fenceT_one (a m b : P3 ℝ) {N : ℝ → P3 ℝ} (h : P3.dot b (N 1) = 0) : Ribbon.fenceT a m b N 1 = b := by
  unfold Ribbon.fenceT Ribbon.project
  rw [h]
  ext <;> norm_num

private theorem dot_neg' (a b : P3 ℝ) : P3.dot (-a) b = -P3.dot a b := by
  simp only [P3.dot, P3.neg_x, P3.neg_y, P3.neg_z]; ring

/-- C81: surfaces with normal fences have differentiable ribbons, with cross derivatives that are perpendicular to the fences. -/
theorem C81_fences (h : UpdatedLoop ε kind n c P) (hk : kind.ribbon = .handler) (hl : FencedLoop n c N N' D L) (hf : HasFences P n N M)
    (hM : ∀ j < n, Close M ((c j).der 0) 0 ∧ Close M ((c j).der 1) 0) :
    ∃ T T', SmoothRibbons ε n c T T' (M * (64 + 120 * D + 18 * (D ^ 2 + L)) / 10000) P ∧
      ∀ j < n, ∀ s, 0 ≤ s → s ≤ 1 → P3.dot (T j s) (N j s) = 0 := by
  obtain ⟨k, F, ha⟩ := h.agreed hl.sides
  obtain ⟨r, hr⟩ := ha.surf
  rw [k, hk] at hr
  have hn := hl.sides
  have hf' : ∀ j < n, F j = some (N j) ∧ Close M (r j).central 0 := by
    intro j hj
    obtain ⟨q, e, h1, h2⟩ := hf j hj
    rw [hr.ribs, vget_tab _ hj] at e
    cases e
    exact ⟨(hr.ready j hj).basic.2.2.symm.trans h1, h2⟩
  have neg : ∀ {v : P3 ℝ}, Close M v 0 → Close M (-v) 0 := fun q => by simpa using neg_close q
  refine ⟨fun j => Ribbon.fenceT (-(c (prevIx n j)).der 1) (r j).central ((c (nextIx n j)).der 0) (N j),
    fun j => Ribbon.fenceT' (-(c (prevIx n j)).der 1) (r j).central ((c (nextIx n j)).der 0) (N j) (N' j), ⟨hn, hl.closed, hl.curve, ?_, ?_, ?_, ?_, ?_⟩, ?_⟩
  · intro j hj
    refine ⟨r j, by rw [hr.ribs, vget_tab _ hj], fun s _ _ => ?_⟩
    have q := hr.ready j hj
    rw [(hf' j hj).1] at q
    exact Ribbon.fence_cross q s
  · intro j hj s s0 s1
    exact Ribbon.fenceT_der _ _ _ (hl.fence j hj s s0 s1)
  · intro j hj
    exact Ribbon.fenceT_zero _ _ _ (by rw [dot_neg', neg_eq_zero]; exact hl.start j hj)
  · intro j hj
    exact Ribbon.fenceT_one _ _ _ (hl.fin j hj)
  · intro j hj s s0 s1
    have hp : prevIx n j < n := prevIx_lt (by omega)
    have hx : nextIx n j < n := nextIx_lt (by omega)
    have B0 : 0 ≤ M * (64 + 120 * D + 18 * (D ^ 2 + L)) := by
      have m0 := (hf' j hj).2.nonneg
      have d0 := (hl.bound j hj 0 le_rfl zero_le_one).nonneg
      have l0 := (hl.lip j hj 0 1 le_rfl zero_le_one zero_le_one le_rfl).nonneg
      norm_num at l0
      positivity
    have main := fun {a b : ℝ} => Ribbon.fenceT'_close (s := a) (t := b) (neg (hM _ hp).2) (hf' j hj).2 (hM _ hx).1 (hl.fence j hj) (hl.unit j hj)
      (hl.bound j hj) (hl.lip j hj)
    refine ⟨(main s0 (by linarith) le_rfl zero_le_one).mono ?_, (main (by linarith) (by linarith) zero_le_one le_rfl).mono ?_⟩
    · rw [sub_zero, abs_of_nonneg s0]
      nlinarith only [mul_le_mul_of_nonneg_left s1 B0]
    · rw [show 1 - s - 1 = -s by ring, abs_neg, abs_of_nonneg s0]
      nlinarith only [mul_le_mul_of_nonneg_left s1 B0]
  · intro j hj s s0 s1
    exact Ribbon.fenceT_perp _ _ _ (hl.unit j hj s s0 s1)

/-! ### The tangent planes -/

private theorem norm_add_le' (a b : P3 ℝ) : (a + b).norm ≤ a.norm + b.norm := by
  have h1 := P3.norm_mul_self (a + b)
  have h2 : P3.dot (a + b) (a + b) = P3.dot a a + 2 * P3.dot a b + P3.dot b b := by
    simp only [P3.dot, P3.add_x, P3.add_y, P3.add_z]; ring
  have h3 : P3.dot a b ≤ a.norm * b.norm := by
    have h : P3.dot a b ^ 2 ≤ P3.dot a a * P3.dot b b := by
      simp only [P3.dot]
      nlinarith [sq_nonneg (a.x * b.y - a.y * b.x), sq_nonneg (a.x * b.z - a.z * b.x), sq_nonneg (a.y * b.z - a.z * b.y)]
    rw [← P3.norm_mul_self, ← P3.norm_mul_self] at h
    exact le_of_abs_le (abs_le_of_sq_le_sq (by nlinarith) (mul_nonneg a.norm_nonneg b.norm_nonneg))
  rw [h2, ← P3.norm_mul_self a, ← P3.norm_mul_self b] at h1
  have := a.norm_nonneg
  have := b.norm_nonneg
  exact le_of_sq_le_sq (by nlinarith) (by linarith)

private theorem norm_smul' {b : ℝ} (hb : 0 ≤ b) (a : P3 ℝ) : (b • a).norm = b * a.norm := by
  have h1 := P3.norm_mul_self (b • a)
  have h2 : P3.dot (b • a) (b • a) = (b * a.norm) * (b * a.norm) := by
    have := P3.norm_mul_self a
    simp only [P3.dot, P3.smul_x, P3.smul_y, P3.smul_z] at this ⊢
    linear_combination (-(b * b)) * this
  rw [h2] at h1
  exact (mul_self_inj_of_nonneg (P3.norm_nonneg _) (mul_nonneg hb a.norm_nonneg)).mp h1

private theorem close_norm {e : P3 ℝ} (h : Close δ e 0) : e.norm ≤ 2 * δ := by
  have h0 := h.nonneg
  have sq : ∀ x : ℝ, |x - 0| ≤ δ → x * x ≤ δ * δ := fun x hx => by
    rw [sub_zero] at hx
    rw [← abs_mul_abs_self x]
    exact mul_le_mul hx hx (abs_nonneg _) h0
  have h1 := P3.norm_mul_self e
  have k1 := sq _ h.1
  have k2 := sq _ h.2.1
  have k3 := sq _ h.2.2
  unfold P3.dot at h1
  refine le_of_sq_le_sq ?_ (by linarith)
  nlinarith only [h1, k1, k2, k3, sq_nonneg δ]

private theorem unit_close {N : P3 ℝ} (h : P3.dot N N = 1) : Close 1 N 0 := by
  unfold P3.dot at h
  have one : ∀ x : ℝ, x * x ≤ 1 → |x - 0| ≤ 1 := fun x hx => by
    rw [sub_zero]; exact abs_le_one_iff_mul_self_le_one.mpr hx
  exact ⟨one _ (by nlinarith [mul_self_nonneg N.y, mul_self_nonneg N.z]), one _ (by nlinarith [mul_self_nonneg N.x, mul_self_nonneg N.z]),
    one _ (by nlinarith [mul_self_nonneg N.x, mul_self_nonneg N.y])⟩

/-- C81: along a side with a normal fence the surface is perpendicular to the fence. The deviation of the derivative of the surface (along any path
starting at the side) from the plane perpendicular to `V` is at most `3δ / (m - 2δ)` of its length, where `m` is the distance of the cross derivative from the
tangent of the curve and `δ` is the error of the twists. The surface is regular: paths leaving the side do not continue along the tangent. -/
theorem C81_plane {v : ℕ → P2 ℝ} (h : TangentAt ε P n v c T δ i s) {V : P3 ℝ} (hV : P3.dot V V = 1) (hc : P3.dot ((c i).der s) V = 0)
    (hT : P3.dot (T i s) V = 0) {m : ℝ} (hm : ∀ a : ℝ, m ≤ (T i s - a • (c i).der s).norm) :
    ∀ p w, DomainPath n v i s p w → ∃ (X : ℝ → P3 ℝ) (X' : P3 ℝ),
      (∀ᶠ t in nhdsWithin 0 (Set.Ici 0), ∃ P', P.eval ε (p t) = .ok (X t, P')) ∧ X 0 = (c i).pt s ∧ RightDer3 X X' ∧
        |P3.dot X' V| * (m - 2 * δ) ≤ 3 * δ * X'.norm ∧
        (0 < inward n v i w → 2 * δ < m → ∀ a : ℝ, X' ≠ a • (c i).der s) := by
  intro p w hp
  obtain ⟨X, α, β, e, h1, h2, h3, h4, h5, h6⟩ := h p w hp
  have hδ := h4.nonneg
  have far : 0 < β → ∀ a : ℝ, β * (m - 2 * δ) ≤ (α • (c i).der s + β • (T i s + e) - a • (c i).der s).norm := by
    intro hβ a
    have e1 : β • (T i s - (β⁻¹ * (a - α)) • (c i).der s) = (α • (c i).der s + β • (T i s + e) - a • (c i).der s) + β • (-e) := by
      rw [smul_sub, smul_smul, ← mul_assoc, mul_inv_cancel₀ hβ.ne', one_mul, smul_add, smul_neg, sub_smul]
      abel
    have k1 := norm_add_le' (α • (c i).der s + β • (T i s + e) - a • (c i).der s) (β • (-e))
    rw [← e1, norm_smul' hβ.le, norm_smul' hβ.le] at k1
    have k2 := close_norm (show Close δ (-e) 0 by simpa using neg_close h4)
    have k3 := mul_le_mul_of_nonneg_left k2 hβ.le
    have k4 := mul_le_mul_of_nonneg_left (hm (β⁻¹ * (a - α))) hβ.le
    linarith only [k1, k3, k4]
  refine ⟨X, _, h1, h2, h3, ?_, ?_⟩
  · have d : P3.dot (α • (c i).der s + β • (T i s + e)) V = β * P3.dot e V := by
      simp only [P3.dot, P3.add_x, P3.add_y, P3.add_z, P3.smul_x, P3.smul_y, P3.smul_z] at hc hT ⊢
      linear_combination α * hc + β * hT
    have b : |P3.dot e V| ≤ 3 * δ := by simpa using dot_zero_bound h4 (unit_close hV)
    rw [d, abs_mul, abs_of_nonneg h5]
    rcases eq_or_lt_of_le h5 with q | q
    · rw [← q, zero_mul, zero_mul]
      exact mul_nonneg (by linarith) (P3.norm_nonneg _)
    · have k := far q 0
      rw [zero_smul, sub_zero] at k
      rcases le_or_gt (m - 2 * δ) 0 with q2 | q2
      · exact (mul_nonpos_of_nonneg_of_nonpos (mul_nonneg h5 (abs_nonneg _)) q2).trans (mul_nonneg (by linarith) (P3.norm_nonneg _))
      · calc β * |P3.dot e V| * (m - 2 * δ) = |P3.dot e V| * (β * (m - 2 * δ)) := by ring
          _ ≤ 3 * δ * (β * (m - 2 * δ)) := mul_le_mul_of_nonneg_right b (mul_nonneg h5 q2.le)
          _ ≤ _ := mul_le_mul_of_nonneg_left k (by linarith)
  · intro hw hlt a q
    have k := far (h6 hw) a
    rw [q, sub_self] at k
    have z : (0 : P3 ℝ).norm = 0 := by
      have := P3.norm_mul_self (0 : P3 ℝ)
      simp only [P3.dot, P3.zero_x, P3.zero_y, P3.zero_z, mul_zero, add_zero] at this
      exact mul_self_eq_zero.mp this
    rw [z] at k
    have := mul_pos (h6 hw) (sub_pos.mpr hlt)
    linarith

/-! ### Surfaces with fences can be built -/

theorem Surf.Agreed.fenced {S : Surf ℝ} {r : ℕ → Ribbon ℝ} {F : ℕ → Option (ℝ → P3 ℝ)} (h : S.Agreed ε .handler n c F r) (hl : FencedLoop n c N N' D L)
    (hF : ∀ j < n, F j = some (N j)) : Surf.Compatible ε S n c := by
  have hv : ∀ j < n, ∀ s, (r j).crossDerivative ε s = .ok (Ribbon.fenceT (-(c (prevIx n j)).der 1) (r j).central ((c (nextIx n j)).der 0) (N j) s) := by
    intro j hj s
    have q := h.ready j hj
    rw [hF j hj] at q
    exact Ribbon.fence_cross q s
  refine ⟨hl.sides, by unfold Surf.n; rw [h.ribs, length_tab], fun j hj => ?_, fun j hj => ?_, hl.closed⟩
  · have hb := (h.ready j hj).basic
    refine ⟨r j, by rw [h.ribs, vget_tab _ hj], hb.2.1, by rw [hb.1]; simp, by rw [hb.1]; simp, ?_, ?_, fun s _ _ => ⟨_, hv j hj s⟩⟩
    · rw [hv j hj, Ribbon.fenceT_zero _ _ _ (by rw [dot_neg', neg_eq_zero]; exact hl.start j hj)]
    · rw [hv j hj, Ribbon.fenceT_one _ _ _ (show P3.dot ((c (nextIx n j)).der 0) (N j 1) = 0 from hl.fin j hj)]
  · obtain ⟨q, q1, q2⟩ := h.corners
    obtain ⟨t1, t2, e⟩ := Surf.cornerOf_tab hj (q2 j hj)
    have hx : nextIx n j < n := nextIx_lt (by have := hl.sides; omega)
    rw [(h.ready j hj).basic.2.1, (h.ready _ hx).basic.2.1] at e
    exact ⟨t1, t2, by rw [q1, vget_tab _ hj, e]⟩

private theorem run_tab {m : ℕ} {x : ℕ → Patch.Call ℝ} {A : ℕ → Patch ℝ} (h : ∀ j < m, (A j).step ε (x j) = .ok (A (j + 1))) :
    (A 0).run ε (tab m x) = .ok (A m) := by
  induction m with
  | zero => rfl
  | succ m ih =>
    have e : tab (m + 1) x = tab m x ++ [x m] := by unfold tab; rw [List.range_succ, List.map_append]; rfl
    rw [e]
    exact calls_append (ih fun j hj => h j (by omega)) (calls_one (h m (by omega)))

/-- The same kind of call for every ribbon. -/
theorem Patch.run_stage (P1 : Patch ℝ) (x y : ℕ → Ribbon ℝ) (f : ℕ → Ribbon ℝ → Except Fault (Ribbon ℝ)) (call : ℕ → Patch.Call ℝ) (h1 : ∀ j < n, f j (x j) = .ok (y j))
    (h2 : ∀ j (Q : Patch ℝ), Q.step ε (call j) = Q.onRibbon j (f j)) :
    ({ P1 with surf := { P1.surf with ribbons := tab n x } } : Patch ℝ).run ε (tab n call) = .ok { P1 with surf := { P1.surf with ribbons := tab n y } } := by
  let with_ : (ℕ → Ribbon ℝ) → Patch ℝ := fun r => { P1 with surf := { P1.surf with ribbons := tab n r } }
  let mix : (ℕ → Ribbon ℝ) → (ℕ → Ribbon ℝ) → ℕ → ℕ → Ribbon ℝ := fun x y m j => if j < m then y j else x j
  change (with_ x).run ε (tab n call) = .ok (with_ y)
  have hx : with_ x = with_ (mix x y 0) := by
    refine congrArg with_ ?_
    funext j
    exact (if_neg (by omega)).symm
  have hy : with_ y = with_ (mix x y n) := by
    change ({ P1 with surf := { P1.surf with ribbons := tab n y } } : Patch ℝ) = { P1 with surf := { P1.surf with ribbons := tab n (mix x y n) } }
    rw [tab_congr (fun j hj => (if_pos hj).symm : ∀ j < n, y j = mix x y n j)]
  rw [hx, hy]
  refine run_tab (A := fun m => with_ (mix x y m)) fun j hj => ?_
  rw [h2]
  unfold Patch.onRibbon
  change (do
    let r ← vget (tab n (mix x y j)) j
    let r' ← f j r
    let rs ← vset (tab n (mix x y j)) j r'
    .ok { (with_ (mix x y j)) with surf := { (with_ (mix x y j)).surf with ribbons := rs } }) = _
  rw [vget_tab _ hj, M_bind_ok, show mix x y j j = x j from if_neg (lt_irrefl j), h1 j hj, M_bind_ok, vset_tab _ _ hj, M_bind_ok]
  have q : Function.update (mix x y j) j (y j) = mix x y (j + 1) := by
    funext l
    by_cases hl : l = j
    · rw [hl, Function.update_self]; exact (if_pos (by omega)).symm
    · rw [Function.update_of_ne hl]
      change (if l < j then y l else x l) = if l < j + 1 then y l else x l
      by_cases h3 : l < j
      · rw [if_pos h3, if_pos (by omega)]
      · rw [if_neg h3, if_neg (by omega)]
  rw [q]

/-- The calls that build a surface with normal fences and handlers. -/
def fencedCalls (n : ℕ) (c : ℕ → Curve ℝ) (N : ℕ → ℝ → P3 ℝ) (a : ℕ → P3 ℝ) : List (Patch.Call ℝ) :=
  [.curves (tab n c), .loop] ++ tab n (fun j => .fence j (N j)) ++ tab n (fun j => .handler j (a j)) ++ [.update]

/-- C81: a surface of any class with handlers is built from a good loop with normal fences (for the side-based class: one whose angular domain is a
convex polygon). -/
theorem C81_built (hε : 0 < ε) (hε1 : ε ≤ 1) (hg : Patch.GoodLoop ε n c) (hl : FencedLoop n c N N' D L) (hk : kind.ribbon = .handler)
    (ha : kind = .sideBased → ∃ d v, Domain.angularUpdate (tab n c) = .ok d ∧ ConvexDomain d n v) {a : ℕ → P3 ℝ} (h0 : ∀ j < n, a j ≠ 0) :
    ∃ P, (Patch.new kind).run ε (fencedCalls n c N a) = .ok P ∧ UpdatedLoop ε kind n c P ∧
      ∀ j < n, ∃ r, vget P.surf.ribbons j = .ok r ∧ r.fence = some (N j) ∧
        r.central = (((((c ((j + n - 1) % n)).der 1).norm + ((c ((j + 1) % n)).der 0).norm) / 2) * (a j).norm⁻¹) • a j := by
  have hn := hg.sides
  let P0 : Patch ℝ := (Patch.new kind).setCurves (tab n c)
  have hr0 : P0.surf.ribbons = tab n (fun j => Ribbon.new kind.ribbon (c j)) := by
    change (tab n c).map (Ribbon.new kind.ribbon) = _
    unfold tab
    rw [List.map_map]
    rfl
  have hc0 : P0.curves = tab n c := Patch.curves_tab hr0 (fun j _ => rfl)
  let P1 : Patch ℝ := { P0 with linked := true }
  have e0 : (Patch.new kind).step ε (.curves (tab n c)) = .ok P0 := rfl
  have e1 : P0.step ε .loop = .ok P1 := by
    change P0.setupLoop = _
    unfold Patch.setupLoop
    rw [hc0, C26_oriented hg.closed, M_bind_ok, hr0]
    have z : List.zipWith (fun (r : Ribbon ℝ) c => ({ r with curve := c } : Ribbon ℝ)) (tab n (fun j => Ribbon.new kind.ribbon (c j))) (tab n c) =
        tab n fun j => Ribbon.new kind.ribbon (c j) := by
      unfold tab
      rw [List.zipWith_map, List.zipWith_self]
      rfl
    rw [z, ← hr0]
  have hrun1 : (Patch.new kind).run ε [.curves (tab n c), .loop] = .ok P1 := calls_append (xs := [_]) (calls_one e0) (calls_one e1)
  let R0 : ℕ → Ribbon ℝ := fun j => Ribbon.new kind.ribbon (c j)
  let R1 : ℕ → Ribbon ℝ := fun j => { R0 j with fence := some (N j) }
  let R2 : ℕ → Ribbon ℝ := fun j => { R1 j with handlerV := (a j).norm⁻¹ • a j, handlerInit := true }
  let with_ : (ℕ → Ribbon ℝ) → Patch ℝ := fun r => { P1 with surf := { P1.surf with ribbons := tab n r } }
  have s1 : (with_ R0).run ε (tab n fun j => .fence j (N j)) = .ok (with_ R1) :=
    Patch.run_stage P1 R0 R1 (fun j r => .ok (r.overrideNormalFence (some (N j)))) _ (fun j _ => rfl) (fun j Q => rfl)
  have s2 : (with_ R1).run ε (tab n fun j => .handler j (a j)) = .ok (with_ R2) := by
    refine Patch.run_stage P1 R1 R2 (fun j r => r.setHandler (a j)) _ (fun j hj => ?_) (fun j Q => rfl)
    unfold Ribbon.setHandler
    rw [P3.normalize_ok (h0 j hj), M_bind_ok]
  have hP1 : P1 = with_ R0 := by
    change P1 = { P1 with surf := { P1.surf with ribbons := tab n R0 } }
    rw [← hr0]
  rw [hP1] at hrun1
  have hrun2 := calls_append (calls_append hrun1 s1) s2
  obtain ⟨hi2, hk2⟩ := Patch.run_inv (Patch.new_inv ε kind) hrun2
  have hS : (with_ R2).surf.ribbons = tab n R2 := rfl
  have hk2 : (with_ R2).kind = kind := rfl
  have hnb : ∀ j < n, Surf.nbOf n (fun k => (R2 k).curve) j = Surf.nbOf n c j := fun j hj => Surf.nbOf_congr (fun k _ => rfl) hj
  obtain ⟨Pu, e3⟩ := Patch.update_total_of hε hε1 hi2 rfl hg hS (fun j _ => rfl) ha (fun _ j hj => Or.inl rfl) (by
    intro S hSu
    refine ⟨fun _ => ?_, fun q => ?_⟩
    · obtain ⟨r', hr'⟩ := Surf.updateAll_agreed (k := .handler) (c := c) (F := fun j => some (N j)) hS (fun j hj => ⟨hk, rfl, rfl⟩) hSu
      exact hr'.fenced hl fun j _ => rfl
    · rw [hk2] at q
      rw [q] at hk
      cases hk)
  refine ⟨Pu, calls_append hrun2 (calls_one (x := .update) e3), ⟨_, [], _, Pu, hrun2, Patch.curves_tab hS (fun j _ => rfl), e3, by simp, rfl⟩, ?_⟩
  have hu := Patch.updatedFrom hi2 e3
  obtain ⟨r', q, h1, h2, h3⟩ := (Surf.updateAll_iff hS).mp hu.surf
  intro j hj
  have hj1 := h1 j hj
  rw [hnb j hj] at hj1
  unfold Ribbon.update at hj1
  rw [show (R2 j).kind = .handler from hk] at hj1
  obtain ⟨_, p1, p2, p3, _, p5⟩ := handlerUpdate_parts hj1
  refine ⟨r' j, by rw [h3, vget_tab _ hj], (Ribbon.update_keeps (h1 j hj)).2.2.1, ?_⟩
  rw [p5, p1, p2, p3 rfl]
  have nn : (-(Surf.nbOf n c j).prev.der 1).norm = ((c ((j + n - 1) % n)).der 1).norm := by
    change (-(c ((j + n - 1) % n)).der 1).norm = _
    unfold P3.norm
    congr 1
    simp only [P3.dot, P3.neg_x, P3.neg_y, P3.neg_z]; ring
  rw [nn]
  change (_ / 2 * (1 : ℝ)) • ((a j).norm⁻¹ • a j) = _
  rw [smul_smul, mul_one]
  rfl

/-! ### Non-vacuity: the square with the normals (0,0,1) and handlers (1,2,3) -/

private theorem der_ten {j : ℕ} (hj : j < 4) (s : ℝ) : ((squareLoop j).der s).norm = 10 := by
  refine norm_ten ?_
  interval_cases j <;> norm_num [squareLoop, segment, P3.dot]

theorem square_fences : FencedLoop 4 squareLoop (fun _ _ => ⟨0, 0, 1⟩) (fun _ _ => 0) 0 0 := by
  refine ⟨by norm_num, square_good.closed, ?_, ?_, ?_, ?_, ?_, ?_, ?_⟩
  · intro j hj s _ _
    have lin : ∀ a b : ℝ, HasDerivWithinAt (fun t => a + t * (b - a)) (b - a) (Icc 0 1) s := fun a b => by
      have := ((hasDerivWithinAt_id s (Icc (0 : ℝ) 1)).mul_const (b - a)).const_add a
      simpa using this
    have seg : ∀ a b : P3 ℝ, UnitDer (segment a b).pt ((segment a b).der s) s := fun a b => by
      refine ⟨?_, ?_, ?_⟩
      · refine ((lin a.x b.x).congr (fun t _ => ?_) ?_).congr_deriv ?_ <;> simp [segment] <;> ring
      · refine ((lin a.y b.y).congr (fun t _ => ?_) ?_).congr_deriv ?_ <;> simp [segment] <;> ring
      · refine ((lin a.z b.z).congr (fun t _ => ?_) ?_).congr_deriv ?_ <;> simp [segment] <;> ring
    interval_cases j <;> exact seg _ _
  · intro j _ s _ _
    exact UnitDer.const _
  · intro j _ s _ _
    norm_num [P3.dot]
  · intro j _ s _ _
    exact Close.refl 0
  · intro j _ s t _ _ _ _
    rw [zero_mul]
    exact Close.refl 0
  · intro j hj
    interval_cases j <;> norm_num [squareLoop, segment, P3.dot]
  · intro j hj
    interval_cases j <;> norm_num [squareLoop, segment, P3.dot]

theorem square_fenced (kind : PatchKind) (hk : kind.ribbon = .handler) :
    ∃ P T T', UpdatedLoop (1 / 10000) kind 4 squareLoop P ∧ SmoothRibbons (1 / 10000) 4 squareLoop T T' (64 / 1000) P ∧
      (∀ j < 4, ∀ s, 0 ≤ s → s ≤ 1 → P3.dot (T j s) ⟨0, 0, 1⟩ = 0) ∧ ∀ j < 4, ∃ q : ℝ, 0 < q ∧ q * q = 100 / 14 ∧ T j (1 / 2) = ⟨q, 2 * q, 0⟩ ∧
        ∃ r, vget P.surf.ribbons j = .ok r ∧ r.fence = some fun _ => ⟨0, 0, 1⟩ := by
  have hn0 : (⟨1, 2, 3⟩ : P3 ℝ) ≠ 0 := fun h => by simpa using congrArg P3.x h
  obtain ⟨P, _, h2, h3⟩ := C81_built (ε := 1 / 10000) (by norm_num) (by norm_num) square_good square_fences hk
    (fun _ => square_angular.imp fun d h => ⟨_, h⟩) (a := fun _ => ⟨1, 2, 3⟩) (fun _ _ => hn0)
  obtain ⟨q, hq⟩ : ∃ q : ℝ, q = 10 * (P3.norm (⟨1, 2, 3⟩ : P3 ℝ))⁻¹ := ⟨_, rfl⟩
  have hn14 := P3.norm_mul_self (⟨1, 2, 3⟩ : P3 ℝ)
  have hpos : 0 < P3.norm (⟨1, 2, 3⟩ : P3 ℝ) := by
    refine lt_of_le_of_ne (P3.norm_nonneg _) fun h => ?_
    rw [← h] at hn14
    norm_num [P3.dot] at hn14
  have q0 : 0 < q := by rw [hq]; positivity
  have qq : q * q = 100 / 14 := by
    rw [hq]
    have : P3.norm (⟨1, 2, 3⟩ : P3 ℝ) * P3.norm ⟨1, 2, 3⟩ = 14 := by rw [hn14]; norm_num [P3.dot]
    field_simp
    nlinarith only [this]
  have hcen : ∀ j < 4, ∃ r, vget P.surf.ribbons j = .ok r ∧ r.fence = some (fun _ => ⟨0, 0, 1⟩) ∧ r.central = ⟨q, 2 * q, 3 * q⟩ := by
    intro j hj
    obtain ⟨r, k1, k2, k3⟩ := h3 j hj
    refine ⟨r, k1, k2, ?_⟩
    rw [k3, der_ten (Nat.mod_lt _ (by norm_num)), der_ten (Nat.mod_lt _ (by norm_num)), hq]
    ext <;> simp <;> ring
  have q3 : q ≤ 3 := by nlinarith
  obtain ⟨T, T', k1, k2⟩ := C81_fences (M := 10) h2 hk square_fences (fun j hj => by
    obtain ⟨r, k1, k2, k3⟩ := hcen j hj
    refine ⟨r, k1, k2, ?_⟩
    rw [k3]
    refine ⟨?_, ?_, ?_⟩ <;> (change |_ - (0 : ℝ)| ≤ 10; rw [sub_zero, abs_of_nonneg (by positivity)]; linarith)) (by
    intro j hj
    constructor <;> (interval_cases j <;> norm_num [Close, squareLoop, segment]))
  refine ⟨P, T, T', h2, by norm_num at k1 ⊢; exact k1, k2, fun j hj => ⟨q, q0, qq, ?_, (hcen j hj).imp fun _ h => ⟨h.1, h.2.1⟩⟩⟩
  obtain ⟨r, e, hv⟩ := k1.value j hj
  obtain ⟨r', e', f1, f2⟩ := hcen j hj
  rw [e] at e'
  cases e'
  have hv := hv (1 / 2) (by norm_num) (by norm_num)
  have hkind : r.kind = .handler := by
    obtain ⟨kk, F, ha⟩ := h2.agreed (by norm_num)
    obtain ⟨x, hx⟩ := ha.surf
    rw [hx.ribs, vget_tab _ hj] at e
    cases e
    rw [(hx.ready j hj).basic.1, kk, hk]
  unfold Ribbon.crossDerivative at hv
  rw [hkind] at hv
  dsimp only at hv
  unfold Ribbon.handlerCross Ribbon.normal at hv
  rw [f1] at hv
  dsimp only at hv
  rw [M_bind_ok, f2] at hv
  rw [← Except.ok.inj hv]
  ext <;> norm_num [Ribbon.project, P3.dot]

/-- Straight paths to the center of the domain. -/
theorem straight_path {d : Domain ℝ} {v : ℕ → P2 ℝ} (hd : ConvexDomain d n v) (hi : i < n) (s0 : 0 ≤ s) (s1 : s ≤ 1) :
    DomainPath n v i s (fun t => sidePoint n v i s + t • (d.center - sidePoint n v i s)) (d.center - sidePoint n v i s) ∧
      0 < inward n v i (d.center - sidePoint n v i s) := by
  have lin : ∀ a b : ℝ, RightDer (fun t => a + t * b) b := fun a b => by
    have := ((hasDerivWithinAt_id (0 : ℝ) (Ici 0)).mul_const b).const_add a
    unfold RightDer
    simpa using this
  have aff : ∀ j (t : ℝ), leftOf n v j (sidePoint n v i s + t • (d.center - sidePoint n v i s)) =
      (1 - t) * leftOf n v j (sidePoint n v i s) + t * leftOf n v j d.center := by
    intro j t
    unfold leftOf area2
    simp only [P2.add_x, P2.add_y, P2.sub_x, P2.sub_y, P2.smul_x, P2.smul_y]
    ring
  have hin : ∀ j < n, 0 ≤ leftOf n v j (sidePoint n v i s) := hd.insideClosed_side hi s0 s1
  refine ⟨⟨by simp, lin _ _, lin _ _, ?_⟩, ?_⟩
  · have : ∀ᶠ t : ℝ in nhdsWithin 0 (Ici 0), t ≤ 1 := nhdsWithin_le_nhds (Iic_mem_nhds zero_lt_one)
    filter_upwards [this, self_mem_nhdsWithin] with t t1 t0 j hj
    rw [aff]
    exact add_nonneg (mul_nonneg (by linarith) (hin j hj)) (mul_nonneg t0 (hd.inside j hj).le)
  · have h1 : inward n v i (d.center - sidePoint n v i s) = leftOf n v i d.center - leftOf n v i (sidePoint n v i s) := by
      unfold inward leftOf area2
      simp only [P2.sub_x, P2.sub_y]
      ring
    have h2 : leftOf n v i (sidePoint n v i s) = 0 := by
      unfold leftOf area2 sidePoint
      simp
      ring
    rw [h1, h2, sub_zero]
    exact hd.inside i hi

private theorem sin_quarter : sin (2 * π / (4 : ℕ)) = 1 ∧ 7 / 10 < sin (π / (4 : ℕ)) := by
  constructor
  · rw [show 2 * π / ((4 : ℕ) : ℝ) = π / 2 by push_cast; ring, sin_pi_div_two]
  · push_cast
    rw [sin_pi_div_four]
    have : (1.4 : ℝ) < √2 := by
      rw [Real.lt_sqrt (by norm_num)]; norm_num
    linarith

/-- C76 applies to the square. -/
example : ∃ P T, TangentAt (1 / 10000) P 4 squareVertex squareLoop T 0 0 (1 / 2) := by
  obtain ⟨P, T, T', h1, h2, _⟩ := square_fenced .sideBased rfl
  obtain ⟨hk, F, ha⟩ := h1.agreed (by norm_num)
  obtain ⟨d, e, hd⟩ := square_angular
  have e' := ha.angular (by rw [hk]; rfl)
  rw [e] at e'
  have e' := Except.ok.inj e'
  rw [e'] at hd
  refine ⟨P, T, C76_side (by norm_num) h1 h2 hd (by norm_num) (by norm_num) (by norm_num) (ε' := 1 / 100) (by norm_num) ?_ ?_⟩
  · left
    norm_num [leftOf, area2, squareVertex, P2.dot]
  · intro j hj hji k hk
    interval_cases j <;> first | (exact absurd rfl hji) | (interval_cases k <;> norm_num [leftOf, area2, squareVertex, sidePoint])

/-- C77 applies to the square, and there are paths leaving the side. -/
example : ∃ P v T p w, TangentAt (1 / 10000) P 4 v squareLoop T (64 / 1000) 0 (1 / 2) ∧ DomainPath 4 v 0 (1 / 2) p w ∧ 0 < inward 4 v 0 w := by
  obtain ⟨P, T, T', h1, h2, _⟩ := square_fenced .cornerBased rfl
  obtain ⟨s1, _⟩ := sin_quarter
  obtain ⟨v, hd, h3⟩ := C77_side (by norm_num) h1 h2 (i := 0) (s := 1 / 2) (by norm_num) (by rw [s1]; norm_num) (by rw [s1]; norm_num)
  exact ⟨P, v, T, _, _, h3, straight_path hd (by norm_num) (by norm_num) (by norm_num)⟩

/-- C78 applies to the square. -/
example : ∃ P v T, TangentAt (1 / 10000) P 4 v squareLoop T (64 / 1000) 0 (1 / 2) := by
  obtain ⟨P, T, T', h1, h2, _⟩ := square_fenced .generalizedCoons rfl
  obtain ⟨s1, s2⟩ := sin_quarter
  obtain ⟨v, _, h3⟩ := C78_side (by norm_num) (by rw [s1]; linarith) h1 h2 (i := 0) (s := 1 / 2) (by norm_num) (by rw [s1]; norm_num) (by rw [s1]; norm_num)
  exact ⟨P, v, T, h3⟩

/-- C79 applies to the square. -/
example : ∃ P v T, TangentAt (1 / 10000) P 4 v squareLoop T (64 / 1000) 0 (1 / 2) := by
  obtain ⟨P, T, T', h1, h2, _⟩ := square_fenced .compositeRibbon rfl
  obtain ⟨v, _, h3⟩ := C79_side (by norm_num) h1 h2 (i := 0) (s := 1 / 2) (by norm_num) (by norm_num) (by norm_num)
  exact ⟨P, v, T, h3⟩

/-- C80 applies to the square. -/
example : ∃ P v T, TangentAt (1 / 10000) P 4 v squareLoop T (64 / 1000) 0 (1 / 2) := by
  obtain ⟨P, T, T', h1, h2, _⟩ := square_fenced .midpoint rfl
  obtain ⟨v, _, h3⟩ := C80_midpoint (by norm_num) h1 h2 (i := 0) (s := 1 / 2) (by norm_num) (by norm_num) (by norm_num)
  exact ⟨P, v, T, h3⟩

example : ∃ P v T, TangentAt (1 / 10000) P 4 v squareLoop T (64 / 1000) 0 (1 / 2) := by
  obtain ⟨P, T, T', h1, h2, _⟩ := square_fenced .midpointCoons rfl
  obtain ⟨s1, s2⟩ := sin_quarter
  obtain ⟨v, _, h3⟩ := C80_midpointCoons (by norm_num) (by rw [s1]; linarith) h1 h2 (i := 0) (s := 1 / 2) (by norm_num) (by norm_num) (by norm_num)
  exact ⟨P, v, T, h3⟩

/-- C81: the corner-based surface on the square: the angle between the plane z = 0 and the derivatives in the middle of side 0 is below 3 degrees. -/
example : ∃ (P : Patch ℝ) (v : ℕ → P2 ℝ), ∀ p w, DomainPath 4 v 0 (1 / 2) p w → ∃ (X : ℝ → P3 ℝ) (X' : P3 ℝ),
    (∀ᶠ t in nhdsWithin 0 (Set.Ici 0), ∃ P', P.eval (1 / 10000) (p t) = .ok (X t, P')) ∧ X 0 = ⟨5, 0, 0⟩ ∧ RightDer3 X X' ∧
      |X'.z| ≤ 1 / 25 * X'.norm ∧ (0 < inward 4 v 0 w → ∀ a : ℝ, X' ≠ a • (⟨10, 0, 0⟩ : P3 ℝ)) := by
  obtain ⟨P, T, T', h1, h2, h3, h4⟩ := square_fenced .cornerBased rfl
  obtain ⟨s1, _⟩ := sin_quarter
  obtain ⟨v, hd, ht⟩ := C77_side (by norm_num) h1 h2 (i := 0) (s := 1 / 2) (by norm_num) (by rw [s1]; norm_num) (by rw [s1]; norm_num)
  obtain ⟨q, q0, qq, hT, _⟩ := h4 0 (by norm_num)
  have q2 : 2.65 ≤ q := by nlinarith
  have hder : (squareLoop 0).der (1 / 2) = ⟨10, 0, 0⟩ := by ext <;> norm_num [squareLoop, segment]
  have hm : ∀ a : ℝ, 5.3 ≤ (T 0 (1 / 2) - a • (squareLoop 0).der (1 / 2)).norm := by
    intro a
    rw [hT, hder]
    have h := P3.norm_mul_self ((⟨q, 2 * q, 0⟩ : P3 ℝ) - a • (⟨10, 0, 0⟩ : P3 ℝ))
    have n0 := P3.norm_nonneg ((⟨q, 2 * q, 0⟩ : P3 ℝ) - a • (⟨10, 0, 0⟩ : P3 ℝ))
    simp only [P3.dot, P3.sub_x, P3.sub_y, P3.sub_z, P3.smul_x, P3.smul_y, P3.smul_z] at h
    refine le_of_sq_le_sq ?_ n0
    nlinarith [sq_nonneg (q - a * 10)]
  refine ⟨P, v, fun p w hp => ?_⟩
  obtain ⟨X, X', k1, k2, k3, k4, k5⟩ := C81_plane ht (V := ⟨0, 0, 1⟩) (by norm_num [P3.dot]) (by rw [hder]; norm_num [P3.dot])
    (h3 0 (by norm_num) (1 / 2) (by norm_num) (by norm_num)) hm p w hp
  refine ⟨X, X', k1, by rw [k2]; ext <;> norm_num [squareLoop, segment], k3, ?_, fun hw a => ?_⟩
  · have : P3.dot X' ⟨0, 0, 1⟩ = X'.z := by simp [P3.dot]
    rw [this] at k4
    nlinarith [X'.norm_nonneg]
  · rw [← hder]
    exact k5 hw (by norm_num) a

end Transfinite
