import Verif.Lemmas.Square
import Verif.Spec.Coons
import Verif.Props.Stale

/-! # C102: four-sided C0 Coons patches -/

namespace Transfinite

open Spec Real Patch Ribbon

variable {ε : ℝ} {c : ℕ → Curve ℝ} {P : Patch ℝ}

/-- The cubic Hermite curve with the ends of the curve `c`. -/
noncomputable def hermiteOf (c : Curve ℝ) (t : ℝ) : P3 ℝ := cubicHermite (c.pt 0) (c.der 0) (c.der 1) (c.pt 1) t

/-! ### Helper lemmas -/

/-- The value of a Coons ribbon of a four-sided patch. -/
private noncomputable def ribbonAt (a b q l : Curve ℝ) (s d : ℝ) : P3 ℝ :=
  (1 - d) • a.pt s + d • cubicHermite (b.pt 1) (q.der 0) (q.der 1) (l.pt 0) (1 - s) + ((1 - s) • l.pt (1 - d) + s • b.pt d) -
    ((1 - d) • ((1 - s) • a.pt 0 + s • a.pt 1) + d • ((1 - s) • l.pt 0 + s • b.pt 1))

private theorem ribbon_value {nb : Neighbors ℝ} {a : Curve ℝ} {r : Ribbon ℝ} (h3 : nb.three = false) (h2 : nb.prev2 = nb.next2) (hr : RibbonReady ε nb .coons a r)
    {s d : ℝ} (s0 : 0 ≤ s) (s1 : s ≤ 1) (d0 : 0 ≤ d) (d1 : d ≤ 1) : r.eval ε ⟨s, d⟩ = .ok (ribbonAt a nb.next nb.next2 nb.prev s d) := by
  obtain ⟨r0, r1, k1, k2, k3, k4, k5⟩ := hr
  rw [k5, (Ribbon.controls_irrelevant ε r1 r.mult r.handlerV r.handlerInit).2]
  obtain ⟨k, a1, a2, a3, a4, a5, a6, a7, a8⟩ := coons_parts k1 k4
  rw [h3, if_neg (by simp)] at a8
  have ht : bezierPt r1.top (1 - s) = .ok (cubicHermite (nb.next.pt 1) (nb.next2.der 0) (nb.next2.der 1) (nb.prev.pt 0) (1 - s)) := by
    have := bezierPt_eq 3 (fun i => if i = 0 then nb.next.pt 1 else if i = 1 then nb.next.pt 1 + (1 / 3 : ℝ) • nb.next2.der 0
      else if i = 2 then nb.prev.pt 0 - (1 / 3 : ℝ) • nb.next2.der 1 else nb.prev.pt 0) (1 - s)
    rw [a8, h2]
    refine Eq.trans this ?_
    congr 1
    unfold Spec.bezier cubicHermite
    simp only [Finset.sum_range_succ, Finset.sum_range_zero, bern]
    ext <;> norm_num [Nat.choose] <;> ring
  have cl : ∀ x : ℝ, 0 ≤ x → x ≤ 1 → Domain.clamp x 0 1 = x := fun x x0 x1 => by unfold Domain.clamp; rw [min_eq_left x1, max_eq_right x0]
  unfold Ribbon.eval
  rw [k]
  dsimp only
  unfold coonsEval
  dsimp only
  rw [cl s s0 s1, cl d d0 d1, cl (1 - s) (by linarith) (by linarith), cl (1 - d) (by linarith) (by linarith), ht, M_bind_ok, a1, a2, a3, a4, a5, a6, a7, k2]
  rfl

/-! ### Theorems -/

/-- **C102.** A four-sided C0 Coons patch is the bilinearly blended Coons patch of its boundary curves, plus the blended deviation of the cubic Hermite curves that stand for the opposite sides. -/
theorem C102_coons (hε : 0 < ε) (hε1 : ε ≤ 1) (hc : ∀ j < 4, (c j).pt 1 = (c ((j + 1) % 4)).pt 0) (h : UpToDate ε .c0Coons 4 c P) {u w : ℝ} (u0 : 0 ≤ u) (u1 : u ≤ 1) (w0 : 0 ≤ w) (w1 : w ≤ 1) :
    ∃ P', P.eval ε ⟨1 - 2 * w, 2 * u - 1⟩ = .ok (coonsPatch (fun i => (c i).pt) u w +
      ((u * (1 - u) / 2) • ((hermiteOf (c 1) w - (c 1).pt w) + (hermiteOf (c 3) (1 - w) - (c 3).pt (1 - w))) +
        (w * (1 - w) / 2) • ((hermiteOf (c 0) u - (c 0).pt u) + (hermiteOf (c 2) (1 - u) - (c 2).pt (1 - u)))), P') := by
  obtain ⟨hr, hk⟩ := upToDate_ready h (by omega)
  have hreg : P.kind.regular = true := by rw [hk]; rfl
  obtain ⟨vs, e1, e2⟩ := (hr.inv.regular hreg).resolve_left (by rw [hr.dom hreg]; omega)
  rw [hr.dom hreg] at e1
  obtain ⟨r, φ, hr1, hr2, hd, hl⟩ := square_domain e1 e2
  obtain ⟨R, hR, hrib⟩ := hr.surf.ribs
  rw [hk] at hrib
  refine hr.eval_side hd (f := sqPar u w) ?_ ?_
  · intro o _ j hj
    rw [hk]
    exact sq_baryMap hr1 hr2 hd hl u0 u1 w0 w1 hε hε1 hj
  unfold evalWith
  rw [hk]
  dsimp only
  unfold Surf.c0Coons
  rw [hr.length, forLoop_sum 4 _ (fun j => ((1 - sqDist u w j) / 2) • ribbonAt (c j) (c (nextIx 4 j)) (c (nextIx 4 (nextIx 4 j))) (c (prevIx 4 j)) (sqDist u w (prevIx 4 j)) (sqDist u w j)), zero_add]
  · congr 1
    have h0 := hc 0 (by omega)
    have h1 := hc 1 (by omega)
    have h2 := hc 2 (by omega)
    have h3 := hc 3 (by omega)
    norm_num at h0 h1 h2 h3
    simp only [Finset.sum_range_succ, Finset.sum_range_zero, show prevIx 4 0 = 3 from rfl, show prevIx 4 1 = 0 from rfl, show prevIx 4 2 = 1 from rfl, show prevIx 4 3 = 2 from rfl,
      show nextIx 4 0 = 1 from rfl, show nextIx 4 1 = 2 from rfl, show nextIx 4 2 = 3 from rfl, show nextIx 4 3 = 0 from rfl,
      show sqDist u w 0 = w from rfl, show sqDist u w 1 = 1 - u from rfl, show sqDist u w 2 = 1 - w from rfl, show sqDist u w 3 = u from rfl]
    unfold ribbonAt coonsPatch hermiteOf cubicHermite
    simp only [h0, h1, h2, h3, sub_sub_cancel]
    ext <;> simp only [P3.add_x, P3.add_y, P3.add_z, P3.sub_x, P3.sub_y, P3.sub_z, P3.smul_x, P3.smul_y, P3.smul_z, P3.zero_x, P3.zero_y, P3.zero_z] <;> ring
  · intro j p hj
    obtain ⟨m1, m2⟩ := sqDist_mem u0 u1 w0 w1 j
    obtain ⟨m3, m4⟩ := sqDist_mem u0 u1 w0 w1 (prevIx 4 j)
    rw [vget_tab _ hj, M_bind_ok, hR, vget_tab _ hj, M_bind_ok]
    rw [show sqPar u w j = ⟨sqDist u w (prevIx 4 j), sqDist u w j⟩ from rfl]
    have := ribbon_value (nb := Surf.nbOf 4 c j) (by simp [Surf.nbOf]) (by interval_cases j <;> rfl) (hrib j hj) m3 m4 m1 m2
    rw [this, M_bind_ok]
    rfl

/-- **C102.** When every boundary curve is a cubic polynomial curve, the four-sided C0 Coons patch is the bilinearly blended Coons patch. -/
theorem C102_cubic (hε : 0 < ε) (hε1 : ε ≤ 1) (hc : ∀ j < 4, (c j).pt 1 = (c ((j + 1) % 4)).pt 0) (hcub : ∀ j < 4, ∀ t, 0 ≤ t → t ≤ 1 → (c j).pt t = hermiteOf (c j) t) (h : UpToDate ε .c0Coons 4 c P)
    {u w : ℝ} (u0 : 0 ≤ u) (u1 : u ≤ 1) (w0 : 0 ≤ w) (w1 : w ≤ 1) : ∃ P', P.eval ε ⟨1 - 2 * w, 2 * u - 1⟩ = .ok (coonsPatch (fun i => (c i).pt) u w, P') := by
  obtain ⟨P', e⟩ := C102_coons hε hε1 hc h u0 u1 w0 w1
  refine ⟨P', e.trans ?_⟩
  rw [← hcub 0 (by omega) u u0 u1, ← hcub 1 (by omega) w w0 w1, ← hcub 2 (by omega) (1 - u) (by linarith) (by linarith), ← hcub 3 (by omega) (1 - w) (by linarith) (by linarith)]
  simp

/-- **C102.** For other curves the surface may differ from the bilinearly blended Coons patch, even at the centre, and even when all curves are straight. -/
theorem C102_differs : ∃ (c : ℕ → Curve ℝ) (P P' : Patch ℝ) (p : P3 ℝ), UpToDate (1 / 10000) .c0Coons 4 c P ∧ (∀ j < 4, (c j).pt 1 = (c ((j + 1) % 4)).pt 0) ∧
    P.eval (1 / 10000) 0 = .ok (p, P') ∧ p ≠ coonsPatch (fun i => (c i).pt) (1 / 2) (1 / 2) := by
  obtain ⟨P, v, -, hu, -⟩ := C64_built (ε := 1 / 10000) (v := squareVertex) (by norm_num) (by norm_num) uneven_good .c0Coons (fun h => by cases h) (ctl := []) (by simp) (Or.inl rfl)
  obtain ⟨P', e⟩ := C102_coons (by norm_num) (by norm_num) uneven_good.closed hu.1 (u := 1 / 2) (w := 1 / 2) (by norm_num) (by norm_num) (by norm_num) (by norm_num)
  rw [show (⟨1 - 2 * (1 / 2), 2 * (1 / 2) - 1⟩ : P2 ℝ) = 0 from by ext <;> norm_num] at e
  refine ⟨_, P, P', _, hu.1, uneven_good.closed, e, fun h => ?_⟩
  rw [add_eq_left] at h
  have := congrArg P3.y h
  norm_num [hermiteOf, cubicHermite, Function.update, squareLoop, segment, unevenSegment] at this

/-! ### Examples -/

/-- The hypotheses hold for the square. -/
example : ∃ P P' : Patch ℝ, UpToDate (1 / 10000) .c0Coons 4 squareLoop P ∧ P.eval (1 / 10000) ⟨1 / 2, 0⟩ = .ok (⟨5, 5 / 2, 0⟩, P') := by
  obtain ⟨P, v, -, h, -⟩ := square_built .c0Coons
  obtain ⟨P', e⟩ := C102_cubic (by norm_num) (by norm_num) square_good.closed (by
    intro j hj t _ _
    interval_cases j <;> ext <;> simp [hermiteOf, cubicHermite, squareLoop, segment] <;> ring) h.1 (u := 1 / 2) (w := 1 / 4) (by norm_num) (by norm_num) (by norm_num) (by norm_num)
  refine ⟨P, P', h.1, ?_⟩
  rw [show (⟨1 - 2 * (1 / 4), 2 * (1 / 2) - 1⟩ : P2 ℝ) = ⟨1 / 2, 0⟩ from by ext <;> norm_num] at e
  refine e.trans ?_
  congr 2
  ext <;> norm_num [coonsPatch, squareLoop, segment]

end Transfinite
