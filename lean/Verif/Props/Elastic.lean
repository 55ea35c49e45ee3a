import Verif.Lemmas.Elastic
import Verif.Props.Total

/-! # Properties C52, C69: the elastic patch

The statements are about whole objects: any history of calls and evaluations, then a successful `update()`, then any evaluations and
calls that do not change the boundary curves or the normal fences. -/

namespace Transfinite

open Spec Real

/-! ### Specification -/

/-- `solve` solves the linear systems that can be solved. -/
def Elastic.Solver (solve : Elastic.Sys ℝ → Fin 3 → P3 ℝ) : Prop :=
  ∀ S, (∃ x : Fin 3 → P3 ℝ, ∀ k, ∑ l, S.A k l • x l = S.b k) → ∀ k, ∑ l, S.A k l • solve S l = S.b k

/-- The states of an elastic patch. -/
inductive Elastic.Reached (ε tol : ℝ) (solve : Elastic.Sys ℝ → Fin 3 → P3 ℝ) : Patch ℝ → Prop
  | new : Reached ε tol solve (Patch.new .cornerBased)
  | call {P P' : Patch ℝ} {x : Patch.Call ℝ} : Reached ε tol solve P → P.step ε x = .ok P' → Reached ε tol solve P'
  | eval {P P' : Patch ℝ} {uv : P2 ℝ} {p : P3 ℝ} : Reached ε tol solve P → Elastic.eval ε tol solve P uv = .ok (p, P') → Reached ε tol solve P'

/-- The states of an elastic patch after an update with the curves `c`, without further changes of the curves. -/
inductive Elastic.Current (ε tol : ℝ) (solve : Elastic.Sys ℝ → Fin 3 → P3 ℝ) (n : ℕ) (c : ℕ → Curve ℝ) : Patch ℝ → Prop
  | update {P P' : Patch ℝ} : Elastic.Reached ε tol solve P → P.curves = tab n c → (∀ r ∈ P.surf.ribbons, r.fence = none) →
      P.update ε = .ok P' → Current ε tol solve n c P'
  | call {P P' : Patch ℝ} {x : Patch.Call ℝ} : Current ε tol solve n c P → x.keepsLoop = true → P.step ε x = .ok P' → Current ε tol solve n c P'
  | eval {P P' : Patch ℝ} {uv : P2 ℝ} {p : P3 ℝ} : Current ε tol solve n c P → Elastic.eval ε tol solve P uv = .ok (p, P') →
      Current ε tol solve n c P'

/-- `r` is the rod over the segment from the point `s` of side `j`. -/
def Elastic.IsRod (ε : ℝ) (P : Patch ℝ) (n : ℕ) (v : ℕ → P2 ℝ) (c : ℕ → Curve ℝ) (j : ℕ) (s : ℝ) (r : Rod) : Prop :=
  r.foot = sidePoint n v j s ∧ r.pos = (c j).pt s ∧ ∃ rib, vget P.surf.ribbons j = .ok rib ∧ rib.crossDerivative ε s = .ok r.cross

/-- The parameter of the point of side `j` that belongs to `p`: the two neighboring sides divide it in the ratio of the
areas of their triangles with `p`. -/
noncomputable def Elastic.footParameter (n : ℕ) (v : ℕ → P2 ℝ) (j : ℕ) (p : P2 ℝ) : ℝ :=
  leftOf n v ((j + n - 1) % n) p / (leftOf n v ((j + n - 1) % n) p + leftOf n v ((j + 1) % n) p)

/-- `p` is not within the tolerance of a vertex, measured by its distances from the two sides at the vertex opposite to a side,
relative to the length of that side. -/
def Elastic.AwayFromVertices (ε : ℝ) (n : ℕ) (v : ℕ → P2 ℝ) (p : P2 ℝ) : Prop :=
  ∀ j < n, ε * P2.dot (v j - v ((j + n - 1) % n)) (v j - v ((j + n - 1) % n)) ≤
    leftOf n v ((j + n - 1) % n) p + leftOf n v ((j + 1) % n) p

/-! ### Proof -/

namespace Elastic

variable {ε tol : ℝ} {solve : Sys ℝ → Fin 3 → P3 ℝ} {n : ℕ} {c : ℕ → Curve ℝ} {P : Patch ℝ} {v : ℕ → P2 ℝ} {uv : P2 ℝ}

theorem eval_queried {P' : Patch ℝ} {p : P3 ℝ} (h : eval ε tol solve P uv = .ok (p, P')) : Patch.Queried ε P P' := by
  unfold eval at h
  obtain ⟨r, e1, h⟩ := bind_ok h
  obtain ⟨p, e2, h⟩ := bind_ok h
  cases h
  exact Patch.maps_queried e1

private theorem reached_inv (h : Reached ε tol solve P) : Patch.Inv ε P ∧ P.kind = .cornerBased := by
  induction h with
  | new => exact ⟨Patch.new_inv ε _, rfl⟩
  | call _ e ih =>
    obtain ⟨a, b⟩ := Patch.step_inv ih.1 e
    exact ⟨a, b.trans ih.2⟩
  | eval _ e ih =>
    have := eval_queried e
    exact ⟨this.inv ih.1, this.kind.trans ih.2⟩

private theorem current_ready (hn : 3 ≤ n) (h : Current ε tol solve n c P) : Patch.Ready ε P n c ∧ P.kind = .cornerBased := by
  induction h with
  | update h1 h2 h3 h4 =>
    obtain ⟨a, b⟩ := reached_inv h1
    obtain ⟨x, y⟩ := update_makes_ready hn a h2 h3 h4
    exact ⟨x, y.trans b⟩
  | call _ hx e ih => exact ⟨Patch.step_ready (by omega) ih.1 hx e, (Patch.step_inv ih.1.inv e).2.trans ih.2⟩
  | eval _ e ih =>
    have := eval_queried e
    exact ⟨ih.1.congr (this.inv ih.1.inv) this.kind this.dom this.surf this.linked, this.kind.trans ih.2⟩

private theorem resid_iff (S : Sys ℝ) (x : Fin 3 → P3 ℝ) (k : Fin 3) : resid S x k = 0 ↔ ∑ l, S.A k l • x l = S.b k := sub_eq_zero

/-- The unique minimum of the energy. -/
def Best (n : ℕ) (rod : ℕ → Rod) (uv : P2 ℝ) (p : P3 ℝ) : Prop :=
  ∃ pu pv, ∀ p' pu' pv', totalEnergy n rod uv p pu pv ≤ totalEnergy n rod uv p' pu' pv' ∧
    (totalEnergy n rod uv p' pu' pv' = totalEnergy n rod uv p pu pv → p' = p ∧ pu' = pu ∧ pv' = pv)

/-- The value of the patch from the side parameters. -/
private theorem core (hε : 0 < ε) (htol : 0 < tol) (hl : Loop n c) (hex : ∀ j < n, ExactCurve ε (c j)) (h : Current ε tol solve n c P)
    (hd : ConvexDomain P.dom.dom n v) {f : ℕ → P2 ℝ} (hf : ∀ j < n, Param.bilinearMap ε P.dom.dom j uv = .ok (f j))
    (hf1 : ∀ j < n, 0 ≤ (f j).x ∧ (f j).x ≤ 1) :
    ∃ (p : P3 ℝ) (P' : Patch ℝ) (rod : ℕ → Rod), eval ε tol solve P uv = .ok (p, P') ∧ (∀ j < n, IsRod ε P n v c j (f j).x (rod j)) ∧
      ((∃ j < n, (uv - (rod j).foot).norm < tol ∧ (∀ m < j, tol ≤ (uv - (rod m).foot).norm) ∧ p = (rod j).pos) ∨
        (∀ j < n, tol ≤ (uv - (rod j).foot).norm) ∧ (Solver solve → Spread n rod uv → Best n rod uv p)) := by
  have hn := hl.sides
  obtain ⟨hr, hk⟩ := current_ready hn h
  have hsurf := hr.surf
  rw [hk] at hsurf
  have hcomp := Surf.Ready.compatible hε hsurf hn hl.closed hex hl.regular
  have hpar : Patch.ParamOk ε P := hr.inv.param.resolve_left (by rw [hd.n_eq]; omega)
  obtain ⟨o, eo⟩ := Patch.maps_of_raw (f := f) (uv := uv) hpar hd.length_eq (by
    intro o _ j hj
    rw [hk]
    exact hf j hj)
  have hcross : ∀ j, ∃ x, j < n → ∃ rib, vget P.surf.ribbons j = .ok rib ∧ rib.eval ε ⟨(f j).x, 0⟩ = .ok ((c j).pt (f j).x) ∧
      rib.crossDerivative ε (f j).x = .ok x := by
    intro j
    by_cases hj : j < n
    · obtain ⟨rib, e1, e2, e3, e4, _, _, e5⟩ := hcomp.ribbon j hj
      obtain ⟨x, hx⟩ := e5 _ (hf1 j hj).1 (hf1 j hj).2
      refine ⟨x, fun _ => ⟨rib, e1, ?_, hx⟩⟩
      rw [Surf.eval_base e3 e4]
      unfold Ribbon.baseEval
      dsimp only
      rw [hx, M_bind_ok, e2]
      simp
    · exact ⟨0, fun h => absurd h hj⟩
  choose x hx using hcross
  let rod : ℕ → Rod := fun j => ⟨sidePoint n v j (f j).x, (c j).pt (f j).x, x j⟩
  have cl : ∀ j < n, Domain.clamp (f j).x 0 1 = (f j).x := fun j hj => Surf.clamp_of_mem (hf1 j hj).1 (hf1 j hj).2
  have hrod : ∀ j < n, (rod j).foot = sidePoint n v j (Domain.clamp (f j).x 0 1) ∧ ∃ r, vget P.surf.ribbons j = .ok r ∧
      r.eval ε ⟨Domain.clamp (f j).x 0 1, 0⟩ = .ok (rod j).pos ∧ r.crossDerivative ε (Domain.clamp (f j).x 0 1) = .ok (rod j).cross := by
    intro j hj
    rw [cl j hj]
    exact ⟨rfl, hx j hj⟩
  have hev : ∀ p, loop ε tol solve P.dom.dom P.surf uv (tab n f) n 0 Sys.zero = .ok p →
      eval ε tol solve P uv = .ok (p, { P with param := o }) := by
    intro p hp
    unfold eval
    rw [eo, M_bind_ok]
    dsimp only
    rw [hcomp.len, hp, M_bind_ok]
  have hisrod : ∀ j < n, IsRod ε P n v c j (f j).x (rod j) := by
    intro j hj
    obtain ⟨rib, e1, _, e2⟩ := hx j hj
    exact ⟨rfl, rfl, rib, e1, e2⟩
  rcases loop_cases htol solve (ε := ε) hd.vertices_eq hcomp.len hrod n 0 (by omega) Sys.zero with ⟨j, _, j2, j3, j4, j5⟩ | ⟨q1, sys, q2, q3⟩
  · exact ⟨_, _, rod, hev _ j5, hisrod, Or.inl ⟨j, j2, j3, fun m hm => j4 m (by omega) hm, rfl⟩⟩
  · refine ⟨_, _, rod, hev _ q2, hisrod, Or.inr ⟨fun j hj => q1 j (by omega) hj, ?_⟩⟩
    intro hsol hspread
    have hpos : ∀ j < n, 0 < (uv - (rod j).foot).norm := fun j hj => lt_of_lt_of_le htol (q1 j (by omega) hj)
    have hsys : ∀ x k, resid sys x k = ∑ j ∈ Finset.range n, rodRow (rod j) uv x k := by
      intro x k
      rw [q3, resid_zero, zero_add, Finset.range_eq_Ico]
    obtain ⟨y, hy⟩ := exists_solution hspread hpos hsys
    have hs := hsol sys ⟨y, fun k => (resid_iff _ _ _).mp (hy k)⟩
    have hz : ∀ k, ∑ j ∈ Finset.range n, rodRow (rod j) uv (solve sys) k = 0 := fun k => by
      rw [← hsys, resid_iff]; exact hs k
    refine ⟨-(solve sys 1), -(solve sys 2), fun p' pu' pv' => ⟨total_min hpos hz _ _ _, fun e => total_unique hspread hpos hz e.le⟩⟩

/-- Strictly inside the polygon the feet are not collinear with the point. -/
private theorem spread_inside (hd : ConvexDomain P.dom.dom n v) (hin : Inside n v uv) {s : ℕ → ℝ} (hs : ∀ j < n, 0 < s j ∧ s j < 1)
    {rod : ℕ → Rod} (hrod : ∀ j < n, (rod j).foot = sidePoint n v j (s j)) : Spread n rod uv := by
  have hn := hd.hn
  by_contra hc
  have hcol : ∀ j < n, ∀ k < n, (uv - (rod j).foot).x * (uv - (rod k).foot).y - (uv - (rod j).foot).y * (uv - (rod k).foot).x = 0 := by
    intro j hj k hk
    by_contra hne
    exact hc ⟨j, hj, k, hk, hne⟩
  have hoff : ∀ j < n, ∀ k < n, j ≠ k → 0 < leftOf n v j ((rod k).foot) := by
    intro j hj k hk hne
    rw [hrod k hk]
    unfold sidePoint
    rw [leftOf_comb2 n v _ (by ring)]
    obtain ⟨s0, s1⟩ := hs k hk
    have hp : prevIx n k < n := prevIx_lt (by omega)
    have g1 := hd.convex.nonneg hj hp
    have g2 := hd.convex.nonneg hj hk
    change 0 < (1 - s k) * leftOf n v j (v (prevIx n k)) + s k * leftOf n v j (v k)
    by_cases h1 : k = (j + n - 1) % n
    · have : 0 < leftOf n v j (v (prevIx n k)) := by
        apply hd.convex j hj _ hp
        · rw [prevIx_eq hk]
          change k = prevIx n j at h1
          rw [prevIx_eq hj] at h1
          split_ifs at h1 ⊢ <;> omega
        · rw [← h1, prevIx_eq hk]
          split_ifs <;> omega
      have := mul_pos (show 0 < 1 - s k by linarith) this
      have := mul_nonneg s0.le g2
      linarith
    · have : 0 < leftOf n v j (v k) := hd.convex j hj k hk hne.symm h1
      have := mul_pos s0 this
      have := mul_nonneg (show 0 ≤ 1 - s k by linarith) g1
      linarith
  have hzero : ∀ j < n, leftOf n v j ((rod j).foot) = 0 := fun j hj => by rw [hrod j hj, leftOf_sidePoint]
  -- the direction from the point to its foot on side 0
  have hw : (uv - (rod 0).foot).x ^ 2 + (uv - (rod 0).foot).y ^ 2 ≠ 0 := by
    intro h0
    have h1 : (uv - (rod 0).foot).x = 0 := by nlinarith [sq_nonneg (uv - (rod 0).foot).x, sq_nonneg (uv - (rod 0).foot).y]
    have h2 : (uv - (rod 0).foot).y = 0 := by nlinarith [sq_nonneg (uv - (rod 0).foot).x, sq_nonneg (uv - (rod 0).foot).y]
    have : uv = (rod 0).foot := by
      rw [P2.sub_x] at h1; rw [P2.sub_y] at h2
      exact P2.ext (by linarith) (by linarith)
    have h3 := hin 0 (by omega)
    rw [this, hzero 0 (by omega)] at h3
    exact lt_irrefl _ h3
  have hline : ∀ k < n, ∃ t : ℝ, (rod k).foot = uv + t • ((rod 0).foot - uv) := by
    intro k hk
    have e := hcol 0 (by omega) k hk
    simp only [P2.sub_x, P2.sub_y] at e hw
    refine ⟨((uv.x - (rod 0).foot.x) * (uv.x - (rod k).foot.x) + (uv.y - (rod 0).foot.y) * (uv.y - (rod k).foot.y)) /
      ((uv.x - (rod 0).foot.x) ^ 2 + (uv.y - (rod 0).foot.y) ^ 2), ?_⟩
    ext
    · simp only [P2.add_x, P2.smul_x, P2.sub_x]
      field_simp
      linear_combination (uv.y - (rod 0).foot.y) * e
    · simp only [P2.add_y, P2.smul_y, P2.sub_y]
      field_simp
      linear_combination -(uv.x - (rod 0).foot.x) * e
  have aff : ∀ j (t : ℝ), leftOf n v j (uv + t • ((rod 0).foot - uv)) = (1 - t) * leftOf n v j uv + t * leftOf n v j (rod 0).foot := by
    intro j t
    rw [← leftOf_comb2 n v j (show (1 - t) + t = 1 by ring)]
    congr 1
    module
  -- two feet cannot be on the same ray
  have hray : ∀ j < n, ∀ k < n, j ≠ k → ∀ a b : ℝ, (rod j).foot = uv + a • ((rod 0).foot - uv) →
      (rod k).foot = uv + b • ((rod 0).foot - uv) → a * b < 0 := by
    have half : ∀ j < n, ∀ k < n, j ≠ k → ∀ a b : ℝ, (rod j).foot = uv + a • ((rod 0).foot - uv) →
        (rod k).foot = uv + b • ((rod 0).foot - uv) → (0 < a → b < a) ∧ (a < 0 → a < b) ∧ a ≠ 0 := by
      intro j hj k hk hne a b ea eb
      have h1 := hzero j hj
      have h2 := hoff j hj k hk hne
      have h3 := hin j hj
      rw [ea, aff] at h1
      rw [eb, aff] at h2
      have key : a * ((1 - b) * leftOf n v j uv + b * leftOf n v j (rod 0).foot) = (a - b) * leftOf n v j uv := by
        linear_combination b * h1
      refine ⟨fun ha => ?_, fun ha => ?_, ?_⟩
      · have : 0 < (a - b) * leftOf n v j uv := by rw [← key]; exact mul_pos ha h2
        have := (mul_pos_iff_of_pos_right h3).mp this
        linarith
      · have : (a - b) * leftOf n v j uv < 0 := by rw [← key]; exact mul_neg_of_neg_of_pos ha h2
        by_contra hc
        have := mul_nonneg (show 0 ≤ a - b by linarith) h3.le
        linarith
      · rintro rfl
        rw [sub_zero, one_mul, zero_mul, add_zero] at h1
        linarith
    intro j hj k hk hne a b ea eb
    obtain ⟨p1, p2, p3⟩ := half j hj k hk hne a b ea eb
    obtain ⟨q1, q2, q3⟩ := half k hk j hj hne.symm b a eb ea
    rcases lt_or_gt_of_ne p3 with ha | ha <;> rcases lt_or_gt_of_ne q3 with hb | hb
    · linarith [p2 ha, q2 hb]
    · exact mul_neg_of_neg_of_pos ha hb
    · exact mul_neg_of_pos_of_neg ha hb
    · linarith [p1 ha, q1 hb]
  obtain ⟨a, ha⟩ := hline 0 (by omega)
  obtain ⟨b, hb⟩ := hline 1 (by omega)
  obtain ⟨g, hg⟩ := hline 2 (by omega)
  have r1 := hray 0 (by omega) 1 (by omega) (by omega) a b ha hb
  have r2 := hray 0 (by omega) 2 (by omega) (by omega) a g ha hg
  have r3 := hray 1 (by omega) 2 (by omega) (by omega) b g hb hg
  nlinarith [mul_pos_of_neg_of_neg r1 r2, mul_self_nonneg a]

end Elastic

open Elastic

variable {ε tol : ℝ} {solve : Sys ℝ → Fin 3 → P3 ℝ} {n : ℕ} {c : ℕ → Curve ℝ} {P : Patch ℝ} {v : ℕ → P2 ℝ} {uv : P2 ℝ}

private theorem regular_eq (hn : 3 ≤ n) (h : Current ε tol solve n c P) :
    ∃ r φ, 1 ≤ r ∧ ConvexDomain P.dom.dom n (regularVertex n r φ) := by
  obtain ⟨hr, hk⟩ := Elastic.current_ready hn h
  exact hr.regularDomain (by rw [hk]; rfl) hn

/-! ### C52 -/

/-- C52: the evaluation at a point of the domain succeeds. If it returns without solving a system, then the returned point is a point of
a boundary curve whose preimage in the domain is within the tolerance. -/
theorem C52_boundary (hε : 0 < ε) (htol : 0 < tol) (hl : Loop n c) (hex : ∀ j < n, ExactCurve ε (c j)) (h : Current ε tol solve n c P)
    {r φ : ℝ} (hd : ConvexDomain P.dom.dom n (regularVertex n r φ)) (hin : InsideClosed n (regularVertex n r φ) uv) :
    ∃ p P', eval ε tol solve P uv = .ok (p, P') ∧
      ((∃ j < n, ∃ s, 0 ≤ s ∧ s ≤ 1 ∧ (uv - sidePoint n (regularVertex n r φ) j s).norm < tol ∧ p = (c j).pt s) ∨
        ∀ j < n, ∃ s, 0 ≤ s ∧ s ≤ 1 ∧ tol ≤ (uv - sidePoint n (regularVertex n r φ) j s).norm) := by
  obtain ⟨f, hf, hf1⟩ := Param.bilinear_total hd hε hin
  obtain ⟨p, P', rod, e1, e2, e3⟩ := Elastic.core hε htol hl hex h hd hf (fun j hj => ⟨(hf1 j hj).1, (hf1 j hj).2.1⟩)
  refine ⟨p, P', e1, ?_⟩
  rcases e3 with ⟨j, hj, h1, _, h2⟩ | ⟨h1, _⟩
  · left
    obtain ⟨k1, k2, _⟩ := e2 j hj
    exact ⟨j, hj, (f j).x, (hf1 j hj).1, (hf1 j hj).2.1, by rw [← k1]; exact h1, by rw [h2, k2]⟩
  · right
    intro j hj
    exact ⟨(f j).x, (hf1 j hj).1, (hf1 j hj).2.1, by rw [← (e2 j hj).1]; exact h1 j hj⟩

/-- C52: at a point of a side the patch returns a point of a boundary curve whose preimage is within the tolerance; when the other sides
with smaller indices are not within the tolerance, it is the point of the curve of this side at the same parameter. -/
theorem C52_side (hε : 0 < ε) (htol : 0 < tol) (hεn : ε ≤ sin (2 * π / n)) (hl : Loop n c) (hex : ∀ j < n, ExactCurve ε (c j))
    (h : Current ε tol solve n c P) {i : ℕ} (hi : i < n) {s : ℝ} (h0 : 0 ≤ s) (h1 : s ≤ 1) :
    ∃ uv p P', P.dom.dom.edgePoint i s = .ok uv ∧ eval ε tol solve P uv = .ok (p, P') ∧
      (∃ j ≤ i, ∃ s' uv', 0 ≤ s' ∧ s' ≤ 1 ∧ P.dom.dom.edgePoint j s' = .ok uv' ∧ (uv - uv').norm < tol ∧ p = (c j).pt s') ∧
      ((∀ j < i, ∀ s' uv', 0 ≤ s' → s' ≤ 1 → P.dom.dom.edgePoint j s' = .ok uv' → tol ≤ (uv - uv').norm) → p = (c i).pt s) := by
  obtain ⟨r, φ, hr, hd⟩ := regular_eq hl.sides h
  obtain ⟨f, f1, f2, _, _, _, f3, _⟩ := regular_bilinear_side (by linarith) hd hε hεn hi h0 h1
  obtain ⟨p, P', rod, e1, e2, e3⟩ := Elastic.core hε htol hl hex h hd f1 f3
  refine ⟨_, p, P', hd.edgePoint hi s, e1, ?_⟩
  have hzero : (sidePoint n (regularVertex n r φ) i s - (rod i).foot).norm < tol := by
    rw [(e2 i hi).1, f2, sub_self]
    have : P2.norm (0 : P2 ℝ) = 0 := by
      simp only [P2.norm, P2.dot, P2.zero_x, P2.zero_y, mul_zero, add_zero]
      exact Real.sqrt_zero
    rw [this]; exact htol
  rcases e3 with ⟨j, hj, k1, k2, k3⟩ | ⟨k1, _⟩
  · have hji : j ≤ i := by
      by_contra hc
      exact absurd hzero (not_lt.mpr (k2 i (by omega)))
    obtain ⟨q1, q2, _⟩ := e2 j hj
    refine ⟨⟨j, hji, (f j).x, _, (f3 j hj).1, (f3 j hj).2, hd.edgePoint hj _, by rw [← q1]; exact k1, by rw [k3, q2]⟩, ?_⟩
    intro hfar
    rcases Nat.eq_or_lt_of_le hji with rfl | hlt
    · rw [k3, q2, f2]
    · have := hfar j hlt (f j).x _ (f3 j hj).1 (f3 j hj).2 (hd.edgePoint hj _)
      rw [← q1] at this
      linarith
  · exact absurd hzero (not_lt.mpr (k1 i hi))

/-- In a regular polygon with at least four sides the side parameters are never degenerate. -/
private theorem band (hn : 4 ≤ n) {r φ : ℝ} {d : Domain ℝ} (hd : ConvexDomain d n (regularVertex n r φ)) (hεn : ε ≤ sin (2 * π / n))
    (hin : InsideClosed n (regularVertex n r φ) uv) {j : ℕ} (hj : j < n) :
    ε ≤ (leftOf n (regularVertex n r φ) (prevIx n j) uv + leftOf n (regularVertex n r φ) (nextIx n j) uv) /
      P2.dot (duOf n (regularVertex n r φ) j) (duOf n (regularVertex n r φ) j) := by
  rw [le_div_iff₀ (hd.du_pos hj), regular_du (by omega)]
  have hp : prevIx n j < n := prevIx_lt (by omega)
  have hx : nextIx n j < n := nextIx_lt (by omega)
  obtain ⟨⟨l, e1, e2, e3⟩, _⟩ := C13_unit_square hd (ε := 1) one_pos le_rfl hin
  obtain ⟨w, rfl, h1, h2⟩ := C11_partition_precision (by omega) hd.vertices_eq le_rfl e1
  replace h2 := h2.resolve_right (fun h => h.1 rfl)
  have hw : ∀ k ∈ Finset.range n, 0 ≤ w k := fun k hk =>
    (e3 (w k) (List.mem_map.mpr ⟨k, List.mem_range.mpr (Finset.mem_range.mp hk), rfl⟩)).1
  rw [← h2, leftOf_sum _ _ _ _ _ _ h1, leftOf_sum _ _ _ _ _ _ h1, ← Finset.sum_add_distrib]
  have hs := (sin_pi_div_pos (show 3 ≤ n by omega)).1
  calc ε * (r ^ 2 * (4 * sin (π / n) ^ 2)) ≤ r ^ 2 * (4 * sin (π / n) ^ 2) * sin (2 * π / n) := by
        have : 0 ≤ r ^ 2 * (4 * sin (π / n) ^ 2) := by positivity
        nlinarith
    _ = ∑ k ∈ Finset.range n, w k * (r ^ 2 * (4 * sin (π / n) ^ 2) * sin (2 * π / n)) := by rw [← Finset.sum_mul, h1, one_mul]
    _ ≤ _ := by
        apply Finset.sum_le_sum
        intro k hk
        rw [← mul_add]
        apply mul_le_mul_of_nonneg_left _ (hw k hk)
        have hk' := Finset.mem_range.mp hk
        have g1 := hd.convex.nonneg hp hk'
        have g2 := hd.convex.nonneg hx hk'
        by_cases c1 : k = prevIx n j ∨ k = prevIx n (prevIx n j)
        · obtain ⟨m, m1, m2, m3⟩ := exists_offset hx hk' (by
            rcases c1 with rfl | rfl
            · unfold nextIx; rw [prevIx_eq hj]
              rcases Nat.lt_or_ge (j + 1) n with q | q
              · rw [Nat.mod_eq_of_lt q]; split_ifs <;> omega
              · rw [show j + 1 = n by omega, Nat.mod_self]; split_ifs <;> omega
            · unfold nextIx; rw [prevIx_eq hp, prevIx_eq hj]
              rcases Nat.lt_or_ge (j + 1) n with q | q
              · rw [Nat.mod_eq_of_lt q]; split_ifs <;> omega
              · rw [show j + 1 = n by omega, Nat.mod_self]; split_ifs <;> omega) (by
            rw [prevIx_nextIx hj]
            rcases c1 with rfl | rfl
            · rw [prevIx_eq hj]; split_ifs <;> omega
            · rw [prevIx_eq hp, prevIx_eq hj]; split_ifs <;> omega)
          have := regular_leftOf_ge (by omega) (r := r) (φ := φ) hx m1 m2
          rw [m3] at this
          linarith
        · push Not at c1
          obtain ⟨m, m1, m2, m3⟩ := exists_offset hp hk' c1.1 c1.2
          have := regular_leftOf_ge (by omega) (r := r) (φ := φ) hp m1 m2
          rw [m3] at this
          linarith

/-- The side parameters at a point strictly inside the domain. -/
private theorem feet (hε : 0 < ε) (hεn : ε ≤ sin (2 * π / n)) (hl : Loop n c) (h : Current ε tol solve n c P) (hd : ConvexDomain P.dom.dom n v)
    (hin : Inside n v uv) (h3 : n = 3 → AwayFromVertices ε n v uv) :
    (∀ j < n, Param.bilinearMap ε P.dom.dom j uv = .ok ⟨footParameter n v j uv, leftOf n v j uv / leftOf n v j (v (nextIx n j))⟩) ∧
      ∀ j < n, 0 < footParameter n v j uv ∧ footParameter n v j uv < 1 := by
  have hn := hl.sides
  obtain ⟨r, φ, hr, hd'⟩ := regular_eq hn h
  have hvv : ∀ j < n, v j = regularVertex n r φ j := fun j hj => tab_inj (hd.vertices_eq.symm.trans hd'.vertices_eq) hj
  have hinc : InsideClosed n v uv := fun j hj => (hin j hj).le
  have lp : ∀ j < n, 0 < leftOf n v (prevIx n j) uv := fun j hj => hin _ (prevIx_lt (by omega))
  have lx : ∀ j < n, 0 < leftOf n v (nextIx n j) uv := fun j hj => hin _ (nextIx_lt (by omega))
  have hlo : ∀ j < n, ∀ p, leftOf n v j p = leftOf n (regularVertex n r φ) j p := by
    intro j hj p
    unfold leftOf
    rw [hvv j hj, hvv _ (Nat.mod_lt _ (by omega))]
  have hband : ∀ j < n, ε ≤ (leftOf n v (prevIx n j) uv + leftOf n v (nextIx n j) uv) / P2.dot (duOf n v j) (duOf n v j) := by
    intro j hj
    by_cases h4 : n = 3
    · rw [le_div_iff₀ (hd.du_pos hj)]
      exact h3 h4 j hj
    · have e := band (by omega) hd' hεn (Patch.insideClosed_congr (by omega) hvv hinc) hj
      have edu : duOf n v j = duOf n (regularVertex n r φ) j := by
        unfold duOf
        rw [hvv j hj, hvv _ (prevIx_lt (by omega))]
      rw [edu, hlo _ (prevIx_lt (by omega)), hlo _ (nextIx_lt (by omega))]
      exact e
  have hf : ∀ j < n, Param.bilinearMap ε P.dom.dom j uv = .ok ⟨footParameter n v j uv, leftOf n v j uv / leftOf n v j (v (nextIx n j))⟩ := by
    intro j hj
    have e := bilinearMap_ratio hd hε hj (by
      rw [hlo j hj, hlo j hj, hvv _ (prevIx_lt (by omega)), hvv _ (nextIx_lt (by omega)), regular_leftOf_prev hn hj, regular_leftOf_next hn hj])
      (lp j hj).le (lx j hj).le
    rw [if_neg (not_lt.mpr (hband j hj))] at e
    exact e
  have hs : ∀ j < n, 0 < footParameter n v j uv ∧ footParameter n v j uv < 1 := by
    intro j hj
    have a := lp j hj
    have b := lx j hj
    change 0 < leftOf n v (prevIx n j) uv / (leftOf n v (prevIx n j) uv + leftOf n v (nextIx n j) uv) ∧
      leftOf n v (prevIx n j) uv / (leftOf n v (prevIx n j) uv + leftOf n v (nextIx n j) uv) < 1
    exact ⟨by positivity, by rw [div_lt_one (by positivity)]; linarith⟩
  exact ⟨hf, hs⟩

/-- C52: strictly inside the domain, near the boundary: the value is the point of the curve of the first side whose foot is within the
tolerance, at the parameter of the foot. -/
theorem C52_near (hε : 0 < ε) (htol : 0 < tol) (hεn : ε ≤ sin (2 * π / n)) (hl : Loop n c) (hex : ∀ j < n, ExactCurve ε (c j))
    (h : Current ε tol solve n c P) (hd : ConvexDomain P.dom.dom n v) (hin : Inside n v uv) (h3 : n = 3 → AwayFromVertices ε n v uv)
    {j : ℕ} (hj : j < n) (hnear : (uv - sidePoint n v j (footParameter n v j uv)).norm < tol)
    (hfirst : ∀ m < j, tol ≤ (uv - sidePoint n v m (footParameter n v m uv)).norm) :
    ∃ P', eval ε tol solve P uv = .ok ((c j).pt (footParameter n v j uv), P') := by
  obtain ⟨hf, hs⟩ := feet hε hεn hl h hd hin h3
  obtain ⟨p, P', rod, e1, e2, e3⟩ := Elastic.core hε htol hl hex h hd hf (fun j hj => ⟨(hs j hj).1.le, (hs j hj).2.le⟩)
  rcases e3 with ⟨k, hk, k1, k2, k3⟩ | ⟨k1, _⟩
  · have hkj : k = j := by
      rcases Nat.lt_trichotomy k j with q | q | q
      · have := hfirst k q
        rw [(e2 k hk).1] at k1
        exact absurd k1 (not_lt.mpr this)
      · exact q
      · have := k2 j q
        rw [(e2 j hj).1] at this
        exact absurd hnear (not_lt.mpr this)
    subst hkj
    rw [(e2 k hk).2.1] at k3
    rw [k3] at e1
    exact ⟨P', e1⟩
  · have := k1 j hj
    rw [(e2 j hj).1] at this
    exact absurd hnear (not_lt.mpr this)

/-- C52 with the tolerance of the code: at a point of a side the patch returns a point of a boundary curve whose preimage is nearer than 10⁻⁵; it is the point of the curve of this side at the same
parameter, when the other sides with smaller indices are at least 10⁻⁵ away. -/
theorem C52_default (hε : 0 < ε) (hεn : ε ≤ sin (2 * π / n)) (hl : Loop n c) (hex : ∀ j < n, ExactCurve ε (c j))
    (h : Current ε tolerance solve n c P) {i : ℕ} (hi : i < n) {s : ℝ} (h0 : 0 ≤ s) (h1 : s ≤ 1) :
    ∃ uv p P', P.dom.dom.edgePoint i s = .ok uv ∧ eval ε tolerance solve P uv = .ok (p, P') ∧
      (∃ j ≤ i, ∃ s' uv', 0 ≤ s' ∧ s' ≤ 1 ∧ P.dom.dom.edgePoint j s' = .ok uv' ∧ (uv - uv').norm < 1 / 10 ^ 5 ∧ p = (c j).pt s') ∧
      ((∀ j < i, ∀ s' uv', 0 ≤ s' → s' ≤ 1 → P.dom.dom.edgePoint j s' = .ok uv' → 1 / 10 ^ 5 ≤ (uv - uv').norm) → p = (c i).pt s) := by
  have ht : (1 / 10 ^ 5 : ℝ) = tolerance := by norm_num [tolerance]
  rw [ht]
  exact C52_side hε (by norm_num [tolerance]) hεn hl hex h hi h0 h1

/-! ### C69 -/

/-- C69: at a point strictly inside the domain, more than the tolerance away from the feet of the rods, the patch returns the end point
of the unique system of rods with the least total bending energy. The rods are over the segments that connect the point with one point on
each side, start on the boundary curves with the cross derivatives of the ribbons, and end at a common point with a common tangent plane.
For triangles, points near the vertices are excluded. -/
theorem C69_energy (hε : 0 < ε) (htol : 0 < tol) (hεn : ε ≤ sin (2 * π / n)) (hl : Loop n c) (hex : ∀ j < n, ExactCurve ε (c j))
    (hsol : Solver solve) (h : Current ε tol solve n c P) (hd : ConvexDomain P.dom.dom n v) (hin : Inside n v uv)
    (h3 : n = 3 → AwayFromVertices ε n v uv)
    (hfar : ∀ j < n, tol ≤ (uv - sidePoint n v j (footParameter n v j uv)).norm) :
    ∃ (p : P3 ℝ) (P' : Patch ℝ) (rod : ℕ → Rod), eval ε tol solve P uv = .ok (p, P') ∧
      (∀ j < n, IsRod ε P n v c j (footParameter n v j uv) (rod j)) ∧
      ∃ pu pv, ∀ p' pu' pv', totalEnergy n rod uv p pu pv ≤ totalEnergy n rod uv p' pu' pv' ∧
        (totalEnergy n rod uv p' pu' pv' = totalEnergy n rod uv p pu pv → p' = p ∧ pu' = pu ∧ pv' = pv) := by
  obtain ⟨hf, hs⟩ := feet hε hεn hl h hd hin h3
  obtain ⟨p, P', rod, e1, e2, e3⟩ := Elastic.core hε htol hl hex h hd hf (fun j hj => ⟨(hs j hj).1.le, (hs j hj).2.le⟩)
  refine ⟨p, P', rod, e1, e2, ?_⟩
  rcases e3 with ⟨j, hj, k1, _⟩ | ⟨_, k2⟩
  · rw [(e2 j hj).1] at k1
    exact absurd k1 (not_lt.mpr (hfar j hj))
  · exact k2 hsol (Elastic.spread_inside hd hin hs (fun j hj => (e2 j hj).1))

/-! ### Examples -/

/-- There are solvers. -/
theorem Elastic.exists_solver : ∃ solve, Solver solve := by
  classical
  refine ⟨fun S => if h : ∃ x : Fin 3 → P3 ℝ, ∀ k, ∑ l, S.A k l • x l = S.b k then h.choose else fun _ => 0, ?_⟩
  intro S h
  dsimp only
  rw [dif_pos h]
  exact h.choose_spec

/-- An updated elastic patch. -/
theorem Elastic.square_current : ∃ P v, (∀ tol solve, Current (1 / 10000) tol solve 4 squareLoop P) ∧ ConvexDomain P.dom.dom 4 v := by
  obtain ⟨P, v, -, h, hd, -⟩ := square_built .cornerBased
  refine ⟨P, v, fun tol solve => ?_, hd⟩
  obtain ⟨before, later, P0, P1, h1, h2, h3, h4, h5, h6⟩ := h.1
  have hr : Reached (1 / 10000) tol solve P0 := by
    have : ∀ (xs : List (Patch.Call ℝ)) (Q Q' : Patch ℝ), Reached (1 / 10000) tol solve Q → Q.run (1 / 10000) xs = .ok Q' →
        Reached (1 / 10000) tol solve Q' := by
      intro xs
      induction xs with
      | nil => intro Q Q' hq e; cases e; exact hq
      | cons x xs ih =>
        intro Q Q' hq e
        unfold Patch.run at e
        obtain ⟨R, e1, e2⟩ := bind_ok e
        exact ih R Q' (.call hq e1) e2
    exact this before _ _ .new h1
  have : ∀ (xs : List (Patch.Call ℝ)), (∀ x ∈ xs, Patch.Call.keepsLoop x = true) → ∀ (Q Q' : Patch ℝ),
      Current (1 / 10000) tol solve 4 squareLoop Q → Q.run (1 / 10000) xs = .ok Q' → Current (1 / 10000) tol solve 4 squareLoop Q' := by
    intro xs
    induction xs with
    | nil => intro _ Q Q' hq e; cases e; exact hq
    | cons x xs ih =>
      intro hx Q Q' hq e
      unfold Patch.run at e
      obtain ⟨R, e1, e2⟩ := bind_ok e
      exact ih (fun y hy => hx y (List.mem_cons_of_mem _ hy)) R Q' (.call hq (hx x List.mem_cons_self) e1) e2
  exact this later h5 _ _ (.update hr h2 h3 h4) h6

private theorem square_loop' : Loop 4 squareLoop := ⟨square_good.sides, square_good.closed, square_good.regular⟩

private theorem square_sin' : (1 / 10000 : ℝ) ≤ sin (2 * π / (4 : ℕ)) := by
  rw [show 2 * π / ((4 : ℕ) : ℝ) = π / 2 by push_cast; ring, sin_pi_div_two]
  norm_num

/-- C52 (C52_side and C52_default) on the first side of the square, with the tolerance of the code. -/
example : ∃ solve, Solver solve ∧ ∃ P, Current (1 / 10000) tolerance solve 4 squareLoop P ∧ ∀ s, 0 ≤ s → s ≤ 1 →
    ∃ uv P', P.dom.dom.edgePoint 0 s = .ok uv ∧ eval (1 / 10000) tolerance solve P uv = .ok ((squareLoop 0).pt s, P') := by
  obtain ⟨solve, hs⟩ := Elastic.exists_solver
  obtain ⟨P, v, h, _⟩ := Elastic.square_current
  refine ⟨solve, hs, P, h _ _, fun s h0 h1 => ?_⟩
  obtain ⟨uv, p, P', e1, e2, _, e3⟩ := C52_default (by norm_num) square_sin' square_loop' square_good.exact (h tolerance solve)
    (i := 0) (by norm_num) h0 h1
  rw [e3 (fun j hj => absurd hj (by omega))] at e2
  exact ⟨uv, P', e1, e2⟩

/-- C69 at the center of the domain of the square. -/
example : ∃ tol solve, 0 < tol ∧ Solver solve ∧ ∃ (P : Patch ℝ) (v : ℕ → P2 ℝ), Current (1 / 10000) tol solve 4 squareLoop P ∧
    ConvexDomain P.dom.dom 4 v ∧ Inside 4 v P.dom.dom.center ∧ ∃ (p : P3 ℝ) (P' : Patch ℝ) (rod : ℕ → Rod) (pu pv : P3 ℝ),
    eval (1 / 10000) tol solve P P.dom.dom.center = .ok (p, P') ∧ ∀ p' pu' pv', totalEnergy 4 rod P.dom.dom.center p pu pv ≤
      totalEnergy 4 rod P.dom.dom.center p' pu' pv' := by
  obtain ⟨solve, hs⟩ := Elastic.exists_solver
  obtain ⟨P, v, h, hd⟩ := Elastic.square_current
  have hpos : ∀ j < 4, 0 < (P.dom.dom.center - sidePoint 4 v j (footParameter 4 v j P.dom.dom.center)).norm := by
    intro j hj
    refine lt_of_le_of_ne (Real.sqrt_nonneg _) fun e => ?_
    have e2 : (P.dom.dom.center - sidePoint 4 v j (footParameter 4 v j P.dom.dom.center)) = 0 := by
      generalize P.dom.dom.center - sidePoint 4 v j (footParameter 4 v j P.dom.dom.center) = w at e
      have e3 := (Real.sqrt_eq_zero (by unfold P2.dot; nlinarith [mul_self_nonneg w.x, mul_self_nonneg w.y])).mp e.symm
      unfold P2.dot at e3
      exact P2.ext (mul_self_eq_zero.mp (by nlinarith [mul_self_nonneg w.x, mul_self_nonneg w.y]))
        (mul_self_eq_zero.mp (by nlinarith [mul_self_nonneg w.x, mul_self_nonneg w.y]))
    have h1 := hd.inside j hj
    rw [sub_eq_zero.mp e2, leftOf_sidePoint] at h1
    exact lt_irrefl _ h1
  let D := fun j => (P.dom.dom.center - sidePoint 4 v j (footParameter 4 v j P.dom.dom.center)).norm
  let tol := min (min (D 0) (D 1)) (min (D 2) (D 3))
  have ht : 0 < tol := lt_min (lt_min (hpos 0 (by omega)) (hpos 1 (by omega))) (lt_min (hpos 2 (by omega)) (hpos 3 (by omega)))
  obtain ⟨p, P', rod, e1, _, pu, pv, e2⟩ := C69_energy (by norm_num) ht square_sin' square_loop' square_good.exact hs (h tol solve) hd hd.inside
    (fun h => absurd h (by norm_num)) (by
      intro j hj
      interval_cases j
      · exact (min_le_left _ _).trans (min_le_left _ _)
      · exact (min_le_left _ _).trans (min_le_right _ _)
      · exact (min_le_right _ _).trans (min_le_left _ _)
      · exact (min_le_right _ _).trans (min_le_right _ _))
  exact ⟨tol, solve, ht, hs, P, v, h _ _, hd, hd.inside, p, P', rod, pu, pv, e1, fun p' pu' pv' => (e2 p' pu' pv').1⟩

end Transfinite
