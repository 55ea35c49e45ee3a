import Verif.Model.Statistics
import Verif.Props.ParamPoints

/-! # C92: the deviation of a mesh from a surface -/

namespace Transfinite

open Spec Patch

section point

variable {a b c p : P3 ℝ}

/-- The distance from a point of the plane of a triangle. -/
private theorem above_le {l1 l2 l3 h m1 m2 m3 : ℝ} (hs : l1 + l2 + l3 = 1) (hp : p = l1 • a + l2 • b + l3 • c + h • P3.cross (b - a) (c - a)) (hm : m1 + m2 + m3 = 1) :
    (h • P3.cross (b - a) (c - a)).norm ≤ (p - (m1 • a + m2 • b + m3 • c)).norm := by
  refine Real.sqrt_le_sqrt ?_
  set w := P3.cross (b - a) (c - a) with hw
  have e : p - (m1 • a + m2 • b + m3 • c) = h • w + ((l2 - m2) • (b - a) + (l3 - m3) • (c - a)) := by
    rw [hp, show l1 = 1 - l2 - l3 by linarith, show m1 = 1 - m2 - m3 by linarith]
    module
  have o : P3.dot w ((l2 - m2) • (b - a) + (l3 - m3) • (c - a)) = 0 := by
    rw [hw]
    simp only [P3.dot, P3.cross, P3.sub_x, P3.sub_y, P3.sub_z, P3.add_x, P3.add_y, P3.add_z, P3.smul_x, P3.smul_y, P3.smul_z]
    ring
  rw [e]
  set t := (l2 - m2) • (b - a) + (l3 - m3) • (c - a)
  have : P3.dot (h • w + t) (h • w + t) = P3.dot (h • w) (h • w) + 2 * h * P3.dot w t + P3.dot t t := by
    simp only [P3.dot, P3.add_x, P3.add_y, P3.add_z, P3.smul_x, P3.smul_y, P3.smul_z]
    ring
  rw [this, o]
  have := P3.dot_self_nonneg t
  linarith

/-- The deviation of a point above the plane of a triangle. -/
theorem deviation_eq (hne : P3.cross (b - a) (c - a) ≠ 0) {l1 l2 l3 h : ℝ} (hs : l1 + l2 + l3 = 1) (hp : p = l1 • a + l2 • b + l3 • c + h • P3.cross (b - a) (c - a)) :
    deviation a b c p = .ok (h • P3.cross (b - a) (c - a)).norm := by
  set w := P3.cross (b - a) (c - a) with hw
  have hN := P3.norm_pos hne
  have hmul := P3.norm_mul_self w
  unfold deviation
  rw [← hw, P3.normalize_ok hne, M_bind_ok]
  dsimp only
  congr 2
  have e1 : P3.dot (a - p) (w.norm⁻¹ • w) = - h * w.norm := by
    have : P3.dot (a - p) w = - h * P3.dot w w := by
      rw [hp, show l1 = 1 - l2 - l3 by linarith]
      simp only [hw, P3.dot, P3.cross, P3.sub_x, P3.sub_y, P3.sub_z, P3.add_x, P3.add_y, P3.add_z, P3.smul_x, P3.smul_y, P3.smul_z]
      ring
    have e2 : P3.dot (a - p) (w.norm⁻¹ • w) = w.norm⁻¹ * P3.dot (a - p) w := by
      simp only [P3.dot, P3.smul_x, P3.smul_y, P3.smul_z]
      ring
    rw [e2, this, ← hmul]
    field_simp
  rw [e1, smul_smul, show -h * w.norm * w.norm⁻¹ = -h by field_simp]
  module

/-- C92: the deviation of a point is its distance from the plane of the triangle: no point of the plane is nearer, and there is one at this distance. -/
theorem C92_plane (hne : P3.cross (b - a) (c - a) ≠ 0) (p : P3 ℝ) : ∃ d, deviation a b c p = .ok d ∧ (∀ l1 l2 l3 : ℝ, l1 + l2 + l3 = 1 → d ≤ (p - (l1 • a + l2 • b + l3 • c)).norm) ∧
    ∃ l1 l2 l3 : ℝ, l1 + l2 + l3 = 1 ∧ (p - (l1 • a + l2 • b + l3 • c)).norm = d := by
  obtain ⟨l1, l2, l3, h, hs, hp⟩ := exists_bary hne p
  refine ⟨_, deviation_eq hne hs hp, fun m1 m2 m3 hm => above_le hs hp hm, l1, l2, l3, hs, ?_⟩
  congr 1
  rw [hp]
  module

/-- C92: the deviation of a point above the triangle is its distance from the triangle. -/
theorem C92_triangle (hne : P3.cross (b - a) (c - a) ≠ 0) {l1 l2 l3 h : ℝ} (h1 : 0 ≤ l1) (h2 : 0 ≤ l2) (h3 : 0 ≤ l3) (hs : l1 + l2 + l3 = 1)
    (hp : p = l1 • a + l2 • b + l3 • c + h • P3.cross (b - a) (c - a)) : ∃ d, deviation a b c p = .ok d ∧
      (∀ m1 m2 m3 : ℝ, 0 ≤ m1 → 0 ≤ m2 → 0 ≤ m3 → m1 + m2 + m3 = 1 → d ≤ (p - (m1 • a + m2 • b + m3 • c)).norm) ∧
      ∃ m1 m2 m3 : ℝ, 0 ≤ m1 ∧ 0 ≤ m2 ∧ 0 ≤ m3 ∧ m1 + m2 + m3 = 1 ∧ (p - (m1 • a + m2 • b + m3 • c)).norm = d := by
  refine ⟨_, deviation_eq hne hs hp, fun m1 m2 m3 _ _ _ hm => above_le hs hp hm, l1, l2, l3, h1, h2, h3, hs, ?_⟩
  congr 1
  rw [hp]
  module

/-- C92: the deviation of a point that is not above the triangle can be less than its distance from the triangle: here it is zero, but all points of the triangle are at least at distance 1. -/
theorem C92_outside : ∃ a b c p : P3 ℝ, P3.cross (b - a) (c - a) ≠ 0 ∧ deviation a b c p = .ok 0 ∧
    ∀ m1 m2 m3 : ℝ, 0 ≤ m1 → 0 ≤ m2 → 0 ≤ m3 → m1 + m2 + m3 = 1 → 1 ≤ (p - (m1 • a + m2 • b + m3 • c)).norm := by
  have hne : P3.cross ((⟨1, 0, 0⟩ : P3 ℝ) - ⟨0, 0, 0⟩) (⟨0, 1, 0⟩ - ⟨0, 0, 0⟩) ≠ 0 := fun h => by simpa [P3.cross] using congrArg P3.z h
  refine ⟨⟨0, 0, 0⟩, ⟨1, 0, 0⟩, ⟨0, 1, 0⟩, ⟨-1, 0, 0⟩, hne, ?_, ?_⟩
  · rw [deviation_eq (l1 := 2) (l2 := -1) (l3 := 0) (h := 0) hne (by norm_num) (by ext <;> norm_num [P3.cross]), zero_smul, P3.norm_eq_zero.mpr rfl]
  · intro m1 m2 m3 h1 h2 h3 hm
    refine Real.le_sqrt_of_sq_le ?_
    simp only [P3.dot, P3.sub_x, P3.sub_y, P3.sub_z, P3.add_x, P3.add_y, P3.add_z, P3.smul_x, P3.smul_y, P3.smul_z]
    nlinarith

/-- C92: a triangle without an area leads to a division by zero (NaN). -/
theorem C92_degenerate (hne : P3.cross (b - a) (c - a) = 0) (p : P3 ℝ) : deviation a b c p = .error .divZero := by
  have : P3.normalize (P3.cross (b - a) (c - a)) = .error .divZero := by
    unfold P3.normalize
    rw [hne, if_pos (P3.norm_eq_zero.mpr rfl)]
  unfold deviation
  rw [this]
  rfl

/-- The hypotheses of `C92_plane`, `C92_triangle` and `C92_degenerate` hold. -/
example : (∃ d, deviation ⟨0, 0, 0⟩ ⟨1, 0, 0⟩ ⟨0, 1, 0⟩ (⟨1 / 2, 1 / 4, 7⟩ : P3 ℝ) = .ok d ∧ d = 7) ∧ deviation ⟨0, 0, 0⟩ ⟨1, 1, 1⟩ ⟨2, 2, 2⟩ (⟨1 / 2, 1 / 4, 7⟩ : P3 ℝ) = .error .divZero := by
  have hne : P3.cross ((⟨1, 0, 0⟩ : P3 ℝ) - ⟨0, 0, 0⟩) (⟨0, 1, 0⟩ - ⟨0, 0, 0⟩) ≠ 0 := fun h => by simpa [P3.cross] using congrArg P3.z h
  constructor
  · refine ⟨_, deviation_eq (l1 := 1 / 4) (l2 := 1 / 2) (l3 := 1 / 4) (h := 7) hne (by norm_num) (by ext <;> norm_num [P3.cross]), ?_⟩
    change Real.sqrt _ = _
    rw [show P3.dot _ _ = (7 : ℝ) ^ 2 by norm_num [P3.dot, P3.cross], Real.sqrt_sq (by norm_num)]
  · exact C92_degenerate (by ext <;> norm_num [P3.cross]) _

end point

section points

variable {ε : ℝ} {kind : PatchKind} {cs : List (Patch.Call ℝ)} {P P1 : Patch ℝ} {pts points : List (P3 ℝ)} {ts : List Domain.Tri} {closest : List (P3 ℝ) → List Domain.Tri → P3 ℝ → Domain.Tri}

/-- C92: when the triangles that are found in the mesh of resolution 30 have an area, `deviationFromMesh` gives one number for each point, which is the distance from the plane of the triangle:
no point of the plane is nearer, so it is not greater than the distance from the mesh when the triangle that is found is the closest one. -/
theorem C92_points (hm : P.evalMesh ε 30 = .ok ((pts, ts), P1)) (hc : ∀ p ∈ points, closest pts ts p ∈ ts ∧ HasArea pts (closest pts ts p)) :
    ∃ res, deviationFromMesh ε closest points P = .ok (res, P1) ∧ res.length = points.length ∧
      ∀ (i : ℕ) (p : P3 ℝ) (d : ℝ), points[i]? = some p → res[i]? = some d → ∃ t ∈ ts, t = closest pts ts p ∧ ∃ a b c, pts[t.1]? = some a ∧ pts[t.2.1]? = some b ∧
        pts[t.2.2]? = some c ∧ (∀ l1 l2 l3 : ℝ, l1 + l2 + l3 = 1 → d ≤ (p - (l1 • a + l2 • b + l3 • c)).norm) ∧ ∃ l1 l2 l3 : ℝ, l1 + l2 + l3 = 1 ∧ (p - (l1 • a + l2 • b + l3 • c)).norm = d := by
  have step : ∀ i : ℕ, ∃ d : ℝ, ∀ p : P3 ℝ, points[i]? = some p → ∃ t ∈ ts, t = closest pts ts p ∧ ∃ a b c, pts[t.1]? = some a ∧ pts[t.2.1]? = some b ∧
        pts[t.2.2]? = some c ∧ deviation a b c p = .ok d ∧ (∀ l1 l2 l3 : ℝ, l1 + l2 + l3 = 1 → d ≤ (p - (l1 • a + l2 • b + l3 • c)).norm) ∧
        ∃ l1 l2 l3 : ℝ, l1 + l2 + l3 = 1 ∧ (p - (l1 • a + l2 • b + l3 • c)).norm = d := by
    intro i
    cases e : points[i]? with
    | none => exact ⟨0, fun p h => by cases h⟩
    | some p =>
      obtain ⟨h1, a, b, c, ha, hb, hc', hne⟩ := hc p (List.mem_of_getElem? e)
      obtain ⟨d, e1, e2, e3⟩ := C92_plane hne p
      exact ⟨d, fun p' h => by cases h; exact ⟨_, h1, rfl, a, b, c, ha, hb, hc', e1, e2, e3⟩⟩
  choose g hg using step
  have loop : deviationLoop closest pts ts points = .ok (tab points.length g) := by
    unfold deviationLoop
    rw [forLoop_push points.length _ g [] (fun i l hi => by
      obtain ⟨t, _, ht, a, b, c, h1, h2, h3, h4, _⟩ := hg i _ (List.getElem?_eq_getElem hi)
      rw [vget_of_lt hi, M_bind_ok]
      dsimp only
      rw [← ht, vget_eq_ok.mpr h1, M_bind_ok, vget_eq_ok.mpr h2, M_bind_ok, vget_eq_ok.mpr h3, M_bind_ok, h4, M_bind_ok])]
    rfl
  refine ⟨tab points.length g, ?_, length_tab _ _, fun i p d h1 h2 => ?_⟩
  · unfold deviationFromMesh
    rw [hm, M_bind_ok]
    dsimp only
    rw [loop, M_bind_ok]
  · have hlt : i < points.length := (List.getElem?_eq_some_iff.mp h1).1
    have : d = g i := by
      have := vget_eq_ok.mpr h2
      rw [vget_tab _ hlt] at this
      exact (Except.ok.inj this).symm
    rw [this]
    obtain ⟨t, h3, h4, a, b, c, h5, h6, h7, -, h8⟩ := hg i p h1
    exact ⟨t, h3, h4, a, b, c, h5, h6, h7, h8⟩

end points

/-- The hypotheses of `C92_points` hold for two points near the corner of the square. -/
example : ∃ P P1 res, (Patch.new .c0Coons).run (1 / 10000) ([.curves (tab 4 squareLoop), .loop] ++ squareHandlers ++ [.update]) = .ok P ∧
    deviationFromMesh (1 / 10000) (fun _ _ _ => (0, 31, 1)) [⟨29 / 3, 1 / 10, 5⟩, ⟨10, 0, 0⟩] P = .ok (res, P1) ∧ res.length = 2 := by
  obtain ⟨P, v, pts, ts, P1, e, hd, h1, ht, p1, p2, p3⟩ := square_corner (R := 30) (by norm_num) (by norm_num)
  have hc : ∀ p ∈ [(⟨29 / 3, 1 / 10, 5⟩ : P3 ℝ), ⟨10, 0, 0⟩], (fun _ _ _ => (0, 31, 1) : List (P3 ℝ) → List Domain.Tri → P3 ℝ → Domain.Tri) pts ts p ∈ ts ∧
      HasArea pts ((fun _ _ _ => (0, 31, 1) : List (P3 ℝ) → List Domain.Tri → P3 ℝ → Domain.Tri) pts ts p) := fun p _ => ⟨ht, _, _, _, p1, p2, p3, fun h => by
    have := congrArg P3.z h
    norm_num [P3.cross] at this⟩
  obtain ⟨res, h2, h3, -⟩ := C92_points (closest := fun _ _ _ => (0, 31, 1)) (points := [⟨29 / 3, 1 / 10, 5⟩, ⟨10, 0, 0⟩]) h1 hc
  exact ⟨P, P1, res, e, h2, h3⟩

end Transfinite
