import Verif.Model.ParamPoints
import Verif.Props.Total
import Verif.Props.MeshEval

/-! # C86: parameters of points near a surface -/

namespace Transfinite

open Spec Patch

section point

variable {a b c p : P3 ℝ} {ua ub uc : P2 ℝ}

private theorem norm_smul3 (t : ℝ) (v : P3 ℝ) : (t • v).norm = |t| * v.norm := by
  have h : (t • v).norm = Real.sqrt (t ^ 2 * P3.dot v v) := by
    change Real.sqrt _ = _
    congr 1
    simp only [P3.dot, P3.normSqr, P3.smul_x, P3.smul_y, P3.smul_z]
    ring
  rw [h, Real.sqrt_mul (sq_nonneg t), Real.sqrt_sq_eq_abs]
  rfl

/-- C86: the parameters of a point above the point with barycentric coordinates `l1`, `l2`, `l3` in the plane of a triangle are the combination of the parameters of the vertices
with weights proportional to the absolute values of the coordinates. -/
theorem C86_point (hne : P3.cross (b - a) (c - a) ≠ 0) {l1 l2 l3 h : ℝ} (hs : l1 + l2 + l3 = 1) (hp : p = l1 • a + l2 • b + l3 • c + h • P3.cross (b - a) (c - a)) :
    paramPoint a b c ua ub uc p = .ok ((|l1| + |l2| + |l3|)⁻¹ • (|l1| • ua + |l2| • ub + |l3| • uc)) := by
  set w := P3.cross (b - a) (c - a) with hw
  have hN := P3.norm_pos hne
  have hmul := P3.norm_mul_self w
  unfold paramPoint
  rw [← hw, P3.normalize_ok hne, M_bind_ok]
  dsimp only
  have hq : p + P3.dot (a - p) (w.norm⁻¹ • w) • w.norm⁻¹ • w = l1 • a + l2 • b + l3 • c := by
    have e1 : P3.dot (a - p) (w.norm⁻¹ • w) = - h * w.norm := by
      have : P3.dot (a - p) w = - h * P3.dot w w := by
        rw [hp, show l1 = 1 - l2 - l3 by linarith]
        simp only [hw, P3.dot, P3.cross, P3.sub_x, P3.sub_y, P3.sub_z, P3.add_x, P3.add_y, P3.add_z, P3.smul_x, P3.smul_y, P3.smul_z]
        ring
      have e2 : P3.dot (a - p) (w.norm⁻¹ • w) = w.norm⁻¹ * P3.dot (a - p) w := by
        simp only [P3.dot, P3.smul_x, P3.smul_y, P3.smul_z]
        ring
      rw [e2, this, ← hmul]
      field_simp
    rw [e1, smul_smul, hp, show -h * w.norm * w.norm⁻¹ = -h by field_simp]
    module
  rw [hq]
  have hx : P3.cross (b - (l1 • a + l2 • b + l3 • c)) (c - (l1 • a + l2 • b + l3 • c)) = l1 • w := by
    rw [hw, show l1 = 1 - l2 - l3 by linarith]
    ext <;> simp only [P3.cross, P3.sub_x, P3.sub_y, P3.sub_z, P3.add_x, P3.add_y, P3.add_z, P3.smul_x, P3.smul_y, P3.smul_z] <;> ring
  have hy : P3.cross (a - (l1 • a + l2 • b + l3 • c)) (c - (l1 • a + l2 • b + l3 • c)) = (-l2) • w := by
    rw [hw, show l1 = 1 - l2 - l3 by linarith]
    ext <;> simp only [P3.cross, P3.sub_x, P3.sub_y, P3.sub_z, P3.add_x, P3.add_y, P3.add_z, P3.smul_x, P3.smul_y, P3.smul_z] <;> ring
  have hz : P3.cross (a - (l1 • a + l2 • b + l3 • c)) (b - (l1 • a + l2 • b + l3 • c)) = l3 • w := by
    rw [hw, show l1 = 1 - l2 - l3 by linarith]
    ext <;> simp only [P3.cross, P3.sub_x, P3.sub_y, P3.sub_z, P3.add_x, P3.add_y, P3.add_z, P3.smul_x, P3.smul_y, P3.smul_z] <;> ring
  rw [hx, hy, hz, norm_smul3, norm_smul3, norm_smul3, abs_neg]
  have hpos : 0 < |l1| + |l2| + |l3| := by
    have := abs_add_three l1 l2 l3
    rw [hs, abs_one] at this
    linarith
  have hne' : |l1| * w.norm + |l2| * w.norm + |l3| * w.norm ≠ 0 := by
    rw [← add_mul, ← add_mul]; positivity
  rw [fdiv_of_ne hne', M_bind_ok]
  congr 1
  rw [show |l1| * w.norm + |l2| * w.norm + |l3| * w.norm = (|l1| + |l2| + |l3|) * w.norm by ring]
  simp only [smul_add, smul_smul]
  congr 1
  · congr 1 <;> · congr 1; field_simp
  · congr 1; field_simp

/-- Every point is above a point of the plane of the triangle. -/
theorem exists_bary (hne : P3.cross (b - a) (c - a) ≠ 0) (p : P3 ℝ) : ∃ l1 l2 l3 h : ℝ, l1 + l2 + l3 = 1 ∧ p = l1 • a + l2 • b + l3 • c + h • P3.cross (b - a) (c - a) := by
  set w := P3.cross (b - a) (c - a) with hw
  have hd : P3.dot w w ≠ 0 := by
    rw [← P3.norm_mul_self]
    exact mul_ne_zero (P3.norm_pos hne).ne' (P3.norm_pos hne).ne'
  set D := P3.dot w w with hD
  refine ⟨1 - P3.dot (P3.cross (p - a) (c - a)) w / D - P3.dot (P3.cross (b - a) (p - a)) w / D, P3.dot (P3.cross (p - a) (c - a)) w / D, P3.dot (P3.cross (b - a) (p - a)) w / D,
    P3.dot (p - a) w / D, by ring, ?_⟩
  have key : D • (p - a) = P3.dot (P3.cross (p - a) (c - a)) w • (b - a) + P3.dot (P3.cross (b - a) (p - a)) w • (c - a) + P3.dot (p - a) w • w := by
    rw [hD, hw]
    ext <;> simp only [P3.cross, P3.dot, P3.sub_x, P3.sub_y, P3.sub_z, P3.add_x, P3.add_y, P3.add_z, P3.smul_x, P3.smul_y, P3.smul_z] <;> ring
  have : p = a + D⁻¹ • (D • (p - a)) := by
    rw [smul_smul, inv_mul_cancel₀ hd, one_smul]
    module
  rw [key] at this
  conv_lhs => rw [this]
  simp only [div_eq_mul_inv]
  module

/-- C86: the parameters of any point are a convex combination of the parameters of the vertices of the triangle. -/
theorem C86_convex (hne : P3.cross (b - a) (c - a) ≠ 0) (p : P3 ℝ) : ∃ l1 l2 l3 : ℝ, 0 ≤ l1 ∧ 0 ≤ l2 ∧ 0 ≤ l3 ∧ l1 + l2 + l3 = 1 ∧
    paramPoint a b c ua ub uc p = .ok (l1 • ua + l2 • ub + l3 • uc) := by
  obtain ⟨l1, l2, l3, h, hs, hp⟩ := exists_bary hne p
  have hpos : 0 < |l1| + |l2| + |l3| := by
    have := abs_add_three l1 l2 l3
    rw [hs, abs_one] at this
    linarith
  refine ⟨(|l1| + |l2| + |l3|)⁻¹ * |l1|, (|l1| + |l2| + |l3|)⁻¹ * |l2|, (|l1| + |l2| + |l3|)⁻¹ * |l3|, by positivity, by positivity, by positivity, by field_simp, ?_⟩
  rw [C86_point hne hs hp]
  simp only [smul_add, smul_smul]

/-- C86: the parameters of a point above the triangle are given by linear interpolation. -/
theorem C86_inside (hne : P3.cross (b - a) (c - a) ≠ 0) {l1 l2 l3 h : ℝ} (h1 : 0 ≤ l1) (h2 : 0 ≤ l2) (h3 : 0 ≤ l3) (hs : l1 + l2 + l3 = 1)
    (hp : p = l1 • a + l2 • b + l3 • c + h • P3.cross (b - a) (c - a)) : paramPoint a b c ua ub uc p = .ok (l1 • ua + l2 • ub + l3 • uc) := by
  rw [C86_point hne hs hp, abs_of_nonneg h1, abs_of_nonneg h2, abs_of_nonneg h3, hs, inv_one, one_smul]

/-- C86: a triangle without an area leads to a division by zero (NaN). -/
theorem C86_degenerate (hne : P3.cross (b - a) (c - a) = 0) (p : P3 ℝ) : paramPoint a b c ua ub uc p = .error .divZero := by
  unfold paramPoint
  rw [hne]
  have : (0 : P3 ℝ).normalize = .error .divZero := by
    cases h : (0 : P3 ℝ).normalize with
    | ok x => exact absurd rfl (P3.normalize_unit h).1
    | error e =>
      unfold P3.normalize at h
      rw [if_pos (P3.norm_eq_zero.mpr rfl)] at h
      exact h.symm
  rw [this]
  rfl

/-- C86: the parameters of a point that is not above the triangle are not those of the closest point of the triangle: here the closest point is the vertex `a`. -/
theorem C86_outside : ∃ (a b c p : P3 ℝ) (ua ub uc uv : P2 ℝ), P3.cross (b - a) (c - a) ≠ 0 ∧
    (∀ l1 l2 l3 : ℝ, 0 ≤ l1 → 0 ≤ l2 → 0 ≤ l3 → l1 + l2 + l3 = 1 → (p - a).norm ≤ (p - (l1 • a + l2 • b + l3 • c)).norm) ∧
    paramPoint a b c ua ub uc p = .ok uv ∧ uv ≠ ua := by
  refine ⟨⟨0, 0, 0⟩, ⟨1, 0, 0⟩, ⟨0, 1, 0⟩, ⟨-1, -1, 0⟩, ⟨0, 0⟩, ⟨1, 0⟩, ⟨0, 1⟩, ⟨1 / 5, 1 / 5⟩, ?_, ?_, ?_, ?_⟩
  · intro h
    have := congrArg P3.z h
    simp [P3.cross] at this
  · intro l1 l2 l3 h1 h2 h3 _
    refine Real.sqrt_le_sqrt ?_
    simp only [P3.normSqr, P3.dot, P3.sub_x, P3.sub_y, P3.sub_z, P3.add_x, P3.add_y, P3.add_z, P3.smul_x, P3.smul_y, P3.smul_z]
    nlinarith
  · rw [C86_point (l1 := 3) (l2 := -1) (l3 := -1) (h := 0) ?_ (by norm_num) ?_]
    · congr 1
      ext
      · simp only [P2.smul_x, P2.add_x]; norm_num
      · simp only [P2.smul_y, P2.add_y]; norm_num
    · intro h
      have := congrArg P3.z h
      simp [P3.cross] at this
    · ext <;> simp [P3.cross]
  · intro h
    have := congrArg P2.x h
    norm_num at this

/-- The hypotheses of `C86_point`, `C86_convex` and `C86_inside` hold for a point above a triangle, and that of `C86_degenerate` for three points on a line. -/
example : paramPoint ⟨0, 0, 0⟩ ⟨1, 0, 0⟩ ⟨0, 1, 0⟩ ⟨0, 0⟩ ⟨2, 0⟩ ⟨0, 2⟩ ⟨1 / 2, 1 / 4, 7⟩ = .ok (⟨1, 1 / 2⟩ : P2 ℝ) ∧
    paramPoint ⟨0, 0, 0⟩ ⟨1, 1, 1⟩ ⟨2, 2, 2⟩ ⟨0, 0⟩ ⟨2, 0⟩ ⟨0, 2⟩ (⟨1 / 2, 1 / 4, 7⟩ : P3 ℝ) = .error .divZero := by
  constructor
  · rw [C86_inside (l1 := 1 / 4) (l2 := 1 / 2) (l3 := 1 / 4) (h := 7) (fun h => by simpa [P3.cross] using congrArg P3.z h) (by norm_num) (by norm_num) (by norm_num) (by norm_num)
      (by ext <;> norm_num [P3.cross])]
    congr 1
    ext <;> norm_num
  · exact C86_degenerate (by ext <;> norm_num [P3.cross]) _

end point

section points

variable {ε : ℝ} {kind : PatchKind} {cs : List (Patch.Call ℝ)} {P P1 : Patch ℝ} {pts points : List (P3 ℝ)} {ts : List Domain.Tri} {closest : List (P3 ℝ) → List Domain.Tri → P3 ℝ → Domain.Tri}

/-- The triangle `t` has an area. -/
def HasArea (pts : List (P3 ℝ)) (t : Domain.Tri) : Prop := ∃ a b c, pts[t.1]? = some a ∧ pts[t.2.1]? = some b ∧ pts[t.2.2]? = some c ∧ P3.cross (b - a) (c - a) ≠ 0

/-- C86: when the triangles that are found have an area, `parameterizePoints` gives one parameter for each point, computed from the vertices of the triangle
in the mesh of resolution 15, and from the parameters of these vertices in the domain. -/
theorem C86_points (hP : (Patch.new kind).run ε cs = .ok P) (hn : 3 ≤ P.dom.dom.n) (hm : P.evalMesh ε 15 = .ok ((pts, ts), P1))
    (hc : ∀ p ∈ points, closest pts ts p ∈ ts ∧ HasArea pts (closest pts ts p)) :
    ∃ uvs res P', P.dom.dom.parametersImpl 15 = .ok uvs ∧ parameterizePoints ε closest points P = .ok (res, P') ∧ res.length = points.length ∧
      ∀ (i : ℕ) (p : P3 ℝ) (uv : P2 ℝ), points[i]? = some p → res[i]? = some uv → ∃ t ∈ ts, t = closest pts ts p ∧ ∃ a b c ua ub uc, pts[t.1]? = some a ∧ pts[t.2.1]? = some b ∧
        pts[t.2.2]? = some c ∧ uvs[t.1]? = some ua ∧ uvs[t.2.1]? = some ub ∧ uvs[t.2.2]? = some uc ∧ P3.cross (b - a) (c - a) ≠ 0 ∧ paramPoint a b c ua ub uc p = .ok uv := by
  have hi := (Patch.run_inv (Patch.new_inv ε kind) hP).1
  obtain ⟨uvs, hu, _, hlen, _⟩ := C37_mesh hP hn hm
  have hq := evalMesh_queried hm
  have hi1 := hq.inv hi
  have hpar := hi1.parameters (by rw [hq.dom]; exact hn) (res := 15)
  rw [show (((pts, ts), P1) : _ × Patch ℝ).2.dom.dom = P.dom.dom from hq.dom, hu] at hpar
  have step : ∀ i : ℕ, ∃ uv : P2 ℝ, ∀ p : P3 ℝ, points[i]? = some p → ∃ t ∈ ts, t = closest pts ts p ∧ ∃ a b c ua ub uc, pts[t.1]? = some a ∧ pts[t.2.1]? = some b ∧
        pts[t.2.2]? = some c ∧ uvs[t.1]? = some ua ∧ uvs[t.2.1]? = some ub ∧ uvs[t.2.2]? = some uc ∧ P3.cross (b - a) (c - a) ≠ 0 ∧ paramPoint a b c ua ub uc p = .ok uv := by
    intro i
    cases e : points[i]? with
    | none => exact ⟨0, fun p h => by cases h⟩
    | some p =>
      obtain ⟨h1, a, b, c, ha, hb, hc', hne⟩ := hc p (List.mem_of_getElem? e)
      have get : ∀ {k : ℕ} {x : P3 ℝ}, pts[k]? = some x → ∃ u, uvs[k]? = some u := fun h =>
        ⟨_, List.getElem?_eq_getElem (by obtain ⟨h', _⟩ := List.getElem?_eq_some_iff.mp h; omega)⟩
      obtain ⟨ua, hua⟩ := get ha
      obtain ⟨ub, hub⟩ := get hb
      obtain ⟨uc, huc⟩ := get hc'
      obtain ⟨l1, l2, l3, _, _, _, _, q⟩ := C86_convex (ua := ua) (ub := ub) (uc := uc) hne p
      exact ⟨_, fun p' h => by cases h; exact ⟨_, h1, rfl, a, b, c, ua, ub, uc, ha, hb, hc', hua, hub, huc, hne, q⟩⟩
  choose g hg using step
  cases e1 : Domain.parameters (fun d => Domain.meshSize d.n) Domain.parametersImpl P1.dom 15 with
  | error x =>
    rw [show (((pts, ts), P1) : _ × Patch ℝ).2.dom = P1.dom from rfl, e1] at hpar
    cases hpar
  | ok x =>
    rw [show (((pts, ts), P1) : _ × Patch ℝ).2.dom = P1.dom from rfl, e1] at hpar
    have hx : x.1 = uvs := Except.ok.inj hpar
    have loop : paramLoop closest pts ts x.1 points = .ok (tab points.length g) := by
      unfold paramLoop
      rw [forLoop_push points.length _ g [] (fun i l hi => by
        obtain ⟨t, _, ht, a, b, c, ua, ub, uc, h1, h2, h3, h4, h5, h6, _, h7⟩ := hg i _ (List.getElem?_eq_getElem hi)
        rw [vget_of_lt hi, M_bind_ok]
        dsimp only
        rw [← ht, vget_eq_ok.mpr h1, M_bind_ok, vget_eq_ok.mpr h2, M_bind_ok, vget_eq_ok.mpr h3, M_bind_ok, hx, vget_eq_ok.mpr h4, M_bind_ok, vget_eq_ok.mpr h5, M_bind_ok,
          vget_eq_ok.mpr h6, M_bind_ok, h7, M_bind_ok])]
      rfl
    refine ⟨uvs, tab points.length g, { P1 with dom := x.2 }, hu, ?_, length_tab _ _, fun i p uv h1 h2 => ?_⟩
    · unfold parameterizePoints
      rw [hm, M_bind_ok]
      dsimp only
      rw [e1, M_bind_ok, loop, M_bind_ok]
    · have hlt : i < points.length := (List.getElem?_eq_some_iff.mp h1).1
      have : uv = g i := by
        have := vget_eq_ok.mpr h2
        rw [vget_tab _ hlt] at this
        exact (Except.ok.inj this).symm
      rw [this]
      exact hg i p h1

/-- C86: the parameter of a vertex of the mesh is the one that the vertex was computed from, so evaluation gives the point back. -/
theorem C86_vertex (hP : (Patch.new kind).run ε cs = .ok P) (hn : 3 ≤ P.dom.dom.n) (hm : P.evalMesh ε 15 = .ok ((pts, ts), P1))
    (hc : ∀ p ∈ points, closest pts ts p ∈ ts ∧ HasArea pts (closest pts ts p)) {i k : ℕ} {p : P3 ℝ} (hi : points[i]? = some p) (hk : pts[k]? = some p)
    (ht : k = (closest pts ts p).1 ∨ k = (closest pts ts p).2.1 ∨ k = (closest pts ts p).2.2) :
    ∃ uvs res P' uv Q, P.dom.dom.parametersImpl 15 = .ok uvs ∧ parameterizePoints ε closest points P = .ok (res, P') ∧ res[i]? = some uv ∧ uvs[k]? = some uv ∧ P.eval ε uv = .ok (p, Q) := by
  obtain ⟨uvs, res, P', hu, e, hl, h⟩ := C86_points hP hn hm hc
  have hlt : i < points.length := (List.getElem?_eq_some_iff.mp hi).1
  obtain ⟨t, _, ht', a, b, c, ua, ub, uc, h1, h2, h3, h4, h5, h6, hne, h7⟩ := h i p _ hi (List.getElem?_eq_getElem (by omega))
  have huk : uvs[k]? = some (res[i]'(by omega)) := by
    rw [← ht'] at ht
    rcases ht with rfl | rfl | rfl
    · obtain rfl : a = p := Option.some.inj (h1.symm.trans hk)
      rw [C86_inside (l1 := 1) (l2 := 0) (l3 := 0) (h := 0) hne (by norm_num) le_rfl le_rfl (by norm_num) (by module)] at h7
      rw [h4, ← Except.ok.inj h7]
      congr 1
      module
    · obtain rfl : b = p := Option.some.inj (h2.symm.trans hk)
      rw [C86_inside (l1 := 0) (l2 := 1) (l3 := 0) (h := 0) hne le_rfl (by norm_num) le_rfl (by norm_num) (by module)] at h7
      rw [h5, ← Except.ok.inj h7]
      congr 1
      module
    · obtain rfl : c = p := Option.some.inj (h3.symm.trans hk)
      rw [C86_inside (l1 := 0) (l2 := 0) (l3 := 1) (h := 0) hne le_rfl le_rfl (by norm_num) (by norm_num) (by module)] at h7
      rw [h6, ← Except.ok.inj h7]
      congr 1
      module
  obtain ⟨uvs', hu', _, _, hev⟩ := C37_mesh hP hn hm
  obtain rfl : uvs' = uvs := Except.ok.inj (hu'.symm.trans hu)
  obtain ⟨Q, hQ⟩ := hev k p _ hk huk
  exact ⟨uvs', res, P', _, Q, hu, e, List.getElem?_eq_getElem (by omega), huk, hQ⟩

/-- C86: all parameters are in the domain. -/
theorem C86_domain (hP : (Patch.new kind).run ε cs = .ok P) {n : ℕ} {v : ℕ → P2 ℝ} (hd : ConvexDomain P.dom.dom n v) (hm : P.evalMesh ε 15 = .ok ((pts, ts), P1))
    (hc : ∀ p ∈ points, closest pts ts p ∈ ts ∧ HasArea pts (closest pts ts p)) :
    ∃ res P', parameterizePoints ε closest points P = .ok (res, P') ∧ ∀ uv ∈ res, InsideClosed n v uv := by
  obtain ⟨uvs, res, P', hu, e, hl, h⟩ := C86_points hP (by rw [hd.n_eq]; exact hd.hn) hm hc
  obtain ⟨uvs', hu', hin⟩ := params_inside hd (res := 15) (by norm_num)
  obtain rfl : uvs' = uvs := Except.ok.inj (hu'.symm.trans hu)
  refine ⟨res, P', e, fun uv huv => ?_⟩
  obtain ⟨i, hi, rfl⟩ := List.mem_iff_getElem.mp huv
  obtain ⟨t, _, _, a, b, c, ua, ub, uc, _, _, _, h4, h5, h6, hne, h7⟩ := h i _ _ (List.getElem?_eq_getElem (by omega)) (List.getElem?_eq_getElem hi)
  obtain ⟨l1, l2, l3, p1, p2, p3, hs, q⟩ := C86_convex (ua := ua) (ub := ub) (uc := uc) hne (points[i]'(by omega))
  rw [q] at h7
  rw [← Except.ok.inj h7]
  intro j hj
  have g1 := hin ua (List.mem_of_getElem? h4) j hj
  have g2 := hin ub (List.mem_of_getElem? h5) j hj
  have g3 := hin uc (List.mem_of_getElem? h6) j hj
  have : leftOf n v j (l1 • ua + l2 • ub + l3 • uc) = l1 * leftOf n v j ua + l2 * leftOf n v j ub + l3 * leftOf n v j uc := by
    unfold leftOf area2
    rw [show l1 = 1 - l2 - l3 by linarith]
    simp only [P2.add_x, P2.add_y, P2.smul_x, P2.smul_y]
    ring
  rw [this]
  positivity

end points

/-- The first triangle of the mesh of the C0 Coons patch on the square is at the corner (10,0,0); its vertices are on the sides. -/
theorem square_corner {R : ℕ} (hR : 2 ≤ R) (hR' : R ≤ 10000) : ∃ (P : Patch ℝ) (v : ℕ → P2 ℝ) (pts : List (P3 ℝ)) (ts : List Domain.Tri) (P1 : Patch ℝ), (Patch.new .c0Coons).run (1 / 10000) ([.curves (tab 4 squareLoop), .loop] ++ squareHandlers ++ [.update]) = .ok P ∧
    ConvexDomain P.dom.dom 4 v ∧ P.evalMesh (1 / 10000) R = .ok ((pts, ts), P1) ∧ ((0, R + 1, 1) : Domain.Tri) ∈ ts ∧ pts[0]? = some ⟨10, 0, 0⟩ ∧
    pts[R + 1]? = some ⟨10, 10 / (R : ℝ), 0⟩ ∧ pts[1]? = some ⟨10 - 10 / (R : ℝ), 0, 0⟩ := by
  have hR2 : (2 : ℝ) ≤ R := by exact_mod_cast hR
  have hR3 : (R : ℝ) ≤ 10000 := by exact_mod_cast hR'
  have hR1 : (1 : ℝ) / R ≤ 1 / 2 := one_div_le_one_div_of_le (by norm_num) hR2
  have hR0 : (1 : ℝ) / 10000 ≤ 1 / R := one_div_le_one_div_of_le (by linarith) hR3
  obtain ⟨P, v, e, h, hd, -⟩ := square_built .c0Coons
  obtain ⟨P', e', -, -⟩ := C64_call (by norm_num) (by norm_num) square_good h hd (x := .mesh R) (show 1 ≤ R by omega)
  change (P.evalMesh (1 / 10000) R >>= _) = _ at e'
  obtain ⟨⟨⟨pts, ts⟩, P1⟩, h1, -⟩ := bind_ok e'
  obtain ⟨uvs, hu, ht, hl, hev⟩ := C37_mesh e (by rw [hd.n_eq]; norm_num) h1
  obtain ⟨ps, q1, q2, q3⟩ := params4_eq (R := R) (by omega) v
  have hu' : P.dom.dom.parametersImpl R = .ok ps := by
    unfold Domain.parametersImpl
    rw [hd.n_eq, if_neg (by norm_num), if_pos rfl, hd.vertices_eq, q1]
  obtain rfl : ps = uvs := Except.ok.inj (hu'.symm.trans hu)
  rw [hd.n_eq] at ht
  have hts : ts = (List.range R).flatMap fun i => (List.range R).flatMap fun j => tris4 R i j := by
    unfold Domain.meshTopology at ht
    rw [if_neg (by norm_num), if_pos rfl, topology4_eq, M_bind_ok] at ht
    exact (congrArg Prod.snd (Except.ok.inj ht)).symm
  have side : ∀ {i : ℕ} {s : ℝ} {k : ℕ}, i < 4 → 0 ≤ s → (1 / 10000 ≤ 1 - s ∨ s = 1) → ps[k]? = some (sidePoint 4 v i s) → pts[k]? = some ((squareLoop i).pt s) := by
    intro i s k hi h0 hs hk
    obtain ⟨uv, Q, g1, g2⟩ := C35_side (by norm_num) (by norm_num) square_good.sides square_good.closed h.1 hi h0 hs
    rw [hd.edgePoint hi] at g1
    obtain ⟨hlt, -⟩ := List.getElem?_eq_some_iff.mp hk
    have hp : pts[k]? = some pts[k] := List.getElem?_eq_getElem (by omega)
    obtain ⟨Q', g3⟩ := hev k _ _ hp hk
    rw [Except.ok.inj g1, g2] at g3
    rw [hp, show pts[k] = (squareLoop i).pt s from (congrArg Prod.fst (Except.ok.inj g3)).symm]
  refine ⟨P, v, pts, ts, P1, e, hd, h1, ?_, ?_, ?_, ?_⟩
  · rw [hts]
    exact List.mem_flatMap.mpr ⟨0, List.mem_range.mpr (by omega), List.mem_flatMap.mpr ⟨0, List.mem_range.mpr (by omega), by simp [tris4, enc4]⟩⟩
  · rw [side (i := 0) (s := 1) (k := 0) (by norm_num) (by norm_num) (Or.inr rfl) ?_]
    · simp only [squareLoop, segment]
      congr 1
      ext <;> norm_num
    · refine ((congrArg (fun k => ps[k]?) (show 0 = enc4 R 0 0 by simp [enc4])).trans (q3 0 (by omega) 0 (by omega))).trans ?_
      congr 1
      ext <;> simp [pt4, sidePoint]
  · rw [side (i := 1) (s := 1 / R) (k := R + 1) (by norm_num) (by positivity) (Or.inl (by linarith)) ?_]
    · simp only [squareLoop, segment]
      congr 1
      ext <;> norm_num <;> ring
    · refine ((congrArg (fun k => ps[k]?) (show R + 1 = enc4 R 1 0 by simp [enc4])).trans (q3 1 (by omega) 0 (by omega))).trans ?_
      congr 1
      ext <;> simp [pt4, sidePoint] <;> ring
  · rw [side (i := 0) (s := 1 - 1 / R) (k := 1) (by norm_num) (by linarith) (Or.inl (by linarith)) ?_]
    · simp only [squareLoop, segment]
      congr 1
      ext <;> norm_num <;> ring
    · refine ((congrArg (fun k => ps[k]?) (show 1 = enc4 R 0 1 by simp [enc4])).trans (q3 0 (by omega) 1 (by omega))).trans ?_
      congr 1
      ext <;> simp [pt4, sidePoint] <;> ring

/-- The hypotheses of `C86_points`, `C86_vertex` and `C86_domain` hold for two points near the corner of the square. -/
example : ∃ P v, (Patch.new .c0Coons).run (1 / 10000) ([.curves (tab 4 squareLoop), .loop] ++ squareHandlers ++ [.update]) = .ok P ∧ ConvexDomain P.dom.dom 4 v ∧
    (∃ uvs res P' uv Q, P.dom.dom.parametersImpl 15 = .ok uvs ∧ parameterizePoints (1 / 10000) (fun _ _ _ => (0, 16, 1)) [⟨29 / 3, 1 / 10, 5⟩, ⟨10, 0, 0⟩] P = .ok (res, P') ∧ res[1]? = some uv ∧
      uvs[0]? = some uv ∧ P.eval (1 / 10000) uv = .ok (⟨10, 0, 0⟩, Q)) ∧
    ∃ res P', parameterizePoints (1 / 10000) (fun _ _ _ => (0, 16, 1)) [⟨29 / 3, 1 / 10, 5⟩, ⟨10, 0, 0⟩] P = .ok (res, P') ∧ ∀ uv ∈ res, InsideClosed 4 v uv := by
  obtain ⟨P, v, pts, ts, P1, e, hd, h1, ht, p1, p2, p3⟩ := square_corner (R := 15) (by norm_num) (by norm_num)
  have hc : ∀ p ∈ [(⟨29 / 3, 1 / 10, 5⟩ : P3 ℝ), ⟨10, 0, 0⟩], (fun _ _ _ => (0, 16, 1) : List (P3 ℝ) → List Domain.Tri → P3 ℝ → Domain.Tri) pts ts p ∈ ts ∧
      HasArea pts ((fun _ _ _ => (0, 16, 1) : List (P3 ℝ) → List Domain.Tri → P3 ℝ → Domain.Tri) pts ts p) := fun p _ => ⟨ht, _, _, _, p1, p2, p3, fun h => by
    have := congrArg P3.z h
    norm_num [P3.cross] at this⟩
  exact ⟨P, v, e, hd, C86_vertex (i := 1) (k := 0) e (by rw [hd.n_eq]; norm_num) h1 hc rfl p1 (Or.inl rfl), C86_domain e hd h1 hc⟩

end Transfinite
