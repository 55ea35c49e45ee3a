import Verif.Lemmas.Biharmonic

/-! # C74: Voronoi areas of triangle meshes -/

namespace Transfinite

open Domain Spec

namespace Biharmonic

/-- C74: the three areas of a triangle (not degenerate) are defined, positive, and add up to the area of the triangle. -/
theorem C74_partition {p q r : P3 ℝ} (h : area3 p q r ≠ 0) :
    ∃ a b c, voronoiArea p q r = .ok a ∧ voronoiArea q r p = .ok b ∧ voronoiArea r p q = .ok c ∧ 0 < a ∧ 0 < b ∧ 0 < c ∧ a + b + c = area3 p q r / 2 := by
  have h1 := cell_rot h
  have h2 := cell_rot h1
  refine ⟨_, _, _, voronoiArea_eq (area3_pos h), voronoiArea_eq (area3_pos h1), voronoiArea_eq (area3_pos h2), cell_pos h, cell_pos h1, cell_pos h2, ?_⟩
  unfold vorCell
  rw [area3_rot q r p, area3_rot p q r]
  exact vor_sum (side_pos (area3_pos h)) (side_pos (area3_pos h1)) (side_pos (area3_pos h2)) (area3_pos h) (area3_sq p q r)

theorem area3_smul {p q r : P3 ℝ} {a b : P3 ℝ} {t : ℝ} (h : P3.cross a b = t • P3.cross (q - p) (r - p)) (ht : 0 ≤ t) : (P3.cross a b).norm = t * area3 p q r := by
  rw [h]
  unfold area3
  generalize P3.cross (q - p) (r - p) = C
  have e1 := P3.norm_mul_self (t • C)
  have e2 := P3.norm_mul_self C
  have e3 : P3.dot (t • C) (t • C) = t * t * P3.dot C C := by unfold P3.dot; simp only [P3.smul_x, P3.smul_y, P3.smul_z]; ring
  have e4 : (t • C).norm ^ 2 = (t * C.norm) ^ 2 := by rw [sq, e1, e3, ← e2]; ring
  exact (pow_left_inj₀ (P3.norm_nonneg _) (mul_nonneg ht (P3.norm_nonneg _)) two_ne_zero).mp e4

/-- C74: in a triangle without an obtuse angle, the area at `p` is that of the quadrilateral of `p`, the midpoint of `pq`, the circumcenter `o`, and the midpoint of `pr`. -/
theorem C74_circumcenter {p q r o : P3 ℝ} (h : area3 p q r ≠ 0) (hA : 0 ≤ corner p q r) (hB : 0 ≤ corner q r p) (hC : 0 ≤ corner r p q) {s t : ℝ}
    (ho : o = p + s • (q - p) + t • (r - p)) (hq : P3.normSqr (o - p) = P3.normSqr (o - q)) (hr : P3.normSqr (o - p) = P3.normSqr (o - r)) :
    voronoiArea p q r = .ok (area3 p ((1 / 2 : ℝ) • (p + q)) o / 2 + area3 p o ((1 / 2 : ℝ) • (p + r)) / 2) := by
  have hD := area3_pos h
  rw [voronoiArea_eq hD]
  congr 1
  have hsq := area3_sq p q r
  set A := corner p q r with eA
  set B := corner q r p with eB
  set C := corner r p q with eC
  set D := area3 p q r with eD
  have q1 : 2 * (s * (A + B) + t * A) = A + B := by
    have e1 : P3.normSqr (o - p) - P3.normSqr (o - q) = 2 * (s * (A + B) + t * A) - (A + B) := by
      rw [ho, eA, eB]
      unfold corner P3.normSqr P3.dot
      simp only [P3.sub_x, P3.sub_y, P3.sub_z, P3.add_x, P3.add_y, P3.add_z, P3.smul_x, P3.smul_y, P3.smul_z]
      ring
    linarith
  have q2 : 2 * (s * A + t * (A + C)) = A + C := by
    have e1 : P3.normSqr (o - p) - P3.normSqr (o - r) = 2 * (s * A + t * (A + C)) - (A + C) := by
      rw [ho, eA, eC]
      unfold corner P3.normSqr P3.dot
      simp only [P3.sub_x, P3.sub_y, P3.sub_z, P3.add_x, P3.add_y, P3.add_z, P3.smul_x, P3.smul_y, P3.smul_z]
      ring
    linarith
  have hD2 : 0 < D ^ 2 := by positivity
  have hs : s = (A + C) * B / (2 * D ^ 2) := by
    rw [eq_div_iff (by positivity)]
    have : s * (2 * D ^ 2) = s * (2 * (A * B + B * C + C * A)) := by rw [sq, hsq]
    rw [this]
    linear_combination (A + C) * q1 - A * q2
  have ht : t = (A + B) * C / (2 * D ^ 2) := by
    rw [eq_div_iff (by positivity)]
    have : t * (2 * D ^ 2) = t * (2 * (A * B + B * C + C * A)) := by rw [sq, hsq]
    rw [this]
    linear_combination (A + B) * q2 - A * q1
  have hs0 : 0 ≤ s := by rw [hs]; positivity
  have ht0 : 0 ≤ t := by rw [ht]; positivity
  have k1 : area3 p ((1 / 2 : ℝ) • (p + q)) o = t / 2 * D := by
    refine area3_smul (a := (1 / 2 : ℝ) • (p + q) - p) (b := o - p) ?_ (by positivity)
    rw [ho]
    ext <;> simp [P3.cross] <;> ring
  have k2 : area3 p o ((1 / 2 : ℝ) • (p + r)) = s / 2 * D := by
    refine area3_smul (a := o - p) (b := (1 / 2 : ℝ) • (p + r) - p) ?_ (by positivity)
    rw [ho]
    ext <;> simp [P3.cross] <;> ring
  rw [k1, k2]
  unfold vorCell vor
  rw [← eA, ← eB, ← eC, ← eD, if_neg (not_lt.mpr hC), if_neg (not_lt.mpr hB), if_neg (not_lt.mpr hA), hs, ht]
  have := hD.ne'
  field_simp
  ring

/-- C74: in a triangle with an obtuse angle at `q`, the area at `p` is that of the triangle cut off by the perpendicular bisector of `pq`. -/
theorem C74_obtuse {p q r m : P3 ℝ} (h : area3 p q r ≠ 0) (hB : corner q r p < 0) {t : ℝ} (hm : m = p + t • (r - p)) (hq : P3.normSqr (m - p) = P3.normSqr (m - q)) :
    voronoiArea p q r = .ok (area3 p ((1 / 2 : ℝ) • (p + q)) m / 2) ∧ voronoiArea p r q = .ok (area3 p m ((1 / 2 : ℝ) • (p + q)) / 2) := by
  have hD := area3_pos h
  have hab := side_pos hD
  have hbc : 0 < corner q r p + corner r p q := side_pos (area3_pos (cell_rot h))
  have hca : 0 < corner r p q + corner p q r := side_pos (area3_pos (cell_rot (cell_rot h)))
  have hD' : area3 p r q = area3 p q r := area3_swap p q r
  rw [voronoiArea_eq hD, voronoiArea_eq (by rw [hD']; exact hD)]
  set A := corner p q r with eA
  set B := corner q r p with eB
  set C := corner r p q with eC
  set D := area3 p q r with eD
  have hA : 0 < A := by linarith
  have hC : 0 < C := by linarith
  have q1 : 2 * (t * A) = A + B := by
    have e1 : P3.normSqr (m - p) - P3.normSqr (m - q) = 2 * (t * A) - (A + B) := by
      rw [hm, eA, eB]
      unfold corner P3.normSqr P3.dot
      simp only [P3.sub_x, P3.sub_y, P3.sub_z, P3.add_x, P3.add_y, P3.add_z, P3.smul_x, P3.smul_y, P3.smul_z]
      ring
    linarith
  have ht : t = (A + B) / (2 * A) := by
    rw [eq_div_iff (by positivity)]
    linarith
  have ht0 : 0 ≤ t := by rw [ht]; positivity
  have k1 : area3 p ((1 / 2 : ℝ) • (p + q)) m = t / 2 * D := by
    refine area3_smul (a := (1 / 2 : ℝ) • (p + q) - p) (b := m - p) ?_ (by positivity)
    rw [hm]
    ext <;> simp [P3.cross] <;> ring
  rw [area3_swap p ((1 / 2 : ℝ) • (p + q)) m, k1]
  have e1 : corner p r q = A := (corner_symm p r q).symm
  have e2 : corner r q p = C := (corner_symm r q p).symm
  have e3 : corner q p r = B := (corner_symm q p r).symm
  constructor
  · congr 1
    unfold vorCell vor
    rw [← eA, ← eB, ← eC, ← eD, if_neg (not_lt.mpr hC.le), if_pos hB, ht]
    field_simp
    ring
  · congr 1
    unfold vorCell vor
    rw [e1, e2, e3, hD', if_pos hB, ht]
    field_simp
    ring

/-- C74: the areas of the vertices of a mesh (without degenerate triangles) are those of the corners at the vertex; they add up to the area of the mesh, and those of the
vertices of triangles are positive. -/
theorem C74_mesh {N : ℕ} {ts : List Tri} {P : ℕ → P3 ℝ} (hp : ∀ t ∈ ts, ProperTri N t) (hP : Nondegenerate ts P) :
    ∃ a : ℕ → ℝ, voronoiAreas ts (tab N P) = .ok (tab N a) ∧ ∑ k ∈ Finset.range N, a k = (ts.map fun t => area3 (P t.1) (P t.2.1) (P t.2.2) / 2).sum ∧
      (∀ k < N, 0 ≤ a k) ∧ ∀ t ∈ ts, 0 < a t.1 ∧ 0 < a t.2.1 ∧ 0 < a t.2.2 := by
  refine ⟨cellArea ts P, voronoiAreas_eq hp hP, ?_, fun k _ => cellArea_nonneg hP k, fun t ht =>
    ⟨cellArea_pos hP ⟨t, ht, Or.inl rfl⟩, cellArea_pos hP ⟨t, ht, Or.inr (Or.inl rfl)⟩, cellArea_pos hP ⟨t, ht, Or.inr (Or.inr rfl)⟩⟩⟩
  unfold cellArea cornerSum
  induction ts with
  | nil => simp
  | cons t ts ih =>
    obtain ⟨h1, h2, h3, _⟩ := hp t (by simp)
    have h := hP t (by simp)
    simp only [List.map_cons, List.sum_cons, Finset.sum_add_distrib]
    rw [ih (fun u hu => hp u (List.mem_cons_of_mem _ hu)) (fun u hu => hP u (List.mem_cons_of_mem _ hu))]
    congr 1
    rw [Finset.sum_ite_eq' (Finset.range N) t.1, Finset.sum_ite_eq' (Finset.range N) t.2.1, Finset.sum_ite_eq' (Finset.range N) t.2.2,
      if_pos (Finset.mem_range.mpr h1), if_pos (Finset.mem_range.mpr h2), if_pos (Finset.mem_range.mpr h3)]
    unfold vorCell
    rw [area3_rot (P t.2.1), area3_rot (P t.1)]
    exact vor_sum (side_pos (area3_pos h)) (side_pos (area3_pos (cell_rot h))) (side_pos (area3_pos (cell_rot (cell_rot h)))) (area3_pos h) (area3_sq _ _ _)

/-! ### Examples -/

theorem area3_xy (a b c d : ℝ) : area3 0 ⟨a, b, 0⟩ ⟨c, d, 0⟩ = |a * d - b * c| := by
  unfold area3 P3.norm
  rw [show P3.dot (P3.cross ((⟨a, b, 0⟩ : P3 ℝ) - 0) (⟨c, d, 0⟩ - 0)) (P3.cross (⟨a, b, 0⟩ - 0) (⟨c, d, 0⟩ - 0)) = (a * d - b * c) ^ 2 by
    simp [P3.dot, P3.cross]; ring]
  exact Real.sqrt_sq_eq_abs _

/-- C74 in a right triangle: half of the area at the right angle. -/
example : voronoiArea (0 : P3 ℝ) ⟨2, 0, 0⟩ ⟨0, 2, 0⟩ = .ok 1 := by
  rw [C74_circumcenter (o := ⟨1, 1, 0⟩) (s := 1 / 2) (t := 1 / 2) (by rw [area3_xy]; norm_num) (by norm_num [corner, P3.dot]) (by norm_num [corner, P3.dot])
    (by norm_num [corner, P3.dot]) (by ext <;> norm_num) (by norm_num [P3.normSqr, P3.dot]) (by norm_num [P3.normSqr, P3.dot])]
  rw [show (1 / 2 : ℝ) • ((0 : P3 ℝ) + ⟨2, 0, 0⟩) = ⟨1, 0, 0⟩ by ext <;> norm_num, show (1 / 2 : ℝ) • ((0 : P3 ℝ) + ⟨0, 2, 0⟩) = ⟨0, 1, 0⟩ by ext <;> norm_num, area3_xy, area3_xy]
  norm_num

/-- C74 in an obtuse triangle. -/
example : voronoiArea (0 : P3 ℝ) ⟨2, 0, 0⟩ ⟨4, 4, 0⟩ = .ok (1 / 2) := by
  rw [(C74_obtuse (m := ⟨1, 1, 0⟩) (t := 1 / 4) (by rw [area3_xy]; norm_num) (by norm_num [corner, P3.dot]) (by ext <;> norm_num) (by norm_num [P3.normSqr, P3.dot])).1]
  rw [show (1 / 2 : ℝ) • ((0 : P3 ℝ) + ⟨2, 0, 0⟩) = ⟨1, 0, 0⟩ by ext <;> norm_num, area3_xy]
  norm_num

/-- C74 for a mesh of two triangles. -/
example : ∃ a : ℕ → ℝ, voronoiAreas [(0, 1, 2), (0, 2, 3)] (tab 4 fun k => if k = 0 then (0 : P3 ℝ) else if k = 1 then ⟨2, 0, 0⟩ else if k = 2 then ⟨2, 2, 0⟩ else ⟨0, 2, 0⟩) =
    .ok (tab 4 a) ∧ a 0 + a 1 + a 2 + a 3 = 4 := by
  obtain ⟨a, e, h, _⟩ := C74_mesh (N := 4) (ts := [(0, 1, 2), (0, 2, 3)])
    (P := fun k => if k = 0 then (0 : P3 ℝ) else if k = 1 then ⟨2, 0, 0⟩ else if k = 2 then ⟨2, 2, 0⟩ else ⟨0, 2, 0⟩) (by
      intro t ht
      simp only [List.mem_cons, List.not_mem_nil, or_false] at ht
      rcases ht with rfl | rfl <;> simp [ProperTri]) (by
      intro t ht
      simp only [List.mem_cons, List.not_mem_nil, or_false] at ht
      rcases ht with rfl | rfl
      · simp [area3_xy]
      · simp [area3_xy])
  refine ⟨a, e, ?_⟩
  simp only [Finset.sum_range_succ, Finset.range_zero, Finset.sum_empty, List.map_cons, List.map_nil, List.sum_cons, List.sum_nil, zero_add] at h
  rw [h]
  norm_num [area3_xy]

end Biharmonic

end Transfinite
