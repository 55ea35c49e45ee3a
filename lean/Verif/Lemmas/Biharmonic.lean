import Verif.Lemmas.Voronoi

/-! The linear systems of biharmonic patches. -/

namespace Transfinite

open Domain Spec

namespace Biharmonic

open Harmonic (quad Adds addTo_adds)

/-! ### The Laplacian -/

/-- The bilinear form of the energy of a triangle in space. -/
noncomputable def triForm (p q r : P3 ℝ) (x1 x2 x3 y1 y2 y3 : ℝ) : ℝ :=
  (corner r p q * (x1 - x2) * (y1 - y2) + corner q r p * (x1 - x3) * (y1 - y3) + corner p q r * (x2 - x3) * (y2 - y3)) / (2 * area3 p q r)

noncomputable def form (ts : List Tri) (P : ℕ → P3 ℝ) (x y : ℕ → ℝ) : ℝ :=
  (ts.map fun t => triForm (P t.1) (P t.2.1) (P t.2.2) (x t.1) (x t.2.1) (x t.2.2) (y t.1) (y t.2.1) (y t.2.2)).sum

theorem form_symm (ts : List Tri) (P : ℕ → P3 ℝ) (x y : ℕ → ℝ) : form ts P x y = form ts P y x := by
  unfold form triForm
  congr 1
  refine List.map_congr_left fun t _ => ?_
  ring

theorem area3_nonneg (p q r : P3 ℝ) : 0 ≤ area3 p q r := P3.norm_nonneg _

theorem area3_pos {p q r : P3 ℝ} (h : area3 p q r ≠ 0) : 0 < area3 p q r := lt_of_le_of_ne (area3_nonneg _ _ _) h.symm

theorem triForm_nonneg {p q r : P3 ℝ} (h : area3 p q r ≠ 0) (x1 x2 x3 : ℝ) : 0 ≤ triForm p q r x1 x2 x3 x1 x2 x3 ∧
    (triForm p q r x1 x2 x3 x1 x2 x3 = 0 → x2 = x1 ∧ x3 = x1) := by
  have hD := area3_pos h
  have hab := side_pos hD
  have hca : 0 < corner r p q + corner p q r := side_pos (by rw [area3_rot, area3_rot]; exact hD)
  have hD2 := area3_sq p q r
  unfold triForm
  generalize corner p q r = A at *
  generalize corner q r p = B at *
  generalize corner r p q = C at *
  generalize area3 p q r = D at *
  have key : (C + A) * (C * (x1 - x2) * (x1 - x2) + B * (x1 - x3) * (x1 - x3) + A * (x2 - x3) * (x2 - x3)) =
      ((C + A) * (x1 - x2) - A * (x1 - x3)) ^ 2 + (D * (x1 - x3)) ^ 2 := by
    linear_combination (x1 - x3) ^ 2 * (-hD2)
  have h0 : 0 ≤ C * (x1 - x2) * (x1 - x2) + B * (x1 - x3) * (x1 - x3) + A * (x2 - x3) * (x2 - x3) := by
    refine nonneg_of_mul_nonneg_right (a := C + A) ?_ hca
    rw [key]
    positivity
  refine ⟨by positivity, fun e => ?_⟩
  have e := (div_eq_zero_iff.mp e).resolve_right (by positivity)
  rw [e, mul_zero] at key
  have k1 : D * (x1 - x3) = 0 := by nlinarith [sq_nonneg ((C + A) * (x1 - x2) - A * (x1 - x3)), sq_nonneg (D * (x1 - x3))]
  have k2 : x1 - x3 = 0 := (mul_eq_zero.mp k1).resolve_left hD.ne'
  rw [k2] at key
  have k3 : (C + A) * (x1 - x2) = 0 := by nlinarith [sq_nonneg ((C + A) * (x1 - x2))]
  have k4 := (mul_eq_zero.mp k3).resolve_left hca.ne'
  constructor <;> linarith

theorem form_zero {ts : List Tri} {P : ℕ → P3 ℝ} (hP : Nondegenerate ts P) (x : ℕ → ℝ) : 0 ≤ form ts P x x ∧
    (form ts P x x = 0 → ∀ t ∈ ts, x t.2.1 = x t.1 ∧ x t.2.2 = x t.1) := by
  induction ts with
  | nil => simp [form]
  | cons t ts ih =>
    obtain ⟨h1, h2⟩ := triForm_nonneg (hP t (by simp)) (x t.1) (x t.2.1) (x t.2.2)
    obtain ⟨h3, h4⟩ := ih fun u hu => hP u (List.mem_cons_of_mem _ hu)
    have e : form (t :: ts) P x x = triForm (P t.1) (P t.2.1) (P t.2.2) (x t.1) (x t.2.1) (x t.2.2) (x t.1) (x t.2.1) (x t.2.2) + form ts P x x := by
      unfold form
      rw [List.map_cons, List.sum_cons]
    rw [e]
    refine ⟨by linarith, fun h u hu => ?_⟩
    rcases List.mem_cons.mp hu with rfl | hu
    · exact h2 (by linarith)
    · exact h4 (by linarith) u hu

theorem addTriangle_adds {N : ℕ} {P : ℕ → P3 ℝ} {t : Tri} (h1 : t.1 < N) (h2 : t.2.1 < N) (h3 : t.2.2 < N)
    (hpos : area3 (P t.1) (P t.2.1) (P t.2.2) ≠ 0) (A : ℕ → ℕ → ℝ) : ∃ A', addTriangle N (tab N P) t A = .ok A' ∧
      Adds N A A' (fun y x => triForm (P t.1) (P t.2.1) (P t.2.2) (x t.1) (x t.2.1) (x t.2.2) (y t.1) (y t.2.1) (y t.2.2)) := by
  unfold addTriangle
  rw [vget_tab _ h1, M_bind_ok, vget_tab _ h2, M_bind_ok, vget_tab _ h3, M_bind_ok]
  dsimp only
  generalize P t.1 = p at *
  generalize P t.2.1 = q at *
  generalize P t.2.2 = r at *
  have hD : (P3.cross (p - r) (q - p)).norm = area3 p q r := by
    unfold area3 P3.norm
    congr 1
    unfold P3.cross P3.dot
    simp only [P3.sub_x, P3.sub_y, P3.sub_z]
    ring
  rw [hD, fdiv_of_ne hpos, M_bind_ok, fdiv_of_ne hpos, M_bind_ok, fdiv_of_ne hpos, M_bind_ok]
  set v1 := -(1 / 2) * P3.dot (q - p) (p - r) / area3 p q r with hv1
  set v2 := -(1 / 2) * P3.dot (q - p) (r - q) / area3 p q r with hv2
  set v3 := -(1 / 2) * P3.dot (r - q) (p - r) / area3 p q r with hv3
  have hN := le_refl N
  obtain ⟨A1, e1, a1⟩ := addTo_adds hN h1 h1 (v3 + v2) A
  obtain ⟨A2, e2, a2⟩ := addTo_adds hN h1 h2 (-v3) A1
  obtain ⟨A3, e3, a3⟩ := addTo_adds hN h1 h3 (-v2) A2
  obtain ⟨A4, e4, a4⟩ := addTo_adds hN h2 h1 (-v3) A3
  obtain ⟨A5, e5, a5⟩ := addTo_adds hN h2 h2 (v3 + v1) A4
  obtain ⟨A6, e6, a6⟩ := addTo_adds hN h2 h3 (-v1) A5
  obtain ⟨A7, e7, a7⟩ := addTo_adds hN h3 h1 (-v2) A6
  obtain ⟨A8, e8, a8⟩ := addTo_adds hN h3 h2 (-v1) A7
  obtain ⟨A9, e9, a9⟩ := addTo_adds hN h3 h3 (v2 + v1) A8
  rw [e1, M_bind_ok, e2, M_bind_ok, e3, M_bind_ok, e4, M_bind_ok, e5, M_bind_ok, e6, M_bind_ok, e7, M_bind_ok, e8, M_bind_ok, e9]
  have := ((((((((a1.trans a2).trans a3).trans a4).trans a5).trans a6).trans a7).trans a8).trans a9)
  refine ⟨A9, rfl, fun y x => ?_, this.2⟩
  rw [this.1]
  congr 1
  have f1 : v1 = corner p q r / (2 * area3 p q r) := by
    rw [hv1]; field_simp; unfold corner P3.dot; simp only [P3.sub_x, P3.sub_y, P3.sub_z]; ring
  have f2 : v2 = corner q r p / (2 * area3 p q r) := by
    rw [hv2]; field_simp; unfold corner P3.dot; simp only [P3.sub_x, P3.sub_y, P3.sub_z]; ring
  have f3 : v3 = corner r p q / (2 * area3 p q r) := by
    rw [hv3]; field_simp; unfold corner P3.dot; simp only [P3.sub_x, P3.sub_y, P3.sub_z]; ring
  unfold triForm
  rw [f1, f2, f3]
  ring

theorem laplace_adds {N : ℕ} {P : ℕ → P3 ℝ} {ts : List Tri} (hp : ∀ t ∈ ts, ProperTri N t) (hP : Nondegenerate ts P) (A : ℕ → ℕ → ℝ) :
    ∃ A', forEach (addTriangle N (tab N P)) ts A = .ok A' ∧ Adds N A A' (fun y x => form ts P x y) := by
  induction ts generalizing A with
  | nil => exact ⟨A, rfl, fun y x => by simp [form], fun _ _ _ => rfl⟩
  | cons t ts ih =>
    obtain ⟨h1, h2, h3, _⟩ := hp t (by simp)
    obtain ⟨A1, e1, a1⟩ := addTriangle_adds h1 h2 h3 (hP t (by simp)) A
    obtain ⟨A2, e2, a2⟩ := ih (fun u hu => hp u (List.mem_cons_of_mem _ hu)) (fun u hu => hP u (List.mem_cons_of_mem _ hu)) A1
    unfold forEach
    rw [e1, M_bind_ok, e2]
    refine ⟨A2, rfl, fun y x => ?_, (a1.trans a2).2⟩
    rw [(a1.trans a2).1]
    unfold form
    dsimp only
    rw [List.map_cons, List.sum_cons]

/-- The form in terms of the Laplacian. -/
theorem form_lap {ts : List Tri} {P : ℕ → P3 ℝ} (x : ℕ → ℝ) (i : ℕ) : form ts P x (fun k => if k = i then 1 else 0) = lap ts P x i := by
  unfold form lap cornerSum
  congr 1
  refine List.map_congr_left fun t _ => ?_
  unfold triForm cot
  dsimp only
  rw [show area3 (P t.2.1) (P t.2.2) (P t.1) = area3 (P t.1) (P t.2.1) (P t.2.2) from area3_rot _ _ _,
    show area3 (P t.2.2) (P t.1) (P t.2.1) = area3 (P t.1) (P t.2.1) (P t.2.2) by rw [area3_rot (P t.2.1), area3_rot]]
  simp only [eq_comm (a := i)]
  by_cases a : t.1 = i <;> by_cases b : t.2.1 = i <;> by_cases c : t.2.2 = i <;> simp only [a, b, c, if_true, if_false] <;> ring

theorem quad_single {m : ℕ} (A : ℕ → ℕ → ℝ) (x : ℕ → ℝ) {i : ℕ} (hi : i < m) :
    quad m A (fun k => if k = i then 1 else 0) x = ∑ j ∈ Finset.range m, A i j * x j := by
  unfold quad
  rw [Finset.sum_eq_single i (fun k _ hk => by dsimp only; rw [if_neg hk, zero_mul]) (fun h => absurd (Finset.mem_range.mpr hi) h)]
  dsimp only
  rw [if_pos rfl, one_mul]

/-- The matrix of the Laplacian of a mesh. -/
structure IsLaplacian (N : ℕ) (ts : List Tri) (P : ℕ → P3 ℝ) (L : ℕ → ℕ → ℝ) : Prop where
  row : ∀ x : ℕ → ℝ, ∀ i < N, ∑ j ∈ Finset.range N, L i j * x j = lap ts P x i
  form : ∀ y x : ℕ → ℝ, ∑ i ∈ Finset.range N, y i * lap ts P x i = form ts P x y
  symm : ∀ i < N, ∀ j < N, L i j = L j i

theorem laplaceMatrix_eq {N : ℕ} {P : ℕ → P3 ℝ} {ts : List Tri} (hp : ∀ t ∈ ts, ProperTri N t) (hP : Nondegenerate ts P) :
    ∃ L, laplaceMatrix ts (tab N P) = .ok L ∧ IsLaplacian N ts P L := by
  obtain ⟨L, e, h1, h2⟩ := laplace_adds hp hP (fun _ _ => (0 : ℝ))
  have hL : ∀ y x, quad N L y x = Biharmonic.form ts P x y := by
    intro y x
    rw [h1]
    unfold quad
    simp
  have hrow : ∀ x : ℕ → ℝ, ∀ i < N, ∑ j ∈ Finset.range N, L i j * x j = lap ts P x i := by
    intro x i hi
    rw [← quad_single L x hi, hL, form_lap]
  refine ⟨L, by unfold laplaceMatrix; rw [length_tab, e], hrow, ?_, ?_⟩
  · intro y x
    rw [← hL]
    unfold quad
    exact Finset.sum_congr rfl fun i hi => by rw [hrow x i (Finset.mem_range.mp hi)]
  · intro i hi j hj
    have e1 : ∀ a < N, ∀ b < N, L a b = quad N L (fun k => if k = a then 1 else 0) (fun k => if k = b then 1 else 0) := by
      intro a ha b hb
      rw [quad_single L _ ha, Finset.sum_eq_single b (fun k _ hk => by rw [if_neg hk, mul_zero]) (fun h => absurd (Finset.mem_range.mpr hb) h), if_pos rfl, mul_one]
    rw [e1 i hi j hj, e1 j hj i hi, hL, hL, form_symm]

/-! ### The areas -/

theorem addAt_tab {N i : ℕ} (hi : i < N) (x : ℝ) (a : ℕ → ℝ) : addAt i x (tab N a) = .ok (tab N fun k => a k + if k = i then x else 0) := by
  unfold addAt
  rw [vget_tab _ hi, M_bind_ok, vset_tab _ _ hi]
  congr 1
  refine tab_congr fun k _ => ?_
  rw [Function.update_apply]
  split_ifs with h
  · rw [h]
  · ring

theorem areas_from {N : ℕ} {P : ℕ → P3 ℝ} {ts : List Tri} (hp : ∀ t ∈ ts, ProperTri N t) (hP : Nondegenerate ts P) (a : ℕ → ℝ) :
    forEach (addAreas (tab N P)) ts (tab N a) = .ok (tab N fun k => a k + cellArea ts P k) := by
  induction ts generalizing a with
  | nil =>
    unfold forEach
    congr 1
    refine tab_congr fun k _ => ?_
    simp [cellArea, cornerSum]
  | cons t ts ih =>
    obtain ⟨h1, h2, h3, _⟩ := hp t (by simp)
    have hD := area3_pos (hP t (by simp))
    have hone : addAreas (tab N P) t (tab N a) = .ok (tab N fun k => a k + (if k = t.1 then vorCell (P t.1) (P t.2.1) (P t.2.2) else 0) +
        (if k = t.2.1 then vorCell (P t.2.1) (P t.2.2) (P t.1) else 0) + if k = t.2.2 then vorCell (P t.2.2) (P t.1) (P t.2.1) else 0) := by
      unfold addAreas
      rw [vget_tab _ h1, M_bind_ok, vget_tab _ h2, M_bind_ok, vget_tab _ h3, M_bind_ok, voronoiArea_eq hD, M_bind_ok, addAt_tab h1, M_bind_ok,
        voronoiArea_eq (by rw [area3_rot]; exact hD), M_bind_ok, addAt_tab h2, M_bind_ok, voronoiArea_eq (by rw [area3_rot, area3_rot]; exact hD), M_bind_ok, addAt_tab h3]
    unfold forEach
    rw [hone, M_bind_ok, ih (fun u hu => hp u (List.mem_cons_of_mem _ hu)) (fun u hu => hP u (List.mem_cons_of_mem _ hu))]
    congr 1
    refine tab_congr fun k _ => ?_
    unfold cellArea cornerSum
    rw [List.map_cons, List.sum_cons]
    ring

theorem voronoiAreas_eq {N : ℕ} {P : ℕ → P3 ℝ} {ts : List Tri} (hp : ∀ t ∈ ts, ProperTri N t) (hP : Nondegenerate ts P) :
    voronoiAreas ts (tab N P) = .ok (tab N (cellArea ts P)) := by
  unfold voronoiAreas
  rw [length_tab, replicate_eq_tab, areas_from hp hP]
  simp

theorem cell_pos {p q r : P3 ℝ} (h : area3 p q r ≠ 0) : 0 < vorCell p q r := by
  have hD := area3_pos h
  exact vor_pos (side_pos hD) (side_pos (by rw [area3_rot]; exact hD)) (side_pos (by rw [area3_rot, area3_rot]; exact hD)) hD (area3_sq p q r)

theorem cell_rot {p q r : P3 ℝ} (h : area3 p q r ≠ 0) : area3 q r p ≠ 0 := by rw [area3_rot]; exact h

theorem cellArea_nonneg {P : ℕ → P3 ℝ} {ts : List Tri} (hP : Nondegenerate ts P) (k : ℕ) : 0 ≤ cellArea ts P k := by
  unfold cellArea cornerSum
  refine List.sum_nonneg fun x hx => ?_
  obtain ⟨t, ht, rfl⟩ := List.mem_map.mp hx
  have h := hP t ht
  have a1 := cell_pos h
  have a2 := cell_pos (cell_rot h)
  have a3 := cell_pos (cell_rot (cell_rot h))
  split_ifs <;> positivity

theorem cellArea_pos {P : ℕ → P3 ℝ} {ts : List Tri} (hP : Nondegenerate ts P) {k : ℕ} (hk : ∃ t ∈ ts, k = t.1 ∨ k = t.2.1 ∨ k = t.2.2) : 0 < cellArea ts P k := by
  obtain ⟨t, ht, hk⟩ := hk
  obtain ⟨l1, l2, rfl⟩ := List.append_of_mem ht
  have e : cellArea (l1 ++ t :: l2) P k = cellArea l1 P k + cellArea [t] P k + cellArea l2 P k := by
    unfold cellArea cornerSum
    simp only [List.map_append, List.map_cons, List.sum_append, List.sum_cons, List.map_nil, List.sum_nil]
    ring
  have h1 := cellArea_nonneg (fun u hu => hP u (List.mem_append_left _ hu) : Nondegenerate l1 P) k
  have h2 := cellArea_nonneg (fun u hu => hP u (List.mem_append_right _ (List.mem_cons_of_mem _ hu)) : Nondegenerate l2 P) k
  have h := hP t ht
  have a1 := cell_pos h
  have a2 := cell_pos (cell_rot h)
  have a3 := cell_pos (cell_rot (cell_rot h))
  have h3 : 0 < cellArea [t] P k := by
    unfold cellArea cornerSum
    simp only [List.map_cons, List.map_nil, List.sum_cons, List.sum_nil, add_zero]
    rcases hk with rfl | rfl | rfl
    all_goals
      rw [if_pos rfl]
      split_ifs <;> positivity
  rw [e]
  linarith

theorem inverses_tab {N : ℕ} {a : ℕ → ℝ} (ha : ∀ k < N, a k ≠ 0) : inverses (tab N a) = .ok (tab N fun k => 1 / a k) := by
  unfold inverses
  rw [length_tab, forLoop_push N _ (fun k => 1 / a k)]
  · rfl
  · intro k s hk
    rw [vget_tab _ hk, M_bind_ok, fdiv_of_ne (ha k hk), M_bind_ok]

theorem getD_tab {N k : ℕ} (f : ℕ → ℝ) (hk : k < N) : (tab N f).getD k 0 = f k := by
  simp [List.getD, tab, hk]

theorem hacked_tab (N : ℕ) (bd : List ℕ) (m : ℕ → ℝ) : hacked bd (tab N m) = tab N fun k => if k ∈ bd then 0 else m k := by
  unfold hacked
  rw [length_tab]
  refine List.map_congr_left fun k hk => ?_
  have hk := List.mem_range.mp hk
  split_ifs
  · rfl
  · exact getD_tab m hk

/-! ### Constraints -/

/-- The matrix of a system with the matrix `L` of size `N`, with the vertices `bd` fixed. -/
structure Bordered (N : ℕ) (bd : List ℕ) (L A : ℕ → ℕ → ℝ) (k : ℕ) : Prop where
  lap : ∀ i < N, ∀ l < N, A i l = L i l
  right : ∀ i < N, ∀ q, A i (N + q) = if q < k ∧ bd[q]? = some i then 1 else 0
  left : ∀ i < N, ∀ q, A (N + q) i = if q < k ∧ bd[q]? = some i then 1 else 0
  zero : ∀ q q', A (N + q) (N + q') = 0

theorem addMultipliers_eq {N : ℕ} {bd : List ℕ} (hbd : ∀ i ∈ bd, i < N) {L : ℕ → ℕ → ℝ} (hL : ∀ k l, N ≤ k ∨ N ≤ l → L k l = 0) :
    ∃ A, addMultipliers N bd L = .ok A ∧ Bordered N bd L A bd.length := by
  unfold addMultipliers
  refine forLoop_inv (fun k A => Bordered N bd L A k) ?_ ?_
  · refine ⟨fun _ _ _ _ => rfl, fun i hi q => ?_, fun i hi q => ?_, fun q q' => hL _ _ (Or.inl (by omega))⟩
    · rw [if_neg (by omega)]; exact hL _ _ (Or.inr (by omega))
    · rw [if_neg (by omega)]; exact hL _ _ (Or.inl (by omega))
  · intro k A hk h
    have hget : vget bd k = .ok bd[k] := by
      unfold vget
      rw [List.getElem?_eq_getElem hk]
    have hi := hbd bd[k] (List.getElem_mem hk)
    rw [hget, M_bind_ok]
    unfold Harmonic.setTo
    rw [if_pos ⟨by omega, by omega⟩, M_bind_ok, if_pos ⟨by omega, by omega⟩]
    refine ⟨_, rfl, ?_, ?_, ?_, ?_⟩
    · intro i hi l hl
      dsimp only
      rw [if_neg (by omega), if_neg (by omega), h.lap i hi l hl]
    · intro i hi q
      dsimp only
      by_cases e : i = bd[k] ∧ q = k
      · obtain ⟨e1, rfl⟩ := e
        rw [if_pos ⟨e1, rfl⟩, if_pos ⟨by omega, by rw [List.getElem?_eq_getElem hk, e1]⟩]
      · rw [if_neg (by omega), if_neg (by omega), h.right i hi q]
        congr 1
        rw [eq_iff_iff]
        constructor
        · rintro ⟨w1, w2⟩; exact ⟨by omega, w2⟩
        · rintro ⟨w1, w2⟩
          refine ⟨?_, w2⟩
          by_contra c
          obtain rfl : q = k := by omega
          rw [List.getElem?_eq_getElem hk] at w2
          exact e ⟨(Option.some.inj w2).symm, rfl⟩
    · intro i hi q
      dsimp only
      by_cases e : i = bd[k] ∧ q = k
      · obtain ⟨e1, rfl⟩ := e
        rw [if_neg (by omega), if_pos ⟨rfl, e1⟩, if_pos ⟨by omega, by rw [List.getElem?_eq_getElem hk, e1]⟩]
      · rw [if_neg (by omega), if_neg (by omega), h.left i hi q]
        congr 1
        rw [eq_iff_iff]
        constructor
        · rintro ⟨w1, w2⟩; exact ⟨by omega, w2⟩
        · rintro ⟨w1, w2⟩
          refine ⟨?_, w2⟩
          by_contra c
          obtain rfl : q = k := by omega
          rw [List.getElem?_eq_getElem hk] at w2
          exact e ⟨(Option.some.inj w2).symm, rfl⟩
    · intro q q'
      dsimp only
      rw [if_neg (by omega), if_neg (by omega), h.zero]

section bordered

variable {N : ℕ} {bd : List ℕ} {L A : ℕ → ℕ → ℝ}

theorem Bordered.inner (h : Bordered N bd L A bd.length) (x : ℕ → ℝ) {i : ℕ} (hi : i < N) (hb : i ∉ bd) :
    ∑ c ∈ Finset.range (N + bd.length), A i c * x c = ∑ c ∈ Finset.range N, L i c * x c := by
  rw [Finset.sum_range_add, Finset.sum_eq_zero (s := Finset.range bd.length), add_zero]
  · exact Finset.sum_congr rfl fun c hc => by rw [h.lap i hi c (Finset.mem_range.mp hc)]
  · intro q _
    rw [h.right i hi q, if_neg, zero_mul]
    rintro ⟨_, w⟩
    exact hb (List.mem_of_getElem? w)

theorem Bordered.outer (h : Bordered N bd L A bd.length) (hnd : bd.Nodup) (x : ℕ → ℝ) {j : ℕ} (hj : j < bd.length) (hi : bd[j] < N) :
    ∑ c ∈ Finset.range (N + bd.length), A bd[j] c * x c = ∑ c ∈ Finset.range N, L bd[j] c * x c + x (N + j) := by
  rw [Finset.sum_range_add]
  congr 1
  · exact Finset.sum_congr rfl fun c hc => by rw [h.lap _ hi c (Finset.mem_range.mp hc)]
  · rw [Finset.sum_eq_single j]
    · rw [h.right _ hi, if_pos ⟨hj, List.getElem?_eq_getElem hj⟩, one_mul]
    · intro q hq hne
      rw [h.right _ hi, if_neg, zero_mul]
      rintro ⟨w1, w2⟩
      rw [List.getElem?_eq_getElem w1] at w2
      exact hne ((List.Nodup.getElem_inj_iff hnd).mp (Option.some.inj w2))
    · exact fun w => absurd (Finset.mem_range.mpr hj) w

theorem Bordered.last (h : Bordered N bd L A bd.length) (x : ℕ → ℝ) {j : ℕ} (hj : j < bd.length) (hi : bd[j] < N) :
    ∑ c ∈ Finset.range (N + bd.length), A (N + j) c * x c = x bd[j] := by
  rw [Finset.sum_range_add, Finset.sum_eq_zero (s := Finset.range bd.length) (fun q _ => by rw [h.zero, zero_mul]), add_zero, Finset.sum_eq_single bd[j]]
  · rw [h.left _ hi, if_pos ⟨hj, List.getElem?_eq_getElem hj⟩, one_mul]
  · intro c hc hne
    rw [h.left c (Finset.mem_range.mp hc), if_neg, zero_mul]
    rintro ⟨_, w⟩
    rw [List.getElem?_eq_getElem hj] at w
    exact hne (Option.some.inj w).symm
  · exact fun w => absurd (Finset.mem_range.mpr hi) w

/-- The system is regular if a function that vanishes on the boundary, and is annihilated by `L` inside, is zero. -/
theorem Bordered.regular (h : Bordered N bd L A bd.length) (hnd : bd.Nodup) (hbd : ∀ i ∈ bd, i < N)
    (hL : ∀ x : ℕ → ℝ, (∀ i ∈ bd, x i = 0) → (∀ i < N, i ∉ bd → ∑ c ∈ Finset.range N, L i c * x c = 0) → ∀ i < N, x i = 0) {x : ℕ → ℝ}
    (hx : ∀ r < N + bd.length, ∑ c ∈ Finset.range (N + bd.length), A r c * x c = 0) : ∀ r < N + bd.length, x r = 0 := by
  have hz : ∀ i < N, x i = 0 := by
    refine hL x (fun i hi => ?_) fun i hi hb => ?_
    · obtain ⟨j, hj, rfl⟩ := List.mem_iff_getElem.mp hi
      rw [← h.last x hj (hbd _ hi)]
      exact hx _ (by omega)
    · rw [← h.inner x hi hb]
      exact hx i (by omega)
  intro r hr
  by_cases c : r < N
  · exact hz r c
  · obtain ⟨j, rfl⟩ : ∃ j, r = N + j := ⟨r - N, by omega⟩
    have hj : j < bd.length := by omega
    have hi := hbd _ (List.getElem_mem hj)
    have := hx bd[j] (by omega)
    rw [h.outer hnd x hj hi, Finset.sum_eq_zero (fun c hc => by rw [hz c (Finset.mem_range.mp hc), mul_zero]), zero_add] at this
    exact this

end bordered

/-! ### The matrices of the two systems -/

/-- The weights of the interior vertices in the two systems. -/
noncomputable def weight (ts : List Tri) (P : ℕ → P3 ℝ) (bd : List ℕ) (propagation : Bool) (k : ℕ) : ℝ :=
  if k ∈ bd then 0 else if propagation then 1 / cellArea ts P k else 1 / cellArea ts P k * (1 / cellArea ts P k)

theorem prepareSolver_eq {N : ℕ} {P : ℕ → P3 ℝ} {ts : List Tri} {bd : List ℕ} (hp : ∀ t ∈ ts, ProperTri N t) (hP : Nondegenerate ts P)
    (hused : ∀ k < N, ∃ t ∈ ts, k = t.1 ∨ k = t.2.1 ∨ k = t.2.2) (hbd : ∀ i ∈ bd, i < N) (pr : Bool) :
    ∃ A L, prepareSolver ts (tab N P) bd pr = .ok A ∧ Bordered N bd L A bd.length ∧
      ∀ x : ℕ → ℝ, ∀ i < N, ∑ j ∈ Finset.range N, L i j * x j = lap ts P (fun k => weight ts P bd pr k * lap ts P x k) i := by
  obtain ⟨Ls, e1, hL⟩ := laplaceMatrix_eq hp hP
  have ha : ∀ k < N, cellArea ts P k ≠ 0 := fun k hk => (cellArea_pos hP (hused k hk)).ne'
  unfold prepareSolver
  rw [length_tab, e1, M_bind_ok, voronoiAreas_eq hp hP, M_bind_ok, inverses_tab ha, M_bind_ok]
  dsimp only
  rw [hacked_tab]
  set m : ℕ → ℝ := fun k => if k ∈ bd then 0 else 1 / cellArea ts P k with hm
  set L : ℕ → ℕ → ℝ := fun i j => if i < N ∧ j < N then
      (if pr then ∑ k ∈ Finset.range N, Ls i k * ((tab N m).getD k 0 * Ls k j)
        else ∑ k ∈ Finset.range N, (tab N m).getD k 0 * Ls k i * ((tab N m).getD k 0 * Ls k j)) else 0 with hLd
  obtain ⟨A, e2, hA⟩ := addMultipliers_eq hbd (L := L) (fun k l q => by rw [hLd]; dsimp only; rw [if_neg (by omega)])
  refine ⟨A, L, e2, hA, fun x i hi => ?_⟩
  rw [← hL.row _ i hi]
  have step : ∀ j < N, L i j = ∑ k ∈ Finset.range N, Ls i k * (weight ts P bd pr k * Ls k j) := by
    intro j hj
    rw [hLd]
    dsimp only
    rw [if_pos ⟨hi, hj⟩]
    cases pr
    · rw [if_neg (by simp)]
      refine Finset.sum_congr rfl fun k hk => ?_
      have hk := Finset.mem_range.mp hk
      rw [getD_tab m hk, hL.symm i hi k hk]
      unfold weight
      rw [hm]
      dsimp only
      split_ifs
      · ring
      · contradiction
      · ring
    · rw [if_pos rfl]
      refine Finset.sum_congr rfl fun k hk => ?_
      have hk := Finset.mem_range.mp hk
      rw [getD_tab m hk]
      unfold weight
      rw [hm]
      simp
  calc ∑ j ∈ Finset.range N, L i j * x j = ∑ j ∈ Finset.range N, ∑ k ∈ Finset.range N, Ls i k * (weight ts P bd pr k * (Ls k j * x j)) := by
        refine Finset.sum_congr rfl fun j hj => ?_
        rw [step j (Finset.mem_range.mp hj), Finset.sum_mul]
        exact Finset.sum_congr rfl fun k _ => by ring
    _ = ∑ k ∈ Finset.range N, Ls i k * (weight ts P bd pr k * lap ts P x k) := by
        rw [Finset.sum_comm]
        refine Finset.sum_congr rfl fun k hk => ?_
        rw [← hL.row x k (Finset.mem_range.mp hk), Finset.mul_sum, Finset.mul_sum]

end Biharmonic

end Transfinite
