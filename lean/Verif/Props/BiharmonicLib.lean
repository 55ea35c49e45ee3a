import Verif.Lemmas.BiharmonicLib

/-! # C90: biharmonic patches with the library `triangle` -/

namespace Transfinite

open Domain Spec

namespace Biharmonic

/-! ### Specification -/

/-- The points where the loop is sampled: `res` points on each curve. -/
noncomputable def samplePoint (res : ℕ) (c : ℕ → Curve ℝ) (i : ℕ) : P3 ℝ := (c (i / res)).pt ((i % res : ℕ) / res)

/-- The mean of `m` points. -/
noncomputable def center (m : ℕ) (P : ℕ → P3 ℝ) : P3 ℝ := (1 / (m : ℝ)) • ∑ i ∈ Finset.range m, P i

/-- The coordinates of a point in the frame `o`, `u`, `v`. -/
noncomputable def inFrame (o u v q : P3 ℝ) : P2 ℝ := ⟨P3.dot (q - o) u, P3.dot (q - o) v⟩

/-- The area of the regular triangle with the side `a`. -/
noncomputable def regularArea (a : ℝ) : ℝ := Real.sqrt 3 / 4 * a ^ 2

/-- The library answers with a triangulation of the polygon `p`, when it gets the maximal area `a`. -/
def Answers (L : Lib ℝ) (m : ℕ) (p : ℕ → P2 ℝ) (a : ℝ) (N : ℕ) (uv : ℕ → P2 ℝ) (ts : List Tri) : Prop :=
  L.triangulate ((tab m p).flatMap fun q => [q.x, q.y]) m ((polygonSides m).flatMap fun e => [e.1, e.2]) m a =
      .ok ⟨N, (tab N uv).flatMap fun q => [q.x, q.y], ts.length, ts.flatMap fun t => [t.1, t.2.1, t.2.2]⟩ ∧ Triangulation m p N uv ts

/-- A patch with sides: its ribbons have the curves `c` and the normal vectors `ν`. -/
structure Ready (ε : ℝ) (n : ℕ) (c : ℕ → Curve ℝ) (ν : ℕ → ℝ → P3 ℝ) (B : Biharmonic ℝ) : Prop where
  pos : 0 < n
  size : B.dom.dom.n = n
  sides : HasSides ε n c ν B.surf.ribbons

/-! ### The fitting plane -/

theorem frame_expand {u v w : P3 ℝ} (huu : P3.dot u u = 1) (hvv : P3.dot v v = 1) (hww : P3.dot w w = 1) (huv : P3.dot u v = 0) (hvw : P3.dot v w = 0) (hwu : P3.dot w u = 0)
    (x : P3 ℝ) : x = P3.dot x u • u + P3.dot x v • v + P3.dot x w • w := by
  set y := x - (P3.dot x u • u + P3.dot x v • v + P3.dot x w • w) with hy
  have d1 : ∀ a b : P3 ℝ, P3.dot a b = P3.dot b a := fun a b => by unfold P3.dot; ring
  have lin : ∀ e : P3 ℝ, P3.dot y e = P3.dot x e - (P3.dot x u * P3.dot u e + P3.dot x v * P3.dot v e + P3.dot x w * P3.dot w e) := by
    intro e
    rw [hy]
    unfold P3.dot
    simp only [P3.sub_x, P3.sub_y, P3.sub_z, P3.add_x, P3.add_y, P3.add_z, P3.smul_x, P3.smul_y, P3.smul_z]
    ring
  have y1 : P3.dot y u = 0 := by rw [lin, huu, d1 v u, huv, hwu]; ring
  have y2 : P3.dot y v = 0 := by rw [lin, hvv, huv, d1 w v, hvw]; ring
  have y3 : P3.dot y w = 0 := by rw [lin, hww, d1 u w, hwu, hvw]; ring
  set D := P3.dot u (P3.cross v w) with hD
  have hD2 : D * D = 1 := by
    have : D * D = P3.dot u u * P3.dot v v * P3.dot w w + 2 * P3.dot u v * P3.dot v w * P3.dot w u - P3.dot u u * P3.dot v w ^ 2 - P3.dot v v * P3.dot w u ^ 2 -
        P3.dot w w * P3.dot u v ^ 2 := by
      rw [hD]
      unfold P3.dot P3.cross
      ring
    rw [this, huu, hvv, hww, huv, hvw, hwu]
    ring
  have hcr : D • y = P3.dot y u • P3.cross v w + P3.dot y v • P3.cross w u + P3.dot y w • P3.cross u v := by
    rw [hD]
    ext <;> simp [P3.dot, P3.cross] <;> ring
  rw [y1, y2, y3, zero_smul, zero_smul, zero_smul, add_zero, add_zero] at hcr
  have hy0 : y = 0 := by
    have : (D * D) • y = 0 := by rw [mul_smul, hcr, smul_zero]
    rwa [hD2, one_smul] at this
  exact sub_eq_zero.mp (hy ▸ hy0)

theorem sum_center {m : ℕ} (hm : 0 < m) (P : ℕ → P3 ℝ) (e : P3 ℝ) : ∑ i ∈ Finset.range m, P3.dot (P i - center m P) e = 0 := by
  have hm0 : (m : ℝ) ≠ 0 := by positivity
  have h1 : ∀ i, P3.dot (P i - center m P) e = P3.dot (P i) e - P3.dot (center m P) e := by
    intro i
    unfold P3.dot
    simp only [P3.sub_x, P3.sub_y, P3.sub_z]
    ring
  have h2 : P3.dot (center m P) e = 1 / (m : ℝ) * ∑ i ∈ Finset.range m, P3.dot (P i) e := by
    unfold center P3.dot
    rw [P3.smul_x, P3.smul_y, P3.smul_z, P3.sum_x, P3.sum_y, P3.sum_z, Finset.sum_add_distrib, Finset.sum_add_distrib,
      ← Finset.sum_mul, ← Finset.sum_mul, ← Finset.sum_mul]
    ring
  simp only [h1]
  rw [Finset.sum_sub_distrib, Finset.sum_const, Finset.card_range, h2, nsmul_eq_mul]
  field_simp
  ring

/-- C90: the plane of `projectToLSQPlane`. The result of the function is given by the coordinates of the points in an orthonormal frame at their mean; and no plane has a smaller
sum of squared distances to the points than the plane of this frame. -/
theorem C90_plane {m : ℕ} (hm : 0 < m) (svd : List (P3 ℝ) → P3 ℝ × P3 ℝ) (P : ℕ → P3 ℝ) {u v : P3 ℝ} (hsv : svd (tab m fun i => P i - center m P) = (u, v))
    (hs : Principal m (fun i => P i - center m P) u v) :
    P3.dot u u = 1 ∧ P3.dot v v = 1 ∧ P3.dot u v = 0 ∧ projectToLSQPlane svd (tab m P) = .ok (tab m fun i => inFrame (center m P) u v (P i)) ∧
      ∀ q e : P3 ℝ, P3.dot e e = 1 →
        ∑ i ∈ Finset.range m, P3.normSqr (P i - (center m P + (inFrame (center m P) u v (P i)).x • u + (inFrame (center m P) u v (P i)).y • v)) ≤
          ∑ i ∈ Finset.range m, P3.dot e (P i - q) ^ 2 := by
  obtain ⟨w, ⟨huu, hvv, hww, huv, hvw, hwu⟩, s1, s2, s3, l1, l2⟩ := hs
  set o := center m P with ho
  refine ⟨huu, hvv, huv, project_eq hm svd ho hsv, fun q e he => ?_⟩
  have hx := frame_expand huu hvv hww huv hvw hwu
  have par : ∀ x y : P3 ℝ, P3.dot x y = P3.dot x u * P3.dot y u + P3.dot x v * P3.dot y v + P3.dot x w * P3.dot y w := by
    intro x y
    have key : ∀ α β γ : ℝ, P3.dot (α • u + β • v + γ • w) y = α * P3.dot y u + β * P3.dot y v + γ * P3.dot y w := by
      intro α β γ
      unfold P3.dot
      simp only [P3.add_x, P3.add_y, P3.add_z, P3.smul_x, P3.smul_y, P3.smul_z]
      ring
    rw [← key, ← hx x]
  -- the distances to the plane
  have e1 : ∀ i, P3.normSqr (P i - (o + (inFrame o u v (P i)).x • u + (inFrame o u v (P i)).y • v)) = P3.dot (P i - o) w ^ 2 := by
    intro i
    have h1 : P i - (o + (inFrame o u v (P i)).x • u + (inFrame o u v (P i)).y • v) = P3.dot (P i - o) w • w := by
      have := hx (P i - o)
      unfold inFrame
      dsimp only
      calc P i - (o + P3.dot (P i - o) u • u + P3.dot (P i - o) v • v) = (P i - o) - (P3.dot (P i - o) u • u + P3.dot (P i - o) v • v) := by abel
        _ = P3.dot (P i - o) w • w := by
          exact sub_eq_iff_eq_add'.mpr this
    rw [h1]
    unfold P3.normSqr
    have : P3.dot (P3.dot (P i - o) w • w) (P3.dot (P i - o) w • w) = P3.dot (P i - o) w ^ 2 * P3.dot w w := by
      generalize P3.dot (P i - o) w = a
      unfold P3.dot
      simp only [P3.smul_x, P3.smul_y, P3.smul_z]
      ring
    rw [this, hww, mul_one]
  rw [Finset.sum_congr rfl fun i _ => e1 i]
  -- the distances to the other plane
  set a := P3.dot e u
  set b := P3.dot e v
  set c := P3.dot e w
  have hee : a ^ 2 + b ^ 2 + c ^ 2 = 1 := by
    have := par e e
    rw [he] at this
    rw [this]
    ring
  have e2 : ∀ i, P3.dot e (P i - q) = (a * P3.dot (P i - o) u + b * P3.dot (P i - o) v + c * P3.dot (P i - o) w) + P3.dot e (o - q) := by
    intro i
    have h1 : P3.dot e (P i - q) = P3.dot e (P i - o) + P3.dot e (o - q) := by
      unfold P3.dot
      simp only [P3.sub_x, P3.sub_y, P3.sub_z]
      ring
    rw [h1]
    congr 1
    exact par e _
  set d := P3.dot e (o - q)
  have e3 : ∑ i ∈ Finset.range m, P3.dot e (P i - q) ^ 2 = a ^ 2 * ∑ i ∈ Finset.range m, P3.dot (P i - o) u ^ 2 + b ^ 2 * ∑ i ∈ Finset.range m, P3.dot (P i - o) v ^ 2 +
      c ^ 2 * ∑ i ∈ Finset.range m, P3.dot (P i - o) w ^ 2 + 2 * a * b * ∑ i ∈ Finset.range m, P3.dot (P i - o) u * P3.dot (P i - o) v +
      2 * b * c * ∑ i ∈ Finset.range m, P3.dot (P i - o) v * P3.dot (P i - o) w + 2 * c * a * ∑ i ∈ Finset.range m, P3.dot (P i - o) w * P3.dot (P i - o) u +
      2 * d * (a * ∑ i ∈ Finset.range m, P3.dot (P i - o) u + b * ∑ i ∈ Finset.range m, P3.dot (P i - o) v + c * ∑ i ∈ Finset.range m, P3.dot (P i - o) w) + m * d ^ 2 := by
    have hcst : (m : ℝ) * d ^ 2 = ∑ _i ∈ Finset.range m, d ^ 2 := by rw [Finset.sum_const, Finset.card_range, nsmul_eq_mul]
    rw [hcst]
    simp only [Finset.mul_sum, ← Finset.sum_add_distrib]
    refine Finset.sum_congr rfl fun i _ => ?_
    rw [e2]
    ring
  have z := sum_center hm P
  rw [e3, s1, s2, s3, z u, z v, z w]
  have hd : 0 ≤ (m : ℝ) * d ^ 2 := by positivity
  set Su := ∑ i ∈ Finset.range m, P3.dot (P i - o) u ^ 2
  set Sv := ∑ i ∈ Finset.range m, P3.dot (P i - o) v ^ 2
  set Sw := ∑ i ∈ Finset.range m, P3.dot (P i - o) w ^ 2
  have h1 : a ^ 2 * Sw ≤ a ^ 2 * Su := mul_le_mul_of_nonneg_left (l2.trans l1) (sq_nonneg _)
  have h2 : b ^ 2 * Sw ≤ b ^ 2 * Sv := mul_le_mul_of_nonneg_left l2 (sq_nonneg _)
  have h3 : Sw = a ^ 2 * Sw + b ^ 2 * Sw + c ^ 2 * Sw := by rw [← add_mul, ← add_mul, hee, one_mul]
  linarith

/-! ### Evaluation -/

section

variable {ε : ℝ} {n res N : ℕ} {c : ℕ → Curve ℝ} {ν : ℕ → ℝ → P3 ℝ} {B : Biharmonic ℝ} {L : Lib ℝ} {solve : ℕ → (ℕ → ℕ → ℝ) → (ℕ → P3 ℝ) → ℕ → P3 ℝ}
  {o u v : P3 ℝ} {uv : ℕ → P2 ℝ} {ts : List Tri} {a : ℝ}

theorem generateDomain_until (hB : Ready ε n c ν B) (hR : 1 ≤ res) (ho : o = center (n * res) (samplePoint res c))
    (hsvd : L.svd (tab (n * res) fun i => samplePoint res c i - o) = (u, v))
    (ha : a = L.fixed (regularArea ((∑ i ∈ Finset.range n, (c i).arc 0 1) / (n * res)))) :
    generateDomain L res B = (L.triangulate ((tab (n * res) fun i => inFrame o u v (samplePoint res c i)).flatMap fun q => [q.x, q.y]) (n * res)
        ((polygonSides (n * res)).flatMap fun e => [e.1, e.2]) (n * res) a >>= fun out => readAnswer out >>= fun um => .ok ⟨um.2, um.1, n * res⟩) := by
  obtain ⟨hn, hsz, r, hrs, hr⟩ := hB
  have hm : 0 < n * res := Nat.mul_pos hn hR
  have hm0 : ((res * n : ℕ) : ℝ) ≠ 0 := by
    have : 0 < res * n := by rw [Nat.mul_comm]; exact hm
    positivity
  unfold generateDomain
  dsimp only
  rw [hsz, hrs, samples_eq hR fun j hj => (hr j hj).1, M_bind_ok]
  dsimp only
  unfold maxArea
  rw [fdiv_of_ne hm0, M_bind_ok, M_bind_ok]
  change (projectToLSQPlane L.svd (tab (n * res) (samplePoint res c)) >>= _) = _
  rw [project_eq hm L.svd (P := samplePoint res c) ho hsvd, M_bind_ok, length_tab, segmentList_eq hm, M_bind_ok]
  have hA : L.fixed ((∑ i ∈ Finset.range n, (c i).arc 0 1) / ((res * n : ℕ) : ℝ) * ((∑ i ∈ Finset.range n, (c i).arc 0 1) / ((res * n : ℕ) : ℝ)) * Libm.sqrt 3 / 4) = a := by
    rw [ha]
    unfold regularArea
    congr 1
    push_cast
    rw [mul_comm (res : ℝ)]
    change _ * Real.sqrt 3 / 4 = _
    ring
  rw [hA]
  rfl

/-- C90: `eval(resolution)` of a biharmonic patch, when the library answers with a triangulation of the polygon of the sample points in the fitting plane (and it is asked for triangles that are not larger
than a regular triangle whose side is the average distance of the sample points along the curves). Let `V` be the map of the planar mesh to space with the sample points on the boundary and with the
smallest bending energy, and `Z` the same for the normal vectors. Then `eval` succeeds if and only if `V` has no degenerate triangle; the mesh has the triangles of the library, with the sample points as
the first vertices, in the order of the loop; and inside it solves the discrete biharmonic equation on `V`, with the curvatures given by `V` and `Z` on the right hand side. -/
theorem C90_biharmonic (hs : Harmonic.Solver solve) (hB : Ready ε n c ν B) (hR : 1 ≤ res) (ho : o = center (n * res) (samplePoint res c))
    (hsvd : L.svd (tab (n * res) fun i => samplePoint res c i - o) = (u, v))
    (ha : a = L.fixed (regularArea ((∑ i ∈ Finset.range n, (c i).arc 0 1) / (n * res))))
    (hL : Answers L (n * res) (fun i => inFrame o u v (samplePoint res c i)) a N uv ts) :
    ∃ V Z : ℕ → P3 ℝ, (∀ i < n, ∀ k < res, V (i * res + k) = (c i).pt (k / res) ∧ Z (i * res + k) = ν i (k / res)) ∧
      LeastBending N ts (fun k => ⟨(uv k).x, (uv k).y, 0⟩) V ∧ LeastBending N ts (fun k => ⟨(uv k).x, (uv k).y, 0⟩) Z ∧
      ((∃ x, B.evalLib ε L solve res = .ok x) ↔ Nondegenerate ts V) ∧
      ∀ M, B.evalLib ε L solve res = .ok M → ∃ X : ℕ → P3 ℝ, M = (tab N X, ts) ∧ (∀ i < n, ∀ k < res, X (i * res + k) = (c i).pt (k / res)) ∧
        ∀ k < N, ¬ IsBoundaryVertex ts k → bilaplace ts V X k = (1 / cellArea ts V k) • lap3 ts V (curvatureVector ts V Z) k := by
  classical
  obtain ⟨hans, hT⟩ := hL
  have hm : 0 < n * res := Nat.mul_pos hB.pos hR
  have hr := hT.rim hm
  have hP := hT.nondegenerate
  obtain ⟨f, g, f1, f2⟩ := fillLib_eq (N := N) hR hB.sides (bd := rimLib N (n * res)) fun k hk => mem_rimLib.mp hk
  obtain ⟨V, Z, hVZ, hin, hiff, hok⟩ := surfacePoints_eq hr hT.manifold hP (onE := fun i => decide (i < n * res)) (fun k hk => by simpa using (hT.rimVertex k).mp hk) hs f g
  have heval : B.evalLib ε L solve res = (surfacePoints solve ts (tab N fun k => Harmonic.from2D (uv k)) (fun i => decide (i < n * res)) (rimLib N (n * res)) (tab N f) (tab N g) >>= fun x =>
      .ok (tab N x, ts)) := by
    unfold evalLib
    rw [generateDomain_until hB hR ho hsvd ha, hans, M_bind_ok, readAnswer_eq, M_bind_ok, M_bind_ok]
    dsimp only
    rw [length_tab]
    change (forEach (fillStepLib ε B.surf.ribbons res) (rimLib N (n * res)) (List.replicate N 0, List.replicate N 0) >>= _) = _
    rw [f1, M_bind_ok]
    dsimp only
    rw [show (tab N uv).map Harmonic.from2D = tab N fun k => Harmonic.from2D (uv k) by unfold tab; rw [List.map_map]; rfl]
    rfl
  have least : ∀ W : ℕ → P3 ℝ, (∀ i < N, i ∉ rimLib N (n * res) → op ts (fun k => Harmonic.from2D (uv k)) (rimLib N (n * res)) true W i = 0) →
      LeastBending N ts (fun k => ⟨(uv k).x, (uv k).y, 0⟩) W := by
    intro W hW Y hY
    exact hr.least3 hP hW fun i hi => hY i (hr.lt i hi) ((hr.boundary i (hr.lt i hi)).mp hi)
  have hpos : ∀ i < n, ∀ k < res, i * res + k ∈ rimLib N (n * res) ∧ (i * res + k) / res = i ∧ (i * res + k) % res = k := by
    intro i hi k hk
    have h1 : i * res + k < n * res := by
      have := Nat.mul_le_mul_right res (Nat.succ_le_of_lt hi)
      rw [Nat.succ_mul] at this
      omega
    refine ⟨mem_rimLib.mpr ⟨lt_of_lt_of_le h1 hT.more, h1⟩, ?_, ?_⟩
    · rw [show i * res + k = k + res * i by ring, Nat.add_mul_div_left _ _ (by omega), Nat.div_eq_of_lt hk, zero_add]
    · rw [show i * res + k = k + res * i by ring, Nat.add_mul_mod_self_left, Nat.mod_eq_of_lt hk]
  have hVZ' : ∀ i < n, ∀ k < res, V (i * res + k) = (c i).pt (k / res) ∧ Z (i * res + k) = ν i (k / res) := by
    intro i hi k hk
    obtain ⟨h1, h2, h3⟩ := hpos i hi k hk
    obtain ⟨a1, a2⟩ := hVZ _ h1
    obtain ⟨b1, b2⟩ := f2 _ h1
    rw [a1, a2, b1, b2, h2, h3]
    exact ⟨rfl, rfl⟩
  refine ⟨V, Z, hVZ', least V fun i hi h => (hin i hi h).1, least Z fun i hi h => (hin i hi h).2, ?_, ?_⟩
  · constructor
    · rintro ⟨x, e⟩
      rw [heval] at e
      obtain ⟨y, ey, _⟩ := bind_ok e
      exact hiff ⟨y, ey⟩
    · intro h
      obtain ⟨X, eX, _⟩ := hok h
      rw [heval, eX]
      exact ⟨_, rfl⟩
  · intro M e
    rw [heval] at e
    obtain ⟨y, ey, e⟩ := bind_ok e
    obtain ⟨X, eX, x1, x2⟩ := hok (hiff ⟨y, ey⟩)
    rw [ey] at eX
    cases eX
    cases e
    refine ⟨y, rfl, ?_, ?_⟩
    · intro i hi k hk
      rw [x1 _ (hpos i hi k hk).1, (hVZ' i hi k hk).1]
    · intro k hk hnb
      rw [← op_bilaplace hr]
      exact x2 k hk fun h => hnb ((hr.boundary k hk).mp h)

theorem sample_mem (hn : 0 < n) (hR : 1 ≤ res) {k : ℕ} (hk : k < n * res) : k / res < n ∧ k % res < res ∧ k / res * res + k % res = k := by
  refine ⟨Nat.div_lt_of_lt_mul (by rwa [Nat.mul_comm]), Nat.mod_lt _ (by omega), ?_⟩
  have := Nat.div_add_mod k res
  rw [Nat.mul_comm] at this
  exact this

/-- C90: flat loops. When the boundary curves are in a plane and the normal vectors are all the same, `eval(resolution)` succeeds, and the mesh is a congruent copy of the answer of the library, in that plane. -/
theorem C90_flat (hs : Harmonic.Solver solve) (hB : Ready ε n c ν B) (hR : 1 ≤ res) (ho : o = center (n * res) (samplePoint res c))
    (hsvd : L.svd (tab (n * res) fun i => samplePoint res c i - o) = (u, v)) (hpr : Principal (n * res) (fun i => samplePoint res c i - o) u v)
    (ha : a = L.fixed (regularArea ((∑ i ∈ Finset.range n, (c i).arc 0 1) / (n * res))))
    (hL : Answers L (n * res) (fun i => inFrame o u v (samplePoint res c i)) a N uv ts) {e mm : P3 ℝ} {h : ℝ} (he : P3.dot e e = 1)
    (hplane : ∀ i < n, ∀ s : ℝ, 0 ≤ s → s ≤ 1 → P3.dot e ((c i).pt s) = h) (hν : ∀ i < n, ∀ s : ℝ, 0 ≤ s → s ≤ 1 → ν i s = mm) :
    P3.dot u u = 1 ∧ P3.dot v v = 1 ∧ P3.dot u v = 0 ∧ B.evalLib ε L solve res = .ok (tab N fun k => o + (uv k).x • u + (uv k).y • v, ts) := by
  obtain ⟨V, Z, hVZ, lV, lZ, hiff, hfin⟩ := C90_biharmonic hs hB hR ho hsvd ha hL
  have hT := hL.2
  have hn := hB.pos
  have hm : 0 < n * res := Nat.mul_pos hn hR
  have hr := hT.rim hm
  have hR0 : (0 : ℝ) < res := by positivity
  have hP : Nondegenerate ts (fun k => ⟨(uv k).x, (uv k).y, 0⟩) := hT.nondegenerate
  obtain ⟨q1, q2, q3, _, q5⟩ := C90_plane hm L.svd (samplePoint res c) (u := u) (v := v) (by rw [← ho]; exact hsvd) (by rw [← ho]; exact hpr)
  rw [← ho] at q5
  refine ⟨q1, q2, q3, ?_⟩
  have hpq : P3.cross u v ≠ 0 := by
    intro h0
    have h1 : P3.dot (P3.cross u v) (P3.cross u v) = P3.dot u u * P3.dot v v - P3.dot u v ^ 2 := by unfold P3.dot P3.cross; ring
    rw [h0, q1, q2, q3] at h1
    norm_num [P3.dot] at h1
  set Q : ℕ → P3 ℝ := fun k => o + (uv k).x • u + (uv k).y • v with hQ
  have hsp : ∀ k < n * res, P3.dot e (samplePoint res c k) = h := by
    intro k hk
    obtain ⟨h1, h2, _⟩ := sample_mem hn hR hk
    have h2' : ((k % res : ℕ) : ℝ) ≤ res := by exact_mod_cast h2.le
    exact hplane _ h1 _ (by positivity) ((div_le_one hR0).mpr h2')
  -- the sample points are in the plane of the frame
  have hflat : ∀ k < n * res, samplePoint res c k = Q k := by
    have h0 := q5 (h • e) e he
    have hz : ∑ i ∈ Finset.range (n * res), P3.dot e (samplePoint res c i - h • e) ^ 2 = 0 := by
      refine Finset.sum_eq_zero fun i hi => ?_
      have h1 := hsp i (Finset.mem_range.mp hi)
      have h2 : P3.dot e (samplePoint res c i - h • e) = P3.dot e (samplePoint res c i) - h * P3.dot e e := by
        unfold P3.dot
        simp only [P3.sub_x, P3.sub_y, P3.sub_z, P3.smul_x, P3.smul_y, P3.smul_z]
        ring
      rw [h2, h1, he]
      ring
    rw [hz] at h0
    intro k hk
    have h1 := (Finset.sum_eq_zero_iff_of_nonneg fun i _ => P3.dot_self_nonneg _).mp (le_antisymm h0 (Finset.sum_nonneg fun i _ => P3.dot_self_nonneg _)) k (Finset.mem_range.mpr hk)
    have h2 := sub_eq_zero.mp (P3.eq_zero_of_dot_self h1)
    rw [hQ]
    dsimp only
    rw [hT.first k hk]
    exact h2
  have hVQ : ∀ k < N, V k = Q k := by
    intro k hk
    refine (lV.eq_of_zero hP (W := Q) (fun j hj hb => ?_) (willmore_zero fun j _ hb => ?_) k hk).symm
    · have hj' := (hT.rimVertex j).mp hb
      obtain ⟨h1, h2, h3⟩ := sample_mem hn hR hj'
      have := (hVZ _ h1 _ h2).1
      rw [h3] at this
      rw [this, ← hflat j hj']
      rfl
    · exact lap3_affine hT.manifold hT.positive o u v hb
  have hZc : ∀ k < N, Z k = mm := by
    intro k hk
    refine (lZ.eq_of_zero hP (W := fun _ => mm) (fun j hj hb => ?_) (willmore_zero fun j _ _ => ?_) k hk).symm
    · have hj' := (hT.rimVertex j).mp hb
      obtain ⟨h1, h2, h3⟩ := sample_mem hn hR hj'
      have := (hVZ _ h1 _ h2).2
      rw [h3] at this
      have h2' : ((j % res : ℕ) : ℝ) ≤ res := by exact_mod_cast h2.le
      rw [this, hν _ h1 _ (by positivity) ((div_le_one hR0).mpr h2')]
    · exact lap3_const _ _
  have hVn : Nondegenerate ts V := by
    intro t ht
    obtain ⟨h1, h2, h3, _⟩ := hT.proper t ht
    rw [hVQ _ h1, hVQ _ h2, hVQ _ h3]
    unfold area3
    have : P3.cross (Q t.2.1 - Q t.1) (Q t.2.2 - Q t.1) = area2 (uv t.1) (uv t.2.1) (uv t.2.2) • P3.cross u v := by
      rw [hQ]
      unfold area2
      ext <;> simp [P3.cross] <;> ring
    rw [this, Ne, P3.norm_eq_zero, smul_eq_zero]
    rintro (h | h)
    · exact (hT.positive t ht).ne' h
    · exact hpq h
  obtain ⟨M, heM⟩ := hiff.mpr hVn
  obtain ⟨X, rfl, x1, x2⟩ := hfin _ heM
  have hXQ : ∀ k < N, X k = Q k := by
    refine hr.unique3 hVn (pr := false) (fun k hk => ?_) fun k hk hb => ?_
    · have hj' := (mem_rimLib.mp hk).2
      obtain ⟨h1, h2, h3⟩ := sample_mem hn hR hj'
      have := x1 _ h1 _ h2
      rw [h3] at this
      rw [this, ← hflat k hj']
      rfl
    · have hx := x2 k hk fun w => hb ((hr.boundary k hk).mpr w)
      rw [rhs_zero hT.manifold hT.proper hZc, smul_zero, ← op_bilaplace hr] at hx
      rw [hx]
      have lin : ∀ (w : P3 ℝ) (j : ℕ), ¬ IsBoundaryVertex ts j → lap ts V (fun k => P3.dot w (Q k)) j = 0 := by
        intro w j hj
        rw [hr.lap_congr_mesh hVQ]
        exact lap_linear hT.manifold hT.positive hpq w hj
      have zero : ∀ w : P3 ℝ, (0 : ℝ) = lap ts V (fun j => weight ts V (rimLib N (n * res)) false j * lap ts V (fun k => P3.dot w (Q k)) j) k := by
        intro w
        rw [hr.lap_congr (y := fun _ => 0), lap_const]
        intro j hj
        by_cases hjb : j ∈ rimLib N (n * res)
        · rw [weight_rim _ hjb, zero_mul]
        · rw [lin w j fun h => hjb ((hr.boundary j hj).mpr h), mul_zero]
      refine P3.ext ?_ ?_ ?_
      · rw [op_x]; refine (zero ⟨1, 0, 0⟩).trans ?_; simp [P3.dot]
      · rw [op_y]; refine (zero ⟨0, 1, 0⟩).trans ?_; simp [P3.dot]
      · rw [op_z]; refine (zero ⟨0, 0, 1⟩).trans ?_; simp [P3.dot]
  rw [heM, tab_congr hXQ]

/-- C90: the orientation of the triangles. The principal directions are unique only up to their signs: with `-v` instead of `v` they are principal directions too. But then the triangles have the
other orientation with respect to the loop: in one of the two cases the boundary of the mesh runs in the direction of the loop, in the other case against it. -/
theorem C90_direction (hs : Harmonic.Solver solve) (hB : Ready ε n c ν B) (hR : 1 ≤ res) (ho : o = center (n * res) (samplePoint res c)) {L' : Lib ℝ} {N' : ℕ} {uv' : ℕ → P2 ℝ} {ts' : List Tri}
    (hsvd : L.svd (tab (n * res) fun i => samplePoint res c i - o) = (u, v)) (hsvd' : L'.svd (tab (n * res) fun i => samplePoint res c i - o) = (u, -v))
    (hfix : L'.fixed = L.fixed) (ha : a = L.fixed (regularArea ((∑ i ∈ Finset.range n, (c i).arc 0 1) / (n * res))))
    (hL : Answers L (n * res) (fun i => inFrame o u v (samplePoint res c i)) a N uv ts) (hL' : Answers L' (n * res) (fun i => inFrame o u (-v) (samplePoint res c i)) a N' uv' ts')
    {M M' : List (P3 ℝ) × List Tri} (he : B.evalLib ε L solve res = .ok M) (he' : B.evalLib ε L' solve res = .ok M') :
    (Principal (n * res) (fun i => samplePoint res c i - o) u v → Principal (n * res) (fun i => samplePoint res c i - o) u (-v)) ∧
      ((boundaryEdges M.2).Perm (polygonSides (n * res)) ∧ (boundaryEdges M'.2).Perm ((polygonSides (n * res)).map Prod.swap) ∨
        (boundaryEdges M.2).Perm ((polygonSides (n * res)).map Prod.swap) ∧ (boundaryEdges M'.2).Perm (polygonSides (n * res))) := by
  have hm : 0 < n * res := Nat.mul_pos hB.pos hR
  obtain ⟨_, _, _, _, _, _, f1⟩ := C90_biharmonic hs hB hR ho hsvd ha hL
  obtain ⟨_, _, _, _, _, _, f2⟩ := C90_biharmonic hs hB hR ho hsvd' (by rw [hfix]; exact ha) hL'
  obtain ⟨_, rfl, _⟩ := f1 _ he
  obtain ⟨_, rfl, _⟩ := f2 _ he'
  dsimp only
  have dneg : ∀ x : P3 ℝ, P3.dot x (-v) = - P3.dot x v := by intro x; unfold P3.dot; simp only [P3.neg_x, P3.neg_y, P3.neg_z]; ring
  constructor
  · rintro ⟨w, ⟨h1, h2, h3, h4, h5, h6⟩, s1, s2, s3, l1, l2⟩
    refine ⟨w, ⟨h1, ?_, h3, ?_, ?_, h6⟩, ?_, ?_, s3, ?_, ?_⟩
    · rw [dneg, P3.dot_comm, dneg, neg_neg, h2]
    · rw [dneg, h4, neg_zero]
    · rw [P3.dot_comm, dneg, P3.dot_comm, h5, neg_zero]
    · simp only [dneg, mul_neg, Finset.sum_neg_distrib, s1, neg_zero]
    · simp only [dneg, neg_mul, Finset.sum_neg_distrib, s2, neg_zero]
    · simpa only [dneg, neg_sq] using l1
    · simpa only [dneg, neg_sq] using l2
  · have harea : polygonArea2 (n * res) (fun i => inFrame o u (-v) (samplePoint res c i)) = - polygonArea2 (n * res) (fun i => inFrame o u v (samplePoint res c i)) := by
      unfold polygonArea2 inFrame
      dsimp only
      simp only [dneg]
      induction polygonSides (n * res) with
      | nil => simp
      | cons x l ih => rw [List.map_cons, List.sum_cons, ih, List.map_cons, List.sum_cons]; ring
    obtain ⟨d1, d2⟩ := hL.2.direction hm
    obtain ⟨d3, d4⟩ := hL'.2.direction hm
    rw [harea] at d3 d4
    rcases hL.2.boundary with w | w
    · exact Or.inl ⟨w, d4.mpr (by have := d1.mp w; linarith)⟩
    · exact Or.inr ⟨w, d3.mpr (by have := d2.mp w; linarith)⟩

/-- C90: the maximal area is printed with six decimal digits. If the average distance of the sample points is less than about a thousandth, the library gets zero, and if it refuses this then `eval` fails. -/
theorem C90_tiny (hB : Ready ε n c ν B) (hR : 1 ≤ res) (hfix : ∀ x, ∃ z : ℤ, L.fixed x = z / 10 ^ 6 ∧ |L.fixed x - x| ≤ 1 / (2 * 10 ^ 6))
    (hrej : ∀ pts k segs l a, a ≤ 0 → ∃ f, L.triangulate pts k segs l a = .error f)
    (hsmall : regularArea ((∑ i ∈ Finset.range n, (c i).arc 0 1) / (n * res)) < 1 / (2 * 10 ^ 6)) : ∃ f, B.evalLib ε L solve res = .error f := by
  obtain ⟨z, hz, hd⟩ := hfix (regularArea ((∑ i ∈ Finset.range n, (c i).arc 0 1) / (n * res)))
  have h0 : 0 ≤ regularArea ((∑ i ∈ Finset.range n, (c i).arc 0 1) / (n * res)) := by unfold regularArea; positivity
  set x := regularArea ((∑ i ∈ Finset.range n, (c i).arc 0 1) / (n * res)) with hx
  have hz0 : L.fixed x = 0 := by
    rw [hz] at hd ⊢
    rw [abs_le] at hd
    have h1 : (z : ℝ) < 1 := by
      have : (z : ℝ) / 10 ^ 6 < 1 / 10 ^ 6 := by linarith [hd.2, show (1 : ℝ) / (2 * 10 ^ 6) + 1 / (2 * 10 ^ 6) = 1 / 10 ^ 6 by norm_num]
      rwa [div_lt_div_iff_of_pos_right (by norm_num)] at this
    have h2 : (-1 : ℝ) < z := by
      have : (-1 : ℝ) / 10 ^ 6 < (z : ℝ) / 10 ^ 6 := by linarith [hd.1, show (-1 : ℝ) / 10 ^ 6 < -(1 / (2 * 10 ^ 6)) by norm_num]
      rwa [div_lt_div_iff_of_pos_right (by norm_num)] at this
    have h3 : z < 1 := by exact_mod_cast h1
    have h4 : -1 < z := by exact_mod_cast h2
    have : z = 0 := by omega
    rw [this]
    simp
  obtain ⟨f, hf⟩ := hrej _ _ _ _ (L.fixed x) hz0.le
  refine ⟨f, ?_⟩
  unfold evalLib
  rw [generateDomain_until (u := (L.svd _).1) (v := (L.svd _).2) hB hR rfl rfl rfl, hf]
  rfl

/-- C90: after `update()` a patch has sides. -/
theorem Current.ready {w : ℕ → P2 ℝ} (hB : Current ε n c ν w B) : Ready ε n c ν B := ⟨by have := hB.dom.hn; omega, hB.dom.n_eq, hB.sides⟩

end

/-! ### Example -/

/-- The mesh of the square with an additional vertex in the middle. -/
def crossMesh : List Tri := [(0, 1, 4), (1, 2, 4), (2, 3, 4), (3, 0, 4)]

/-- The vertices of this mesh. -/
def crossVertex : ℕ → P2 ℝ
  | 0 => ⟨-5, -5⟩
  | 1 => ⟨5, -5⟩
  | 2 => ⟨5, 5⟩
  | 3 => ⟨-5, 5⟩
  | _ => ⟨0, 0⟩

/-- A library that knows this mesh. -/
def crossLib : Lib ℝ where
  svd := fun _ => (⟨1, 0, 0⟩, ⟨0, 1, 0⟩)
  fixed := fun x => x
  triangulate := fun _ _ _ _ _ => .ok ⟨5, (tab 5 crossVertex).flatMap fun q => [q.x, q.y], 4, crossMesh.flatMap fun t => [t.1, t.2.1, t.2.2]⟩

theorem square_sample : ∀ i < 4, samplePoint 1 squareLoop i = ⟨5, 5, 0⟩ + (crossVertex i).x • ⟨1, 0, 0⟩ + (crossVertex i).y • ⟨0, 1, 0⟩ := by
  intro i hi
  unfold samplePoint
  have h1 : i % 1 = 0 := Nat.mod_one i
  have h2 : i / 1 = i := Nat.div_one i
  rw [h1, h2]
  interval_cases i <;> ext <;> simp [squareLoop, segment, crossVertex] <;> norm_num

theorem square_center : center (4 * 1) (samplePoint 1 squareLoop) = ⟨5, 5, 0⟩ := by
  unfold center
  simp only [Nat.mul_one, Finset.sum_range_succ, Finset.sum_range_zero]
  rw [square_sample 0 (by norm_num), square_sample 1 (by norm_num), square_sample 2 (by norm_num), square_sample 3 (by norm_num)]
  ext <;> simp [crossVertex] <;> norm_num

theorem square_frame : ∀ i < 4, inFrame ⟨5, 5, 0⟩ ⟨1, 0, 0⟩ ⟨0, 1, 0⟩ (samplePoint 1 squareLoop i) = crossVertex i := by
  intro i hi
  rw [square_sample i hi]
  unfold inFrame P3.dot
  ext <;> simp

theorem cross_triangulation : Triangulation 4 crossVertex 5 crossVertex crossMesh where
  more := by norm_num
  first := fun _ _ => rfl
  proper := by unfold ProperTri; decide
  used := by decide
  manifold := by unfold OrientedManifold; decide
  positive := by
    intro t ht
    simp only [crossMesh, List.mem_cons, List.not_mem_nil, or_false] at ht
    rcases ht with rfl | rfl | rfl | rfl <;> norm_num [area2, crossVertex]
  boundary := Or.inl (by decide)
  connected := by
    have e : ∀ a b, (a, b) ∈ meshEdges crossMesh ∨ (b, a) ∈ meshEdges crossMesh → Relation.ReflTransGen (fun a b => (a, b) ∈ meshEdges crossMesh ∨ (b, a) ∈ meshEdges crossMesh) a b :=
      fun a b h => Relation.ReflTransGen.single h
    intro k hk
    interval_cases k
    · exact Relation.ReflTransGen.refl
    · exact e _ _ (by decide)
    · exact (e 0 1 (by decide)).trans (e _ _ (by decide))
    · exact e _ _ (by decide)
    · exact e _ _ (by decide)

theorem square_answers : Answers crossLib (4 * 1) (fun i => inFrame ⟨5, 5, 0⟩ ⟨1, 0, 0⟩ ⟨0, 1, 0⟩ (samplePoint 1 squareLoop i))
    (crossLib.fixed (regularArea ((∑ i ∈ Finset.range 4, (squareLoop i).arc 0 1) / ((4 : ℕ) * (1 : ℕ))))) 5 crossVertex crossMesh := by
  refine ⟨rfl, ?_⟩
  have h := cross_triangulation
  exact { h with first := fun i hi => (square_frame i (by omega)).symm }

theorem square_principal : Principal (4 * 1) (fun i => samplePoint 1 squareLoop i - ⟨5, 5, 0⟩) ⟨1, 0, 0⟩ ⟨0, 1, 0⟩ := by
  refine ⟨⟨0, 0, 1⟩, ?_, ?_⟩
  · norm_num [P3.dot]
  · simp only [Nat.mul_one, Finset.sum_range_succ, Finset.sum_range_zero]
    rw [square_sample 0 (by norm_num), square_sample 1 (by norm_num), square_sample 2 (by norm_num), square_sample 3 (by norm_num)]
    norm_num [P3.dot, crossVertex]

/-- C90: the square patch with this library. -/
example : ∃ solve B, Harmonic.Solver solve ∧ squarePatch.update (1 / 10000) = .ok B ∧
    B.evalLib (1 / 10000) crossLib solve 1 = .ok ([⟨0, 0, 0⟩, ⟨10, 0, 0⟩, ⟨10, 10, 0⟩, ⟨0, 10, 0⟩, ⟨5, 5, 0⟩], crossMesh) := by
  obtain ⟨solve, hs⟩ := Harmonic.exists_solver
  obtain ⟨B, ν, e, hB, hν⟩ := square_current
  refine ⟨solve, B, hs, e, ?_⟩
  obtain ⟨_, _, _, h⟩ := C90_flat (u := ⟨1, 0, 0⟩) (v := ⟨0, 1, 0⟩) hs hB.ready le_rfl square_center.symm rfl square_principal rfl square_answers (e := ⟨0, 0, 1⟩) (mm := ⟨0, 0, 1⟩) (h := 0) (by norm_num [P3.dot])
    (fun i hi s _ _ => by interval_cases i <;> simp [P3.dot, squareLoop, segment]) hν
  rw [h]
  congr 2
  simp only [tab, List.range_succ, List.range_zero, List.nil_append, List.cons_append, List.map_cons, List.map_nil, crossVertex]
  refine congrArg₂ _ ?_ (congrArg₂ _ ?_ (congrArg₂ _ ?_ (congrArg₂ _ ?_ (congrArg₂ _ ?_ rfl)))) <;> ext <;> simp <;> norm_num

/-- C90: a square of the size of a thousandth is too small. -/
example : regularArea ((∑ i ∈ Finset.range 4, (segment (0 : P3 ℝ) ⟨1 / 1000, 0, 0⟩).arc 0 1) / ((4 : ℕ) * (1 : ℕ))) < 1 / (2 * 10 ^ 6) := by
  have h : (segment (0 : P3 ℝ) ⟨1 / 1000, 0, 0⟩).arc 0 1 = 1 / 1000 := by
    have h1 := P3.norm_nonneg (⟨1 / 1000, 0, 0⟩ : P3 ℝ)
    have h2 := P3.norm_mul_self (⟨1 / 1000, 0, 0⟩ : P3 ℝ)
    norm_num [P3.dot] at h2
    simp only [segment, sub_zero, one_mul]
    nlinarith
  rw [Finset.sum_const, Finset.card_range, h]
  unfold regularArea
  have h3 : Real.sqrt 3 < 1.8 := by rw [Real.sqrt_lt' (by norm_num)]; norm_num
  norm_num
  linarith

/-- C90: a library as in `C90_tiny`. -/
example : ∃ L : Lib ℝ, (∀ x, ∃ z : ℤ, L.fixed x = z / 10 ^ 6 ∧ |L.fixed x - x| ≤ 1 / (2 * 10 ^ 6)) ∧ ∀ pts k segs l a, a ≤ 0 → ∃ f, L.triangulate pts k segs l a = .error f := by
  refine ⟨⟨crossLib.svd, fun x => round (x * 10 ^ 6) / 10 ^ 6, fun p k s l a => if a ≤ 0 then .error .exception else crossLib.triangulate p k s l a⟩, fun x => ⟨round (x * 10 ^ 6), rfl, ?_⟩,
    fun pts k segs l a h => ⟨.exception, by dsimp only; rw [if_pos h]⟩⟩
  have h := abs_sub_round (x * 10 ^ 6)
  rw [abs_le] at h ⊢
  dsimp only
  constructor
  · have : x - 1 / (2 * 10 ^ 6) ≤ round (x * 10 ^ 6) / 10 ^ 6 := by rw [le_div_iff₀ (by norm_num)]; linarith [h.2]
    linarith
  · have : round (x * 10 ^ 6) / 10 ^ 6 ≤ x + 1 / (2 * 10 ^ 6) := by rw [div_le_iff₀ (by norm_num)]; linarith [h.1]
    linarith

/-- The mirrored mesh. -/
def mirrorMesh : List Tri := [(1, 0, 4), (2, 1, 4), (3, 2, 4), (0, 3, 4)]

/-- The vertices of the mirrored mesh. -/
noncomputable def mirrorVertex (i : ℕ) : P2 ℝ := ⟨(crossVertex i).x, -(crossVertex i).y⟩

/-- A library with the other sign of the second direction. -/
noncomputable def mirrorLib : Lib ℝ where
  svd := fun _ => (⟨1, 0, 0⟩, -⟨0, 1, 0⟩)
  fixed := fun x => x
  triangulate := fun _ _ _ _ _ => .ok ⟨5, (tab 5 mirrorVertex).flatMap fun q => [q.x, q.y], 4, mirrorMesh.flatMap fun t => [t.1, t.2.1, t.2.2]⟩

theorem mirror_triangulation : Triangulation (4 * 1) (fun i => inFrame ⟨5, 5, 0⟩ ⟨1, 0, 0⟩ (-⟨0, 1, 0⟩) (samplePoint 1 squareLoop i)) 5 mirrorVertex mirrorMesh where
  more := by norm_num
  first := fun i hi => by
    rw [square_sample i (by omega)]
    unfold inFrame P3.dot mirrorVertex
    ext <;> simp
  proper := by unfold ProperTri; decide
  used := by decide
  manifold := by unfold OrientedManifold; decide
  positive := by
    intro t ht
    simp only [mirrorMesh, List.mem_cons, List.not_mem_nil, or_false] at ht
    rcases ht with rfl | rfl | rfl | rfl <;> norm_num [area2, mirrorVertex, crossVertex]
  boundary := Or.inr (by decide)
  connected := by
    have e : ∀ a b, (a, b) ∈ meshEdges mirrorMesh ∨ (b, a) ∈ meshEdges mirrorMesh → Relation.ReflTransGen (fun a b => (a, b) ∈ meshEdges mirrorMesh ∨ (b, a) ∈ meshEdges mirrorMesh) a b :=
      fun a b h => Relation.ReflTransGen.single h
    intro k hk
    interval_cases k
    · exact Relation.ReflTransGen.refl
    · exact e _ _ (by decide)
    · exact (e 0 1 (by decide)).trans (e _ _ (by decide))
    · exact e _ _ (by decide)
    · exact e _ _ (by decide)

/-- C90: the hypotheses of `C90_direction` hold for the square with these two libraries: the same patch gives meshes with opposite orientations. -/
example : ∃ solve B M M', squarePatch.update (1 / 10000) = .ok B ∧ B.evalLib (1 / 10000) crossLib solve 1 = .ok M ∧ B.evalLib (1 / 10000) mirrorLib solve 1 = .ok M' ∧
    ((boundaryEdges M.2).Perm (polygonSides 4) ∧ (boundaryEdges M'.2).Perm ((polygonSides 4).map Prod.swap) ∨
      (boundaryEdges M.2).Perm ((polygonSides 4).map Prod.swap) ∧ (boundaryEdges M'.2).Perm (polygonSides 4)) := by
  obtain ⟨solve, hs⟩ := Harmonic.exists_solver
  obtain ⟨B, ν, e, hB, hν⟩ := square_current
  have flat : ∀ i < 4, ∀ s : ℝ, 0 ≤ s → s ≤ 1 → P3.dot ⟨0, 0, 1⟩ ((squareLoop i).pt s) = 0 := fun i hi s _ _ => by interval_cases i <;> simp [P3.dot, squareLoop, segment]
  have hans : Answers mirrorLib (4 * 1) (fun i => inFrame ⟨5, 5, 0⟩ ⟨1, 0, 0⟩ (-⟨0, 1, 0⟩) (samplePoint 1 squareLoop i))
      (crossLib.fixed (regularArea ((∑ i ∈ Finset.range 4, (squareLoop i).arc 0 1) / ((4 : ℕ) * (1 : ℕ))))) 5 mirrorVertex mirrorMesh := ⟨rfl, mirror_triangulation⟩
  have hpr : Principal (4 * 1) (fun i => samplePoint 1 squareLoop i - ⟨5, 5, 0⟩) ⟨1, 0, 0⟩ (-⟨0, 1, 0⟩) := by
    refine ⟨⟨0, 0, 1⟩, ?_, ?_⟩
    · norm_num [P3.dot]
    · simp only [Nat.mul_one, Finset.sum_range_succ, Finset.sum_range_zero]
      rw [square_sample 0 (by norm_num), square_sample 1 (by norm_num), square_sample 2 (by norm_num), square_sample 3 (by norm_num)]
      norm_num [P3.dot, crossVertex]
  obtain ⟨_, _, _, h⟩ := C90_flat (u := ⟨1, 0, 0⟩) (v := ⟨0, 1, 0⟩) hs hB.ready le_rfl square_center.symm rfl square_principal rfl square_answers (e := ⟨0, 0, 1⟩) (mm := ⟨0, 0, 1⟩) (h := 0)
    (by norm_num [P3.dot]) flat hν
  obtain ⟨_, _, _, h'⟩ := C90_flat (u := ⟨1, 0, 0⟩) (v := -⟨0, 1, 0⟩) hs hB.ready le_rfl square_center.symm rfl hpr rfl hans (e := ⟨0, 0, 1⟩) (mm := ⟨0, 0, 1⟩) (h := 0)
    (by norm_num [P3.dot]) flat hν
  exact ⟨solve, B, _, _, e, h, h', (C90_direction (L := crossLib) (L' := mirrorLib) (u := ⟨1, 0, 0⟩) (v := ⟨0, 1, 0⟩) hs hB.ready le_rfl square_center.symm rfl rfl rfl rfl square_answers hans h h').2⟩

end Biharmonic

end Transfinite
