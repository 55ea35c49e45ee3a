import Verif.Lemmas.Biharmonic
import Verif.Props.Harmonic

/-! Solutions of the linear systems of biharmonic patches. -/

namespace Transfinite

open Domain Spec

namespace Biharmonic

/-- What is needed of the triangles and the list of boundary vertices. -/
structure Rim (N : ℕ) (ts : List Tri) (bd : List ℕ) : Prop where
  proper : ∀ t ∈ ts, ProperTri N t
  used : ∀ k < N, ∃ t ∈ ts, k = t.1 ∨ k = t.2.1 ∨ k = t.2.2
  nodup : bd.Nodup
  lt : ∀ i ∈ bd, i < N
  boundary : ∀ i < N, i ∈ bd ↔ IsBoundaryVertex ts i
  rigid : ∀ x : ℕ → ℝ, (∀ t ∈ ts, x t.2.1 = x t.1 ∧ x t.2.2 = x t.1) → (∀ i ∈ bd, x i = 0) → ∀ i < N, x i = 0

section

variable {N : ℕ} {ts : List Tri} {bd : List ℕ} {P : ℕ → P3 ℝ}

theorem lap_add (x y : ℕ → ℝ) (k : ℕ) : lap ts P (fun k => x k + y k) k = lap ts P x k + lap ts P y k := by
  rw [← form_lap, ← form_lap, ← form_lap]
  unfold form
  rw [← List.sum_map_add]
  congr 1
  refine List.map_congr_left fun t _ => ?_
  unfold triForm
  ring

theorem lap_smul (a : ℝ) (x : ℕ → ℝ) (k : ℕ) : lap ts P (fun k => a * x k) k = a * lap ts P x k := by
  rw [← form_lap, ← form_lap]
  unfold form
  rw [← List.sum_map_mul_left]
  congr 1
  refine List.map_congr_left fun t _ => ?_
  unfold triForm
  ring

theorem Rim.lap_congr (hr : Rim N ts bd) {x y : ℕ → ℝ} (h : ∀ i < N, x i = y i) (k : ℕ) : lap ts P x k = lap ts P y k := by
  rw [← form_lap, ← form_lap]
  unfold form
  congr 1
  refine List.map_congr_left fun t ht => ?_
  obtain ⟨h1, h2, h3, _⟩ := hr.proper t ht
  rw [h _ h1, h _ h2, h _ h3]

theorem Rim.green (hr : Rim N ts bd) (hP : Nondegenerate ts P) (y x : ℕ → ℝ) : ∑ i ∈ Finset.range N, y i * lap ts P x i = form ts P x y := by
  obtain ⟨L, _, hL⟩ := laplaceMatrix_eq hr.proper hP
  exact hL.form y x

theorem Rim.green_symm (hr : Rim N ts bd) (hP : Nondegenerate ts P) (y x : ℕ → ℝ) :
    ∑ i ∈ Finset.range N, y i * lap ts P x i = ∑ i ∈ Finset.range N, x i * lap ts P y i := by
  rw [hr.green hP, hr.green hP, form_symm]

theorem Rim.weight_pos (hr : Rim N ts bd) (hP : Nondegenerate ts P) (pr : Bool) {k : ℕ} (hk : k < N) (hb : k ∉ bd) : 0 < weight ts P bd pr k := by
  have := cellArea_pos hP (hr.used k hk)
  unfold weight
  rw [if_neg hb]
  split_ifs <;> positivity

theorem weight_rim (pr : Bool) {k : ℕ} (hb : k ∈ bd) : weight ts P bd pr k = 0 := by
  unfold weight
  rw [if_pos hb]

/-- The energy that belongs to a system. -/
noncomputable def energy (N : ℕ) (ts : List Tri) (P : ℕ → P3 ℝ) (bd : List ℕ) (pr : Bool) (x : ℕ → ℝ) : ℝ :=
  ∑ k ∈ Finset.range N, weight ts P bd pr k * (lap ts P x k * lap ts P x k)

theorem Rim.weight_nonneg (hr : Rim N ts bd) (hP : Nondegenerate ts P) (pr : Bool) {k : ℕ} (hk : k < N) : 0 ≤ weight ts P bd pr k := by
  by_cases hb : k ∈ bd
  · rw [weight_rim pr hb]
  · exact (hr.weight_pos hP pr hk hb).le

theorem Rim.energy_nonneg (hr : Rim N ts bd) (hP : Nondegenerate ts P) (pr : Bool) (x : ℕ → ℝ) : 0 ≤ energy N ts P bd pr x :=
  Finset.sum_nonneg fun _ hk => mul_nonneg (hr.weight_nonneg hP pr (Finset.mem_range.mp hk)) (mul_self_nonneg _)

/-- A function of zero energy that vanishes on the boundary is zero. -/
theorem Rim.zero_of_energy (hr : Rim N ts bd) (hP : Nondegenerate ts P) {pr : Bool} {x : ℕ → ℝ} (h : energy N ts P bd pr x = 0) (hb : ∀ i ∈ bd, x i = 0) :
    ∀ i < N, x i = 0 := by
  have h1 := (Finset.sum_eq_zero_iff_of_nonneg fun k hk => mul_nonneg (hr.weight_nonneg hP pr (Finset.mem_range.mp hk)) (mul_self_nonneg _)).mp h
  have h2 : form ts P x x = 0 := by
    rw [← hr.green hP]
    refine Finset.sum_eq_zero fun k hk => ?_
    by_cases hk' : k ∈ bd
    · rw [hb k hk', zero_mul]
    · have := (mul_eq_zero.mp (h1 k hk)).resolve_left (hr.weight_pos hP pr (Finset.mem_range.mp hk) hk').ne'
      rw [mul_self_eq_zero.mp this, mul_zero]
  exact hr.rigid x ((form_zero hP x).2 h2) hb

theorem Rim.cross_term (hr : Rim N ts bd) (hP : Nondegenerate ts P) (pr : Bool) (x d : ℕ → ℝ) :
    ∑ k ∈ Finset.range N, weight ts P bd pr k * (lap ts P x k * lap ts P d k) =
      ∑ i ∈ Finset.range N, d i * lap ts P (fun k => weight ts P bd pr k * lap ts P x k) i := by
  rw [hr.green_symm hP]
  exact Finset.sum_congr rfl fun k _ => by ring

/-- A function that vanishes on the boundary and solves the homogeneous equations inside is zero. -/
theorem Rim.unique (hr : Rim N ts bd) (hP : Nondegenerate ts P) {pr : Bool} {x : ℕ → ℝ} (hb : ∀ i ∈ bd, x i = 0)
    (hx : ∀ i < N, i ∉ bd → lap ts P (fun k => weight ts P bd pr k * lap ts P x k) i = 0) : ∀ i < N, x i = 0 := by
  refine hr.zero_of_energy hP (pr := pr) ?_ hb
  unfold energy
  rw [hr.cross_term hP]
  refine Finset.sum_eq_zero fun k hk => ?_
  by_cases hk' : k ∈ bd
  · rw [hb k hk', zero_mul]
  · rw [hx k (Finset.mem_range.mp hk) hk', mul_zero]

/-- A solution of the homogeneous equations has least energy. -/
theorem Rim.least (hr : Rim N ts bd) (hP : Nondegenerate ts P) {pr : Bool} {x : ℕ → ℝ}
    (hx : ∀ i < N, i ∉ bd → lap ts P (fun k => weight ts P bd pr k * lap ts P x k) i = 0) {y : ℕ → ℝ} (hy : ∀ i ∈ bd, y i = x i) :
    energy N ts P bd pr x ≤ energy N ts P bd pr y ∧ (energy N ts P bd pr y = energy N ts P bd pr x → ∀ i < N, y i = x i) := by
  set d : ℕ → ℝ := fun k => y k + (-1) * x k with hd
  have hdb : ∀ i ∈ bd, d i = 0 := fun i hi => by rw [hd]; dsimp only; rw [hy i hi]; ring
  have hld : ∀ k, lap ts P y k = lap ts P x k + lap ts P d k := by
    intro k
    rw [hd, lap_add, lap_smul]
    ring
  have hc := hr.cross_term hP pr x d
  rw [Finset.sum_eq_zero (s := Finset.range N) (f := fun i => d i * lap ts P (fun k => weight ts P bd pr k * lap ts P x k) i)] at hc
  · have he : energy N ts P bd pr y = energy N ts P bd pr x + energy N ts P bd pr d := by
      have : energy N ts P bd pr y = energy N ts P bd pr x + 2 * (∑ k ∈ Finset.range N, weight ts P bd pr k * (lap ts P x k * lap ts P d k)) + energy N ts P bd pr d := by
        unfold energy
        rw [Finset.mul_sum, ← Finset.sum_add_distrib, ← Finset.sum_add_distrib]
        exact Finset.sum_congr rfl fun k _ => by rw [hld]; ring
      rw [this, hc]
      ring
    have h0 := hr.energy_nonneg hP pr d
    refine ⟨by linarith, fun e i hi => ?_⟩
    have := hr.zero_of_energy hP (show energy N ts P bd pr d = 0 by linarith) hdb i hi
    rw [hd] at this
    dsimp only at this
    linarith
  · intro k hk
    by_cases hk' : k ∈ bd
    · rw [hdb k hk', zero_mul]
    · rw [hx k (Finset.mem_range.mp hk) hk', mul_zero]

/-! ### Vectors -/

/-- The left hand side of the systems. -/
noncomputable def op (ts : List Tri) (P : ℕ → P3 ℝ) (bd : List ℕ) (pr : Bool) (V : ℕ → P3 ℝ) (i : ℕ) : P3 ℝ :=
  lap3 ts P (fun k => weight ts P bd pr k • lap3 ts P V k) i

theorem op_x (pr : Bool) (V : ℕ → P3 ℝ) (i : ℕ) : (op ts P bd pr V i).x = lap ts P (fun k => weight ts P bd pr k * lap ts P (fun k => (V k).x) k) i := rfl
theorem op_y (pr : Bool) (V : ℕ → P3 ℝ) (i : ℕ) : (op ts P bd pr V i).y = lap ts P (fun k => weight ts P bd pr k * lap ts P (fun k => (V k).y) k) i := rfl
theorem op_z (pr : Bool) (V : ℕ → P3 ℝ) (i : ℕ) : (op ts P bd pr V i).z = lap ts P (fun k => weight ts P bd pr k * lap ts P (fun k => (V k).z) k) i := rfl

theorem getD_rim {k : ℕ} (hk : k < bd.length) : bd.getD k 0 = bd[k] := by simp [List.getD, hk]

/-- The systems are solved: the values on the boundary are kept, and the equations hold inside. -/
theorem Rim.solved (hr : Rim N ts bd) (hP : Nondegenerate ts P) (pr : Bool) {solve : ℕ → (ℕ → ℕ → ℝ) → (ℕ → P3 ℝ) → ℕ → P3 ℝ} (hs : Harmonic.Solver solve) :
    ∃ A, prepareSolver ts (tab N P) bd pr = .ok A ∧ ∀ top f : ℕ → P3 ℝ,
      (∀ i ∈ bd, solve (N + bd.length) A (rhs N bd top f) i = f i) ∧
      ∀ i < N, i ∉ bd → op ts P bd pr (solve (N + bd.length) A (rhs N bd top f)) i = top i := by
  obtain ⟨A, L, e, hA, hL⟩ := prepareSolver_eq hr.proper hP hr.used hr.lt pr
  refine ⟨A, e, fun top f => ?_⟩
  have hreg : ∀ x : ℕ → ℝ, (∀ r < N + bd.length, ∑ c ∈ Finset.range (N + bd.length), A r c * x c = 0) → ∀ r < N + bd.length, x r = 0 := by
    intro x
    refine hA.regular hr.nodup hr.lt fun x hb hx => hr.unique hP (pr := pr) hb fun i hi hb' => ?_
    rw [← hL x i hi]
    exact hx i hi hb'
  have hsol := hs _ A (rhs N bd top f) hreg
  set V := solve (N + bd.length) A (rhs N bd top f)
  constructor
  · intro i hi
    obtain ⟨j, hj, rfl⟩ := List.mem_iff_getElem.mp hi
    have hlt := hr.lt _ hi
    have hr' : rhs N bd top f (N + j) = f bd[j] := by
      unfold rhs
      rw [if_neg (by omega), show N + j - N = j by omega, getD_rim hj]
    have := hsol (N + j) (by omega)
    rw [hr'] at this
    rw [← this]
    refine P3.ext ?_ ?_ ?_
    · rw [P3.sum_x]; simp only [P3.smul_x]; exact (hA.last (fun c => (V c).x) hj hlt).symm
    · rw [P3.sum_y]; simp only [P3.smul_y]; exact (hA.last (fun c => (V c).y) hj hlt).symm
    · rw [P3.sum_z]; simp only [P3.smul_z]; exact (hA.last (fun c => (V c).z) hj hlt).symm
  · intro i hi hb
    have := hsol i (by omega)
    rw [show rhs N bd top f i = top i by unfold rhs; rw [if_pos hi]] at this
    rw [← this]
    refine P3.ext ?_ ?_ ?_
    · rw [P3.sum_x, op_x, ← hL _ i hi]; simp only [P3.smul_x]; exact (hA.inner (fun c => (V c).x) hi hb).symm
    · rw [P3.sum_y, op_y, ← hL _ i hi]; simp only [P3.smul_y]; exact (hA.inner (fun c => (V c).y) hi hb).symm
    · rw [P3.sum_z, op_z, ← hL _ i hi]; simp only [P3.smul_z]; exact (hA.inner (fun c => (V c).z) hi hb).symm

/-- Two solutions of the equations inside with the same boundary are equal. -/
theorem Rim.unique3 (hr : Rim N ts bd) (hP : Nondegenerate ts P) {pr : Bool} {V W : ℕ → P3 ℝ} (hb : ∀ i ∈ bd, V i = W i)
    (hx : ∀ i < N, i ∉ bd → op ts P bd pr V i = op ts P bd pr W i) : ∀ i < N, V i = W i := by
  have one : ∀ x y : ℕ → ℝ, (∀ i ∈ bd, x i = y i) →
      (∀ i < N, i ∉ bd → lap ts P (fun k => weight ts P bd pr k * lap ts P x k) i = lap ts P (fun k => weight ts P bd pr k * lap ts P y k) i) → ∀ i < N, x i = y i := by
    intro x y h1 h2 i hi
    have := hr.unique hP (pr := pr) (x := fun k => x k + (-1) * y k) (fun i hi => by rw [h1 i hi]; ring) (fun i hi hb => by
      have e : (fun k => weight ts P bd pr k * lap ts P (fun k => x k + -1 * y k) k) =
          fun k => weight ts P bd pr k * lap ts P x k + (-1) * (weight ts P bd pr k * lap ts P y k) := funext fun k => by
        rw [lap_add, lap_smul]; ring
      rw [e, lap_add, lap_smul, h2 i hi hb]
      ring) i hi
    linarith
  intro i hi
  refine P3.ext ?_ ?_ ?_
  · exact one (fun k => (V k).x) (fun k => (W k).x) (fun i hi => by rw [hb i hi]) (fun i hi h => congrArg P3.x (hx i hi h)) i hi
  · exact one (fun k => (V k).y) (fun k => (W k).y) (fun i hi => by rw [hb i hi]) (fun i hi h => congrArg P3.y (hx i hi h)) i hi
  · exact one (fun k => (V k).z) (fun k => (W k).z) (fun i hi => by rw [hb i hi]) (fun i hi h => congrArg P3.z (hx i hi h)) i hi

theorem Rim.willmore_eq (hr : Rim N ts bd) (V : ℕ → P3 ℝ) : willmore N ts P V =
    energy N ts P bd true (fun k => (V k).x) + energy N ts P bd true (fun k => (V k).y) + energy N ts P bd true (fun k => (V k).z) := by
  classical
  unfold willmore energy
  rw [← Finset.sum_add_distrib, ← Finset.sum_add_distrib]
  refine Finset.sum_congr rfl fun k hk => ?_
  have hb := hr.boundary k (Finset.mem_range.mp hk)
  unfold weight
  by_cases h : k ∈ bd
  · rw [if_pos (hb.mp h), if_pos h]; ring
  · rw [if_neg (fun q => h (hb.mpr q)), if_neg h, if_pos rfl]
    unfold P3.normSqr P3.dot lap3
    ring

theorem Rim.least3 (hr : Rim N ts bd) (hP : Nondegenerate ts P) {V W : ℕ → P3 ℝ} (hx : ∀ i < N, i ∉ bd → op ts P bd true V i = 0) (hy : ∀ i ∈ bd, W i = V i) :
    willmore N ts P V ≤ willmore N ts P W ∧ (willmore N ts P W = willmore N ts P V → ∀ i < N, W i = V i) := by
  rw [hr.willmore_eq, hr.willmore_eq]
  obtain ⟨x1, x2⟩ := hr.least hP (x := fun k => (V k).x) (fun i hi h => congrArg P3.x (hx i hi h)) (y := fun k => (W k).x) fun i hi => by rw [hy i hi]
  obtain ⟨y1, y2⟩ := hr.least hP (x := fun k => (V k).y) (fun i hi h => congrArg P3.y (hx i hi h)) (y := fun k => (W k).y) fun i hi => by rw [hy i hi]
  obtain ⟨z1, z2⟩ := hr.least hP (x := fun k => (V k).z) (fun i hi h => congrArg P3.z (hx i hi h)) (y := fun k => (W k).z) fun i hi => by rw [hy i hi]
  exact ⟨by linarith, fun e i hi => P3.ext (x2 (by linarith) i hi) (y2 (by linarith) i hi) (z2 (by linarith) i hi)⟩

end

end Biharmonic

end Transfinite
