import Verif.Model.Harmonic
import Verif.Lemmas.Dirichlet
import Mathlib.Data.Nat.Count

/-! The linear system of harmonic patches. -/

namespace Transfinite

open Domain Spec

namespace Harmonic

/-! ### The Laplacian -/

/-- The bilinear form of a matrix of size `m`. -/
noncomputable def quad (m : ℕ) (A : ℕ → ℕ → ℝ) (y x : ℕ → ℝ) : ℝ := ∑ i ∈ Finset.range m, y i * ∑ j ∈ Finset.range m, A i j * x j

theorem quad_add {m i j : ℕ} (hi : i < m) (hj : j < m) (A : ℕ → ℕ → ℝ) (v : ℝ) (y x : ℕ → ℝ) :
    quad m (fun k l => if k = i ∧ l = j then A k l + v else A k l) y x = quad m A y x + v * y i * x j := by
  have e : ∀ k l, (if k = i ∧ l = j then A k l + v else A k l) = A k l + if k = i then (if l = j then v else 0) else 0 := by
    intro k l
    by_cases a : k = i <;> by_cases b : l = j <;> simp [a, b]
  unfold quad
  simp only [e, add_mul, Finset.sum_add_distrib, mul_add]
  congr 1
  rw [Finset.sum_eq_single i (fun k _ hk => by simp [hk]) (fun h => absurd (Finset.mem_range.mpr hi) h),
    Finset.sum_eq_single j (fun k _ hk => by simp [hk]) (fun h => absurd (Finset.mem_range.mpr hj) h), if_pos rfl, if_pos rfl]
  ring

/-- `A'` arises from `A` by adding the bilinear form `f` in the first `m` rows and columns. -/
def Adds (m : ℕ) (A A' : ℕ → ℕ → ℝ) (f : (ℕ → ℝ) → (ℕ → ℝ) → ℝ) : Prop :=
  (∀ y x, quad m A' y x = quad m A y x + f y x) ∧ ∀ k l, m ≤ k ∨ m ≤ l → A' k l = A k l

theorem Adds.trans {m : ℕ} {A A' A'' : ℕ → ℕ → ℝ} {f g : (ℕ → ℝ) → (ℕ → ℝ) → ℝ} (h : Adds m A A' f) (h' : Adds m A' A'' g) :
    Adds m A A'' (fun y x => f y x + g y x) :=
  ⟨fun y x => by rw [h'.1, h.1, add_assoc], fun k l q => by rw [h'.2 k l q, h.2 k l q]⟩

theorem addTo_adds {m N i j : ℕ} (hN : m ≤ N) (hi : i < m) (hj : j < m) (v : ℝ) (A : ℕ → ℕ → ℝ) :
    ∃ A', addTo N i j v A = .ok A' ∧ Adds m A A' (fun y x => v * y i * x j) := by
  unfold addTo
  rw [if_pos ⟨by omega, by omega⟩]
  refine ⟨_, rfl, fun y x => quad_add hi hj A v y x, fun k l q => ?_⟩
  dsimp only
  rw [if_neg]
  rintro ⟨rfl, rfl⟩
  omega

theorem cross_norm (a b c : P2 ℝ) (h : 0 < area2 a b c) : (P3.cross (from2D b - from2D a) (from2D c - from2D a)).norm = area2 a b c := by
  have e : P3.cross (from2D b - from2D a) (from2D c - from2D a) = ⟨0, 0, area2 a b c⟩ := by
    unfold P3.cross from2D area2
    refine P3.ext ?_ ?_ ?_ <;> simp
  rw [e]
  have : (⟨0, 0, area2 a b c⟩ : P3 ℝ).norm = Real.sqrt (area2 a b c * area2 a b c) := by
    unfold P3.norm P3.dot
    simp
    rfl
  rw [this, Real.sqrt_mul_self h.le]

theorem dot_from2D (a b c d : P2 ℝ) : P3.dot (from2D a - from2D b) (from2D c - from2D d) = P2.dot (a - b) (c - d) := by
  unfold P3.dot P2.dot from2D
  simp

theorem addTriangle_adds {m N : ℕ} (hN : m ≤ N) {uv : ℕ → P2 ℝ} {t : Tri} (h1 : t.1 < m) (h2 : t.2.1 < m) (h3 : t.2.2 < m)
    (hpos : 0 < area2 (uv t.1) (uv t.2.1) (uv t.2.2)) (A : ℕ → ℕ → ℝ) : ∃ A', addTriangle N (tab m uv) t A = .ok A' ∧
      Adds m A A' (fun y x => triForm (uv t.1) (uv t.2.1) (uv t.2.2) (x t.1) (x t.2.1) (x t.2.2) (y t.1) (y t.2.1) (y t.2.2)) := by
  unfold addTriangle
  rw [vget_tab _ h1, M_bind_ok, vget_tab _ h2, M_bind_ok, vget_tab _ h3, M_bind_ok]
  dsimp only
  rw [cross_norm _ _ _ hpos, fdiv_of_ne hpos.ne', M_bind_ok, fdiv_of_ne hpos.ne', M_bind_ok, fdiv_of_ne hpos.ne', M_bind_ok]
  simp only [dot_from2D]
  set v1 := 1 / 2 * P2.dot (uv t.2.1 - uv t.1) (uv t.2.2 - uv t.1) / area2 (uv t.1) (uv t.2.1) (uv t.2.2) with hv1
  set v2 := 1 / 2 * P2.dot (uv t.1 - uv t.2.1) (uv t.2.2 - uv t.2.1) / area2 (uv t.1) (uv t.2.1) (uv t.2.2) with hv2
  set v3 := 1 / 2 * P2.dot (uv t.2.1 - uv t.2.2) (uv t.1 - uv t.2.2) / area2 (uv t.1) (uv t.2.1) (uv t.2.2) with hv3
  obtain ⟨A1, e1, a1⟩ := addTo_adds hN h1 h1 (v3 + v2) A
  obtain ⟨A2, e2, a2⟩ := addTo_adds hN h1 h2 (-v3) A1
  obtain ⟨A3, e3, a3⟩ := addTo_adds hN h1 h3 (-v2) A2
  obtain ⟨A4, e4, a4⟩ := addTo_adds hN h2 h1 (-v3) A3
  obtain ⟨A5, e5, a5⟩ := addTo_adds hN h2 h2 (v3 + v1) A4
  obtain ⟨A6, e6, a6⟩ := addTo_adds hN h2 h3 (-v1) A5
  obtain ⟨A7, e7, a7⟩ := addTo_adds hN h3 h1 (-v2) A6
  obtain ⟨A8, e8, a8⟩ := addTo_adds hN h3 h2 (-v1) A7
  obtain ⟨A9, e9, a9⟩ := addTo_adds hN h3 h3 (v2 + v1) A8
  rw [e1, M_bind_ok, e2, M_bind_ok, e3, M_bind_ok, e4, M_bind_ok, e5, M_bind_ok, e6, M_bind_ok, e7, M_bind_ok, e8, M_bind_ok, e9]
  have := ((((((((a1.trans a2).trans a3).trans a4).trans a5).trans a6).trans a7).trans a8).trans a9)
  refine ⟨A9, rfl, fun y x => ?_, this.2⟩
  rw [this.1]
  congr 1
  have f1 : halfCot (uv t.1) (uv t.2.1) (uv t.2.2) = v1 := rfl
  have f2 : halfCot (uv t.2.1) (uv t.2.2) (uv t.1) = v2 := by
    rw [hv2]; unfold halfCot
    congr 1
    · unfold P2.dot; ring
    · unfold area2; ring
  have f3 : halfCot (uv t.2.2) (uv t.1) (uv t.2.1) = v3 := by
    rw [hv3]; unfold halfCot
    congr 1
    · unfold P2.dot; ring
    · unfold area2; ring
  unfold triForm
  rw [f1, f2, f3]
  ring

theorem addTriangles_adds {m N : ℕ} (hN : m ≤ N) {uv : ℕ → P2 ℝ} {ts : List Tri} (hp : ∀ t ∈ ts, ProperTri m t)
    (hpos : ∀ t ∈ ts, 0 < area2 (uv t.1) (uv t.2.1) (uv t.2.2)) (A : ℕ → ℕ → ℝ) : ∃ A', addTriangles N (tab m uv) ts A = .ok A' ∧
      Adds m A A' (fun y x => form ts uv x y) := by
  induction ts generalizing A with
  | nil => exact ⟨A, rfl, fun y x => by simp [form], fun _ _ _ => rfl⟩
  | cons t ts ih =>
    obtain ⟨h1, h2, h3, _⟩ := hp t (by simp)
    obtain ⟨A1, e1, a1⟩ := addTriangle_adds hN h1 h2 h3 (hpos t (by simp)) A
    obtain ⟨A2, e2, a2⟩ := ih (fun u hu => hp u (List.mem_cons_of_mem _ hu)) (fun u hu => hpos u (List.mem_cons_of_mem _ hu)) A1
    unfold addTriangles
    rw [e1, M_bind_ok, e2]
    refine ⟨A2, rfl, fun y x => ?_, (a1.trans a2).2⟩
    rw [(a1.trans a2).1]
    unfold form
    dsimp only
    rw [List.map_cons, List.sum_cons]

/-! ### The constraints -/

/-- The number of boundary vertices before vertex `i`. -/
def rank (n res i : ℕ) : ℕ := Nat.count (fun i => onEdge n res i = true) i

theorem rank_succ (n res i : ℕ) : rank n res (i + 1) = rank n res i + if onEdge n res i = true then 1 else 0 := Nat.count_succ _ _

theorem rank_lt {n res i N : ℕ} (hi : i < N) (h : onEdge n res i = true) : rank n res i < rank n res N := Nat.count_strict_mono h hi

theorem rank_surj {n res N q : ℕ} (h : q < rank n res N) : ∃ i < N, onEdge n res i = true ∧ rank n res i = q := by
  induction N with
  | zero => simp [rank] at h
  | succ N ih =>
    rw [rank_succ] at h
    by_cases c : q < rank n res N
    · obtain ⟨i, h1, h2, h3⟩ := ih c
      exact ⟨i, by omega, h2, h3⟩
    · split_ifs at h with e
      · exact ⟨N, by omega, e, by omega⟩
      · omega

/-- The system after the first `k` steps of the loop that adds the constraints to the matrix `L`. -/
structure Steps (N n res : ℕ) (L : ℕ → ℕ → ℝ) (pts : ℕ → P3 ℝ) (k : ℕ) (S : Sys ℝ) : Prop where
  j : S.j = rank n res k
  lap : ∀ i < N, ∀ l < N, S.A i l = L i l
  right : ∀ i < N, ∀ q, S.A i (N + q) = if i < k ∧ onEdge n res i = true ∧ q = rank n res i then 1 else 0
  left : ∀ i < N, ∀ q, S.A (N + q) i = if i < k ∧ onEdge n res i = true ∧ q = rank n res i then 1 else 0
  zero : ∀ q q', S.A (N + q) (N + q') = 0
  b0 : ∀ i < N, S.b i = 0
  b1 : ∀ i < k, onEdge n res i = true → S.b (N + rank n res i) = pts i

theorem constrain_steps {N n res k : ℕ} {L : ℕ → ℕ → ℝ} {pts : ℕ → P3 ℝ} {S : Sys ℝ} (hk : k < N) {pv : List (P3 ℝ)}
    (hpv : onEdge n res k = true → vget pv k = .ok (pts k))
    (h : Steps N n res L pts k S) : ∃ S', constrain N (rank n res N) n res pv k S = .ok S' ∧ Steps N n res L pts (k + 1) S' := by
  unfold constrain
  by_cases c : onEdge n res k = true
  · rw [if_pos c]
    have hr : rank n res k < rank n res N := rank_lt hk c
    unfold setTo
    rw [h.j, if_pos ⟨by omega, by omega⟩, M_bind_ok, if_pos ⟨by omega, by omega⟩, M_bind_ok, hpv c, M_bind_ok]
    refine ⟨_, rfl, ?_, ?_, ?_, ?_, ?_, ?_, ?_⟩
    · rw [rank_succ, if_pos c]
    · intro i hi l hl
      dsimp only
      rw [if_neg (by omega), if_neg (by omega), h.lap i hi l hl]
    · intro i hi q
      dsimp only
      by_cases e : i = k
      · subst e
        by_cases e' : q = rank n res i
        · rw [if_pos ⟨rfl, by omega⟩, if_pos ⟨by omega, c, e'⟩]
        · rw [if_neg (by omega), if_neg (by omega), h.right i hi q, if_neg (by omega), if_neg (fun w => e' w.2.2)]
      · rw [if_neg (by omega), if_neg (by omega), h.right i hi q]
        congr 1
        rw [eq_iff_iff]
        constructor <;> rintro ⟨w1, w2⟩ <;> exact ⟨by omega, w2⟩
    · intro i hi q
      dsimp only
      by_cases e : i = k
      · subst e
        by_cases e' : q = rank n res i
        · rw [if_neg (by omega), if_pos ⟨by omega, rfl⟩, if_pos ⟨by omega, c, e'⟩]
        · rw [if_neg (by omega), if_neg (by omega), h.left i hi q, if_neg (by omega), if_neg (fun w => e' w.2.2)]
      · rw [if_neg (by omega), if_neg (by omega), h.left i hi q]
        congr 1
        rw [eq_iff_iff]
        constructor <;> rintro ⟨w1, w2⟩ <;> exact ⟨by omega, w2⟩
    · intro q q'
      dsimp only
      rw [if_neg (by omega), if_neg (by omega), h.zero]
    · intro i hi
      dsimp only
      rw [if_neg (by omega), h.b0 i hi]
    · intro i hi e
      dsimp only
      by_cases e' : i = k
      · subst e'
        rw [if_pos rfl]
      · have : rank n res i < rank n res k := rank_lt (by omega) e
        rw [if_neg (by omega), h.b1 i (by omega) e]
  · rw [if_neg c]
    have key : ∀ i, (i < k + 1 ∧ onEdge n res i = true) ↔ (i < k ∧ onEdge n res i = true) := by
      intro i
      constructor
      · rintro ⟨w1, w2⟩
        refine ⟨?_, w2⟩
        rcases Nat.lt_succ_iff_lt_or_eq.mp w1 with q | rfl
        · exact q
        · exact absurd w2 c
      · exact fun w => ⟨by omega, w.2⟩
    have key' : ∀ i q, (i < k + 1 ∧ onEdge n res i = true ∧ q = rank n res i) ↔ (i < k ∧ onEdge n res i = true ∧ q = rank n res i) := by
      intro i q
      rw [← and_assoc, key, and_assoc]
    refine ⟨S, rfl, ?_, h.lap, ?_, ?_, h.zero, h.b0, ?_⟩
    · rw [rank_succ, if_neg c, h.j]
      omega
    · intro i hi q
      rw [h.right i hi q]
      simp only [key']
    · intro i hi q
      rw [h.left i hi q]
      simp only [key']
    · intro i hi e
      exact h.b1 i ((key i).mp ⟨hi, e⟩).1 e

theorem constraints_steps {N n res : ℕ} {L : ℕ → ℕ → ℝ} {pts : ℕ → P3 ℝ} {pv : List (P3 ℝ)} (hpv : ∀ k < N, onEdge n res k = true → vget pv k = .ok (pts k))
    (hL : ∀ k l, N ≤ k ∨ N ≤ l → L k l = 0) :
    ∃ S, forLoop N (constrain N (rank n res N) n res pv) ⟨L, fun _ => 0, 0⟩ = .ok S ∧ Steps N n res L pts N S := by
  refine forLoop_inv (fun k S => Steps N n res L pts k S) ?_ ?_
  · refine ⟨by simp [rank], fun _ _ _ _ => rfl, ?_, ?_, ?_, fun _ _ => rfl, fun _ h => by omega⟩
    · intro i hi q
      rw [if_neg (by omega)]
      exact hL _ _ (Or.inr (by omega))
    · intro i hi q
      rw [if_neg (by omega)]
      exact hL _ _ (Or.inl (by omega))
    · intro q q'
      exact hL _ _ (Or.inl (by omega))
  · intro k S hk h
    exact constrain_steps hk (hpv k hk) h

/-! ### Solutions -/

section solutions

variable {N n res : ℕ} {L : ℕ → ℕ → ℝ} {pts : ℕ → P3 ℝ} {S : Sys ℝ}

/-- The first rows of the matrix. -/
theorem Steps.row (h : Steps N n res L pts N S) (x : ℕ → ℝ) {i : ℕ} (hi : i < N) :
    ∑ c ∈ Finset.range (N + rank n res N), S.A i c * x c = ∑ c ∈ Finset.range N, L i c * x c + if onEdge n res i = true then x (N + rank n res i) else 0 := by
  rw [Finset.sum_range_add]
  congr 1
  · exact Finset.sum_congr rfl fun c hc => by rw [h.lap i hi c (Finset.mem_range.mp hc)]
  · split_ifs with e
    · rw [Finset.sum_eq_single (rank n res i)]
      · rw [h.right i hi, if_pos ⟨hi, e, rfl⟩, one_mul]
      · intro q _ hq
        rw [h.right i hi, if_neg (fun w => hq w.2.2), zero_mul]
      · exact fun w => absurd (Finset.mem_range.mpr (rank_lt hi e)) w
    · exact Finset.sum_eq_zero fun q _ => by rw [h.right i hi, if_neg (fun w => e w.2.1), zero_mul]

/-- The last rows of the matrix. -/
theorem Steps.last (h : Steps N n res L pts N S) (x : ℕ → ℝ) {i : ℕ} (hi : i < N) (e : onEdge n res i = true) :
    ∑ c ∈ Finset.range (N + rank n res N), S.A (N + rank n res i) c * x c = x i := by
  rw [Finset.sum_range_add, Finset.sum_eq_zero (s := Finset.range (rank n res N)) (fun q _ => by rw [h.zero, zero_mul]), add_zero, Finset.sum_eq_single i]
  · rw [h.left i hi, if_pos ⟨hi, e, rfl⟩, one_mul]
  · intro c hc hne
    rw [h.left c (Finset.mem_range.mp hc), if_neg, zero_mul]
    rintro ⟨_, w2, w3⟩
    rcases Nat.lt_trichotomy c i with q | q | q
    · have := rank_lt q w2; omega
    · exact hne q
    · have := rank_lt q e; omega
  · exact fun w => absurd (Finset.mem_range.mpr hi) w

variable {uv : ℕ → P2 ℝ}

/-- The system is regular. -/
theorem Steps.regular (hn : 3 ≤ n) (hR : 1 ≤ res) (hN : N = meshSize n res) (h : Steps N n res L pts N S)
    (hpos : ∀ t ∈ allTris n res, 0 < area2 (uv t.1) (uv t.2.1) (uv t.2.2))
    (hL : ∀ y x, quad N L y x = form (allTris n res) uv x y) {x : ℕ → ℝ}
    (hx : ∀ r < N + rank n res N, ∑ c ∈ Finset.range (N + rank n res N), S.A r c * x c = 0) : ∀ r < N + rank n res N, x r = 0 := by
  have hb : ∀ i < N, onEdge n res i = true → x i = 0 := by
    intro i hi e
    rw [← h.last x hi e]
    exact hx _ (by have := rank_lt hi e; omega)
  have hrow : ∀ i < N, ∑ c ∈ Finset.range N, L i c * x c + (if onEdge n res i = true then x (N + rank n res i) else 0) = 0 := by
    intro i hi
    rw [← h.row x hi]
    exact hx i (by omega)
  have hq : quad N L x x = 0 := by
    unfold quad
    refine Finset.sum_eq_zero fun i hi => ?_
    have hi := Finset.mem_range.mp hi
    by_cases e : onEdge n res i = true
    · rw [hb i hi e, zero_mul]
    · have := hrow i hi
      rw [if_neg e, add_zero] at this
      rw [this, mul_zero]
  rw [hL, ← dirichlet_form hpos] at hq
  have hz : ∀ i < N, x i = 0 := by
    rw [hN] at hb ⊢
    exact zero_of_energy hn hR hpos hq hb
  intro r hr
  by_cases c : r < N
  · exact hz r c
  · obtain ⟨i, hi, e, k⟩ := rank_surj (show r - N < rank n res N by omega)
    have := hrow i hi
    rw [if_pos e, Finset.sum_eq_zero (fun c hc => by rw [hz c (Finset.mem_range.mp hc), mul_zero]), zero_add, k] at this
    rwa [show N + (r - N) = r by omega] at this

/-- A solution keeps the boundary, and has least energy. -/
theorem Steps.solution (hn : 3 ≤ n) (hR : 1 ≤ res) (hN : N = meshSize n res) (h : Steps N n res L pts N S)
    (hpos : ∀ t ∈ allTris n res, 0 < area2 (uv t.1) (uv t.2.1) (uv t.2.2))
    (hL : ∀ y x, quad N L y x = form (allTris n res) uv x y) {x b : ℕ → ℝ} (hb0 : ∀ i < N, b i = 0)
    (hx : ∀ r < N + rank n res N, ∑ c ∈ Finset.range (N + rank n res N), S.A r c * x c = b r) :
    (∀ i < N, onEdge n res i = true → x i = b (N + rank n res i)) ∧
    ∀ y : ℕ → ℝ, (∀ i < N, onEdge n res i = true → y i = x i) → dirichlet (allTris n res) uv x ≤ dirichlet (allTris n res) uv y ∧
      (dirichlet (allTris n res) uv y = dirichlet (allTris n res) uv x → ∀ i < N, y i = x i) := by
  have hbd : ∀ i < N, onEdge n res i = true → x i = b (N + rank n res i) := by
    intro i hi e
    rw [← h.last x hi e]
    exact hx _ (by have := rank_lt hi e; omega)
  refine ⟨hbd, fun y hy => ?_⟩
  set d : ℕ → ℝ := fun k => y k - x k with hd
  have hd0 : ∀ i < N, onEdge n res i = true → d i = 0 := fun i hi e => by rw [hd]; dsimp only; rw [hy i hi e, sub_self]
  have hq : quad N L d x = 0 := by
    unfold quad
    refine Finset.sum_eq_zero fun i hi => ?_
    have hi := Finset.mem_range.mp hi
    by_cases e : onEdge n res i = true
    · rw [hd0 i hi e, zero_mul]
    · have := hx i (by omega)
      rw [h.row x hi, if_neg e, add_zero, hb0 i hi] at this
      rw [this, mul_zero]
  rw [hL] at hq
  have hE : dirichlet (allTris n res) uv y = dirichlet (allTris n res) uv x + dirichlet (allTris n res) uv d := by
    have e : y = fun k => x k + d k := funext fun k => by rw [hd]; dsimp only; ring
    rw [dirichlet_form hpos y, dirichlet_form hpos x, dirichlet_form hpos d, e, form_add, hq]
    ring
  have h0 := dirichlet_nonneg hpos d
  refine ⟨by linarith, fun e => ?_⟩
  have hz := zero_of_energy hn hR hpos (x := d) (by linarith) (by rw [← hN]; exact hd0)
  intro i hi
  have := hz i (by omega)
  rw [hd] at this
  dsimp only at this
  linarith

end solutions

end Harmonic

end Transfinite
