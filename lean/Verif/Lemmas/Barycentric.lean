import Verif.Model.Barycentric
import Verif.Lemmas.Polygon
import Mathlib.Algebra.Order.BigOperators.Ring.Finset
import Mathlib.Algebra.BigOperators.Field

/-! Helper lemmas for barycentric coordinates. -/

namespace Transfinite

namespace Param

open Spec

variable {K : Type} [Field K]

theorem mapM_fdiv [DecidableEq K] (l : List K) {s : K} (h : s ≠ 0) :
    l.mapM (fun x => fdiv x s) = .ok (l.map (· / s)) := by
  induction l with
  | nil => rfl
  | cons a l ih => rw [List.mapM_cons, fdiv_of_ne h, ih]; rfl

theorem mapM_fdiv_zero [DecidableEq K] {l : List K} (h : l ≠ []) :
    l.mapM (fun x => fdiv x (0 : K)) = .error .divZero := by
  cases l with
  | nil => exact absurd rfl h
  | cons a l => rw [List.mapM_cons, fdiv_zero]; rfl

/-- product of all but the listed factors -/
def prodBut (n : ℕ) (A : ℕ → K) (P : ℕ → Prop) [DecidablePred P] : K :=
  ∏ j ∈ Finset.range n, if P j then 1 else A j

theorem prodBut_split {n : ℕ} (A : ℕ → K) {i p : ℕ} (hp : p < n) (h : p ≠ i) :
    prodBut n A (· = i) = A p * prodBut n A (fun j => j = i ∨ j = p) := by
  unfold prodBut
  rw [← Finset.mul_prod_erase _ _ (Finset.mem_range.mpr hp),
    ← Finset.mul_prod_erase (Finset.range n) (fun j => if j = i ∨ j = p then 1 else A j) (Finset.mem_range.mpr hp)]
  simp only [if_neg h, or_true, if_true, one_mul]
  congr 1
  apply Finset.prod_congr rfl
  intro j hj
  simp [(Finset.mem_erase.mp hj).1]

theorem prodBut_zero {n : ℕ} {A : ℕ → K} {P : ℕ → Prop} [DecidablePred P] {p : ℕ} (hp : p < n) (h : ¬ P p)
    (h0 : A p = 0) : prodBut n A P = 0 := by
  unfold prodBut
  apply Finset.prod_eq_zero (Finset.mem_range.mpr hp)
  simp [h, h0]

theorem prodBut_pos [LinearOrder K] [IsStrictOrderedRing K] {n : ℕ} {A : ℕ → K} {P : ℕ → Prop} [DecidablePred P]
    (h : ∀ j < n, ¬ P j → 0 < A j) : 0 < prodBut n A P := by
  apply Finset.prod_pos
  intro j hj
  split_ifs with hp
  · exact one_pos
  · exact h j (Finset.mem_range.mp hj) hp

theorem prodBut_nonneg [LinearOrder K] [IsStrictOrderedRing K] {n : ℕ} {A : ℕ → K} {P : ℕ → Prop} [DecidablePred P]
    (h : ∀ j < n, 0 ≤ A j) : 0 ≤ prodBut n A P := by
  apply Finset.prod_nonneg
  intro j hj
  split_ifs with hp
  · exact zero_le_one
  · exact h j (Finset.mem_range.mp hj)

/-- `areas[i]` -/
def areaOf (n : ℕ) (v : ℕ → P2 K) (uv : P2 K) (i : ℕ) : K :=
  ((uv - v i).x * (uv - v (nextIx n i)).y - (uv - v i).y * (uv - v (nextIx n i)).x) / 2

/-- `Bi` -/
def bOf (n : ℕ) (v : ℕ → P2 K) (uv : P2 K) (i : ℕ) : K :=
  ((uv - v (prevIx n i)).x * (uv - v (nextIx n i)).y - (uv - v (prevIx n i)).y * (uv - v (nextIx n i)).x) / 2

/-- the weight pushed in step `i` -/
def weightOf (r : P2 K → K) (n : ℕ) (v : ℕ → P2 K) (uv : P2 K) (i : ℕ) : K :=
  r (uv - v (prevIx n i)) * prodBut n (areaOf n v uv) (· = prevIx n i) +
  r (uv - v (nextIx n i)) * prodBut n (areaOf n v uv) (· = i) -
  r (uv - v i) * bOf n v uv i * prodBut n (areaOf n v uv) (fun j => j = i ∨ j = prevIx n i)

theorem baryAreas_eq {n : ℕ} (v : ℕ → P2 K) (uv : P2 K) :
    baryAreas n ((tab n v).map fun p => uv - p) = .ok (tab n (areaOf n v uv)) := by
  have : ((tab n v).map fun p => uv - p) = tab n (fun i => uv - v i) := by simp [tab]
  rw [this]
  unfold baryAreas
  rw [forLoop_push n _ (areaOf n v uv)]
  · simp
  · intro k s hk
    rw [vget_tab _ hk, vget_tab _ (nextIx_lt (by omega))]
    rfl

theorem baryProducts_eq {n i p : ℕ} (A : ℕ → K) (hp : p ≠ i) :
    baryProducts n i p (tab n A) =
      .ok (prodBut n A (· = i), prodBut n A (· = p), prodBut n A (fun j => j = i ∨ j = p)) := by
  unfold baryProducts
  apply forLoop_eq (fun k => (prodBut k A (· = i), prodBut k A (· = p), prodBut k A (fun j => j = i ∨ j = p)))
  · simp [prodBut]
  · intro k hk
    rw [vget_tab _ hk]
    simp only [M_bind_ok]
    by_cases h1 : k = i
    · have h2 : k ≠ p := fun h => hp (h ▸ h1)
      rw [if_pos h1]
      simp only [prodBut, Finset.prod_range_succ, h1, h2]
      simp [h1 ▸ h2]
    · by_cases h2 : k = p
      · rw [if_neg h1, if_pos h2]
        simp only [prodBut, Finset.prod_range_succ, h1, h2]
        simp [hp]
      · rw [if_neg h1, if_neg h2]
        simp only [prodBut, Finset.prod_range_succ, h1, h2]
        simp

theorem prev_ne {n i : ℕ} (hn : 2 ≤ n) (hi : i < n) : prevIx n i ≠ i := by
  rw [prevIx_eq hi]; split_ifs <;> omega

theorem next_ne {n i : ℕ} (hn : 2 ≤ n) (hi : i < n) : nextIx n i ≠ i := by
  rw [nextIx_eq hi]; split_ifs <;> omega

theorem next_ne_prev {n i : ℕ} (hn : 3 ≤ n) (hi : i < n) : nextIx n i ≠ prevIx n i := by
  rw [nextIx_eq hi, prevIx_eq hi]; split_ifs <;> omega

/-- The result of the weight loop. -/
theorem baryWeights_eq [LinearOrder K] {ε : K} {r : P2 K → K} {n : ℕ} (hn : 2 ≤ n) (v : ℕ → P2 K) (uv : P2 K) :
    (∀ i < n, ε ≤ r (uv - v i)) →
      baryWeights ε r n ((tab n v).map fun p => uv - p) (tab n (areaOf n v uv)) =
        .ok (tab n (weightOf r n v uv), false) := by
  intro h
  have e : ((tab n v).map fun p => uv - p) = tab n (fun i => uv - v i) := by simp [tab]
  rw [e]
  unfold baryWeights
  apply forLoop_eq (fun k => (tab k (weightOf r n v uv), false))
  · simp [tab]
  · intro k hk
    dsimp only
    rw [baryProducts_eq _ (prev_ne hn hk), vget_tab _ hk, vget_tab _ (nextIx_lt (by omega)),
      vget_tab _ (prevIx_lt (by omega))]
    simp only [M_bind_ok, Bool.false_eq_true, if_false, if_neg (not_lt.mpr (h k hk))]
    rw [tab_succ]
    rfl

/-- The result of the weight loop when some vertex is (nearly) hit. -/
theorem baryWeights_hit [LinearOrder K] {ε : K} {r : P2 K → K} {n : ℕ} (hn : 2 ≤ n) (v : ℕ → P2 K) (uv : P2 K)
    {i : ℕ} (hi : i < n) (h : ∀ j < i, ε ≤ r (uv - v j)) (hlt : r (uv - v i) < ε) :
      baryWeights ε r n ((tab n v).map fun p => uv - p) (tab n (areaOf n v uv)) =
        .ok (tab n (fun j => if j = i then 1 else 0), true) := by
  have e : ((tab n v).map fun p => uv - p) = tab n (fun i => uv - v i) := by simp [tab]
  rw [e]
  unfold baryWeights
  have := forLoop_eq (n := n) (s := (([] : List K), false)) (body := fun i (s : List K × Bool) =>
    if s.2 then .ok s
    else do
      let i_1 := prevIx n i
      let i1 := nextIx n i
      let p ← baryProducts n i i_1 (tab n (areaOf n v uv))
      let si_1 ← vget (tab n (fun i => uv - v i)) i_1
      let si1 ← vget (tab n (fun i => uv - v i)) i1
      let bi := (si_1.x * si1.y - si_1.y * si1.x) / 2
      let si ← vget (tab n (fun i => uv - v i)) i
      let ri_1 := r si_1
      let ri := r si
      let ri1 := r si1
      if ri < ε then do
        let l ← vset (List.replicate n 0) i 1
        .ok (l, true)
      else
        .ok (s.1 ++ [ri_1 * p.2.1 + ri1 * p.1 - ri * bi * p.2.2], false))
    (fun k => if k ≤ i then (tab k (weightOf r n v uv), false) else
      (tab n (fun j => if j = i then 1 else 0), true)) (by simp [tab]) (by
    intro k hk
    by_cases h1 : k ≤ i
    · simp only [if_pos h1, Bool.false_eq_true, if_false]
      rw [baryProducts_eq _ (prev_ne hn hk), vget_tab _ hk, vget_tab _ (nextIx_lt (by omega)),
        vget_tab _ (prevIx_lt (by omega))]
      simp only [M_bind_ok]
      by_cases h2 : k = i
      · subst h2
        rw [if_pos hlt, replicate_eq_tab, vset_tab _ _ hk]
        simp only [M_bind_ok, if_neg (Nat.not_succ_le_self k)]
        congr 2
        apply tab_congr
        intro j _
        simp [Function.update_apply]
      · rw [if_neg (not_lt.mpr (h k (by omega))), if_pos (by omega : k + 1 ≤ i), tab_succ]
        rfl
    · simp only [if_neg h1, if_true, if_neg (by omega : ¬ k + 1 ≤ i)])
  rw [if_neg (by omega)] at this
  exact this

/-- The weights have the position vectors as an affine dependence. -/
theorem weights_combination {n : ℕ} (hn : 3 ≤ n) (h2 : (2 : K) ≠ 0) (r : P2 K → K) (v : ℕ → P2 K) (uv : P2 K) :
    ∑ i ∈ Finset.range n, weightOf r n v uv i • (uv - v i) = 0 := by
  set A := areaOf n v uv with hA
  have e1 : ∑ i ∈ Finset.range n, weightOf r n v uv i • (uv - v i) =
      ∑ i ∈ Finset.range n, (r (uv - v (prevIx n i)) * prodBut n A (· = prevIx n i)) • (uv - v i) +
      ∑ i ∈ Finset.range n, (r (uv - v (nextIx n i)) * prodBut n A (· = i)) • (uv - v i) -
      ∑ i ∈ Finset.range n, (r (uv - v i) * bOf n v uv i * prodBut n A (fun j => j = i ∨ j = prevIx n i)) • (uv - v i) := by
    rw [← Finset.sum_add_distrib, ← Finset.sum_sub_distrib]
    apply Finset.sum_congr rfl
    intro i _
    rw [weightOf, sub_smul, add_smul]
  have e2 : ∑ i ∈ Finset.range n, (r (uv - v (prevIx n i)) * prodBut n A (· = prevIx n i)) • (uv - v i) =
      ∑ i ∈ Finset.range n, (r (uv - v i) * prodBut n A (· = i)) • (uv - v (nextIx n i)) := by
    rw [← sum_range_next (by omega)]
    apply Finset.sum_congr rfl
    intro i hi
    rw [prevIx_nextIx (Finset.mem_range.mp hi)]
  have e3 : ∑ i ∈ Finset.range n, (r (uv - v (nextIx n i)) * prodBut n A (· = i)) • (uv - v i) =
      ∑ i ∈ Finset.range n, (r (uv - v i) * prodBut n A (· = prevIx n i)) • (uv - v (prevIx n i)) := by
    rw [← sum_range_prev (by omega)]
    apply Finset.sum_congr rfl
    intro i hi
    change (r (uv - v (nextIx n (prevIx n i))) * prodBut n A (· = prevIx n i)) • (uv - v (prevIx n i)) = _
    rw [nextIx_prevIx (Finset.mem_range.mp hi)]
  rw [e1, e2, e3, ← Finset.sum_add_distrib, ← Finset.sum_sub_distrib]
  apply Finset.sum_eq_zero
  intro i hi
  have hi := Finset.mem_range.mp hi
  have hpn := prev_ne (by omega) hi
  have k1 : prodBut n A (· = i) = A (prevIx n i) * prodBut n A (fun j => j = i ∨ j = prevIx n i) :=
    prodBut_split A (prevIx_lt (by omega)) hpn
  have k2 : prodBut n A (· = prevIx n i) = A i * prodBut n A (fun j => j = i ∨ j = prevIx n i) := by
    rw [prodBut_split A hi hpn.symm]
    unfold prodBut
    congr 1
    apply Finset.prod_congr rfl
    intro j _
    simp [or_comm]
  rw [k1, k2]
  have a1 : A (prevIx n i) = ((uv - v (prevIx n i)).x * (uv - v i).y - (uv - v (prevIx n i)).y * (uv - v i).x) / 2 := by
    simp only [hA, areaOf, nextIx_prevIx hi]
  have a2 : A i = ((uv - v i).x * (uv - v (nextIx n i)).y - (uv - v i).y * (uv - v (nextIx n i)).x) / 2 := rfl
  have a3 : bOf n v uv i = ((uv - v (prevIx n i)).x * (uv - v (nextIx n i)).y - (uv - v (prevIx n i)).y * (uv - v (nextIx n i)).x) / 2 := rfl
  rw [a1, a2, a3]
  generalize prodBut n A (fun j => j = i ∨ j = prevIx n i) = P
  generalize uv - v i = b
  generalize uv - v (prevIx n i) = a
  generalize uv - v (nextIx n i) = c
  generalize r b = q
  ext
  · simp only [P2.add_x, P2.sub_x, P2.smul_x, P2.zero_x]; field_simp; ring
  · simp only [P2.add_y, P2.sub_y, P2.smul_y, P2.zero_y]; field_simp; ring

theorem two_ne [LinearOrder K] [IsStrictOrderedRing K] : (2 : K) ≠ 0 := two_ne_zero

theorem baryWith_eq [LinearOrder K] {ε : K} {r : P2 K → K} {n : ℕ} (hn : 2 ≤ n) (v : ℕ → P2 K) (uv : P2 K)
    (h : ∀ i < n, ε ≤ r (uv - v i)) (hs : ∑ i ∈ Finset.range n, weightOf r n v uv i ≠ 0) :
    baryWith ε r n (tab n v) uv =
      .ok (tab n fun i => weightOf r n v uv i / ∑ i ∈ Finset.range n, weightOf r n v uv i) := by
  unfold baryWith
  dsimp only
  rw [baryAreas_eq, M_bind_ok, baryWeights_eq hn v uv h, M_bind_ok]
  dsimp only
  rw [sum_tab, mapM_fdiv _ hs]
  simp [tab, Function.comp_def]

theorem baryWith_zero [LinearOrder K] {ε : K} {r : P2 K → K} {n : ℕ} (hn : 2 ≤ n) (v : ℕ → P2 K) (uv : P2 K)
    (h : ∀ i < n, ε ≤ r (uv - v i)) (hs : ∑ i ∈ Finset.range n, weightOf r n v uv i = 0) :
    baryWith ε r n (tab n v) uv = .error .divZero := by
  unfold baryWith
  dsimp only
  rw [baryAreas_eq, M_bind_ok, baryWeights_eq hn v uv h, M_bind_ok]
  dsimp only
  rw [sum_tab, hs, mapM_fdiv_zero]
  intro h0
  have := congrArg List.length h0
  simp at this
  omega

theorem baryWith_hit [LinearOrder K] {ε : K} {r : P2 K → K} {n : ℕ} (hn : 2 ≤ n) (v : ℕ → P2 K) (uv : P2 K)
    {i : ℕ} (hi : i < n) (h : ∀ j < i, ε ≤ r (uv - v j)) (hlt : r (uv - v i) < ε) :
    baryWith ε r n (tab n v) uv = .ok (tab n fun j => if j = i then 1 else 0) := by
  unfold baryWith
  dsimp only
  rw [baryAreas_eq, M_bind_ok, baryWeights_hit hn v uv hi h hlt, M_bind_ok]
  dsimp only
  have : ∑ j ∈ Finset.range n, (if j = i then (1 : K) else 0) = 1 := by
    rw [Finset.sum_ite_eq']; simp [hi]
  rw [sum_tab, this, mapM_fdiv _ one_ne_zero]
  simp [tab, Function.comp_def]

/-! ### Wachspress weights in polygons -/

section order
variable [LinearOrder K] [IsStrictOrderedRing K]

theorem areaOf_eq_leftOf (n : ℕ) (v : ℕ → P2 K) (uv : P2 K) {i : ℕ} (hi : i < n) :
    areaOf n v uv i = leftOf n v (nextIx n i) uv / 2 := by
  unfold leftOf areaOf area2
  have : (nextIx n i + n - 1) % n = i := prevIx_nextIx hi
  rw [this]
  simp only [P2.sub_x, P2.sub_y]
  congr 1; ring

theorem areaOf_prev (n : ℕ) (v : ℕ → P2 K) (uv : P2 K) {i : ℕ} (hi : i < n) :
    areaOf n v uv (prevIx n i) = leftOf n v i uv / 2 := by
  rw [areaOf_eq_leftOf n v uv (prevIx_lt (by omega)), nextIx_prevIx hi]

/-- corner triangle area (twice) -/
def cornerArea (n : ℕ) (v : ℕ → P2 K) (i : ℕ) : K := leftOf n v i (v (nextIx n i))

theorem weightOf_wachspress {n : ℕ} (hn : 3 ≤ n) (v : ℕ → P2 K) (uv : P2 K) {i : ℕ} (hi : i < n) :
    weightOf (fun _ => 1) n v uv i =
      cornerArea n v i / 2 * prodBut n (areaOf n v uv) (fun j => j = i ∨ j = prevIx n i) := by
  unfold weightOf
  set A := areaOf n v uv with hA
  have hpn := prev_ne (by omega) hi
  have k1 : prodBut n A (· = i) = A (prevIx n i) * prodBut n A (fun j => j = i ∨ j = prevIx n i) :=
    prodBut_split A (prevIx_lt (by omega)) hpn
  have k2 : prodBut n A (· = prevIx n i) = A i * prodBut n A (fun j => j = i ∨ j = prevIx n i) := by
    rw [prodBut_split A hi hpn.symm]
    unfold prodBut
    congr 1
    apply Finset.prod_congr rfl
    intro j _
    simp [or_comm]
  rw [k1, k2]
  have a1 : A (prevIx n i) = ((uv - v (prevIx n i)).x * (uv - v i).y - (uv - v (prevIx n i)).y * (uv - v i).x) / 2 := by
    simp only [hA, areaOf, nextIx_prevIx hi]
  have a2 : A i = ((uv - v i).x * (uv - v (nextIx n i)).y - (uv - v i).y * (uv - v (nextIx n i)).x) / 2 := rfl
  have a3 : bOf n v uv i = ((uv - v (prevIx n i)).x * (uv - v (nextIx n i)).y - (uv - v (prevIx n i)).y * (uv - v (nextIx n i)).x) / 2 := rfl
  have a4 : cornerArea n v i = leftOf n v i (v (nextIx n i)) := rfl
  rw [a1, a2, a3, a4]
  unfold leftOf area2
  rw [show (i + n - 1) % n = prevIx n i from rfl]
  simp only [P2.sub_x, P2.sub_y]
  ring

/-- The normalizing sum. -/
theorem weights_sum {n : ℕ} (hn : 3 ≤ n) (r : P2 K → K) (v : ℕ → P2 K) (uv : P2 K) :
    ∑ i ∈ Finset.range n, weightOf r n v uv i =
      ∑ i ∈ Finset.range n, r (uv - v i) *
        (cornerArea n v i / 2 * prodBut n (areaOf n v uv) (fun j => j = i ∨ j = prevIx n i)) := by
  set A := areaOf n v uv with hA
  have e1 : ∑ i ∈ Finset.range n, weightOf r n v uv i =
      ∑ i ∈ Finset.range n, (r (uv - v (prevIx n i)) * prodBut n A (· = prevIx n i)) +
      ∑ i ∈ Finset.range n, (r (uv - v (nextIx n i)) * prodBut n A (· = i)) -
      ∑ i ∈ Finset.range n, (r (uv - v i) * bOf n v uv i * prodBut n A (fun j => j = i ∨ j = prevIx n i)) := by
    rw [← Finset.sum_add_distrib, ← Finset.sum_sub_distrib]
    rfl
  have e2 : ∑ i ∈ Finset.range n, (r (uv - v (prevIx n i)) * prodBut n A (· = prevIx n i)) =
      ∑ i ∈ Finset.range n, (r (uv - v i) * prodBut n A (· = i)) :=
    sum_range_prev (by omega) (fun i => r (uv - v i) * prodBut n A (· = i))
  have e3 : ∑ i ∈ Finset.range n, (r (uv - v (nextIx n i)) * prodBut n A (· = i)) =
      ∑ i ∈ Finset.range n, (r (uv - v i) * prodBut n A (· = prevIx n i)) := by
    rw [← sum_range_prev (by omega)]
    apply Finset.sum_congr rfl
    intro i hi
    change r (uv - v (nextIx n (prevIx n i))) * prodBut n A (· = prevIx n i) = _
    rw [nextIx_prevIx (Finset.mem_range.mp hi)]
  rw [e1, e2, e3, ← Finset.sum_add_distrib, ← Finset.sum_sub_distrib]
  apply Finset.sum_congr rfl
  intro i hi
  have := weightOf_wachspress hn v uv (Finset.mem_range.mp hi)
  rw [← hA] at this
  rw [← this]
  unfold weightOf
  rw [← hA]; ring

theorem cornerArea_pos {n : ℕ} (hn : 3 ≤ n) {v : ℕ → P2 K} (hc : StrictConvex n v) {i : ℕ} (hi : i < n) :
    0 < cornerArea n v i :=
  hc i hi _ (nextIx_lt (by omega)) (next_ne (by omega) hi) (next_ne_prev hn hi)

theorem weightOf_nonneg {n : ℕ} (hn : 3 ≤ n) {v : ℕ → P2 K} (hc : StrictConvex n v) {uv : P2 K}
    (hin : InsideClosed n v uv) {i : ℕ} (hi : i < n) : 0 ≤ weightOf (fun _ => 1) n v uv i := by
  rw [weightOf_wachspress hn v uv hi]
  apply mul_nonneg (by have := cornerArea_pos hn hc hi; positivity)
  apply prodBut_nonneg
  intro j hj
  rw [areaOf_eq_leftOf n v uv hj]
  have := hin _ (nextIx_lt (n := n) (i := j) (j := 1) (by omega))
  positivity

/-- A point of the closed polygon on the line of a side is on the side. -/
theorem exists_sidePoint {n : ℕ} (hn : 3 ≤ n) {v : ℕ → P2 K} (hc : StrictConvex n v) {uv : P2 K}
    (hin : InsideClosed n v uv) {i : ℕ} (hi : i < n) (h0 : leftOf n v i uv = 0) :
    ∃ s, 0 ≤ s ∧ s ≤ 1 ∧ uv = sidePoint n v i s := by
  have hC := cornerArea_pos hn hc hi
  -- local coordinate along the side
  set a := v (prevIx n i) with ha
  set b := v i with hb
  have hab : (b - a) ≠ 0 := by
    intro h
    have : b = a := sub_eq_zero.mp h
    unfold cornerArea leftOf area2 at hC
    rw [show (i + n - 1) % n = prevIx n i from rfl, ← ha, ← hb, this] at hC
    simp at hC
  have hpos : 0 < P2.dot (b - a) (b - a) := by
    unfold P2.dot
    by_contra hcon
    apply hab
    have hx : (b - a).x = 0 := by nlinarith [mul_self_nonneg (b - a).x, mul_self_nonneg (b - a).y]
    have hy : (b - a).y = 0 := by nlinarith [mul_self_nonneg (b - a).x, mul_self_nonneg (b - a).y]
    exact P2.ext hx hy
  set s := P2.dot (uv - a) (b - a) / P2.dot (b - a) (b - a) with hs
  have hl0 : (b - a).x * (uv - a).y - (b - a).y * (uv - a).x = 0 := by
    simpa [leftOf, area2, ← ha, ← hb, show (i + n - 1) % n = prevIx n i from rfl] using h0
  have huv : uv = sidePoint n v i s := by
    have key : ∀ w d : P2 K, 0 < P2.dot d d → d.x * w.y - d.y * w.x = 0 →
        w = (P2.dot w d / P2.dot d d) • d := by
      intro w d hd h
      have hd' := hd.ne'
      ext
      · rw [P2.smul_x, div_mul_eq_mul_div, eq_div_iff hd']
        simp only [P2.dot] at *; linear_combination -d.y * h
      · rw [P2.smul_y, div_mul_eq_mul_div, eq_div_iff hd']
        simp only [P2.dot] at *; linear_combination d.x * h
    have h1 := key (uv - a) (b - a) hpos hl0
    rw [← hs] at h1
    unfold sidePoint
    rw [show (i + n - 1) % n = prevIx n i from rfl, ← ha, ← hb]
    have : uv = a + s • (b - a) := by rw [← h1]; abel
    rw [this]; module
  refine ⟨s, ?_, ?_, huv⟩
  · -- the previous side
    have hp := hin (prevIx n i) (prevIx_lt (by omega))
    rw [huv] at hp
    unfold sidePoint at hp
    rw [leftOf_comb2 n v _ (by ring), show (i + n - 1) % n = prevIx n i from rfl, leftOf_self] at hp
    have hv : 0 < leftOf n v (prevIx n i) (v i) := by
      have := cornerArea_pos hn hc (prevIx_lt (n := n) (i := i) (j := 1) (by omega))
      unfold cornerArea at this
      rwa [nextIx_prevIx hi] at this
    by_contra hneg
    have : s < 0 := not_le.mp hneg
    nlinarith
  · have hp := hin (nextIx n i) (nextIx_lt (by omega))
    rw [huv] at hp
    unfold sidePoint at hp
    have e : leftOf n v (nextIx n i) (v i) = 0 := by
      have := leftOf_prev n v (nextIx n i)
      rwa [show (nextIx n i + n - 1) % n = i from prevIx_nextIx hi] at this
    rw [leftOf_comb2 n v _ (by ring), e, show (i + n - 1) % n = prevIx n i from rfl] at hp
    have hv : 0 < leftOf n v (nextIx n i) (v (prevIx n i)) := by
      apply hc _ (nextIx_lt (by omega)) _ (prevIx_lt (by omega)) (next_ne_prev hn hi).symm
      rw [show (nextIx n i + n - 1) % n = i from prevIx_nextIx hi]
      exact prev_ne (by omega) hi
    by_contra hneg
    have : 1 < s := not_le.mp hneg
    nlinarith

/-- A point of the closed polygon on side `i` but different from its end is strictly inside of all
sides other than `i` and its predecessor. -/
theorem leftOf_pos_of_ne {n : ℕ} (hn : 3 ≤ n) {v : ℕ → P2 K} (hc : StrictConvex n v) {i j : ℕ} (hi : i < n)
    (hj : j < n) (h1 : j ≠ i) {s : K} (h0 : 0 ≤ s) (hs : s ≤ 1) (hp : j = prevIx n i → s ≠ 0)
    (hx : j = nextIx n i → s ≠ 1) : 0 < leftOf n v j (sidePoint n v i s) := by
  unfold sidePoint
  rw [leftOf_comb2 n v _ (by ring), show (i + n - 1) % n = prevIx n i from rfl]
  have g1 : 0 ≤ leftOf n v j (v (prevIx n i)) := hc.nonneg hj (prevIx_lt (by omega))
  have g2 : 0 ≤ leftOf n v j (v i) := hc.nonneg hj hi
  by_cases hjp : j = prevIx n i
  · have : 0 < s := lt_of_le_of_ne h0 (Ne.symm (hp hjp))
    have : 0 < leftOf n v j (v i) := by
      apply hc j hj i hi h1.symm
      rw [hjp]
      intro h
      have h' : i = prevIx n (prevIx n i) := h
      have a := prevIx_eq hi
      have b := prevIx_eq (prevIx_lt (n := n) (i := i) (j := 1) (by omega))
      rw [a] at b; rw [a] at h'
      split_ifs at * <;> omega
    have : 0 < s * leftOf n v j (v i) := by positivity
    have : 0 ≤ (1 - s) * leftOf n v j (v (prevIx n i)) := mul_nonneg (by linarith) g1
    linarith
  · by_cases hjn : j = nextIx n i
    · have : 0 < 1 - s := by have := lt_of_le_of_ne hs (hx hjn); linarith
      have : 0 < leftOf n v j (v (prevIx n i)) := by
        apply hc j hj _ (prevIx_lt (by omega)) (Ne.symm hjp)
        rw [hjn, show (nextIx n i + n - 1) % n = i from prevIx_nextIx hi]
        exact prev_ne (by omega) hi
      have : 0 < (1 - s) * leftOf n v j (v (prevIx n i)) := by positivity
      have : 0 ≤ s * leftOf n v j (v i) := mul_nonneg h0 g2
      linarith
    · have k1 : 0 < leftOf n v j (v (prevIx n i)) := by
        apply hc j hj _ (prevIx_lt (by omega)) (Ne.symm hjp)
        intro h
        apply h1
        have h' : prevIx n i = prevIx n j := h
        rw [← nextIx_prevIx hi, h', nextIx_prevIx hj]
      have k2 : 0 < leftOf n v j (v i) := by
        apply hc j hj i hi h1.symm
        intro h
        have h' : i = prevIx n j := h
        apply hjn
        rw [h', nextIx_prevIx hj]
      rcases eq_or_lt_of_le h0 with h | h
      · rw [← h]; simpa using k1
      · have : 0 < s * leftOf n v j (v i) := by positivity
        have : 0 ≤ (1 - s) * leftOf n v j (v (prevIx n i)) := mul_nonneg (by linarith) g1
        linarith

theorem weights_sum_pos {n : ℕ} (hn : 3 ≤ n) {v : ℕ → P2 K} (hc : StrictConvex n v) {uv : P2 K}
    (hin : InsideClosed n v uv) {r : P2 K → K} (hr : ∀ i < n, 0 < r (uv - v i)) :
    0 < ∑ i ∈ Finset.range n, weightOf r n v uv i := by
  rw [weights_sum hn]
  apply Finset.sum_pos'
  · intro i hi
    have hi := Finset.mem_range.mp hi
    have := weightOf_nonneg hn hc hin hi
    rw [weightOf_wachspress hn v uv hi] at this
    exact mul_nonneg (hr i hi).le this
  · have key : ∃ i < n, ∀ j < n, j ≠ i → j ≠ prevIx n i → 0 < leftOf n v (nextIx n j) uv := by
      by_cases hall : ∀ j < n, 0 < leftOf n v j uv
      · exact ⟨0, by omega, fun j _ _ _ => hall _ (nextIx_lt (by omega))⟩
      · push Not at hall
        obtain ⟨k, hk, hk0⟩ := hall
        obtain ⟨s, h0, h1, rfl⟩ := exists_sidePoint hn hc hin hk (le_antisymm hk0 (hin k hk))
        by_cases hs : s = 1
        · refine ⟨k, hk, fun j hj hji hjp => ?_⟩
          apply leftOf_pos_of_ne hn hc hk (nextIx_lt (by omega)) _ h0 h1 (fun _ => by rw [hs]; exact one_ne_zero)
          · intro h; exfalso; apply hji
            rw [← prevIx_nextIx hj, h, prevIx_nextIx hk]
          · intro h; apply hjp; rw [← h, prevIx_nextIx hj]
        · refine ⟨prevIx n k, prevIx_lt (by omega), fun j hj hji hjp => ?_⟩
          apply leftOf_pos_of_ne hn hc hk (nextIx_lt (by omega)) _ h0 h1 _ (fun _ => hs)
          · intro h; apply hji; rw [← h, prevIx_nextIx hj]
          · intro h; exfalso; apply hjp
            rw [← h, prevIx_nextIx hj]
    obtain ⟨i, hi, h⟩ := key
    refine ⟨i, Finset.mem_range.mpr hi, ?_⟩
    apply mul_pos (hr i hi)
    apply mul_pos (by have := cornerArea_pos hn hc hi; positivity)
    apply prodBut_pos
    intro j hj hn'
    push Not at hn'
    rw [areaOf_eq_leftOf n v uv hj]
    have := h j hj hn'.1 hn'.2
    positivity

end order

end Param

end Transfinite
