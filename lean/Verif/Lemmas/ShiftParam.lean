import Verif.Lemmas.Shift
import Verif.Lemmas.Barycentric
import Verif.Lemmas.PatchUpdate

/-! The parameterizations over a domain and a turned one. -/

namespace Transfinite

open Spec

/-- A similarity of the parameter plane: `(x, y) ↦ (c x - s y, s x + c y)`, followed by a translation. -/
structure Turn (K : Type) [Field K] where
  c : K
  s : K
  shift : P2 K
  ne : c * c + s * s ≠ 0

namespace Turn

variable {K : Type} [Field K]

/-- The image of a vector. -/
def lin (T : Turn K) (p : P2 K) : P2 K := ⟨T.c * p.x - T.s * p.y, T.s * p.x + T.c * p.y⟩

/-- The image of a point. -/
def pt (T : Turn K) (p : P2 K) : P2 K := T.lin p + T.shift

/-- The square of the scaling. -/
def q (T : Turn K) : K := T.c * T.c + T.s * T.s

variable (T : Turn K)

theorem pt_sub (a b : P2 K) : T.pt a - T.pt b = T.lin (a - b) := by
  ext <;> simp only [pt, lin, P2.sub_x, P2.sub_y, P2.add_x, P2.add_y] <;> ring

theorem dot (a b : P2 K) : P2.dot (T.lin a) (T.lin b) = T.q * P2.dot a b := by
  simp only [P2.dot, lin, q]
  ring

theorem det (a b : P2 K) : (T.lin a).x * (T.lin b).y - (T.lin a).y * (T.lin b).x = T.q * (a.x * b.y - a.y * b.x) := by
  simp only [lin, q]
  ring

end Turn

theorem fdiv_mul {K : Type} [Field K] [DecidableEq K] {q : K} (h : q ≠ 0) (x y : K) : fdiv (q * x) (q * y) = fdiv x y := by
  unfold fdiv
  by_cases hy : y = 0
  · rw [if_pos hy, if_pos (by rw [hy, mul_zero])]
  · rw [if_neg hy, if_neg (mul_ne_zero h hy), mul_div_mul_left _ _ h]

theorem prod_sh {α : Type} [CommMonoid α] {n k : ℕ} (hn : 0 < n) (f : ℕ → α) : ∏ i ∈ Finset.range n, f (sh n k i) = ∏ i ∈ Finset.range n, f i := by
  refine Finset.prod_nbij' (sh n k) (unsh n k) (fun i _ => Finset.mem_range.mpr (sh_lt hn)) (fun i _ => Finset.mem_range.mpr (unsh_lt hn)) (fun i hi => ?_) (fun i hi => ?_) fun i _ => rfl
  · exact unsh_sh hn (Finset.mem_range.mp hi)
  · exact sh_unsh hn (Finset.mem_range.mp hi)

theorem sh_inj {n k i j : ℕ} (hi : i < n) (hj : j < n) (h : sh n k i = sh n k j) : i = j := by
  have hn : 0 < n := by omega
  rw [← unsh_sh hn hi (k := k), h, unsh_sh hn hj]

/-- The sides of `d'`, turned by `T`, are those of `d`, with side `i` of `d'` on side `i + k` of `d`. -/
structure Turned {K : Type} [Field K] (T : Turn K) (n k : ℕ) (d d' : Domain K) (v a b : ℕ → P2 K) : Prop where
  n1 : d.n = n
  n2 : d'.n = n
  l1 : d.vertices.length = n
  l2 : d'.vertices = tab n v
  vert : ∀ i < n, vget d.vertices (sh n k i) = .ok (T.pt (v i))
  du : ∀ i < n, vget d.du (sh n k i) = .ok (T.lin (a i))
  du' : ∀ i < n, vget d'.du i = .ok (a i)
  dv : ∀ i < n, vget d.dv (sh n k i) = .ok (T.lin (b i))
  dv' : ∀ i < n, vget d'.dv i = .ok (b i)

namespace Turned

variable {K : Type} [Field K] [LinearOrder K] {T : Turn K} {n k i : ℕ} {d d' : Domain K} {v a b : ℕ → P2 K}

theorem vert' (h : Turned T n k d d' v a b) (hi : i < n) : vget d'.vertices i = .ok (v i) := by
  rw [h.l2, vget_tab _ hi]

theorem toLocal (h : Turned T n k d d' v a b) (hi : i < n) (w : P2 K) : d.toLocal (sh n k i) (T.lin w) = d'.toLocal i w := by
  unfold Domain.toLocal
  rw [h.du i hi, h.dv i hi, h.du' i hi, h.dv' i hi]
  simp only [M_bind_ok, T.dot, fdiv_mul (show T.q ≠ 0 from T.ne)]

variable [Libm K]

theorem bilinear (h : Turned T n k d d' v a b) (hn : 2 ≤ n) (hi : i < n) (ε : K) (uv : P2 K) :
    Param.bilinearMap ε d (sh n k i) (T.pt uv) = Param.bilinearMap ε d' i uv ∧ Param.bilinearSide ε d (sh n k i) (T.pt uv) = Param.bilinearSide ε d' i uv := by
  have h0 : 0 < n := by omega
  unfold Param.bilinearMap Param.bilinearSide
  dsimp only
  rw [h.l1, h.l2, length_tab, prev_sh hn, prev_sh (show 1 ≤ n by omega), next_sh]
  rw [h.vert i hi, h.vert _ (prevIx_lt h0), h.vert _ (prevIx_lt h0), h.vert _ (nextIx_lt h0)]
  rw [vget_tab _ hi, vget_tab _ (prevIx_lt h0), vget_tab _ (prevIx_lt h0), vget_tab _ (nextIx_lt h0)]
  simp only [M_bind_ok, T.pt_sub, h.toLocal hi]
  exact ⟨trivial, trivial⟩

theorem interconnected (h : Turned T n k d d' v a b) (hn : 2 ≤ n) (hi : i < n) (ε : K) (uv : P2 K) :
    Param.interconnectedMap ε d (sh n k i) (T.pt uv) = Param.interconnectedMap ε d' i uv := by
  have h0 : 0 < n := by omega
  unfold Param.interconnectedMap
  dsimp only
  rw [h.l1, h.l2, length_tab, prev_sh (show 1 ≤ n by omega), next_sh]
  rw [(h.bilinear hn hi ε uv).1, (h.bilinear hn (prevIx_lt h0) ε uv).1, (h.bilinear hn (nextIx_lt h0) ε uv).1]

/-! ### Barycentric coordinates -/

theorem prodBut_sh (h0 : 0 < n) (A : ℕ → K) (Q : ℕ → Prop) [DecidablePred Q] (R : ℕ → Prop) [DecidablePred R] (hQ : ∀ j < n, Q (sh n k j) ↔ R j) :
    Param.prodBut n A Q = Param.prodBut n (fun j => A (sh n k j)) R := by
  unfold Param.prodBut
  rw [← prod_sh h0 (k := k)]
  refine Finset.prod_congr rfl fun j hj => ?_
  rw [if_congr (hQ j (Finset.mem_range.mp hj)) rfl rfl]

theorem prodBut_congr {A B : ℕ → K} (h : ∀ j < n, A j = B j) (Q : ℕ → Prop) [DecidablePred Q] : Param.prodBut n A Q = Param.prodBut n B Q := by
  unfold Param.prodBut
  refine Finset.prod_congr rfl fun j hj => ?_
  rw [h j (Finset.mem_range.mp hj)]

theorem weight {w v : ℕ → P2 K} (h0 : 0 < n) (hw : ∀ i < n, w (sh n k i) = T.pt (v i)) (hT : T.q = 1) (uv : P2 K) (hi : i < n) :
    Param.weightOf (fun _ => 1) n w (T.pt uv) (sh n k i) = Param.weightOf (fun _ => 1) n v uv i := by
  have harea : ∀ j < n, Param.areaOf n w (T.pt uv) (sh n k j) = Param.areaOf n v uv j := fun j hj => by
    unfold Param.areaOf
    rw [next_sh, hw j hj, hw _ (nextIx_lt h0), T.pt_sub, T.pt_sub, T.det, hT, one_mul]
  have hb : Param.bOf n w (T.pt uv) (sh n k i) = Param.bOf n v uv i := by
    unfold Param.bOf
    rw [next_sh, prev_sh (show 1 ≤ n by omega), hw _ (prevIx_lt h0), hw _ (nextIx_lt h0), T.pt_sub, T.pt_sub, T.det, hT, one_mul]
  have hp := prevIx_lt h0 (i := i) (j := 1)
  unfold Param.weightOf
  rw [hb, prev_sh (show 1 ≤ n by omega),
    prodBut_sh h0 _ (fun j => j = sh n k (prevIx n i)) (fun j => j = prevIx n i) (fun j hj => ⟨sh_inj hj hp, fun e => by rw [e]⟩),
    prodBut_sh h0 _ (fun j => j = sh n k i) (fun j => j = i) (fun j hj => ⟨sh_inj hj hi, fun e => by rw [e]⟩),
    prodBut_sh h0 _ (fun j => j = sh n k i ∨ j = sh n k (prevIx n i)) (fun j => j = i ∨ j = prevIx n i)
      (fun j hj => ⟨Or.imp (sh_inj hj hi) (sh_inj hj hp), Or.imp (fun e => by rw [e]) (fun e => by rw [e])⟩)]
  rw [prodBut_congr harea, prodBut_congr harea, prodBut_congr harea]

theorem barycentric (h : Turned T n k d d' v a b) (hn : 3 ≤ n) (hT : T.q = 1) {ε : K} (hε1 : ε ≤ 1) (uv : P2 K) :
    Alike (Rot n k) (Param.barycentric ε .wachspress d (T.pt uv)) (Param.barycentric ε .wachspress d' uv) := by
  have h0 : 0 < n := by omega
  haveI : Inhabited (P2 K) := ⟨0⟩
  obtain ⟨w, hw⟩ := exists_tab d.vertices
  rw [h.l1] at hw
  have hwv : ∀ i < n, w (sh n k i) = T.pt (v i) := fun i hi => by
    have := h.vert i hi
    rw [hw, vget_tab _ (sh_lt h0)] at this
    exact Except.ok.inj this
  unfold Param.barycentric
  rw [h.l1, hw, h.l2, length_tab]
  have hr : (Param.baryRadius (K := K) .wachspress) = fun _ => 1 := rfl
  rw [hr]
  have hs : ∑ i ∈ Finset.range n, Param.weightOf (fun _ => 1) n w (T.pt uv) i = ∑ i ∈ Finset.range n, Param.weightOf (fun _ => 1) n v uv i := by
    rw [← sum_sh h0 (k := k)]
    exact Finset.sum_congr rfl fun i hi => weight h0 hwv hT uv (Finset.mem_range.mp hi)
  by_cases e : ∑ i ∈ Finset.range n, Param.weightOf (fun _ => 1) n v uv i = 0
  · rw [Param.baryWith_zero (by omega) w _ (fun _ _ => hε1) (hs.trans e), Param.baryWith_zero (by omega) v _ (fun _ _ => hε1) e]
    trivial
  · rw [Param.baryWith_eq (by omega) w _ (fun _ _ => hε1) (fun h => e (hs.symm.trans h)), Param.baryWith_eq (by omega) v _ (fun _ _ => hε1) e]
    refine Rot.of_tab fun i hi => ?_
    rw [weight h0 hwv hT uv hi, hs]

theorem norm (hT : T.q = 1) (p : P2 K) : (T.lin p).norm = p.norm := by
  unfold P2.norm
  rw [T.dot, hT, one_mul]

theorem dot_normalize (hT : T.q = 1) (p : P2 K) : (T.lin p).normalize = T.lin <$> p.normalize := by
  unfold P2.normalize
  rw [norm hT]
  split_ifs
  · rfl
  · rw [M_map_ok]
    congr 1
    ext <;> simp only [Turn.lin, P2.smul_x, P2.smul_y] <;> ring

theorem edgeLength (h : Turned T n k d d' v a b) (hT : T.q = 1) (hi : i < n) : d.edgeLength (sh n k i) = d'.edgeLength i := by
  have h0 : 0 < n := by omega
  unfold Domain.edgeLength
  rw [h.n1, h.n2, prev_sh (show 1 ≤ n by omega), h.vert i hi, h.vert _ (prevIx_lt h0), h.vert' hi, h.vert' (prevIx_lt h0)]
  simp only [M_bind_ok, T.pt_sub, norm hT]

theorem angle (h : Turned T n k d d' v a b) (hT : T.q = 1) (hi : i < n) : d.angle (sh n k i) = d'.angle i := by
  have h0 : 0 < n := by omega
  unfold Domain.angle
  rw [h.n1, h.n2, prev_sh (show 1 ≤ n by omega), next_sh, h.vert i hi, h.vert _ (prevIx_lt h0), h.vert _ (nextIx_lt h0), h.vert' hi, h.vert' (prevIx_lt h0),
    h.vert' (nextIx_lt h0)]
  simp only [M_bind_ok, T.pt_sub, dot_normalize hT]
  cases (v (prevIx n i) - v i).normalize with
  | error e => rfl
  | ok x =>
    cases (v (nextIx n i) - v i).normalize with
    | error e => rfl
    | ok y =>
      simp only [M_map_ok, M_bind_ok, T.dot, hT, one_mul]

theorem baryMapWith (h : Turned T n k d d' v a b) (hT : T.q = 1) (hi : i < n) (ε : K) {l l' : List K} (hl : Rot n k l l') (uv : P2 K) :
    Param.baryMapWith ε d l (sh n k i) (T.pt uv) = Param.baryMapWith ε d' l' i uv := by
  have h0 : 0 < n := by omega
  have hp := prevIx_lt h0 (i := i) (j := 1)
  have hq := nextIx_lt h0 (i := i) (j := 1)
  unfold Param.baryMapWith
  dsimp only
  rw [h.l1, h.l2, length_tab, prev_sh (show 1 ≤ n by omega), next_sh, hl.vget hi, hl.vget hp]
  simp only [h.vert i hi, h.vert _ hp, vget_tab _ hi, vget_tab _ hp, h.angle hT hi, h.angle hT hp, h.edgeLength hT hp, h.edgeLength hT hq, T.pt_sub, h.toLocal hp, h.toLocal hq, M_bind_ok]

theorem baryMap (h : Turned T n k d d' v a b) (hn : 3 ≤ n) (hT : T.q = 1) {ε : K} (hε1 : ε ≤ 1) (hi : i < n) (uv : P2 K) :
    Alike (· = ·) (Param.baryMap ε .wachspress d (sh n k i) (T.pt uv)) (Param.baryMap ε .wachspress d' i uv) := by
  unfold Param.baryMap
  exact (h.barycentric hn hT hε1 uv).bind fun l l' _ _ hl => Alike.of_eq (h.baryMapWith hT hi ε hl uv)

theorem constrained (h : Turned T n k d d' v a b) (hn : 3 ≤ n) (hT : T.q = 1) {ε : K} (hε1 : ε ≤ 1) (hi : i < n) (uv : P2 K) :
    Alike (· = ·) (Param.constrainedMap ε d (sh n k i) (T.pt uv)) (Param.constrainedMap ε d' i uv) := by
  have h0 : 0 < n := by omega
  unfold Param.constrainedMap Param.constrainedMapWith
  dsimp only
  rw [h.l1, h.l2, length_tab, prev_sh (show 1 ≤ n by omega), next_sh]
  refine (h.baryMap hn hT hε1 hi uv).bindEq fun x _ _ => ?_
  refine (h.baryMap hn hT hε1 (prevIx_lt h0) uv).bindEq fun y _ _ => ?_
  refine (h.baryMap hn hT hε1 (nextIx_lt h0) uv).bindEq fun z _ _ => ?_
  exact Alike.refl _

/-! ### Parallel distances -/

theorem loop_fold {α β : Type} (n : ℕ) (f : ℕ → M α) (op : β → α → β) (s : β) :
    forLoop n (fun i m => do let x ← f i; .ok (op m x)) s = (do let l ← forLoop n (fun i (l : List α) => do let x ← f i; .ok (l ++ [x])) []; .ok (l.foldl op s) : M β) := by
  induction n with
  | zero => rfl
  | succ n ih =>
    rw [forLoop_succ, ih, forLoop_succ]
    cases forLoop n (fun i (l : List α) => (do let x ← f i; .ok (l ++ [x]) : M (List α))) [] with
    | error e => rfl
    | ok l =>
      rw [M_bind_ok, M_bind_ok, M_bind_ok]
      cases f n with
      | error e => rfl
      | ok x => rw [M_bind_ok, M_bind_ok, M_bind_ok, List.foldl_append, List.foldl_cons, List.foldl_nil]

theorem larger_eq (m x : K) : (if x > m then x else m) = max m x := by
  by_cases h : x > m
  · rw [if_pos h, max_eq_right h.le]
  · rw [if_neg h, max_eq_left (not_lt.mp h)]

theorem maxDistance (h : Turned T n k d d' v a b) (hi : i < n) : Alike (· = ·) (Param.maxDistance d (sh n k i)) (Param.maxDistance d' i) := by
  unfold Param.maxDistance
  rw [h.vert i hi, h.vert' hi, M_bind_ok, M_bind_ok, h.l1, h.l2, length_tab, ← h.l2]
  have e : ∀ (D : Domain K) (i : ℕ) (u : P2 K), (fun j (m : K) => (do
      let p ← vget D.vertices j
      let l ← D.toLocal i (p - u)
      .ok (if l.y > m then l.y else m) : M K)) = fun j m => (do let x ← (do let p ← vget D.vertices j; let l ← D.toLocal i (p - u); .ok l.y); .ok (max m x)) := by
    intro D i u
    funext j m
    cases vget D.vertices j with
    | error e => rfl
    | ok p =>
      rw [M_bind_ok, M_bind_ok]
      cases D.toLocal i (p - u) with
      | error e => rfl
      | ok l =>
        rw [M_bind_ok, M_bind_ok, M_bind_ok, larger_eq]
  rw [e, e, loop_fold n _ max, loop_fold n _ max]
  refine Alike.bind (Alike.push (k := k) fun j hj => ?_) fun l l' _ _ hl => ?_
  · rw [h.vert j hj, h.vert' hj, M_bind_ok, M_bind_ok, T.pt_sub, h.toLocal hi]
    exact Alike.refl _
  · exact (hl.perm.foldl_eq 0).symm

theorem multipliers (h : Turned T n k d d' v a b) : Alike (Rot n k) (Param.parallelMultipliers d) (Param.parallelMultipliers d') := by
  unfold Param.parallelMultipliers
  rw [h.l1, h.l2, length_tab]
  have e : ∀ D : Domain K, (fun i (l : List K) => (do
      let m ← Param.maxDistance D i
      let x ← fdiv 1 m
      .ok (l ++ [x]) : M (List K))) = fun i l => (do let x ← (do let m ← Param.maxDistance D i; fdiv 1 m); .ok (l ++ [x])) := by
    intro D
    funext i l
    cases Param.maxDistance D i <;> rfl
  rw [e, e]
  refine Alike.push fun i hi => ?_
  exact (h.maxDistance hi).bindEq fun m _ _ => Alike.refl _

theorem parallel (h : Turned T n k d d' v a b) (hn : 2 ≤ n) (hi : i < n) (ε : K) {m m' : List K} (hm : Rot n k m m') (uv : P2 K) :
    Param.parallelMap ε m d (sh n k i) (T.pt uv) = Param.parallelMap ε m' d' i uv := by
  unfold Param.parallelMap
  rw [(h.bilinear hn hi ε uv).2, h.vert i hi, h.vert' hi, hm.vget hi]
  simp only [M_bind_ok, T.pt_sub, h.toLocal hi]

/-- The parameterizations of the surface classes. -/
theorem mapRaw (h : Turned T n k d d' v a b) (hn : 3 ≤ n) {kind : PatchKind} (hT : kind.regular = true → T.q = 1) {ε : K} (hε1 : ε ≤ 1) (hi : i < n)
    {m m' : List K} (hm : Rot n k m m') (uv : P2 K) :
    Alike (· = ·) (Param.mapRaw ε kind.param d m (sh n k i) (T.pt uv)) (Param.mapRaw ε kind.param d' m' i uv) := by
  cases kind with
  | sideBased => exact Alike.of_eq (h.parallel (by omega) hi ε hm uv)
  | cornerBased => exact Alike.of_eq (h.bilinear (by omega) hi ε uv).1
  | generalizedCoons => exact Alike.of_eq (h.interconnected (by omega) hi ε uv)
  | compositeRibbon => exact h.baryMap hn (hT rfl) hε1 hi uv
  | midpoint => exact h.baryMap hn (hT rfl) hε1 hi uv
  | midpointCoons => exact h.constrained hn (hT rfl) hε1 hi uv
  | c0Coons => exact h.baryMap hn (hT rfl) hε1 hi uv

theorem update (h : Turned T n k d d' v a b) (kind : PatchKind) : Alike (fun o o' => Rot n k o.mult o'.mult) (Param.update kind.param d) (Param.update kind.param d') := by
  cases kind with
  | sideBased =>
    unfold Param.update
    exact h.multipliers.bind fun m m' _ _ hm => hm
  | _ => exact Rot.nil

end Turned

end Transfinite
