import Verif.Lemmas.BiharmonicSolve
import Verif.Props.HarmonicPrecision

/-! Mean curvatures, and the points of biharmonic patches. -/

namespace Transfinite

open Domain Spec

namespace Biharmonic

variable {N : ℕ} {ts : List Tri} {bd : List ℕ} {P : ℕ → P3 ℝ}

theorem list_sum_split {α : Type} (l : List α) (p : α → Prop) [DecidablePred p] (g : α → ℝ) :
    (l.map g).sum = (l.map fun e => if p e then 0 else g e).sum + ((l.filter fun e => decide (p e)).map g).sum := by
  induction l with
  | nil => simp
  | cons a l ih =>
    rw [List.map_cons, List.sum_cons, ih, List.map_cons, List.sum_cons, List.filter_cons]
    by_cases h : p a
    · rw [if_pos h, if_pos (by simpa using h), List.map_cons, List.sum_cons]; ring
    · rw [if_neg h, if_neg (by simpa using h)]; ring

/-- The sum of an antisymmetric function over the edges is its sum over the boundary edges. -/
theorem sum_boundary (hm : OrientedManifold ts) {g : ℕ × ℕ → ℝ} (hg : ∀ e, g e.swap = - g e) :
    ((meshEdges ts).map g).sum = ((boundaryEdges ts).map g).sum := by
  rw [list_sum_split (meshEdges ts) (fun e => e.swap ∉ meshEdges ts) g]
  have : ((meshEdges ts).map fun e => if e.swap ∉ meshEdges ts then 0 else g e).sum = 0 := by
    have e1 : ((meshEdges ts).map fun e => if e.swap ∉ meshEdges ts then 0 else g e) =
        (meshEdges ts).map fun e => if e ∈ meshEdges ts ∧ e.swap ∈ meshEdges ts then g e else 0 := by
      refine List.map_congr_left fun e he => ?_
      by_cases h : e.swap ∈ meshEdges ts
      · rw [if_neg (not_not.mpr h), if_pos ⟨he, h⟩]
      · rw [if_pos h, if_neg fun q => h q.2]
    rw [e1]
    refine Harmonic.sum_edges hm (fun e => ?_) fun e _ hs => if_neg fun q => hs q.2
    rw [Prod.swap_swap, hg]
    by_cases h : e ∈ meshEdges ts ∧ e.swap ∈ meshEdges ts
    · rw [if_pos h, if_pos h.symm]
    · rw [if_neg h, if_neg fun q => h q.symm, neg_zero]
  rw [this, zero_add]
  rfl

theorem list_sum_x {α : Type} (l : List α) (f : α → P3 ℝ) : ((l.map f).sum).x = (l.map fun a => (f a).x).sum := by
  induction l with
  | nil => rfl
  | cons a l ih => rw [List.map_cons, List.sum_cons, P3.add_x, ih, List.map_cons, List.sum_cons]

theorem list_sum_y {α : Type} (l : List α) (f : α → P3 ℝ) : ((l.map f).sum).y = (l.map fun a => (f a).y).sum := by
  induction l with
  | nil => rfl
  | cons a l ih => rw [List.map_cons, List.sum_cons, P3.add_y, ih, List.map_cons, List.sum_cons]

theorem list_sum_z {α : Type} (l : List α) (f : α → P3 ℝ) : ((l.map f).sum).z = (l.map fun a => (f a).z).sum := by
  induction l with
  | nil => rfl
  | cons a l ih => rw [List.map_cons, List.sum_cons, P3.add_z, ih, List.map_cons, List.sum_cons]

theorem sum_boundary3 (hm : OrientedManifold ts) {g : ℕ × ℕ → P3 ℝ} (hg : ∀ e, g e.swap = - g e) :
    ((meshEdges ts).map g).sum = ((boundaryEdges ts).map g).sum := by
  refine P3.ext ?_ ?_ ?_
  · rw [list_sum_x, list_sum_x]; exact sum_boundary hm fun e => by rw [hg, P3.neg_x]
  · rw [list_sum_y, list_sum_y]; exact sum_boundary hm fun e => by rw [hg, P3.neg_y]
  · rw [list_sum_z, list_sum_z]; exact sum_boundary hm fun e => by rw [hg, P3.neg_z]

theorem normalized_eq (v : P3 ℝ) : normalized v = unitVec v := by
  unfold normalized unitVec
  by_cases h : v = 0
  · rw [if_pos h, h, if_neg (by simp [P3.normSqr, P3.dot])]
  · rw [if_neg h, if_pos]
    have := P3.norm_pos h
    unfold P3.normSqr
    rw [← P3.norm_mul_self]
    positivity

/-- The sides of the outline at `k`. -/
noncomputable def rimTerm (onE : ℕ → Bool) (P n : ℕ → P3 ℝ) (k a b : ℕ) : P3 ℝ := if k = a ∧ onE a = true ∧ onE b = true then wedge P n a b else 0

theorem addComponent_eq (onE : ℕ → Bool) (P n mean : ℕ → P3 ℝ) (i1 i2 i3 k : ℕ) : addComponent onE P n i1 i2 i3 mean k =
    mean k + (rimTerm onE P n k i1 i2 - rimTerm onE P n k i1 i3 + if k = i1 then P3.cross (unitVec (n i1 + n i2 + n i3)) (P i3 - P i2) else 0) := by
  have hneg : ∀ u a b : P3 ℝ, P3.cross u (a - b) = - P3.cross u (b - a) := by
    intro u a b
    ext <;> simp [P3.cross] <;> ring
  unfold addComponent rimTerm wedge
  simp only [normalized_eq]
  by_cases hk : k = i1
  · subst hk
    rw [Function.update_self, if_pos rfl]
    rw [hneg _ (P k) (P i3)]
    by_cases h1 : onE k = true
    · by_cases h2 : onE i2 = true <;> by_cases h3 : onE i3 = true <;> simp [h1, h2, h3] <;> abel
    · simp [h1]
  · rw [Function.update_of_ne hk]
    by_cases h1 : onE i1 = true
    · by_cases h2 : onE i2 = true <;> by_cases h3 : onE i3 = true <;> simp [h1, h2, h3, hk]
    · simp [h1, hk]

theorem curvature_fold (onE : ℕ → Bool) (P n mean : ℕ → P3 ℝ) (k : ℕ) : (ts.foldl (fun m t => addComponents onE P n t m) mean) k =
    mean k + cornerSum3 ts (fun a b c => P3.cross (unitVec (n a + n b + n c)) (P c - P b)) k +
      ((meshEdges ts).map fun e => rimTerm onE P n k e.1 e.2 - rimTerm onE P n k e.2 e.1).sum := by
  induction ts generalizing mean with
  | nil => simp [cornerSum3, meshEdges]
  | cons t ts ih =>
    rw [List.foldl_cons, ih]
    unfold addComponents
    rw [addComponent_eq, addComponent_eq, addComponent_eq]
    unfold cornerSum3 meshEdges
    rw [List.map_cons, List.sum_cons, List.flatMap_cons, List.map_append, List.sum_append]
    simp only [dirEdges, List.map_cons, List.map_nil, List.sum_cons, List.sum_nil]
    abel

theorem curvature_eq (hm : OrientedManifold ts) {onE : ℕ → Bool} (hE : ∀ k, IsBoundaryVertex ts k → onE k = true) (P n : ℕ → P3 ℝ) (k : ℕ) :
    (ts.foldl (fun m t => addComponents onE P n t m) (fun _ => 0)) k = ringIntegral ts P n k := by
  rw [curvature_fold, zero_add, sum_boundary3 hm (fun e => by simp only [Prod.fst_swap, Prod.snd_swap]; abel)]
  unfold ringIntegral
  congr 2
  refine List.map_congr_left fun e he => ?_
  unfold boundaryEdges at he
  rw [List.mem_filter, decide_eq_true_eq] at he
  have h1 := hE e.1 ⟨e, he.1, he.2, Or.inl rfl⟩
  have h2 := hE e.2 ⟨e, he.1, he.2, Or.inr rfl⟩
  unfold rimTerm
  simp only [h1, h2, and_true]

theorem computeCurvatures_eq (hm : OrientedManifold ts) {onE : ℕ → Bool} (hE : ∀ k, IsBoundaryVertex ts k → onE k = true) {n : ℕ → P3 ℝ}
    (ha : ∀ k < N, cellArea ts P k ≠ 0) : computeCurvatures ts (tab N (cellArea ts P)) onE P n = .ok (tab N (meanCurv ts P n)) := by
  unfold computeCurvatures
  rw [length_tab, forLoop_push N _ (meanCurv ts P n)]
  · rfl
  · intro k l hk
    rw [vget_tab _ hk, M_bind_ok, fdiv_of_ne (mul_ne_zero two_ne_zero (ha k hk)), M_bind_ok, curvature_eq hm hE]
    rfl

theorem forEach_all {α σ : Type} {f : α → σ → M σ} {l : List α} {s s' : σ} (h : forEach f l s = .ok s') : ∀ a ∈ l, ∃ x y, f a x = .ok y := by
  induction l generalizing s with
  | nil => intro a ha; simp at ha
  | cons b l ih =>
    unfold forEach at h
    obtain ⟨s1, e1, h⟩ := bind_ok h
    intro a ha
    rcases List.mem_cons.mp ha with rfl | q
    · exact ⟨_, _, e1⟩
    · exact ih h a q

theorem fdiv_ok {a b x : ℝ} (h : fdiv a b = .ok x) : b ≠ 0 := by
  intro hb
  unfold fdiv at h
  rw [if_pos hb] at h
  cases h

/-- A mesh with a degenerate triangle has no Laplace matrix. -/
theorem laplace_nondegenerate (hp : ∀ t ∈ ts, ProperTri N t) {A : ℕ → ℕ → ℝ} (h : laplaceMatrix ts (tab N P) = .ok A) : Nondegenerate ts P := by
  intro t ht
  obtain ⟨x, y, e⟩ := forEach_all h t ht
  obtain ⟨h1, h2, h3, _⟩ := hp t ht
  unfold addTriangle at e
  rw [vget_tab _ h1, M_bind_ok, vget_tab _ h2, M_bind_ok, vget_tab _ h3, M_bind_ok] at e
  dsimp only at e
  obtain ⟨v, ev, e⟩ := bind_ok e
  have := fdiv_ok ev
  unfold area3
  convert this using 2
  ext <;> simp [P3.cross] <;> ring

theorem prepare_nondegenerate (hp : ∀ t ∈ ts, ProperTri N t) {pr : Bool} {A : ℕ → ℕ → ℝ} (h : prepareSolver ts (tab N P) bd pr = .ok A) : Nondegenerate ts P := by
  unfold prepareSolver at h
  obtain ⟨L, e, _⟩ := bind_ok h
  exact laplace_nondegenerate hp e

theorem getD_tab3 {N k : ℕ} (f : ℕ → P3 ℝ) (hk : k < N) : (tab N f).getD k 0 = f k := by
  simp [List.getD, tab, hk]

/-- The vector that the mean curvatures give. -/
noncomputable def target (ts : List Tri) (V Z : ℕ → P3 ℝ) (k : ℕ) : P3 ℝ := -(meanCurv ts V (fun i => unitVec (Z i)) k • unitVec (Z k))

/-- The points of the surface: the two stages of the computation. -/
theorem surfacePoints_eq (hr : Rim N ts bd) (hm : OrientedManifold ts) (hP : Nondegenerate ts P) {onE : ℕ → Bool} (hE : ∀ k, IsBoundaryVertex ts k → onE k = true)
    {solve : ℕ → (ℕ → ℕ → ℝ) → (ℕ → P3 ℝ) → ℕ → P3 ℝ} (hs : Harmonic.Solver solve) (f g : ℕ → P3 ℝ) :
    ∃ V Z : ℕ → P3 ℝ, (∀ i ∈ bd, V i = f i ∧ Z i = g i) ∧ (∀ i < N, i ∉ bd → op ts P bd true V i = 0 ∧ op ts P bd true Z i = 0) ∧
      ((∃ x, surfacePoints solve ts (tab N P) onE bd (tab N f) (tab N g) = .ok x) → Nondegenerate ts V) ∧
      (Nondegenerate ts V → ∃ X, surfacePoints solve ts (tab N P) onE bd (tab N f) (tab N g) = .ok X ∧ (∀ i ∈ bd, X i = V i) ∧
        ∀ i < N, i ∉ bd → op ts V bd false X i = (1 / cellArea ts V i) • lap3 ts V (target ts V Z) i) := by
  obtain ⟨A, eA, hA⟩ := hr.solved hP true hs
  set V := solve (N + bd.length) A (rhs N bd (fun _ => 0) (fun i => (tab N f).getD i 0)) with hV
  set Z := solve (N + bd.length) A (rhs N bd (fun _ => 0) (fun i => (tab N g).getD i 0)) with hZ
  obtain ⟨v1, v2⟩ := hA (fun _ => 0) (fun i => (tab N f).getD i 0)
  obtain ⟨z1, z2⟩ := hA (fun _ => 0) (fun i => (tab N g).getD i 0)
  have hpts : (List.range N).map V = tab N V := rfl
  refine ⟨V, Z, fun i hi => ⟨?_, ?_⟩, fun i hi hb => ⟨v2 i hi hb, z2 i hi hb⟩, ?_, ?_⟩
  · rw [hV, v1 i hi, getD_tab3 _ (hr.lt i hi)]
  · rw [hZ, z1 i hi, getD_tab3 _ (hr.lt i hi)]
  · rintro ⟨x, e⟩
    unfold surfacePoints at e
    rw [length_tab, eA, M_bind_ok] at e
    dsimp only at e
    obtain ⟨A2, e2, _⟩ := bind_ok e
    exact prepare_nondegenerate hr.proper e2
  · intro hVn
    obtain ⟨A2, eA2, hA2⟩ := hr.solved hVn false hs
    obtain ⟨L, eL, hL⟩ := laplaceMatrix_eq hr.proper hVn
    have hpos : ∀ k < N, cellArea ts V k ≠ 0 := fun k hk => (cellArea_pos hVn (hr.used k hk)).ne'
    set H : ℕ → P3 ℝ := fun i => -((tab N (meanCurv ts V fun i => normalized (Z i))).getD i 0 • normalized (Z i)) with hH
    set LH : ℕ → P3 ℝ := fun i => ∑ j ∈ Finset.range N, ((tab N fun k => 1 / cellArea ts V k).getD i 0 * L i j) • H j with hLH
    obtain ⟨x1, x2⟩ := hA2 LH V
    refine ⟨solve (N + bd.length) A2 (rhs N bd LH V), ?_, x1, fun i hi hb => ?_⟩
    · unfold surfacePoints
      rw [length_tab, eA, M_bind_ok]
      dsimp only
      rw [← hV, ← hZ, hpts, eA2, M_bind_ok, eL, M_bind_ok, voronoiAreas_eq hr.proper hVn, M_bind_ok, inverses_tab hpos, M_bind_ok,
        computeCurvatures_eq hm hE hpos, M_bind_ok]
    · rw [x2 i hi hb, hLH]
      dsimp only
      rw [getD_tab _ hi]
      have hHt : ∀ j < N, H j = target ts V Z j := by
        intro j hj
        rw [hH]
        dsimp only
        rw [getD_tab _ hj]
        unfold target
        simp only [normalized_eq]
      refine P3.ext ?_ ?_ ?_
      · rw [P3.sum_x, P3.smul_x]
        unfold lap3
        dsimp only
        rw [← hL.row _ i hi, Finset.mul_sum]
        exact Finset.sum_congr rfl fun j hj => by rw [P3.smul_x, hHt j (Finset.mem_range.mp hj)]; ring
      · rw [P3.sum_y, P3.smul_y]
        unfold lap3
        dsimp only
        rw [← hL.row _ i hi, Finset.mul_sum]
        exact Finset.sum_congr rfl fun j hj => by rw [P3.smul_y, hHt j (Finset.mem_range.mp hj)]; ring
      · rw [P3.sum_z, P3.smul_z]
        unfold lap3
        dsimp only
        rw [← hL.row _ i hi, Finset.mul_sum]
        exact Finset.sum_congr rfl fun j hj => by rw [P3.smul_z, hHt j (Finset.mem_range.mp hj)]; ring

end Biharmonic

end Transfinite
