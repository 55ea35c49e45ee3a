import Verif.Lemmas.Smooth
import Verif.Spec.Smooth
import Verif.Props.SPatch
import Verif.Props.SuperD
import Verif.Props.GenBezier
import Verif.Props.GenBezierDegreeOne
import Verif.Lemmas.Elastic
import Verif.Lemmas.Centre

/-! # C108: smoothness of the control point based surfaces -/

namespace Transfinite

open Spec Param Real Surf
open scoped ContDiff Topology

/-- Coordinatewise analyticity. -/
theorem smoothAt_of {F : P2 ℝ → P3 ℝ} {p : P2 ℝ} (hx : Analytic2 (fun q => (F q).x) p) (hy : Analytic2 (fun q => (F q).y) p) (hz : Analytic2 (fun q => (F q).z) p) :
    SmoothAt F p := ContDiffAt.prodMk hx (ContDiffAt.prodMk hy hz)

/-- A combination of points with analytic weights is analytic. -/
theorem smoothAt_sum {s : Finset ι} {w : ι → P2 ℝ → ℝ} {c : ι → P3 ℝ} {p : P2 ℝ} (h : ∀ k ∈ s, Analytic2 (w k) p) : SmoothAt (fun q => ∑ k ∈ s, w k q • c k) p := by
  refine smoothAt_of ?_ ?_ ?_
  · simp only [P3.sum_x, P3.smul_x]
    exact Analytic2.sum fun k hk => (h k hk).mul (.const _)
  · simp only [P3.sum_y, P3.smul_y]
    exact Analytic2.sum fun k hk => (h k hk).mul (.const _)
  · simp only [P3.sum_z, P3.smul_z]
    exact Analytic2.sum fun k hk => (h k hk).mul (.const _)

theorem smoothAt_add {F G : P2 ℝ → P3 ℝ} {p : P2 ℝ} (hF : SmoothAt F p) (hG : SmoothAt G p) : SmoothAt (fun q => F q + G q) p := ContDiffAt.add hF hG

theorem smoothAt_fsum {s : Finset ι} {F : ι → P2 ℝ → P3 ℝ} {p : P2 ℝ} (h : ∀ k ∈ s, SmoothAt (F k) p) : SmoothAt (fun q => ∑ k ∈ s, F k q) p := by
  classical
  induction s using Finset.induction_on with
  | empty =>
    simp only [Finset.sum_empty]
    exact smoothAt_of (.const _) (.const _) (.const _)
  | insert a s ha ih =>
    simp only [Finset.sum_insert ha]
    exact smoothAt_add (h a (Finset.mem_insert_self a s)) (ih fun k hk => h k (Finset.mem_insert_of_mem hk))

theorem smoothAt_smul {w : P2 ℝ → ℝ} {p : P2 ℝ} (h : Analytic2 w p) (c : P3 ℝ) : SmoothAt (fun q => w q • c) p :=
  smoothAt_of (h.mul (.const _)) (h.mul (.const _)) (h.mul (.const _))

theorem smoothAt_mul {w : P2 ℝ → ℝ} {F : P2 ℝ → P3 ℝ} {p : P2 ℝ} (h : Analytic2 w p) (hF : SmoothAt F p) : SmoothAt (fun q => w q • F q) p :=
  smoothAt_of (h.mul (ContDiffAt.fst hF)) (h.mul (ContDiffAt.fst (ContDiffAt.snd hF))) (h.mul (ContDiffAt.snd (ContDiffAt.snd hF)))

namespace SPatch

variable {ε : ℝ} {arc : List (P3 ℝ) → ℝ → ℝ → ℝ} {n d : ℕ} {calls : List (Call ℝ)} {S : SPatch ℝ}

/-- C108: an S-patch is analytic in the whole domain, up to and including its boundary and its corners. -/
theorem C108_spatch (hε : ε ≤ 1) (hn : 3 ≤ n) (hd : d ≤ 20) (h : Usable ε arc n d calls S) {v : ℕ → P2 ℝ} (hv : S.dom.dom.vertices = tab n v) :
    ∃ F : P2 ℝ → P3 ℝ, ∀ uv, InsideClosed n v uv → (∃ S', S.eval ε uv = .ok (F uv, S')) ∧ SmoothAt F uv := by
  obtain ⟨_, _, w, hcd⟩ := h.state hn
  have hw : ∀ i < n, v i = w i := fun i hi => tab_inj (hv.symm.trans hcd.vertices_eq) hi
  refine ⟨fun uv => ∑ k ∈ labels n d, multiBern n (lam n w uv) k • SPatch.value S.net (tab n k), fun uv hin => ?_⟩
  have hin' := Patch.insideClosed_congr (by omega) hw hin
  refine ⟨eval_eq hn hd h (points_value n d S) (lam_eq hcd hε hin'), smoothAt_sum fun k _ => ?_⟩
  exact (Analytic2.const _).mul (Analytic2.prod fun i _ => (Analytic2.lam hn hcd.convex hin' i).pow _)

end SPatch

namespace SuperD

variable {ε : ℝ} {arc : List (P3 ℝ) → ℝ → ℝ → ℝ} {n : ℕ} {calls : List (Call ℝ)} {S : SuperD ℝ}

/-- C108: a SuperD patch is analytic in the part of the domain that is at least as far from all sides as the tolerance. -/
theorem C108_superd (hε : 0 < ε) (hle : ε ≤ sin (2 * π / n)) (hn : 3 ≤ n) (h : Usable ε arc n calls S) {v : ℕ → P2 ℝ} (hv : S.dom.dom.vertices = tab n v) :
    ∃ Q : P2 ℝ → P3 ℝ, ∀ uv f o, InsideClosed n v uv → mapToRibbons ε .superD uv S.param = .ok (tab n f, o) → (∀ i < n, ε ≤ (f i).y) →
      (∃ S', S.eval ε uv = .ok (Q uv, S')) ∧ SmoothAt Q uv := by
  obtain ⟨hs, hi, hc, r, φ, hr, hcd⟩ := h.state hn
  obtain ⟨F, hF⟩ : ∃ F, S.cpF = tab n F := by have := exists_tab' (l := S.cpF) (by rw [hs.lenF]; omega); rwa [hs.lenF] at this
  obtain ⟨E, hE⟩ : ∃ E, S.cpE = tab n E := by have := exists_tab' (l := S.cpE) (by rw [hs.lenE]; omega); rwa [hs.lenE] at this
  obtain ⟨G, g1, _, _⟩ := ribbons_eq hn hs hc hF hE
  have hw : ∀ i < n, v i = regularVertex n r φ i := fun i hi => tab_inj (hv.symm.trans hcd.vertices_eq) hi
  obtain ⟨sp1, sp2⟩ := sin_pi_div_pos hn
  obtain ⟨_, _, _, _, hρ, hρ1, _⟩ := superD_height hn (r := r) (φ := φ) (by linarith)
  set V := regularVertex n r φ with hV
  set H := r ^ 2 * (4 * sin (π / n) ^ 2) * sin (2 * π / n) with hH
  have H0 : 0 < H := by positivity
  set x : P2 ℝ → ℕ → ℝ := fun uv j => leftOf n V (prevIx n j) uv / (leftOf n V (prevIx n j) uv + leftOf n V (nextIx n j) uv) with hx
  set y : P2 ℝ → ℕ → ℝ := fun uv j => superDScale n * (leftOf n V j uv / H) with hy
  refine ⟨fun uv => ∑ i ∈ Finset.range n, ((1 / y uv i ^ 2) / ∑ k ∈ Finset.range n, 1 / y uv k ^ 2) • bezier 4 (fun k => bezier 4 (G i k) (y uv i)) (x uv i), ?_⟩
  intro uv f o hin hf hz
  have hin' := Patch.insideClosed_congr (by omega) hw hin
  -- the second parameters
  have hb : ∀ j < n, ∃ s, bilinearSide ε S.dom.dom j uv = .ok s ∧
      s = if (leftOf n V (prevIx n j) uv + leftOf n V (nextIx n j) uv) / (r ^ 2 * (4 * sin (π / n) ^ 2)) < ε then 0 else x uv j := by
    intro j hj
    have := bilinearMap_ratio hcd hε hj (by rw [regular_leftOf_prev hn hj, regular_leftOf_next hn hj]) (hin' _ (prevIx_lt (by omega))) (hin' _ (nextIx_lt (by omega)))
    rw [regular_du hn] at this
    exact ⟨_, bilinearSide_of_map this, rfl⟩
  choose! s hs1 hs2 using hb
  obtain ⟨o', e⟩ := params_eq (show 0 < r by linarith) hcd hi hs1
  have hfy : ∀ j < n, (f j).y = y uv j := by
    rw [hf] at e
    exact fun j hj => congrArg P2.y (tab_inj (congrArg Prod.fst (Except.ok.inj e)) hj)
  have hz' : ∀ j < n, ε ≤ y uv j := fun j hj => by rw [← hfy j hj]; exact hz j hj
  have hsum : ∀ j < n, ε ≤ (leftOf n V (prevIx n j) uv + leftOf n V (nextIx n j) uv) / (r ^ 2 * (4 * sin (π / n) ^ 2)) := by
    intro j hj
    rw [le_div_iff₀ (by positivity)]
    by_cases q : 4 ≤ n
    · have := regular_neighbours hcd q hin' hj
      have k := mul_le_mul_of_nonneg_right hle (show 0 ≤ r ^ 2 * (4 * sin (π / n) ^ 2) by positivity)
      linarith
    · obtain rfl : n = 3 := by omega
      have low : ∀ k < 3, ε * H ≤ leftOf 3 V k uv := fun k hk => by
        have a := hz' k hk
        rw [hy] at a
        dsimp only at a
        have b : 0 ≤ leftOf 3 V k uv / H := div_nonneg (hin' k hk) H0.le
        rw [← le_div_iff₀ H0]
        nlinarith
      have a := low (prevIx 3 j) (prevIx_lt (by omega))
      have b := low (nextIx 3 j) (nextIx_lt (by omega))
      have hs : 1 / 2 ≤ sin (2 * π / (3 : ℕ)) := by
        rw [show 2 * π / (3 : ℕ) = π - π / 3 by push_cast; ring, sin_pi_sub, sin_pi_div_three]
        have : 1 ≤ √3 := by rw [Real.one_le_sqrt]; norm_num
        linarith
      have c : r ^ 2 * (4 * sin (π / (3 : ℕ)) ^ 2) * (1 / 2) ≤ H := mul_le_mul_of_nonneg_left hs (by positivity)
      have := mul_le_mul_of_nonneg_left c hε.le
      linarith
  have hne : ∀ j < n, leftOf n V (prevIx n j) uv + leftOf n V (nextIx n j) uv ≠ 0 := fun j hj q => by
    have := hsum j hj
    rw [q, zero_div] at this
    linarith
  have hsx : ∀ j < n, s j = x uv j := fun j hj => by rw [hs2 j hj, if_neg (not_lt.mpr (hsum j hj))]
  constructor
  · refine ⟨{ S with param := o' }, ?_⟩
    unfold eval
    rw [e, M_bind_ok]
    dsimp only
    rw [Surf.blendSide_none hε (by omega) hz', M_bind_ok, hs.n_eq, g1, sumRibbons_eq, M_bind_ok]
    congr 2
    exact Finset.sum_congr rfl fun i hi => by rw [hsx i (Finset.mem_range.mp hi)]
  have ax : ∀ j < n, Analytic2 (fun q => x q j) uv := fun j hj => (Analytic2.leftOf n _ _).div ((Analytic2.leftOf n _ _).add (Analytic2.leftOf n _ _)) (hne j hj)
  have ay : ∀ j < n, Analytic2 (fun q => y q j) uv := fun j _ => (Analytic2.const _).mul ((Analytic2.leftOf n _ _).div (.const _) H0.ne')
  have yp : ∀ j < n, 0 < y uv j := fun j hj => lt_of_lt_of_le hε (hz' j hj)
  have ai : ∀ j < n, Analytic2 (fun q => 1 / y q j ^ 2) uv := fun j hj => (Analytic2.const 1).div ((ay j hj).pow 2) (pow_ne_zero 2 (yp j hj).ne')
  have sp : 0 < ∑ k ∈ Finset.range n, 1 / y uv k ^ 2 :=
    Finset.sum_pos (fun j hj => by have := yp j (Finset.mem_range.mp hj); positivity) ⟨0, Finset.mem_range.mpr (by omega)⟩
  refine smoothAt_fsum fun i hi => ?_
  have hi := Finset.mem_range.mp hi
  refine smoothAt_mul ((ai i hi).div (Analytic2.sum fun k hk => ai k (Finset.mem_range.mp hk)) sp.ne') ?_
  exact smoothAt_fsum fun k _ => smoothAt_mul ((ax i hi).bern 4 k) (smoothAt_sum fun l _ => (ay i hi).bern 4 l)

end SuperD

namespace GB

variable {ε : ℝ} {arc : List (P3 ℝ) → ℝ → ℝ → ℝ} {n d : ℕ} {calls : List (Call ℝ)} {G : GB ℝ}

theorem factor_analytic {a b x : P2 ℝ → ℝ} {p : P2 ℝ} (d j k : ℕ) (ha : Analytic2 a p) (hb : Analytic2 b p) (hx : Analytic2 x p) :
    Analytic2 (fun q => factor d j k (a q) (b q) (x q)) p := by
  unfold factor
  split_ifs
  · exact hx.mul ha
  · exact hx.mul hb
  · exact hx.mul (.const _)
  · exact .const _
  · exact hx

theorem ratVal_analytic {a b : P2 ℝ → ℝ} {p : P2 ℝ} (sq : Bool) (hε : 0 < ε) (hs : ε ≤ a p + b p) (ha : Analytic2 a p) (hb : Analytic2 b p) :
    Analytic2 (fun q => ratVal sq (a q) (b q)) p := by
  obtain ⟨h1, h2⟩ := rat_den hε hs
  unfold ratVal
  cases sq
  · exact ha.div (ha.add hb) h1
  · exact (ha.mul ha).div ((ha.mul ha).add (hb.mul hb)) h2

/-- C108: a (side-based) Generalized Bézier patch is analytic in the part of the domain (with its boundary) where no corner is approached within the tolerance. -/
theorem C108_side (hε : 0 < ε) (hle : ε ≤ sin (2 * π / n) ^ 2 * sin (π / n) / 2) (hn : 3 ≤ n) (h : Usable ε arc .side n d calls G) {v : ℕ → P2 ℝ}
    (hv : G.dom.dom.vertices = tab n v) :
    ∃ Q : P2 ℝ → P3 ℝ, ∀ uv f o, InsideClosed n v uv → mapToRibbons ε G.kind.param uv G.param = .ok (tab n f, o) →
      (∀ i < n, ε ≤ (f i).y + (f ((i + 1) % n)).y) → (∃ G', G.eval ε uv = .ok (Q uv, G')) ∧ SmoothAt Q uv := by
  obtain ⟨hi, hk, hdn, ⟨F, hF⟩, _⟩ := h.state (by omega)
  obtain ⟨r, φ, hr, hcd⟩ : ∃ r φ, 1 ≤ r ∧ ConvexDomain G.dom.dom n (regularVertex n r φ) := by
    rcases hi.regular hk with q | ⟨vs, e1, e2⟩
    · omega
    · rw [hdn] at e1
      obtain ⟨r, φ, hr, hd, _⟩ := regular_convex hn e1 e2
      exact ⟨r, φ, hr, hd⟩
  have hw : ∀ i < n, v i = regularVertex n r φ i := fun i hi => tab_inj (hv.symm.trans hcd.vertices_eq) hi
  have hε1 : ε ≤ 1 := by
    obtain ⟨sp1, sp2⟩ := sin_pi_div_pos hn
    have su1 := sin_le_one (π / n)
    have su2 := sin_le_one (2 * π / n)
    have : sin (2 * π / n) ^ 2 ≤ 1 := by nlinarith
    nlinarith
  refine ⟨fun uv => (∑ i ∈ Finset.range n, ∑ k ∈ Finset.range ((d + 1) / 2), ∑ j ∈ Finset.range (d + 1), wt G.squared n d (regF n r φ uv) i j k • F i j k) +
      (1 - ∑ i ∈ Finset.range n, ∑ k ∈ Finset.range ((d + 1) / 2), ∑ j ∈ Finset.range (d + 1), wt G.squared n d (regF n r φ uv) i j k) • G.central, ?_⟩
  intro uv f o hin hf hz
  have hin' := Patch.insideClosed_congr (by omega) hw hin
  -- the second parameters
  obtain ⟨o', e⟩ := h.maps hn (f := baryF ε G.dom.dom uv) fun j hj => (baryF_spec hcd hε hε1 hin' hj).1
  have hfb : ∀ j < n, f j = baryF ε G.dom.dom uv j := by
    rw [hf] at e
    exact fun j hj => tab_inj (congrArg Prod.fst (Except.ok.inj e)) hj
  have hy : ∀ j < n, (f j).y = (regF n r φ uv j).y := fun j hj => by rw [hfb j hj]; exact (baryF_spec hcd hε hε1 hin' hj).2.2.2.1
  obtain ⟨l0, l1⟩ := lam_range hcd hin'
  have hreg := fun j (hj : j < n) => regF_eq hr hcd hε hle hin' hj (by
    by_cases q : 4 ≤ n
    · exact Or.inl q
    · right
      obtain rfl : n = 3 := by omega
      have z0 := hz 0 (by omega)
      have z1 := hz 1 (by omega)
      have z2 := hz 2 (by omega)
      rw [hy _ (by omega), hy _ (by omega)] at z0 z1 z2
      simp only [Finset.sum_range_succ, Finset.sum_range_zero, zero_add] at l1
      interval_cases j <;> simp [regF, prevIx] at z0 z1 z2 ⊢ <;> linarith)
  obtain ⟨o2, e2⟩ := h.maps hn (f := regF n r φ uv) fun j hj => (hreg j hj).1
  have hz' : ∀ i < n, ε ≤ (regF n r φ uv i).y + (regF n r φ uv (nextIx n i)).y := fun i hi => by
    have := hz i hi
    rwa [hy i hi, hy _ (Nat.mod_lt _ (by omega))] at this
  refine ⟨eval_side hk e2 (sideEval_eq hε hF hz'), ?_⟩
  have ax : ∀ j < n, Analytic2 (fun q => (regF n r φ q j).x) uv := fun j hj =>
    (Analytic2.leftOf n _ _).div ((Analytic2.leftOf n _ _).add (Analytic2.leftOf n _ _)) (hreg j hj).2
  have ay : ∀ j < n, Analytic2 (fun q => (regF n r φ q j).y) uv := fun j _ =>
    ((Analytic2.const 1).sub (Analytic2.lam hn hcd.convex hin' _)).sub (Analytic2.lam hn hcd.convex hin' _)
  have aw : ∀ i ∈ Finset.range n, ∀ k ∈ Finset.range ((d + 1) / 2), ∀ j ∈ Finset.range (d + 1), Analytic2 (fun q => wt G.squared n d (regF n r φ q) i j k) uv := by
    intro i hi k _ j _
    have hi := Finset.mem_range.mp hi
    have hp : prevIx n i < n := prevIx_lt (by omega)
    have hx : nextIx n i < n := nextIx_lt (by omega)
    refine factor_analytic d j k (ratVal_analytic _ hε ?_ (ay _ hp) (ay _ hi)) (ratVal_analytic _ hε ?_ (ay _ hx) (ay _ hi)) (((ax _ hi).bern _ _).mul ((ay _ hi).bern _ _))
    · have := hz' _ hp
      rwa [nextIx_prevIx hi] at this
    · have := hz' _ hi
      rwa [add_comm]
  refine smoothAt_add ?_ (smoothAt_smul ((Analytic2.const 1).sub (Analytic2.sum fun i hi => Analytic2.sum fun k hk => Analytic2.sum fun j hj => aw i hi k hk j hj)) _)
  exact smoothAt_fsum fun i hi => smoothAt_fsum fun k hk => smoothAt_sum fun j hj => aw i hi k hk j hj

/-- C108 fails at the border of the tolerance of a corner: along a side the patch stays in the corner and then jumps to the boundary curve. -/
theorem C108_jump (hε : 0 < ε) (hε1 : ε ≤ 1 / 2) (hn : 3 ≤ n) (hd : 2 ≤ d) (h : Usable ε arc .side n d calls G) (hc : ∀ c ∈ calls, c.regular = true)
    {i : ℕ} (hi : i < n) {cp : ℕ → P3 ℝ} (hcp : ∀ j ≤ d, G.controlPoint i j 0 = .ok (cp j)) (hne : bezier d cp ε ≠ cp 0) {Q : ℝ → P3 ℝ}
    (hQ : ∀ s, 0 ≤ s → s ≤ 1 → ∃ uv G', G.dom.dom.edgePoint i s = .ok uv ∧ G.eval ε uv = .ok (Q s, G')) : ¬ ContinuousAt (curveCoords Q) ε := by
  have h1 : ∀ s, 0 ≤ s → s < ε → Q s = cp 0 := by
    intro s s0 s1
    obtain ⟨uv, a, b, e1, e2, _, e3, _⟩ := C42_corner hε hε1 hn (by omega) h hc hi s0 (by linarith)
    obtain ⟨G1, e3⟩ := e3 s1
    obtain ⟨uv', G2, e4, e5⟩ := hQ s s0 (by linarith)
    cases e1.symm.trans e4
    cases e3.symm.trans e5
    exact (Except.ok.inj ((hcp 0 (by omega)).symm.trans e2)).symm
  have h2 : Q ε = bezier d cp ε := by
    obtain ⟨uv, cp', G1, e1, e2, e3⟩ := C42_side hε hε1 hn hd h hi le_rfl (by linarith)
    obtain ⟨uv', G2, e4, e5⟩ := hQ ε hε.le (by linarith)
    cases e1.symm.trans e4
    have : bezier d cp' ε = Q ε := congrArg Prod.fst (Except.ok.inj (e3.symm.trans e5))
    rw [← this]
    refine Finset.sum_congr rfl fun j hj => ?_
    have hj : j ≤ d := by have := Finset.mem_range.mp hj; omega
    rw [Except.ok.inj ((e2 j hj).symm.trans (hcp j hj))]
  intro hcont
  have t1 : Filter.Tendsto (curveCoords Q) (𝓝[<] ε) (𝓝 (curveCoords Q ε)) := hcont.mono_left nhdsWithin_le_nhds
  have t2 : Filter.Tendsto (curveCoords Q) (𝓝[<] ε) (𝓝 ((cp 0).x, (cp 0).y, (cp 0).z)) := by
    refine Filter.Tendsto.congr' ?_ tendsto_const_nhds
    filter_upwards [Ioo_mem_nhdsLT hε] with s hs
    unfold curveCoords
    rw [h1 s hs.1.le hs.2]
  have := tendsto_nhds_unique t1 t2
  unfold curveCoords at this
  simp only [Prod.mk.injEq] at this
  apply hne
  rw [← h2]
  exact P3.ext this.1 this.2.1 this.2.2

/-- Such a patch: all points of a cubic five-sided patch are 0 except one on the boundary. -/
theorem C108_jumps (hε : 0 < ε) (hε1 : ε ≤ 1 / 2) : ∃ (calls : List (Call ℝ)) (G : GB ℝ) (Q : ℝ → P3 ℝ), Usable ε arc .side 5 3 calls G ∧
    (∀ s, 0 ≤ s → s ≤ 1 → ∃ uv G', G.dom.dom.edgePoint 0 s = .ok uv ∧ G.eval ε uv = .ok (Q s, G')) ∧ ¬ ContinuousAt (curveCoords Q) ε := by
  obtain ⟨G, hu, hr, _, _, hcp⟩ := built (ε := ε) (arc := arc) (n := 5) (d := 3) .side (by norm_num) (by norm_num) (Or.inl rfl)
    (w := [(⟨0, 1, 0⟩, ⟨0, 0, 1⟩)]) (by
      intro x hx
      simp only [List.mem_cons, List.not_mem_nil, or_false] at hx
      rw [hx]; simp [Name.InRange]) 0 true
  have tot : ∀ s : ℝ, ∃ q : P3 ℝ, 0 ≤ s → s ≤ 1 → ∃ uv G', G.dom.dom.edgePoint 0 s = .ok uv ∧ G.eval ε uv = .ok (q, G') := by
    intro s
    by_cases h0 : 0 ≤ s
    · by_cases h1 : s ≤ 1
      · obtain ⟨uv, a, b, e1, _, _, e2, e3⟩ := C42_corner hε hε1 (by norm_num) (by norm_num) hu hr (i := 0) (by norm_num) h0 h1
        by_cases c1 : s < ε
        · obtain ⟨G', e⟩ := e2 c1
          exact ⟨a, fun _ _ => ⟨uv, G', e1, e⟩⟩
        · by_cases c2 : 1 - s < ε
          · obtain ⟨G', e⟩ := e3 c2
            exact ⟨b, fun _ _ => ⟨uv, G', e1, e⟩⟩
          · obtain ⟨uv, cp, G', e1, _, e⟩ := C42_side hε hε1 (by norm_num) (by norm_num) hu (i := 0) (by norm_num) (not_lt.mp c1) (by linarith)
            exact ⟨_, fun _ _ => ⟨uv, G', e1, e⟩⟩
      · exact ⟨0, fun _ h => absurd h h1⟩
    · exact ⟨0, fun h _ => absurd h h0⟩
  choose Q hQ using tot
  refine ⟨_, G, Q, hu, hQ, C108_jump hε hε1 (by norm_num) (by norm_num) hu hr (i := 0) (by norm_num) (cp := fun j => if j = 1 then ⟨0, 0, 1⟩ else 0) ?_ ?_ hQ⟩
  · intro j hj
    refine (hcp ⟨0, j, 0⟩ ⟨by norm_num, hj, by norm_num⟩).trans ?_
    interval_cases j <;> simp [netValue, SamePoint, AtCorner]
  · intro q
    have qz := congrArg P3.z q
    unfold bezier bern at qz
    rw [P3.sum_z] at qz
    simp [Finset.sum_range_succ] at qz
    rcases qz with q | q <;> linarith

/-! ### Examples -/

/-- The hypotheses of `C108_side`: the tolerance of the library suits a four-sided patch. -/
example : (1 / 100000 : ℝ) ≤ sin (2 * π / (4 : ℕ)) ^ 2 * sin (π / (4 : ℕ)) / 2 := by
  rw [show 2 * π / (4 : ℕ) = π / 2 by push_cast; ring, sin_pi_div_two, show π / (4 : ℕ) = π / 4 by norm_num, sin_pi_div_four]
  have : 1 ≤ √2 := by rw [Real.one_le_sqrt]; norm_num
  linarith

/-- The points of a side away from the corners are in the region of `C108_side`. -/
example (hε : 0 < ε) (hε1 : ε ≤ 1 / 2) (hn : 3 ≤ n) (h : Usable ε arc .side n d calls G) {i : ℕ} (hi : i < n) {s : ℝ} (h0 : ε ≤ s) (h1 : s ≤ 1 - ε) :
    ∃ uv f o, G.dom.dom.edgePoint i s = .ok uv ∧ mapToRibbons ε G.kind.param uv G.param = .ok (tab n f, o) ∧ ∀ i < n, ε ≤ (f i).y + (f ((i + 1) % n)).y := by
  obtain ⟨uv, f, o, e1, e2, hs⟩ := h.onSide hn hε (by linarith) hi (by linarith) (by linarith)
  refine ⟨uv, f, o, e1, e2, fun j hj => ?_⟩
  rcases onSide_corners hε hε1 hn hi hs (by linarith) (by linarith) hj with w | ⟨_, w⟩ | ⟨_, w⟩
  · exact w
  · linarith
  · linarith

end GB

/-- `C108_spatch` applies to all networks. -/
example (P : (ℕ → ℕ) → P3 ℝ) : ∃ calls S v F, SPatch.Usable (1 / 100000) (fun _ _ _ => 0) 5 4 calls S ∧ (∀ k ∈ labels 5 4, S.controlPoint (tab 5 k) = .ok (P k)) ∧
    S.dom.dom.vertices = tab 5 v ∧ ∀ uv, InsideClosed 5 v uv → (∃ S', S.eval (1 / 100000) uv = .ok (F uv, S')) ∧ SmoothAt F uv := by
  obtain ⟨calls, S, h, hp⟩ := SPatch.C50_complete (ε := 1 / 100000) (arc := fun _ _ _ => 0) (n := 5) (by norm_num) 4 P
  obtain ⟨_, _, v, hcd⟩ := h.state (by norm_num)
  obtain ⟨F, hF⟩ := SPatch.C108_spatch (by norm_num) (by norm_num) (by norm_num) h hcd.vertices_eq
  exact ⟨calls, S, v, F, h, hp, hcd.vertices_eq, hF⟩

/-- `C108_superd` applies to all networks; the centre of a four-sided domain is in its region. -/
example (V : P3 ℝ) (F E : ℕ → P3 ℝ) : ∃ calls S v f o, SuperD.Usable (1 / 100000) (fun _ _ _ => 0) 4 calls S ∧ SuperD.Points 4 S F E ∧ S.vertexControlPoint = V ∧
    (1 / 100000 : ℝ) ≤ sin (2 * π / (4 : ℕ)) ∧ S.dom.dom.vertices = tab 4 v ∧ InsideClosed 4 v 0 ∧ mapToRibbons (1 / 100000) .superD 0 S.param = .ok (tab 4 f, o) ∧
    ∀ i < 4, 1 / 100000 ≤ (f i).y := by
  obtain ⟨calls, S, h, hp, _, hV⟩ := SuperD.C51_complete (ε := 1 / 100000) (arc := fun _ _ _ => 0) (n := 4) (by norm_num) 1 V F E
  obtain ⟨hs, hi, hc, r, φ, hr, hcd⟩ := h.state (by norm_num)
  have left : ∀ j, leftOf 4 (regularVertex 4 r φ) j 0 = r ^ 2 * sin (2 * π / (4 : ℕ)) := fun j => regular_centre_left (by omega)
  have s2 : sin (2 * π / (4 : ℕ)) = 1 := by rw [show 2 * π / (4 : ℕ) = π / 2 by push_cast; ring, sin_pi_div_two]
  have s4 : sin (π / (4 : ℕ)) ^ 2 = 1 / 2 := by
    rw [show π / (4 : ℕ) = π / 4 by norm_num, sin_pi_div_four, div_pow, Real.sq_sqrt (by norm_num)]; norm_num
  have hin : InsideClosed 4 (regularVertex 4 r φ) 0 := fun j _ => by rw [left, s2]; positivity
  have hb : ∀ j < 4, ∃ s, bilinearSide (1 / 100000) S.dom.dom j 0 = .ok s := by
    intro j hj
    exact ⟨_, bilinearSide_of_map (bilinearMap_ratio hcd (by norm_num) hj (by rw [regular_leftOf_prev (by norm_num) hj, regular_leftOf_next (by norm_num) hj])
      (hin _ (prevIx_lt (by omega))) (hin _ (nextIx_lt (by omega))))⟩
  choose! s hs using hb
  obtain ⟨o, e⟩ := SuperD.params_eq (by linarith) hcd hi hs
  refine ⟨calls, S, _, _, o, h, hp, hV, by rw [s2]; norm_num, hcd.vertices_eq, hin, e, fun j _ => ?_⟩
  dsimp only
  rw [left, s2, s4, show superDScale 4 = 1 by unfold superDScale; rw [if_pos (by norm_num)]]
  have : r ^ 2 ≠ 0 := by positivity
  field_simp
  norm_num

end Transfinite
