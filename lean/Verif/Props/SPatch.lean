import Verif.Lemmas.SPatchState
import Verif.Lemmas.PatchTotal

/-! # C50: S-patches -/

namespace Transfinite

open Spec

namespace SPatch

variable {n d : ℕ} {ε : ℝ} {arc : List (P3 ℝ) → ℝ → ℝ → ℝ} {S : SPatch ℝ} {calls : List (Call ℝ)}

/-- `P` has the control points of `S`; missing control points count as zero. -/
def Points (n d : ℕ) (S : SPatch ℝ) (P : (ℕ → ℕ) → P3 ℝ) : Prop :=
  ∀ k ∈ labels n d, S.controlPoint (tab n k) = .ok (P k) ∨ S.controlPoint (tab n k) = .error .exception ∧ P k = 0

theorem Points.value {P : (ℕ → ℕ) → P3 ℝ} (h : Points n d S P) {k : ℕ → ℕ} (hk : k ∈ labels n d) : value S.net (tab n k) = P k := by
  unfold SPatch.value
  rcases h k hk with q | ⟨q, q'⟩
  · unfold controlPoint at q
    cases e : mapGet S.net (tab n k) with
    | some p => rw [e] at q; cases q; rfl
    | none => rw [e] at q; cases q
  · unfold controlPoint at q
    cases e : mapGet S.net (tab n k) with
    | some p => rw [e] at q; cases q
    | none => rw [q']; rfl

theorem eval_eq (hn : 3 ≤ n) (hd : d ≤ 20) (h : Usable ε arc n d calls S) {P : (ℕ → ℕ) → P3 ℝ} (hP : Points n d S P) {uv : P2 ℝ} {c : ℕ → ℝ}
    (hc : Param.barycentric ε .wachspress S.dom.dom uv = .ok (tab n c)) : ∃ S', S.eval ε uv = .ok (∑ k ∈ labels n d, multiBern n c k • P k, S') := by
  obtain ⟨hs, hi, v, hcd⟩ := h.state hn
  have hf := (hi.dom.resolve_left (by rw [hcd.n_eq]; omega)).1
  obtain ⟨o, e⟩ := hf.bary_of_raw hc
  refine ⟨{ S with param := o }, ?_⟩
  unfold eval
  rw [e, M_bind_ok, sumNet_eq hs.proper hi.keys hd, M_bind_ok]
  congr 2
  exact Finset.sum_congr rfl fun k hk => by rw [hP.value hk]

theorem multiBern_nonneg {c : ℕ → ℝ} (hc : ∀ i < n, 0 ≤ c i) (k : ℕ → ℕ) : 0 ≤ multiBern n c k := by
  unfold multiBern
  refine mul_nonneg (div_nonneg (Nat.cast_nonneg _) (Finset.prod_nonneg fun _ _ => Nat.cast_nonneg _)) (Finset.prod_nonneg fun i hi => pow_nonneg (hc i (Finset.mem_range.mp hi)) _)

/-- C50: in every point of the domain, the patch is the combination of the control points with the multinomial weights of the Wachspress coordinates; these weights are not negative,
and their sum is 1 (over all control points, including the missing ones, which count as zero). -/
theorem C50_weights (hε : 0 < ε) (hε1 : ε ≤ 1) (hn : 3 ≤ n) (hd : d ≤ 20) (h : Usable ε arc n d calls S) {P : (ℕ → ℕ) → P3 ℝ} (hP : Points n d S P) {v : ℕ → P2 ℝ}
    (hv : S.dom.dom.vertices = tab n v) {uv : P2 ℝ} (hin : InsideClosed n v uv) :
    ∃ (c : ℕ → ℝ) (S' : SPatch ℝ), (∀ i < n, 0 ≤ c i) ∧ ∑ i ∈ Finset.range n, c i = 1 ∧ ∑ i ∈ Finset.range n, c i • v i = uv ∧
      S.eval ε uv = .ok (∑ k ∈ labels n d, multiBern n c k • P k, S') ∧ (∀ k ∈ labels n d, 0 ≤ multiBern n c k) ∧ ∑ k ∈ labels n d, multiBern n c k = 1 := by
  obtain ⟨_, _, w, hcd⟩ := h.state hn
  have hw : ∀ i < n, v i = w i := fun i hi => tab_inj (hv.symm.trans hcd.vertices_eq) hi
  have hin' := Patch.insideClosed_congr (by omega) hw hin
  obtain ⟨l, hl⟩ := C11_defined hε .wachspress hn hcd.vertices_eq hcd.convex hin'
  obtain ⟨c, rfl, hsum, hprec⟩ := C11_partition_precision hn hcd.vertices_eq hε1 hl
  have hprec := hprec.resolve_right fun q => q.1 rfl
  have hc0 : ∀ i < n, 0 ≤ c i := by
    intro i hi
    obtain ⟨⟨l, e, _, q⟩, _⟩ := C13_unit_square hcd hε hε1 hin'
    rw [hl] at e
    cases e
    exact (q (c i) (List.mem_map.mpr ⟨i, List.mem_range.mpr hi, rfl⟩)).1
  obtain ⟨S', e⟩ := eval_eq hn hd h hP hl
  refine ⟨c, S', hc0, hsum, ?_, e, fun k _ => multiBern_nonneg hc0 k, by rw [multiBern_sum, hsum, one_pow]⟩
  rw [← hprec]
  exact Finset.sum_congr rfl fun i hi => by rw [hw i (Finset.mem_range.mp hi)]

/-- The weight of a control point on a side. -/
theorem multiBern_sideLabel (hn : 2 ≤ n) {i j : ℕ} (hi : i < n) (hj : j ≤ d) {c : ℕ → ℝ} {s : ℝ} (h1 : c i = 1 - s) (h2 : c (nextIx n i) = s) :
    multiBern n c (sideLabel d i (nextIx n i) j) = bern d j s := by
  have k1 : nextIx n i < n := nextIx_lt (by omega)
  have k2 : nextIx n i ≠ i := nextIx_ne hn hi
  have hmem : nextIx n i ∈ (Finset.range n).erase i := Finset.mem_erase.mpr ⟨k2, Finset.mem_range.mpr k1⟩
  have e1 : sideLabel d i (nextIx n i) j i = d - j := if_pos rfl
  have e2 : sideLabel d i (nextIx n i) j (nextIx n i) = j := by unfold sideLabel; rw [if_neg k2, if_pos rfl]
  have e3 : ∀ x ∈ ((Finset.range n).erase i).erase (nextIx n i), sideLabel d i (nextIx n i) j x = 0 := by
    intro x hx
    unfold sideLabel
    rw [if_neg (Finset.ne_of_mem_erase (Finset.mem_of_mem_erase hx)), if_neg (Finset.ne_of_mem_erase hx)]
  have hl := sideLabel_labels (d := d) hn hi hj
  unfold labels at hl
  rw [Finset.mem_piAntidiag] at hl
  unfold multiBern
  rw [hl.1, ← Finset.mul_prod_erase _ _ (Finset.mem_range.mpr hi), ← Finset.mul_prod_erase _ _ hmem, ← Finset.mul_prod_erase _ (fun x => c x ^ _) (Finset.mem_range.mpr hi),
    ← Finset.mul_prod_erase _ (fun x => c x ^ _) hmem, Finset.prod_eq_one (s := ((Finset.range n).erase i).erase (nextIx n i)) (fun x hx => by rw [e3 x hx]; simp),
    Finset.prod_eq_one (s := ((Finset.range n).erase i).erase (nextIx n i)) (fun x hx => by rw [e3 x hx, pow_zero]), e1, e2, h1, h2]
  unfold bern
  rw [Nat.cast_choose ℝ hj, mul_one, mul_one, mul_comm ((d - j).factorial : ℝ)]
  ring

/-- The weights on a side: only the control points of the side are used, with the Bernstein polynomials. -/
theorem multiBern_side (hn : 2 ≤ n) {i : ℕ} (hi : i < n) (s : ℝ) (P : (ℕ → ℕ) → P3 ℝ) :
    ∑ k ∈ labels n d, multiBern n (fun j => if j = nextIx n i then s else if j = i then 1 - s else 0) k • P k = bezier d (fun j => P (sideLabel d i (nextIx n i) j)) s := by
  classical
  have h1 : nextIx n i < n := nextIx_lt (by omega)
  have h2 : nextIx n i ≠ i := nextIx_ne hn hi
  have hmem : nextIx n i ∈ (Finset.range n).erase i := Finset.mem_erase.mpr ⟨h2, Finset.mem_range.mpr h1⟩
  set c : ℕ → ℝ := fun j => if j = nextIx n i then s else if j = i then 1 - s else 0 with hc
  have hci : c i = 1 - s := by rw [hc]; dsimp only; rw [if_neg h2.symm, if_pos rfl]
  have hcn : c (nextIx n i) = s := by rw [hc]; dsimp only; rw [if_pos rfl]
  have hside : ∀ j, sideLabel d i (nextIx n i) j i = d - j ∧ sideLabel d i (nextIx n i) j (nextIx n i) = j ∧ ∀ x, x ≠ i → x ≠ nextIx n i → sideLabel d i (nextIx n i) j x = 0 := by
    intro j
    refine ⟨if_pos rfl, ?_, fun x hx hx' => ?_⟩
    · unfold sideLabel; rw [if_neg h2, if_pos rfl]
    · unfold sideLabel; rw [if_neg hx, if_neg hx']
  unfold bezier
  symm
  refine Finset.sum_bij_ne_zero (fun j _ _ => sideLabel d i (nextIx n i) j) ?_ ?_ ?_ ?_
  · intro j hj _
    exact sideLabel_labels hn hi (by have := Finset.mem_range.mp hj; omega)
  · intro j _ _ j' _ _ e
    have := congrFun e (nextIx n i)
    rwa [(hside j).2.1, (hside j').2.1] at this
  · intro k hk hne
    have hk' := hk
    unfold labels at hk'
    rw [Finset.mem_piAntidiag] at hk'
    have hz : ∀ x, x ≠ i → x ≠ nextIx n i → k x = 0 := by
      intro x hx hx'
      by_contra q
      have hx2 := hk'.2 x q
      refine hne ?_
      unfold multiBern
      rw [Finset.prod_eq_zero (f := fun i => c i ^ k i) hx2, mul_zero, zero_smul]
      rw [hc]
      dsimp only
      rw [if_neg hx', if_neg hx, zero_pow q]
    have hsum := hk'.1
    rw [← Finset.add_sum_erase _ _ (Finset.mem_range.mpr hi), ← Finset.add_sum_erase _ _ hmem, Finset.sum_eq_zero (s := ((Finset.range n).erase i).erase (nextIx n i)) (fun x hx =>
      hz x (Finset.ne_of_mem_erase (Finset.mem_of_mem_erase hx)) (Finset.ne_of_mem_erase hx))] at hsum
    have hke : sideLabel d i (nextIx n i) (k (nextIx n i)) = k := by
      funext x
      by_cases a : x = i
      · rw [a, (hside _).1]; omega
      · by_cases b : x = nextIx n i
        · rw [b, (hside _).2.1]
        · rw [(hside _).2.2 x a b, hz x a b]
    refine ⟨k (nextIx n i), Finset.mem_range.mpr (by omega), ?_, hke⟩
    dsimp only
    rw [hke, ← multiBern_sideLabel hn hi (by omega) hci hcn, hke]
    exact hne
  · intro j hj _
    rw [multiBern_sideLabel hn hi (by have := Finset.mem_range.mp hj; omega) hci hcn]

/-- C50: on side `i` of the domain the patch is the Bézier curve of the control points whose labels are zero everywhere but at `i - 1` and `i`. -/
theorem C50_side (hε : 0 < ε) (hε1 : ε ≤ 1) (hn : 3 ≤ n) (hd : d ≤ 20) (h : Usable ε arc n d calls S) {P : (ℕ → ℕ) → P3 ℝ} (hP : Points n d S P) {i : ℕ} (hi : i < n) {s : ℝ}
    (h0 : 0 ≤ s) (h1 : s ≤ 1) : ∃ uv S', S.dom.dom.edgePoint i s = .ok uv ∧ S.eval ε uv = .ok (bezier d (fun j => P (sideLabel d ((i + n - 1) % n) i j)) s, S') := by
  obtain ⟨_, _, v, hcd⟩ := h.state hn
  obtain ⟨uv, e, hb⟩ := C12_coordinates hε .wachspress hn hcd.n_eq hcd.vertices_eq hcd.convex hi h0 h1
  have hb := hb fun j _ => C12_wachspress_condition hε1 _ _
  obtain ⟨S', e'⟩ := eval_eq (c := fun j => if j = i then s else if j = (i + n - 1) % n then 1 - s else 0) hn hd h hP hb
  refine ⟨uv, S', e, ?_⟩
  have hp : prevIx n i < n := prevIx_lt (by omega)
  have := multiBern_side (d := d) (n := n) (by omega) hp s P
  rw [nextIx_prevIx hi] at this
  rw [e']
  exact congrArg (fun p => Except.ok (p, S')) this

theorem points_value (n d : ℕ) (S : SPatch ℝ) : Points n d S fun k => SPatch.value S.net (tab n k) := by
  intro k _
  unfold controlPoint SPatch.value
  cases e : mapGet S.net (tab n k) with
  | some p => exact Or.inl (by dsimp only; rw [e]; rfl)
  | none => exact Or.inr ⟨rfl, by dsimp only; rw [e]; rfl⟩

theorem evals_keep {S S' : SPatch ℝ} {cs : List (Call ℝ)} (hc : ∀ c ∈ cs, ∃ uv, c = .eval uv) (e : S.run ε arc cs = .ok S') : S'.net = S.net ∧ S'.curves = S.curves ∧ S'.dom = S.dom := by
  induction cs generalizing S with
  | nil => cases e; exact ⟨rfl, rfl, rfl⟩
  | cons c cs ih =>
    unfold run at e
    obtain ⟨S1, e1, e⟩ := bind_ok e
    obtain ⟨uv, rfl⟩ := hc c List.mem_cons_self
    unfold step at e1
    obtain ⟨r, e2, e1⟩ := bind_ok e1
    cases e1
    obtain ⟨a, b, c⟩ := ih (fun c hc' => hc c (List.mem_cons_of_mem _ hc')) e
    have := eval_keeps e2
    rw [this] at a b c
    exact ⟨a, b, c⟩

/-- C50: as long as nothing but `eval` is called after `setupLoop`, the patch interpolates the curves of the surface; curve `i - 1` is on side `i`. -/
theorem C50_interpolates (hε : 0 < ε) (hε1 : ε ≤ 1) (hn : 3 ≤ n) (hd : d ≤ 20) {pre evs : List (Call ℝ)} (hevs : ∀ c ∈ evs, ∃ uv, c = .eval uv)
    (h : Usable ε arc n d (pre ++ .loop :: evs) S) {i : ℕ} (hi : i < n) {s : ℝ} (h0 : 0 ≤ s) (h1 : s ≤ 1) :
    ∃ uv S' C, S.dom.dom.edgePoint i s = .ok uv ∧ vget S.curves ((i + n - 1) % n) = .ok C ∧ S.eval ε uv = .ok (C.pt s, S') := by
  obtain ⟨uv, S', e1, e2⟩ := C50_side hε hε1 hn hd h (points_value n d S) hi h0 h1
  have hp : prevIx n i < n := prevIx_lt (by omega)
  obtain ⟨g, before, rest, hcalls, hr, hc, hl⟩ := h
  have hm : ∃ m, pre = before ++ .init n d :: m ∧ rest = m ++ .loop :: evs := by
    rcases List.append_eq_append_iff.mp hcalls with ⟨m, q1, q2⟩ | ⟨m, q1, q2⟩
    · cases m with
      | nil => cases q2
      | cons c m =>
        cases q2
        obtain ⟨uv, q⟩ := hevs .loop (by simp [hl])
        cases q
    · cases m with
      | nil => cases q2
      | cons c m => cases q2; exact ⟨m, q1, rfl⟩
  obtain ⟨m, rfl, rfl⟩ := hm
  obtain ⟨S1, r1, r2⟩ := run_split hr
  obtain ⟨S0, r0, r1⟩ := run_split r1
  have hi0 := run_inv (new_inv ε g) r0
  unfold run at r1 r2
  obtain ⟨T, t, r1⟩ := bind_ok r1
  cases t
  have hs : Shape n d (S0.initNetwork n d) := ⟨rfl, rfl, fun l hl => absurd rfl hl⟩
  obtain ⟨s1, _⟩ := run_shape (by omega) hs (step_inv (arc := arc) (c := .init n d) hi0 rfl) (fun c q => hc c (List.mem_append_left _ q)) r1
  obtain ⟨S2, l, r2⟩ := bind_ok r2
  obtain ⟨net', x1, _, x2⟩ := setupLoop_parts (arc := arc) (by omega) s1.n_eq s1.depth
  change S1.setupLoop arc = _ at l
  rw [x2] at l
  have k := updateDomain_keeps l
  obtain ⟨k1, k2, _⟩ := evals_keep hevs r2
  rw [k] at k1 k2
  refine ⟨uv, S', sideCurve arc n d S1.net (prevIx n i), e1, ?_, ?_⟩
  · rw [k2]
    exact vget_tab _ hp
  · rw [e2, sideCurve_pt, nextIx_prevIx hi]
    congr 3
    funext j
    rw [k1]
    exact x1.value _

/-- Raising one index. -/
theorem multiBern_raise {i : ℕ} (hi : i < n) {c : ℕ → ℝ} {k : ℕ → ℕ} (hk : k ∈ labels n d) :
    Function.update k i (k i + 1) ∈ labels n (d + 1) ∧ multiBern n c (Function.update k i (k i + 1)) * ((k i + 1 : ℕ) : ℝ) = (d + 1 : ℕ) * (c i * multiBern n c k) := by
  unfold labels at hk ⊢
  rw [Finset.mem_piAntidiag] at hk ⊢
  have hm := Finset.mem_range.mpr hi
  have hs : ∑ x ∈ Finset.range n, Function.update k i (k i + 1) x = d + 1 := by
    rw [Finset.sum_update_of_mem hm]
    have := Finset.sum_sdiff (f := k) (Finset.singleton_subset_iff.mpr hm)
    rw [Finset.sum_singleton, hk.1] at this
    omega
  refine ⟨⟨hs, fun x hx => ?_⟩, ?_⟩
  · by_cases q : x = i
    · rw [q]; exact hm
    · rw [Function.update_of_ne q] at hx
      exact hk.2 x hx
  · have e1 : ∀ {M : Type} [CommMonoid M] (f : ℕ → ℕ → M), ∏ x ∈ (Finset.range n).erase i, f x (Function.update k i (k i + 1) x) = ∏ x ∈ (Finset.range n).erase i, f x (k x) := by
      intro M _ f
      exact Finset.prod_congr rfl fun x hx => by rw [Function.update_of_ne (Finset.ne_of_mem_erase hx)]
    have h0 : (∏ x ∈ (Finset.range n).erase i, ((k x).factorial : ℝ)) ≠ 0 := Finset.prod_ne_zero_iff.mpr fun i _ => by exact_mod_cast Nat.factorial_ne_zero _
    have h1 : ((k i).factorial : ℝ) ≠ 0 := by exact_mod_cast Nat.factorial_ne_zero _
    have h2 : ((k i + 1 : ℕ) : ℝ) ≠ 0 := Nat.cast_ne_zero.mpr (Nat.succ_ne_zero _)
    have hk1 : ∑ x ∈ Finset.range n, k x = d := hk.1
    unfold multiBern
    rw [hs, hk1, ← Finset.mul_prod_erase _ _ hm, ← Finset.mul_prod_erase _ (fun x => c x ^ _) hm, ← Finset.mul_prod_erase _ (fun x => ((k x).factorial : ℝ)) hm,
      ← Finset.mul_prod_erase _ (fun x => c x ^ k x) hm, e1 (fun _ y => ((y.factorial : ℕ) : ℝ)), e1 (fun x y => c x ^ y), Function.update_self, Nat.factorial_succ, Nat.factorial_succ,
      Nat.cast_mul, Nat.cast_mul, pow_succ]
    field_simp

/-- The mean of the labels. -/
theorem multiBern_mean {i : ℕ} (hi : i < n) {c : ℕ → ℝ} (hc : ∑ j ∈ Finset.range n, c j = 1) : ∑ k ∈ labels n d, multiBern n c k * (k i : ℝ) = d * c i := by
  classical
  cases d with
  | zero =>
    rw [Finset.sum_eq_zero, Nat.cast_zero, zero_mul]
    intro k hk
    unfold labels at hk
    rw [Finset.mem_piAntidiag] at hk
    have := Finset.single_le_sum (f := k) (fun _ _ => Nat.zero_le _) (Finset.mem_range.mpr hi)
    have h : k i = 0 := Nat.le_zero.mp (this.trans hk.1.le)
    rw [h, Nat.cast_zero, mul_zero]
  | succ d =>
    have := multiBern_sum (n := n) (d := d) c
    rw [hc, one_pow] at this
    calc ∑ k ∈ labels n (d + 1), multiBern n c k * (k i : ℝ) = ∑ k ∈ labels n d, (d + 1 : ℕ) * (c i * multiBern n c k) := by
          symm
          refine Finset.sum_bij_ne_zero (fun k _ _ => Function.update k i (k i + 1)) (fun k hk _ => (multiBern_raise (c := c) hi hk).1) ?_ ?_ ?_
          · intro k _ _ k' _ _ e
            funext x
            have := congrFun e x
            by_cases q : x = i
            · rw [q] at this ⊢
              rw [Function.update_self, Function.update_self] at this
              omega
            · rwa [Function.update_of_ne q, Function.update_of_ne q] at this
          · intro k hk hne
            have h0 : k i ≠ 0 := fun q => hne (by rw [q, Nat.cast_zero, mul_zero])
            have hb : Function.update k i (k i - 1) ∈ labels n d := by
              unfold labels at hk ⊢
              rw [Finset.mem_piAntidiag] at hk ⊢
              have hm := Finset.mem_range.mpr hi
              refine ⟨?_, fun x hx => ?_⟩
              · rw [Finset.sum_update_of_mem hm]
                have := Finset.sum_sdiff (f := k) (Finset.singleton_subset_iff.mpr hm)
                rw [Finset.sum_singleton, hk.1] at this
                omega
              · by_cases q : x = i
                · rw [q]; exact hm
                · rw [Function.update_of_ne q] at hx
                  exact hk.2 x hx
            have he : Function.update (Function.update k i (k i - 1)) i (Function.update k i (k i - 1) i + 1) = k := by
              rw [Function.update_idem, Function.update_self, Nat.sub_add_cancel (Nat.one_le_iff_ne_zero.mpr h0), Function.update_eq_self]
            refine ⟨Function.update k i (k i - 1), hb, ?_, he⟩
            rw [← (multiBern_raise (c := c) hi hb).2, he, Function.update_self, Nat.sub_add_cancel (Nat.one_le_iff_ne_zero.mpr h0)]
            exact hne
          · intro k hk _
            rw [← (multiBern_raise (c := c) hi hk).2, Function.update_self]
      _ = (d + 1 : ℕ) * c i := by rw [← Finset.mul_sum, ← Finset.mul_sum, this, mul_one]

/-- C50: when the control points are the combinations of `n` corner points in the proportions given by their labels, the patch is the combination of the corner points with
the barycentric coordinates; in particular, a patch with its control points in the points of the domain given by the labels reproduces the domain (with `q = v`). -/
theorem C50_precision (hε : 0 < ε) (hε1 : ε ≤ 1) (hn : 3 ≤ n) (hd : d ≤ 20) (hd0 : 0 < d) (h : Usable ε arc n d calls S) {q : ℕ → P3 ℝ}
    (hq : ∀ k ∈ labels n d, S.controlPoint (tab n k) = .ok (∑ i ∈ Finset.range n, ((k i : ℝ) / d) • q i)) {v : ℕ → P2 ℝ}
    (hv : S.dom.dom.vertices = tab n v) {uv : P2 ℝ} (hin : InsideClosed n v uv) :
    ∃ (c : ℕ → ℝ) (S' : SPatch ℝ), (∀ i < n, 0 ≤ c i) ∧ ∑ i ∈ Finset.range n, c i = 1 ∧ ∑ i ∈ Finset.range n, c i • v i = uv ∧
      S.eval ε uv = .ok (∑ i ∈ Finset.range n, c i • q i, S') := by
  obtain ⟨c, S', h1, h2, h3, h4, _⟩ := C50_weights hε hε1 hn hd h (P := fun k => ∑ i ∈ Finset.range n, ((k i : ℝ) / d) • q i) (fun k hk => Or.inl (hq k hk)) hv hin
  refine ⟨c, S', h1, h2, h3, ?_⟩
  rw [h4]
  congr 2
  simp_rw [Finset.smul_sum]
  rw [Finset.sum_comm]
  refine Finset.sum_congr rfl fun i hi => ?_
  simp_rw [smul_smul]
  rw [← Finset.sum_smul]
  congr 1
  have := multiBern_mean (d := d) (Finset.mem_range.mp hi) h2
  have hd1 : (d : ℝ) ≠ 0 := by exact_mod_cast hd0.ne'
  rw [← mul_right_inj' hd1, ← this, Finset.mul_sum]
  exact Finset.sum_congr rfl fun k _ => by field_simp

/-- C50: `setupLoop` never fails, and it makes a domain with as many sides as the patch has. -/
theorem C50_setupLoop (hn : 3 ≤ n) (S0 : SPatch ℝ) (h : S0.n = n) : ∃ S, S0.setupLoop arc = .ok S ∧ S.n = n ∧ S.depth = S0.depth ∧ S.curves.length = n ∧
    ∀ l, S.controlPoint l = S0.controlPoint l ∨
      S0.controlPoint l = .error .exception ∧ S.controlPoint l = .ok 0 ∧ ∃ i < n, ∃ j ≤ S0.depth, l = tab n (sideLabel S0.depth i ((i + 1) % n) j) := by
  obtain ⟨net', e1, _, e⟩ := setupLoop_parts (arc := arc) (by omega) h rfl
  obtain ⟨S, hS⟩ := setupLoop_total (arc := arc) hn h
  refine ⟨S, hS, ?_⟩
  rw [e] at hS
  have := updateDomain_keeps hS
  rw [this]
  refine ⟨rfl, rfl, length_tab _ _, fun l => ?_⟩
  unfold controlPoint
  dsimp only
  rcases e1.get l with q | ⟨q1, q2, q3⟩
  · exact Or.inl (by rw [q])
  · exact Or.inr ⟨by rw [q1], by rw [q2], q3⟩

/-- C50: `setCurves`, which is public, only counts: whatever curves are given, `setupLoop` replaces them by the curves of the control network for that number of sides
(so with another number of sides than that of `initNetwork` they are read from labels that were never set, which are added as zero). -/
theorem C50_setCurves (S0 : SPatch ℝ) {cs : List (Curve ℝ)} (hc : 3 ≤ cs.length) : ∃ S, S0.run ε arc [.curves cs, .loop] = .ok S ∧ S.n = cs.length ∧ S.depth = S0.depth ∧
    S.curves.length = cs.length ∧ ∀ l, S.controlPoint l = S0.controlPoint l ∨ S0.controlPoint l = .error .exception ∧ S.controlPoint l = .ok 0 ∧
      ∃ i < cs.length, ∃ j ≤ S0.depth, l = tab cs.length (sideLabel S0.depth i ((i + 1) % cs.length) j) := by
  obtain ⟨S, h1, h2, h3, h4, h5⟩ := C50_setupLoop (arc := arc) hc (S0.setCurves cs) rfl
  refine ⟨S, ?_, h2, h3, h4, h5⟩
  unfold run step
  rw [M_bind_ok]
  unfold run step
  rw [h1]
  rfl

/-- Four curves for a five-sided network. -/
example (arc : List (P3 ℝ) → ℝ → ℝ → ℝ) (c : Curve ℝ) : ∃ S, ((SPatch.new 0).initNetwork 5 2).run ε arc [.curves [c, c, c, c], .loop] = .ok S ∧ S.n = 4 := by
  obtain ⟨S, h1, h2, _⟩ := C50_setCurves (ε := ε) (arc := arc) ((SPatch.new 0).initNetwork 5 2) (cs := [c, c, c, c]) (by simp)
  exact ⟨S, h1, h2⟩

/-- C50: a control point is the one that was last set; the others are not affected. `initNetwork` removes all control points. -/
theorem C50_control (S : SPatch ℝ) (i j : List ℕ) (p : P3 ℝ) (n d : ℕ) : (S.setControlPoint i p).controlPoint i = .ok p ∧ (j ≠ i → (S.setControlPoint i p).controlPoint j = S.controlPoint j) ∧
    (S.initNetwork n d).controlPoint i = .error .exception ∧ ∀ ε uv r, S.eval ε uv = .ok r → r.2.controlPoint i = S.controlPoint i := by
  refine ⟨?_, fun h => ?_, rfl, fun ε uv r e => ?_⟩
  · unfold controlPoint setControlPoint
    rw [mapGet_put, if_pos rfl]
  · unfold controlPoint setControlPoint
    rw [mapGet_put, if_neg h]
  · rw [eval_keeps e]; rfl

theorem run_boundary (hn : 2 ≤ n) {S S' : SPatch ℝ} (h : Shape n d S) (hi : Inv ε S) {cs : List (Call ℝ)} (hc : ∀ c ∈ cs, c.Within n d) (e : S.run ε arc cs = .ok S') {l : List ℕ}
    (hl : ∃ i < n, ∃ j ≤ d, l = tab n (sideLabel d i (nextIx n i) j)) (hin : .loop ∈ cs ∨ mapGet S.net l ≠ none) : mapGet S'.net l ≠ none := by
  induction cs generalizing S with
  | nil => cases e; exact hin.resolve_left (by simp)
  | cons c cs ih =>
    unfold run at e
    obtain ⟨S1, e1, e⟩ := bind_ok e
    refine ih (step_shape hn h (hc c (by simp)) e1).1 (step_inv hi e1) (fun x hx => hc x (List.mem_cons_of_mem _ hx)) e ?_
    by_cases hcs : .loop ∈ cs
    · exact Or.inl hcs
    refine Or.inr ?_
    cases c with
    | init n d => exact absurd (hc _ List.mem_cons_self) id
    | curves cs => exact absurd (hc _ List.mem_cons_self) id
    | set i p =>
      cases e1
      have := hin.resolve_left (by simp [hcs])
      unfold setControlPoint
      dsimp only
      rw [mapGet_put]
      split_ifs
      · simp
      · exact this
    | eval uv =>
      have := hin.resolve_left (by simp [hcs])
      unfold step at e1
      obtain ⟨r, e2, e1⟩ := bind_ok e1
      cases e1
      rw [eval_keeps e2]
      exact this
    | loop =>
      obtain ⟨net', x1, x3, x2⟩ := setupLoop_parts (arc := arc) hn h.n_eq h.depth
      change S.setupLoop arc = _ at e1
      rw [x2] at e1
      rw [updateDomain_keeps e1]
      obtain ⟨i, hi, j, hj, rfl⟩ := hl
      exact x3 i hi j hj

/-- C50: after `setupLoop` there are no missing control points on the boundary. -/
theorem C50_boundary (hn : 3 ≤ n) (h : Usable ε arc n d calls S) {i j : ℕ} (hi : i < n) (hj : j ≤ d) : ∃ p, S.controlPoint (tab n (sideLabel d i ((i + 1) % n) j)) = .ok p := by
  obtain ⟨g, before, rest, rfl, hr, hc, hl⟩ := h
  obtain ⟨S0, r0, r1⟩ := run_split hr
  have hi0 := run_inv (new_inv ε g) r0
  unfold run at r1
  obtain ⟨T, t, r1⟩ := bind_ok r1
  cases t
  have hs : Shape n d (S0.initNetwork n d) := ⟨rfl, rfl, fun l hl => absurd rfl hl⟩
  have := run_boundary (by omega) hs (step_inv (arc := arc) (c := .init n d) hi0 rfl) hc r1 ⟨i, hi, j, hj, rfl⟩ (Or.inl hl)
  unfold controlPoint
  cases e : mapGet S.net (tab n (sideLabel d i ((i + 1) % n) j)) with
  | some p => exact ⟨p, rfl⟩
  | none => exact absurd e this

theorem multinomial_deep {l : List ℕ} (h : Label n d l) (hd : 20 < d) : multinomial l = .error .overflow := by
  unfold multinomial
  have key : ∀ (m : ℕ), m ≤ l.length → forLoop m (fun k (r : ℕ × ℕ) => do
      let i ← vget l k
      let f ← fact i
      .ok (r.1 + i, r.2 * f)) (0, 1) = .error .overflow ∨ ∃ y, forLoop m (fun k (r : ℕ × ℕ) => do
      let i ← vget l k
      let f ← fact i
      .ok (r.1 + i, r.2 * f)) (0, 1) = .ok ((l.take m).sum, y) := by
    intro m
    induction m with
    | zero => intro _; exact Or.inr ⟨1, rfl⟩
    | succ m ih =>
      intro hm
      rw [forLoop_succ]
      rcases ih (by omega) with q | ⟨y, q⟩
      · rw [q]; exact Or.inl rfl
      · rw [q, M_bind_ok]
        have hv : vget l m = .ok (l[m]'(by omega)) := vget_of_lt (by omega)
        rw [hv, M_bind_ok]
        unfold fact
        split_ifs
        · rw [M_bind_ok, List.sum_take_succ _ _ (by omega)]
          exact Or.inr ⟨_, rfl⟩
        · exact Or.inl rfl
  rcases key l.length (le_refl _) with q | ⟨y, q⟩
  · rw [q]; rfl
  · rw [q, M_bind_ok, List.take_length, h.2]
    unfold fact
    rw [if_neg (by omega)]
    rfl

/-- C50: with a depth over 20, the factorials do not fit into the type used for them, and no point of the patch can be evaluated. -/
theorem C50_deep (hε : 0 < ε) (hn : 3 ≤ n) (hd : 20 < d) (h : Usable ε arc n d calls S) {v : ℕ → P2 ℝ} (hv : S.dom.dom.vertices = tab n v) {uv : P2 ℝ} (hin : InsideClosed n v uv) :
    S.eval ε uv = .error .overflow := by
  obtain ⟨hs, hiv, w, hcd⟩ := h.state hn
  have hw : ∀ i < n, v i = w i := fun i hi => tab_inj (hv.symm.trans hcd.vertices_eq) hi
  obtain ⟨l, hl⟩ := C11_defined hε .wachspress hn hcd.vertices_eq hcd.convex (Patch.insideClosed_congr (by omega) hw hin)
  have hf := (hiv.dom.resolve_left (by rw [hcd.n_eq]; omega)).1
  obtain ⟨o, e⟩ := hf.bary_of_raw hl
  obtain ⟨p, hp⟩ := C50_boundary hn h (i := 0) (j := 0) (by omega) (by omega)
  unfold eval
  rw [e, M_bind_ok]
  have hpr := hs.proper
  unfold controlPoint at hp
  cases q : S.net with
  | nil => rw [q] at hp; cases hp
  | cons x r =>
    rw [q] at hpr
    unfold sumNet multiBernstein
    rw [multinomial_deep (hpr x.1 (by unfold mapGet; rw [if_pos rfl]; simp)) hd]
    rfl

section examples

/-- A five-sided patch of depth 2 with all control points missing but two. -/
theorem example_usable (ε : ℝ) (arc : List (P3 ℝ) → ℝ → ℝ → ℝ) : ∃ S, Usable ε arc 5 2 [.init 5 2, .set [2, 0, 0, 0, 0] ⟨1, 2, 3⟩, .set [0, 1, 0, 1, 0] ⟨0, 0, 1⟩, .loop] S ∧ S.controlPoint [2, 0, 0, 0, 0] = .ok ⟨1, 2, 3⟩ := by
  obtain ⟨S, h, _, _, _, hp⟩ := C50_setupLoop (arc := arc) (n := 5) (by omega) ( (((SPatch.new 0).initNetwork 5 2).setControlPoint [2, 0, 0, 0, 0] ⟨1, 2, 3⟩).setControlPoint [0, 1, 0, 1, 0] ⟨0, 0, 1⟩) rfl
  refine ⟨S, ⟨0, [], _, rfl, ?_, ?_, by simp⟩, ?_⟩
  · unfold run step
    rw [M_bind_ok]
    unfold run step
    rw [M_bind_ok]
    unfold run step
    rw [M_bind_ok]
    unfold run step
    rw [h]
    rfl
  · intro c hc
    simp only [List.mem_cons, List.not_mem_nil, or_false] at hc
    rcases hc with rfl | rfl | rfl
    · exact ⟨rfl, rfl⟩
    · exact ⟨rfl, rfl⟩
    · trivial
  · rcases hp [2, 0, 0, 0, 0] with q | ⟨q, _⟩
    · rw [q]; rfl
    · cases q

example (arc : List (P3 ℝ) → ℝ → ℝ → ℝ) : ∃ (S : SPatch ℝ) (v : ℕ → P2 ℝ) (P : (ℕ → ℕ) → P3 ℝ) (uv : P2 ℝ), S.dom.dom.vertices = tab 5 v ∧ InsideClosed 5 v uv ∧ Points 5 2 S P ∧
    P (sideLabel 2 0 1 0) = ⟨1, 2, 3⟩ ∧ ∃ S', S.eval 1 uv = .ok (⟨1, 2, 3⟩, S') := by
  obtain ⟨S, h, hp⟩ := example_usable 1 arc
  obtain ⟨_, _, v, hcd⟩ := h.state (by omega)
  obtain ⟨uv, S', e1, e2⟩ := C50_side one_pos (le_refl _) (by omega) (by omega) h (points_value 5 2 S) (i := 1) (by omega) (le_refl (0 : ℝ)) zero_le_one
  have hv : SPatch.value S.net (tab 5 (sideLabel 2 0 1 0)) = ⟨1, 2, 3⟩ := by
    have ht : tab 5 (sideLabel 2 0 1 0) = [2, 0, 0, 0, 0] := by decide
    unfold controlPoint at hp
    unfold SPatch.value
    rw [ht]
    cases q : mapGet S.net [2, 0, 0, 0, 0] with
    | none => rw [q] at hp; cases hp
    | some p => rw [q] at hp; cases hp; rfl
  refine ⟨S, v, _, uv, hcd.vertices_eq, ?_, points_value 5 2 S, hv, S', ?_⟩
  · have := hcd.insideClosed_side (i := 1) (by omega) (le_refl (0 : ℝ)) zero_le_one
    rw [hcd.edgePoint (by omega)] at e1
    cases e1
    exact this
  · rw [e2, Ribbon.bezier_zero]
    exact congrArg (fun p => Except.ok (p, S')) hv

theorem run_sets (S : SPatch ℝ) (P : (ℕ → ℕ) → P3 ℝ) (ks : List (ℕ → ℕ)) (hks : ∀ k ∈ ks, k ∈ labels n d) : ∃ S', S.run ε arc (ks.map fun k => .set (tab n k) (P k)) = .ok S' ∧
    S'.n = S.n ∧ ∀ k ∈ labels n d, k ∈ ks ∨ S.controlPoint (tab n k) = .ok (P k) → S'.controlPoint (tab n k) = .ok (P k) := by
  induction ks generalizing S with
  | nil => exact ⟨S, rfl, rfl, fun k _ h => h.resolve_left (by simp)⟩
  | cons x ks ih =>
    obtain ⟨S', e, h1, h2⟩ := ih (S.setControlPoint (tab n x) (P x)) fun k hk => hks k (List.mem_cons_of_mem _ hk)
    refine ⟨S', ?_, h1, fun k hk h => h2 k hk ?_⟩
    · rw [List.map_cons]
      unfold run step
      rw [M_bind_ok, e]
    · by_cases q : k = x
      · rw [q]; exact Or.inr (C50_control S _ [] _ 0 0).1
      · rcases h with h | h
        · exact Or.inl ((List.mem_cons.mp h).resolve_left q)
        · refine Or.inr ?_
          rw [(C50_control S (tab n x) (tab n k) (P x) 0 0).2.1 (fun w => q (labels_inj hk (hks x List.mem_cons_self) w)), h]

/-- Any network of control points can be set up by a history of calls; so the hypotheses of the theorems above, including those of `C50_precision`, are satisfiable for all `n` and `d`. -/
theorem C50_complete (hn : 3 ≤ n) (d : ℕ) (P : (ℕ → ℕ) → P3 ℝ) : ∃ calls S, Usable ε arc n d calls S ∧ ∀ k ∈ labels n d, S.controlPoint (tab n k) = .ok (P k) := by
  obtain ⟨S1, e1, h1, h2⟩ := run_sets (ε := ε) (arc := arc) ((SPatch.new 0).initNetwork n d) P (labels n d).toList fun k hk => Finset.mem_toList.mp hk
  obtain ⟨S, e, _, _, _, hp⟩ := C50_setupLoop (arc := arc) hn S1 h1
  refine ⟨[] ++ .init n d :: (((labels n d).toList.map fun k => .set (tab n k) (P k)) ++ [.loop]), S, ⟨0, [], _, rfl, ?_, ?_, by simp⟩, fun k hk => ?_⟩
  · rw [List.nil_append]
    unfold run step
    rw [M_bind_ok]
    refine run_join e1 ?_
    unfold run step
    rw [e]
    rfl
  · intro c hc
    rcases List.mem_append.mp hc with q | q
    · obtain ⟨k, hk, rfl⟩ := List.mem_map.mp q
      exact labels_label (Finset.mem_toList.mp hk)
    · rw [List.mem_singleton.mp q]; trivial
  · have hk1 := h2 k hk (Or.inl (Finset.mem_toList.mpr hk))
    rcases hp (tab n k) with q | ⟨q, _⟩
    · rw [q, hk1]
    · rw [hk1] at q; cases q

end examples

end SPatch

end Transfinite
