import Verif.Lemmas.GBFitSmooth

/-! The whole system of equations and the result of the fit in gb-fit.cc. -/

namespace Transfinite

open Spec Param

namespace GB

variable {n d : ℕ}

theorem rest_pos {fixed u : ℕ} (hn : 3 ≤ n) (hf : fixed < (d + 1) / 2) : enumPos n d ⟨0, fixed, fixed⟩ u = vis n d (rowStart n d fixed + u) := by
  have := pos_rows (n := n) (d := d) (f := 0) (r := fixed) (u := u) (by omega) (Nat.zero_le _) (by omega)
  rw [rowStart_zero, Nat.sub_zero] at this
  exact this.symm

theorem enumRest {σ : Type} (hn : 3 ≤ n) {fixed : ℕ} (hf : fixed ≤ (d + 1) / 2) (body : ℕ → Name → σ → M σ) (s : σ) :
    enumLoop n d body (rowStart n d fixed + 1) (enumCount n d - rowStart n d fixed) ⟨0, fixed, fixed⟩ s =
      forLoop (enumCount n d - rowStart n d fixed) (fun u => body (rowStart n d fixed + 1 + u) (vis n d (rowStart n d fixed + u))) s := by
  rw [enumLoop_eq]
  apply forLoop_congr
  intro u s hu
  by_cases c : fixed < (d + 1) / 2
  · rw [rest_pos hn c]
  · exfalso
    rw [enumCount_eq, show fixed = (d + 1) / 2 by omega] at hu
    omega

section

variable {S : GB ℝ} {F : ℕ → ℕ → ℕ → P3 ℝ}

theorem smooth_eq (hn : 3 ≤ n) (hF : HasNet S n d F)
    (hc : ∀ a b : Name, a.InRange n d → b.InRange n d → SamePoint n d a b → F a.side a.col a.row = F b.side b.col b.row) {fixed : ℕ} (hf1 : 1 ≤ fixed) (hf2 : fixed ≤ (d + 1) / 2)
    {bcp : ℕ} (hb : bcp = rowStart n d fixed) (m : ℕ) (s : ℝ) (fg : (ℕ → ℕ → ℝ) × (ℕ → P3 ℝ)) (h0 : ∀ r, m ≤ r → (∀ c, fg.1 r c = 0) ∧ fg.2 r = 0) :
    ∃ fg' : (ℕ → ℕ → ℝ) × (ℕ → P3 ℝ),
      S.smooth n d ((d + 1) / 2) bcp (enumCount n d) m fixed s
        (mat (m + (enumCount n d + 1 - bcp)) (enumCount n d + 1 - bcp) fg.1, tab (m + (enumCount n d + 1 - bcp)) fg.2) =
        .ok (mat (m + (enumCount n d + 1 - bcp)) (enumCount n d + 1 - bcp) fg'.1, tab (m + (enumCount n d + 1 - bcp)) fg'.2) ∧
      (∀ r < m, (∀ c, fg'.1 r c = fg.1 r c) ∧ fg'.2 r = fg.2 r) ∧
      ∀ (X : ℕ → P3 ℝ) (val : Name → P3 ℝ), (∀ q idx, q.InRange n d → IsAt n d q idx → val q = ptOf bcp (fun t => F (vis n d t).side (vis n d t).col (vis n d t).row) X idx) →
        res (enumCount n d + 1 - bcp) X fg' m = s • X 0 - (s / n) • ∑ j ∈ Finset.range n, val ⟨j, (d + 1) / 2, (d + 1) / 2 - 1⟩ ∧
        ∀ t < enumCount n d, bcp ≤ t → res (enumCount n d + 1 - bcp) X fg' (m + (t + 1 - bcp)) =
          s • val (vis n d t) - (s / 4) • ((neighbours n d (vis n d t)).map (optPoint val (X 0))).sum := by
  set Pt : ℕ → P3 ℝ := fun t => F (vis n d t).side (vis n d t).col (vis n d t).row with hPt
  set N := enumCount n d with hN
  have hle : bcp ≤ N := by rw [hb, hN, enumCount_eq]; exact rowStart_mono hf2 (by omega)
  set R := m + (N + 1 - bcp) with hR
  set C := N + 1 - bcp with hC
  have hl : 1 ≤ (d + 1) / 2 := by omega
  have hq : ∀ j < n, (⟨j, (d + 1) / 2, (d + 1) / 2 - 1⟩ : Name).InRange n d := fun j hj => ⟨hj, by dsimp only; omega, by dsimp only; omega⟩
  have hex : ∀ j, ∃ idx, j < n → IsAt n d ⟨j, (d + 1) / 2, (d + 1) / 2 - 1⟩ idx ∧ findControlPoint n d N 0 j ((d + 1) / 2) ((d + 1) / 2 - 1) = .ok idx := by
    intro j
    by_cases hj : j < n
    · obtain ⟨idx, h1, h2⟩ := isAt_exists (hq j hj)
      exact ⟨idx, fun _ => ⟨h1, h2⟩⟩
    · exact ⟨0, fun w => absurd w hj⟩
  choose ix hix using hex
  have hn0 : (n : ℝ) ≠ 0 := by positivity
  have hmR : m < R := by omega
  -- the row of the centre
  set L : ℕ → List (ℕ × ℝ) := fun t => tab t fun j => (ix j, -s / n) with hL
  set L' : List (ℕ × ℝ) := L n ++ [(0, s)] with hL'
  have hrow : forLoop n (fun j Ab => S.setWeight n d bcp N m j ((d + 1) / 2) ((d + 1) / 2 - 1) (-s / n) Ab) (mat R C fg.1, tab R fg.2) =
      .ok (mat R C ((L n).foldl (wr bcp Pt m) fg).1, tab R ((L n).foldl (wr bcp Pt m) fg).2) := by
    rw [forLoop_eq (fun t => (mat R C ((L t).foldl (wr bcp Pt m) fg).1, tab R ((L t).foldl (wr bcp Pt m) fg).2))]
    · rfl
    · intro t ht
      rw [setWeight_eq (Pt := Pt) (hix t ht).2 (isAt_le (hix t ht).1).2 hle hmR (fun _ _ => read_at hF hc (hq t ht) (hix t ht).1)]
      have : L (t + 1) = L t ++ [(ix t, -s / n)] := tab_succ _ _
      rw [this, List.foldl_append]
      rfl
  set fg1 := L'.foldl (wr bcp Pt m) fg with hfg1
  have hcen : matSet (mat R C ((L n).foldl (wr bcp Pt m) fg).1) m 0 s = .ok (mat R C fg1.1) ∧ ((L n).foldl (wr bcp Pt m) fg).2 = fg1.2 := by
    rw [matSet_eq hmR (by omega), hfg1, hL', List.foldl_append, List.foldl_cons, List.foldl_nil]
    conv_rhs => rw [wr]
    constructor
    · conv_rhs => rw [wr]
      rw [if_pos (Or.inl rfl), Nat.zero_sub]
    · rw [if_pos (Or.inl rfl)]
  have fg1_other : ∀ r ≠ m, (∀ c, fg1.1 r c = fg.1 r c) ∧ fg1.2 r = fg.2 r := fun r hr => foldl_wr_other hr L' fg
  have key := forLoop_inv (n := N - bcp) (body := fun u (Ab : List (List ℝ) × List (P3 ℝ)) => do
      let q ← fdiv (-s) 4
      let Ab ← S.setWeight n d bcp N (m + (bcp + 1 + u) - bcp) (vis n d (bcp + u)).side (usub (vis n d (bcp + u)).col 1) (vis n d (bcp + u)).row q Ab
      let Ab ← S.setWeight n d bcp N (m + (bcp + 1 + u) - bcp) (vis n d (bcp + u)).side ((vis n d (bcp + u)).col + 1) (vis n d (bcp + u)).row q Ab
      let Ab ← S.setWeight n d bcp N (m + (bcp + 1 + u) - bcp) (vis n d (bcp + u)).side (vis n d (bcp + u)).col (usub (vis n d (bcp + u)).row 1) q Ab
      let Ab ← S.setWeight n d bcp N (m + (bcp + 1 + u) - bcp) (vis n d (bcp + u)).side (vis n d (bcp + u)).col ((vis n d (bcp + u)).row + 1) q Ab
      let A ← matSet Ab.1 (m + (bcp + 1 + u) - bcp) (bcp + 1 + u - bcp) s
      .ok (A, Ab.2)) (s := (mat R C fg1.1, tab R fg1.2))
    (fun u Ab => ∃ fg' : (ℕ → ℕ → ℝ) × (ℕ → P3 ℝ), Ab = (mat R C fg'.1, tab R fg'.2) ∧
      (∀ r, r ≤ m ∨ m + u < r → (∀ c, fg'.1 r c = fg1.1 r c) ∧ fg'.2 r = fg1.2 r) ∧
      ∀ (X : ℕ → P3 ℝ) (val : Name → P3 ℝ), (∀ q idx, q.InRange n d → IsAt n d q idx → val q = ptOf bcp Pt X idx) →
        ∀ v < u, res C X fg' (m + (v + 1)) = s • val (vis n d (bcp + v)) - (s / 4) • ((neighbours n d (vis n d (bcp + v))).map (optPoint val (X 0))).sum)
    ⟨fg1, rfl, fun _ _ => ⟨fun _ => rfl, rfl⟩, fun _ _ _ v hv => absurd hv (by omega)⟩ (by
      rintro u _ hu ⟨fg2, rfl, g1, g2⟩
      have z1 := g1 (m + (u + 1)) (Or.inr (by omega))
      have z2 := fg1_other (m + (u + 1)) (by omega)
      have z3 := h0 (m + (u + 1)) (by omega)
      obtain ⟨fg3, e, o, r3⟩ := smooth_inner hn hF hc hf1 hf2 hb (t := bcp + u) (by omega) (by omega) (R := R) (j := m + (u + 1)) (by omega) s fg2
        (fun c => by rw [z1.1, z2.1, z3.1]) (by rw [z1.2, z2.2, z3.2])
      refine ⟨_, ?_, fg3, rfl, ?_, ?_⟩
      · rw [show m + (bcp + 1 + u) - bcp = m + (u + 1) by omega, show bcp + 1 + u - bcp = bcp + u + 1 - bcp by omega]
        exact e
      · intro r hr
        obtain ⟨o1, o2⟩ := o r (by omega)
        obtain ⟨p1, p2⟩ := g1 r (by omega)
        exact ⟨fun c => (o1 c).trans (p1 c), o2.trans p2⟩
      · intro X val hval v hv
        by_cases hvu : v = u
        · subst hvu
          exact r3 X val hval
        · obtain ⟨o1, o2⟩ := o (m + (v + 1)) (by omega)
          rw [res_congr (fg' := fg2) o1 o2]
          exact g2 X val hval v (by omega))
  obtain ⟨_, e, fg', rfl, g1, g2⟩ := key
  refine ⟨fg', ?_, ?_, ?_⟩
  · unfold smooth
    rw [fdiv_of_ne hn0, M_bind_ok, usub_of_le hl, hrow, M_bind_ok]
    dsimp only
    rw [hcen.1, M_bind_ok, hcen.2]
    subst hb
    rw [enumRest hn hf2]
    exact e
  · intro r hr
    obtain ⟨p1, p2⟩ := g1 r (Or.inl (by omega))
    obtain ⟨q1, q2⟩ := fg1_other r (by omega)
    exact ⟨fun c => (p1 c).trans (q1 c), p2.trans q2⟩
  · intro X val hval
    refine ⟨?_, ?_⟩
    · obtain ⟨p1, p2⟩ := g1 m (Or.inl le_rfl)
      rw [res_congr (fg' := fg1) p1 p2, hfg1, res_foldl (by omega)]
      · have hres : res C X fg m = 0 := by
          unfold res
          rw [(h0 m le_rfl).2, sub_zero]
          exact Finset.sum_eq_zero fun c _ => by rw [(h0 m le_rfl).1, zero_smul]
        rw [hres, zero_add, hL', List.map_append, List.sum_append]
        simp only [List.map_cons, List.map_nil, List.sum_cons, List.sum_nil, add_zero]
        have e0 : ptOf bcp Pt X 0 = X 0 := by unfold ptOf; rw [if_pos (Or.inl rfl), Nat.zero_sub]
        have e1 : ((L n).map fun x => x.2 • ptOf bcp Pt X x.1).sum = ∑ j ∈ Finset.range n, (-s / n) • val ⟨j, (d + 1) / 2, (d + 1) / 2 - 1⟩ := by
          rw [hL, ← sum_tab]
          unfold tab
          rw [List.map_map]
          congr 1
          refine List.map_congr_left fun j hj => ?_
          have hj := List.mem_range.mp hj
          rw [hval _ _ (hq j hj) (hix j hj).1]
          rfl
        rw [e0, e1, ← Finset.smul_sum, show -s / (n : ℝ) = -(s / n) by ring, neg_smul]
        abel
      · rw [hL', List.map_append, List.nodup_append]
        refine ⟨?_, by simp, ?_⟩
        · rw [hL]
          unfold tab
          rw [List.map_map]
          refine List.Nodup.map_on ?_ List.nodup_range
          intro x hx y hy hxy
          have hx := List.mem_range.mp hx
          have hy := List.mem_range.mp hy
          have hxy : ix x = ix y := hxy
          have := (hix y hy).1
          rw [← hxy] at this
          rcases isAt_same (hq x hx) (hq y hy) (hix x hx).1 this with w | ⟨w, _, _⟩ | ⟨w, _, _⟩
          · exact congrArg Name.side w
          · dsimp only at w; omega
          · dsimp only at w; omega
        · intro x hx y hy
          simp only [List.map_cons, List.map_nil, List.mem_singleton] at hy
          subst hy
          rw [hL] at hx
          unfold tab at hx
          rw [List.map_map] at hx
          obtain ⟨j, hj, rfl⟩ := List.mem_map.mp hx
          exact (isAt_le (hix j (List.mem_range.mp hj)).1).1
      · intro x hx
        rcases List.mem_append.mp hx with w | w
        · obtain ⟨j, hj, rfl⟩ := List.mem_map.mp w
          have := (isAt_le (hix j (List.mem_range.mp hj)).1).2
          dsimp only
          omega
        · rw [List.mem_singleton.mp w]
          dsimp only
          omega
      · intro x _ _
        exact (h0 m le_rfl).1 _
    · intro t ht hbt
      have := g2 X val hval (t - bcp) (by omega)
      rw [show bcp + (t - bcp) = t by omega, show t - bcp + 1 = t + 1 - bcp by omega] at this
      exact this

end

/-! ### The sample rows -/

section

variable {ε : ℝ} {arc : List (P3 ℝ) → ℝ → ℝ → ℝ} {R0 G : GB ℝ} {F : ℕ → ℕ → ℕ → P3 ℝ}

/-- The right-hand side and the weights of the sample rows. -/
noncomputable def sampleRows (ε : ℝ) (sq : Bool) (n d bcp m : ℕ) (F : ℕ → ℕ → ℕ → P3 ℝ) (f : ℕ → ℕ → P2 ℝ) (p : ℕ → P3 ℝ) : (ℕ → ℕ → ℝ) × (ℕ → P3 ℝ) :=
  (fun r c => if r < m then (if c = 0 then 1 - ∑ t ∈ Finset.range (enumCount n d), perPoint n d (wv ε sq n d (f r)) (vis n d t)
      else perPoint n d (wv ε sq n d (f r)) (vis n d (bcp + c - 1))) else 0,
    fun r => if r < m then p r - ∑ t ∈ Finset.range bcp, perPoint n d (wv ε sq n d (f r)) (vis n d t) • F (vis n d t).side (vis n d t).col (vis n d t).row else 0)

theorem fillAll_eq (hε : 0 < ε) (hn : 3 ≤ n) (hF : HasNet R0 n d F) (h : FitOk ε arc n d R0 G) {bcp : ℕ} (hb : bcp ≤ enumCount n d) {m : ℕ} {params : List (P2 ℝ)} {uv : ℕ → P2 ℝ}
    (hq : ∀ j < m, vget params j = .ok (uv j)) (p : ℕ → P3 ℝ) {f : ℕ → ℕ → P2 ℝ} (hf : ∀ r < m, ∀ j < n, baryMap ε .wachspress R0.dom.dom j (uv r) = .ok (f r j)) :
    ∃ G' s, forLoop m (fillRow ε n d ((d + 1) / 2) bcp (enumCount n d) (tab m p) params)
        ⟨G, List.replicate (m + (enumCount n d + 1 - bcp)) (List.replicate (enumCount n d + 1 - bcp) 0), List.replicate (m + (enumCount n d + 1 - bcp)) 0, 0⟩ =
      .ok ⟨G', mat (m + (enumCount n d + 1 - bcp)) (enumCount n d + 1 - bcp) (sampleRows ε R0.squared n d bcp m F f p).1,
        tab (m + (enumCount n d + 1 - bcp)) (sampleRows ε R0.squared n d bcp m F f p).2, s⟩ ∧ FitOk ε arc n d R0 G' := by
  set N := enumCount n d with hN
  set R := m + (N + 1 - bcp) with hR
  set C := N + 1 - bcp with hC
  have key := forLoop_inv (n := m) (body := fillRow ε n d ((d + 1) / 2) bcp N (tab m p) params) (s := ⟨G, List.replicate R (List.replicate C 0), List.replicate R 0, 0⟩)
    (fun u (st : FitState ℝ) => FitOk ε arc n d R0 st.surf ∧ st.A = mat R C (sampleRows ε R0.squared n d bcp u F f p).1 ∧ st.b = tab R (sampleRows ε R0.squared n d bcp u F f p).2)
    ⟨h, ?_, ?_⟩ ?_
  · obtain ⟨⟨G', A, b, s⟩, e, i1, i2, i3⟩ := key
    dsimp only at i1 i2 i3
    subst i2 i3
    exact ⟨G', s, e, i1⟩
  · dsimp only
    rw [replicate_eq_tab, replicate_eq_tab]
    exact mat_congr fun r _ c _ => by simp [sampleRows]
  · dsimp only
    rw [replicate_eq_tab]
    exact tab_congr fun r _ => by simp [sampleRows]
  · rintro u ⟨S, A, b, s⟩ hu ⟨i1, i2, i3⟩
    dsimp only at i1 i2 i3
    subst i2 i3
    obtain ⟨G', s', e, hG'⟩ := fillRow_eq hε hn hF (hf u hu) hb (R := R) (j := u) (by omega) (vget_tab p hu) (hq u hu) (fA := (sampleRows ε R0.squared n d bcp u F f p).1)
      (gb := (sampleRows ε R0.squared n d bcp u F f p).2) (s := s) i1
    refine ⟨_, e, hG', ?_, ?_⟩
    · refine mat_congr fun r _ c _ => ?_
      unfold sampleRows
      dsimp only
      by_cases q : r = u
      · subst q
        rw [if_pos rfl, if_pos (show r < r + 1 by omega)]
      · rw [if_neg q]
        by_cases q' : r < u
        · rw [if_pos q', if_pos (show r < u + 1 by omega)]
        · rw [if_neg q', if_neg (show ¬r < u + 1 by omega)]
    · refine tab_congr fun r _ => ?_
      unfold sampleRows
      dsimp only
      by_cases q : r = u
      · subst q
        rw [if_pos rfl, if_neg (show ¬r < r by omega), if_pos (show r < r + 1 by omega), zero_sub]
        abel
      · rw [if_neg q]
        by_cases q' : r < u
        · rw [if_pos q', if_pos (show r < u + 1 by omega)]
        · rw [if_neg q', if_neg (show ¬r < u + 1 by omega)]

/-- The residual of a sample row. -/
theorem res_sample {sq : Bool} {bcp m r : ℕ} (hb : bcp ≤ enumCount n d) (hr : r < m) {f : ℕ → ℕ → P2 ℝ} {p X : ℕ → P3 ℝ} :
    res (enumCount n d + 1 - bcp) X (sampleRows ε sq n d bcp m F f p) r =
      (∑ t ∈ Finset.range (enumCount n d), perPoint n d (wv ε sq n d (f r)) (vis n d t) • ptOf bcp (fun t => F (vis n d t).side (vis n d t).col (vis n d t).row) X (t + 1)) +
      (1 - ∑ t ∈ Finset.range (enumCount n d), perPoint n d (wv ε sq n d (f r)) (vis n d t)) • X 0 - p r := by
  obtain ⟨k, hk⟩ := Nat.exists_eq_add_of_le hb
  unfold res sampleRows
  dsimp only
  simp only [if_pos hr]
  rw [show enumCount n d + 1 - bcp = k + 1 by omega, Finset.sum_range_succ', if_pos rfl]
  have e1 : (∑ t ∈ Finset.range (enumCount n d), perPoint n d (wv ε sq n d (f r)) (vis n d t) • ptOf bcp (fun t => F (vis n d t).side (vis n d t).col (vis n d t).row) X (t + 1)) =
      (∑ t ∈ Finset.range bcp, perPoint n d (wv ε sq n d (f r)) (vis n d t) • F (vis n d t).side (vis n d t).col (vis n d t).row) +
        ∑ c ∈ Finset.range k, perPoint n d (wv ε sq n d (f r)) (vis n d (bcp + c)) • X (c + 1) := by
    rw [hk, Finset.sum_range_add]
    congr 1
    · refine Finset.sum_congr rfl fun t ht => ?_
      have ht := Finset.mem_range.mp ht
      unfold ptOf
      rw [if_neg (by omega), Nat.add_sub_cancel]
    · refine Finset.sum_congr rfl fun c _ => ?_
      unfold ptOf
      rw [if_pos (by omega), show bcp + c + 1 - bcp = c + 1 by omega]
  rw [e1, Finset.sum_congr rfl (g := fun c => perPoint n d (wv ε sq n d (f r)) (vis n d (bcp + c)) • X (c + 1)) fun c _ => by
    rw [if_neg (by omega), show bcp + (c + 1) - 1 = bcp + c by omega]]
  abel

/-! ### The result -/

theorem Usable.append {kind : GBKind ℝ} {calls cs : List (Call ℝ)} {G' : GB ℝ} (h : Usable ε arc kind n d calls G) (hc : ∀ c ∈ cs, c.reshapes = false)
    (e : G.run ε arc cs = .ok G') (h1 : G'.n = G.n) (h2 : G'.degree = G.degree) : Usable ε arc kind n d (calls ++ cs) G' := by
  obtain ⟨g, l, before, later, rfl, hr, hb, hl, hn, hd⟩ := h
  refine ⟨g, l, before, later ++ cs, by simp, run_join hr e, hb, ?_, h1.trans hn, h2.trans hd⟩
  intro x hx
  rcases List.mem_append.mp hx with q | q
  · exact hl x q
  · exact hc x q

theorem fitResult_eq (hn : 3 ≤ n) (hF : HasNet R0 n d F) (h : FitOk ε arc n d R0 G)
    (hc : ∀ a b : Name, a.InRange n d → b.InRange n d → SamePoint n d a b → F a.side a.col a.row = F b.side b.col b.row) {fixed : ℕ} (hf2 : fixed ≤ (d + 1) / 2)
    {bcp : ℕ} (hb : bcp = rowStart n d fixed) {x : List (P3 ℝ)} {X : ℕ → P3 ℝ} (hx : ∀ c < enumCount n d + 1 - bcp, vget x c = .ok (X c)) :
    ∃ R, fitResult n d bcp (enumCount n d) fixed x G = .ok R ∧ (∃ calls, Usable ε arc .side n d calls R ∧ ∀ c ∈ calls, c.regular = true) ∧ R.central = X 0 ∧
      R.squared = R0.squared ∧ R.dom = R0.dom ∧ ∃ F', HasNet R n d F' ∧
      ∀ q idx, q.InRange n d → IsAt n d q idx → F' q.side q.col q.row = ptOf bcp (fun t => F (vis n d t).side (vis n d t).col (vis n d t).row) X idx := by
  set N := enumCount n d with hN
  have hle : bcp ≤ N := by rw [hb, hN, enumCount_eq]; exact rowStart_mono hf2 (by omega)
  set w : List (Name × P3 ℝ) := (List.range (N - bcp)).flatMap fun u => [(vis n d (bcp + u), X (u + 1))] with hw
  have hwm : ∀ x ∈ w, ∃ u < N - bcp, x = (vis n d (bcp + u), X (u + 1)) := by
    intro x hx
    simp only [hw, List.mem_flatMap, List.mem_range, List.mem_singleton] at hx
    exact hx
  have hwr : ∀ x ∈ w, x.1.InRange n d := by
    intro x hx
    obtain ⟨u, hu, rfl⟩ := hwm x hx
    exact (vis_main (by omega)).inRange
  have hG := h.same.hasNet hF
  have hGc : HasNet (G.setCentral (X 0)) n d F := ⟨hG.n_eq, hG.degree, hG.layers, hG.nets⟩
  obtain ⟨R, e, q, hR⟩ := sets_eq hwr hGc
  obtain ⟨calls, hu, hr⟩ := h.usable
  refine ⟨R, ?_, ⟨calls ++ (.central (X 0) :: w.map fun x => Call.set x.1.side x.1.col x.1.row x.2), hu.append ?_ ?_ ?_ ?_, ?_⟩, ?_, ?_, ?_, _, hR, ?_⟩
  · unfold fitResult
    rw [hx 0 (by omega), M_bind_ok]
    subst hb
    rw [enumRest hn hf2]
    rw [← e, hw]
    refine forLoop_sets (fun u hu R => ?_) _
    rw [show rowStart n d fixed + 1 + u - rowStart n d fixed = u + 1 by omega, hx (u + 1) (by omega), M_bind_ok, sets_single]
  · intro c hc
    rcases List.mem_cons.mp hc with rfl | hc
    · rfl
    · obtain ⟨_, _, rfl⟩ := List.mem_map.mp hc
      rfl
  · unfold run
    rw [show G.step ε arc (.central (X 0)) = .ok (G.setCentral (X 0)) from rfl, M_bind_ok, sets_run, e]
  · rw [q]; rfl
  · rw [q]; rfl
  · intro c hc
    rcases List.mem_append.mp hc with hc | hc
    · exact hr c hc
    · rcases List.mem_cons.mp hc with rfl | hc
      · rfl
      · obtain ⟨_, _, rfl⟩ := List.mem_map.mp hc
        rfl
  · rw [q]; rfl
  · rw [q]; exact h.same.squared
  · rw [q]; exact h.dom
  · rintro a idx ha ⟨t, ht, rfl, hs⟩
    have haid : (⟨a.side, a.col, a.row⟩ : Name) = a := rfl
    unfold ptOf
    by_cases c : bcp < t + 1
    · rw [if_pos (Or.inr c)]
      rw [haid]
      refine foldl_const ?_ _ (Or.inr ⟨(vis n d t, X (t + 1 - bcp)), ?_, hs⟩)
      · intro y hy hsy
        obtain ⟨u, hu, rfl⟩ := hwm y hy
        dsimp only at hsy ⊢
        have hm1 := vis_main (n := n) (d := d) ht
        have hm2 := vis_main (n := n) (d := d) (t := bcp + u) (by omega)
        have := visited_inj ht (by omega) (main_unique hm1 hm2 (samePoint_trans hm1.1 hm2.1 (samePoint_symm hs) hsy))
        congr 1
        omega
      · simp only [hw, List.mem_flatMap, List.mem_range, List.mem_singleton]
        refine ⟨t - bcp, by omega, ?_⟩
        rw [show bcp + (t - bcp) = t by omega, show t - bcp + 1 = t + 1 - bcp by omega]
    · rw [if_neg (by omega), Nat.add_sub_cancel, haid]
      refine foldl_const ?_ _ (Or.inl (hc a (vis n d t) ha (vis_main ht).inRange hs))
      intro y hy hsy
      obtain ⟨u, hu, rfl⟩ := hwm y hy
      exfalso
      have hm1 := vis_main (n := n) (d := d) ht
      have hm2 := vis_main (n := n) (d := d) (t := bcp + u) (by omega)
      have := visited_inj ht (by omega) (main_unique hm1 hm2 (samePoint_trans hm1.1 hm2.1 (samePoint_symm hs) hsy))
      omega

end

end GB

end Transfinite
