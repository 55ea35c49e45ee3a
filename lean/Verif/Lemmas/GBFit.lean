import Verif.Model.GBFit
import Verif.Lemmas.GenBezierGroup
import Verif.Lemmas.GenBezierSets
import Verif.Props.GenBezierExport

/-! The system of equations of gb-fit.cc. -/

namespace Transfinite

open Spec Param

namespace GB

section

variable {K : Type} [Field K] [LinearOrder K] [Libm K]

/-- A matrix. -/
def mat (R C : ℕ) (f : ℕ → ℕ → K) : List (List K) := tab R fun r => tab C (f r)

theorem mat_congr {R C : ℕ} {f g : ℕ → ℕ → K} (h : ∀ r < R, ∀ c < C, f r c = g r c) : mat R C f = mat R C g :=
  tab_congr fun r hr => tab_congr fun c hc => h r hr c hc

theorem matSet_eq {R C r c : ℕ} (hr : r < R) (hc : c < C) (f : ℕ → ℕ → K) (v : K) :
    matSet (mat R C f) r c v = .ok (mat R C fun r' c' => if r' = r ∧ c' = c then v else f r' c') := by
  unfold matSet mat
  rw [vget_tab _ hr, M_bind_ok, vset_tab _ _ hc, M_bind_ok, vset_tab _ _ hr]
  congr 1
  refine tab_congr fun r' _ => ?_
  by_cases q : r' = r
  · subst q
    rw [Function.update_self]
    refine tab_congr fun c' _ => ?_
    by_cases q' : c' = c
    · subst q'; dsimp only; rw [Function.update_self, if_pos ⟨rfl, rfl⟩]
    · dsimp only; rw [Function.update_of_ne q', if_neg (fun w => q' w.2)]
  · rw [Function.update_of_ne q]
    refine tab_congr fun c' _ => ?_
    dsimp only
    rw [if_neg (fun w => q w.1)]

theorem rhsAdd_eq {R r : ℕ} (hr : r < R) (g : ℕ → P3 K) (p : P3 K) : rhsAdd (tab R g) r p = .ok (tab R fun r' => if r' = r then g r + p else g r') := by
  unfold rhsAdd
  rw [vget_tab _ hr, M_bind_ok, vset_tab _ _ hr]
  congr 1
  refine tab_congr fun r' _ => ?_
  by_cases q : r' = r
  · subst q; rw [Function.update_self, if_pos rfl]
  · rw [Function.update_of_ne q, if_neg q]

end

variable {ε : ℝ} {arc : List (P3 ℝ) → ℝ → ℝ → ℝ} {n d : ℕ} {R0 G : GB ℝ} {f : ℕ → P2 ℝ} {uv : P2 ℝ}

theorem Usable.snoc {kind : GBKind ℝ} {calls : List (Call ℝ)} {G' : GB ℝ} (h : Usable ε arc kind n d calls G) {c : Call ℝ} (hc : c.reshapes = false)
    (e : G.step ε arc c = .ok G') (h1 : G'.n = G.n) (h2 : G'.degree = G.degree) : Usable ε arc kind n d (calls ++ [c]) G' := by
  obtain ⟨g, l, before, later, rfl, hr, hb, hl, hn, hd⟩ := h
  refine ⟨g, l, before, later ++ [c], by simp, run_join hr ?_, hb, ?_, h1.trans hn, h2.trans hd⟩
  · unfold run
    rw [e, M_bind_ok]
    rfl
  · intro x hx
    rcases List.mem_append.mp hx with q | q
    · exact hl x q
    · rw [List.mem_singleton.mp q]; exact hc

/-- `G` is the patch `R0`, perhaps with other caches. -/
structure FitOk (ε : ℝ) (arc : List (P3 ℝ) → ℝ → ℝ → ℝ) (n d : ℕ) (R0 G : GB ℝ) : Prop where
  usable : ∃ calls, Usable ε arc .side n d calls G ∧ ∀ c ∈ calls, c.regular = true
  same : SameNet R0 G
  dom : G.dom = R0.dom

/-- The value of `weight`. -/
noncomputable def wv (ε : ℝ) (sq : Bool) (n d : ℕ) (f : ℕ → P2 ℝ) (i j k : ℕ) : ℝ :=
  if 2 ≤ k ∧ (j < k ∨ usub d k < j) then 0
  else if (f i).y + (f (nextIx n i)).y < ε then (if j = d ∧ k = 0 then 1 / 2 else 0)
  else if (f (prevIx n i)).y + (f i).y < ε then (if j = 0 ∧ k = 0 then 1 / 2 else 0)
  else wt sq n d f i j k

theorem weight_fit (hε : 0 < ε) (hn : 3 ≤ n) (h : FitOk ε arc n d R0 G) (hf : ∀ j < n, baryMap ε .wachspress R0.dom.dom j uv = .ok (f j)) {i j k : ℕ} (hi : i < n)
    (hj : j ≤ d) (hk : k < (d + 1) / 2) : ∃ G', G.weight ε i j k uv = .ok (wv ε R0.squared n d f i j k, G') ∧ FitOk ε arc n d R0 G' := by
  obtain ⟨calls, hu, hr⟩ := h.usable
  obtain ⟨hi', hk0, _, ⟨F, hF⟩, _⟩ := hu.state (by omega)
  obtain ⟨o, ho⟩ := hu.maps hn (uv := uv) (f := f) (by rw [h.dom]; exact hf)
  suffices ∃ G', G.weight ε i j k uv = .ok (wv ε R0.squared n d f i j k, G') by
    obtain ⟨G', e⟩ := this
    have k1 := weight_keeps e
    obtain ⟨i2, d2⟩ := weight_inv e hi'
    refine ⟨G', e, ⟨calls ++ [.weight i j k uv], hu.snoc rfl ?_ k1.n_eq k1.degree, ?_⟩, ⟨k1.kind.trans h.same.kind, k1.n_eq.trans h.same.n_eq, k1.degree.trans h.same.degree, k1.layers.trans h.same.layers,
      k1.central.trans h.same.central, k1.nets.trans h.same.nets, k1.squared.trans h.same.squared⟩, d2.trans h.dom⟩
    · change (G.weight ε i j k uv >>= fun r => .ok r.2) = _
      rw [e, M_bind_ok]
    · intro x hx
      rcases List.mem_append.mp hx with q | q
      · exact hr x q
      · rw [List.mem_singleton.mp q]; rfl
  have hsq := h.same.squared
  unfold weight wv
  rw [hk0] at ho ⊢
  dsimp only
  rw [hF.degree]
  by_cases hz : 2 ≤ k ∧ (j < k ∨ usub d k < j)
  · rw [if_pos hz, if_pos hz]
    exact ⟨_, rfl⟩
  · rw [if_neg hz, if_neg hz, ho, M_bind_ok]
    by_cases c1 : (f i).y + (f (nextIx n i)).y < ε
    · unfold sideWeight
      rw [hF.n_eq, hF.degree, vget_tab _ hi, M_bind_ok, vget_tab _ (prevIx_lt (by omega)), M_bind_ok, vget_tab _ (nextIx_lt (by omega)), M_bind_ok, if_pos c1, if_pos c1, M_bind_ok]
      exact ⟨_, rfl⟩
    · by_cases c2 : (f (prevIx n i)).y + (f i).y < ε
      · unfold sideWeight
        rw [hF.n_eq, hF.degree, vget_tab _ hi, M_bind_ok, vget_tab _ (prevIx_lt (by omega)), M_bind_ok, vget_tab _ (nextIx_lt (by omega)), M_bind_ok, if_neg c1, if_pos c2, if_neg c1, if_pos c2,
          M_bind_ok]
        exact ⟨_, rfl⟩
      · rw [sideWeight_eq hε hF hi hj hk hz (not_lt.mp c1) (not_lt.mp c2), if_neg c1, if_neg c2, M_bind_ok, hsq]
        exact ⟨_, rfl⟩

theorem blendOf_fit (hε : 0 < ε) (hn : 3 ≤ n) (h : FitOk ε arc n d R0 G) (hf : ∀ j < n, baryMap ε .wachspress R0.dom.dom j uv = .ok (f j)) {a : Name} (ha : Name.Main n d a) :
    ∃ G', blendOf ε n d ((d + 1) / 2) uv a G = .ok (perPoint n d (wv ε R0.squared n d f) a, G') ∧ FitOk ε arc n d R0 G' := by
  obtain ⟨a1, a2, a3⟩ := ha
  obtain ⟨G1, e1, h1⟩ := weight_fit hε hn h hf a1 (show a.col ≤ d by omega) (show a.row < (d + 1) / 2 by omega)
  unfold blendOf perPoint
  rw [e1, M_bind_ok, usub_of_le (show a.row ≤ d by omega), usub_of_le (show (d + 1) / 2 ≤ d by omega), usub_of_le (show a.col ≤ d by omega)]
  have step2 : ∃ G2, addWhen (decide (a.col < (d + 1) / 2)) (GB.weight ε ((a.side + n - 1) % n) (d - a.row) a.col uv) (wv ε R0.squared n d f a.side a.col a.row, G1) =
      .ok (wv ε R0.squared n d f a.side a.col a.row + (if a.col < (d + 1) / 2 then wv ε R0.squared n d f ((a.side + n - 1) % n) (d - a.row) a.col else 0), G2) ∧
      FitOk ε arc n d R0 G2 := by
    unfold addWhen
    by_cases c : a.col < (d + 1) / 2
    · rw [if_pos (decide_eq_true c), if_pos c]
      obtain ⟨G2, e2, h2⟩ := weight_fit hε hn h1 hf (show (a.side + n - 1) % n < n from Nat.mod_lt _ (by omega)) (show d - a.row ≤ d by omega) c
      dsimp only
      rw [e2, M_bind_ok]
      exact ⟨G2, rfl, h2⟩
    · rw [if_neg (by simpa using c), if_neg c, add_zero]
      exact ⟨G1, rfl, h1⟩
  obtain ⟨G2, e2, h2⟩ := step2
  rw [e2, M_bind_ok]
  unfold addWhen
  by_cases c : d - (d + 1) / 2 < a.col
  · rw [if_pos (decide_eq_true c), if_pos c]
    obtain ⟨G3, e3, h3⟩ := weight_fit hε hn h2 hf (show (a.side + 1) % n < n from Nat.mod_lt _ (by omega)) (show a.row ≤ d by omega) (show d - a.col < (d + 1) / 2 by omega)
    dsimp only
    rw [e3, M_bind_ok]
    exact ⟨G3, rfl, h3⟩
  · rw [if_neg (by simpa using c), if_neg c, add_zero]
    exact ⟨G2, rfl, h2⟩

/-- The `t`-th visited name. -/
abbrev vis (n d t : ℕ) : Name := enumPos n d ⟨0, 0, 0⟩ t

theorem fillRow_eq (hε : 0 < ε) (hn : 3 ≤ n) {F : ℕ → ℕ → ℕ → P3 ℝ} (hF : HasNet R0 n d F) (hf : ∀ j < n, baryMap ε .wachspress R0.dom.dom j uv = .ok (f j)) {bcp R j : ℕ}
    (hb : bcp ≤ enumCount n d) (hjR : j < R) {points : List (P3 ℝ)} {params : List (P2 ℝ)} {p : P3 ℝ} (hp : vget points j = .ok p) (hq : vget params j = .ok uv)
    {fA : ℕ → ℕ → ℝ} {gb : ℕ → P3 ℝ} {s : ℝ} (h : FitOk ε arc n d R0 G) :
    ∃ G' s', fillRow ε n d ((d + 1) / 2) bcp (enumCount n d) points params j ⟨G, mat R (enumCount n d + 1 - bcp) fA, tab R gb, s⟩ =
      .ok ⟨G', mat R (enumCount n d + 1 - bcp) (fun r c => if r = j then (if c = 0 then 1 - ∑ t ∈ Finset.range (enumCount n d), perPoint n d (wv ε R0.squared n d f) (vis n d t)
          else perPoint n d (wv ε R0.squared n d f) (vis n d (bcp + c - 1))) else fA r c),
        tab R (fun r => if r = j then gb j - ∑ t ∈ Finset.range bcp, perPoint n d (wv ε R0.squared n d f) (vis n d t) • F (vis n d t).side (vis n d t).col (vis n d t).row + p else gb r), s'⟩ ∧
      FitOk ε arc n d R0 G' := by
  set B : ℕ → ℝ := fun t => perPoint n d (wv ε R0.squared n d f) (vis n d t) with hB
  set P : ℕ → P3 ℝ := fun t => F (vis n d t).side (vis n d t).col (vis n d t).row with hP
  set N := enumCount n d with hN
  have key : ∃ st, enumLoop n d (fillStep ε n d ((d + 1) / 2) bcp j uv) 1 N ⟨0, 0, 0⟩ ⟨G, mat R (N + 1 - bcp) fA, tab R gb, 0⟩ = .ok st ∧
      (FitOk ε arc n d R0 st.surf ∧
        st.A = mat R (N + 1 - bcp) (fun r c => if r = j ∧ 1 ≤ c ∧ c + bcp ≤ N then B (bcp + c - 1) else fA r c) ∧
        st.b = tab R (fun r => if r = j then gb j - ∑ t ∈ Finset.range (min N bcp), B t • P t else gb r) ∧ st.sum = ∑ t ∈ Finset.range N, B t) := by
    rw [enumLoop_eq]
    refine forLoop_inv (fun u (st : FitState ℝ) => FitOk ε arc n d R0 st.surf ∧
        st.A = mat R (N + 1 - bcp) (fun r c => if r = j ∧ 1 ≤ c ∧ c + bcp ≤ u then B (bcp + c - 1) else fA r c) ∧
        st.b = tab R (fun r => if r = j then gb j - ∑ t ∈ Finset.range (min u bcp), B t • P t else gb r) ∧ st.sum = ∑ t ∈ Finset.range u, B t) ⟨h, ?_, ?_, ?_⟩ ?_
    · refine mat_congr fun r _ c _ => ?_
      rw [if_neg (by omega)]
    · refine tab_congr fun r _ => ?_
      rw [Nat.zero_min, Finset.sum_range_zero, sub_zero]
      split_ifs with q
      · rw [q]
      · rfl
    · rw [Finset.sum_range_zero]
    · rintro u ⟨S, A, b, sm⟩ hu ⟨i1, i2, i3, i4⟩
      dsimp only at i1 i2 i3 i4
      subst i2 i3 i4
      obtain ⟨h1, h2, h3⟩ : (vis n d u).side < n ∧ (vis n d u).row ≤ (vis n d u).col ∧ (vis n d u).col + (vis n d u).row < d := visited_spec hu
      obtain ⟨G', e, hG'⟩ := blendOf_fit hε hn i1 hf (a := vis n d u) ⟨h1, h2, h3⟩
      change ∃ s', fillStep ε n d ((d + 1) / 2) bcp j uv (1 + u) (vis n d u) _ = .ok s' ∧ _
      unfold fillStep
      dsimp only
      rw [e, M_bind_ok]
      dsimp only
      by_cases c : bcp < 1 + u
      · rw [if_pos c, matSet_eq hjR (by omega), M_bind_ok]
        refine ⟨_, rfl, hG', ?_, ?_, ?_⟩
        · refine mat_congr fun r _ c' _ => ?_
          by_cases q : r = j ∧ c' = 1 + u - bcp
          · obtain ⟨rfl, rfl⟩ := q
            rw [if_pos ⟨rfl, rfl⟩, if_pos ⟨rfl, by omega, by omega⟩, show bcp + (1 + u - bcp) - 1 = u by omega]
          · rw [if_neg q]
            by_cases q2 : r = j ∧ 1 ≤ c' ∧ c' + bcp ≤ u
            · rw [if_pos q2, if_pos (by omega)]
            · rw [if_neg q2, if_neg (by omega)]
        · dsimp only
          rw [show min (u + 1) bcp = min u bcp by omega]
        · dsimp only
          rw [Finset.sum_range_succ]
      · rw [if_neg c]
        have := hG'.same.hasNet hF
        rw [show G'.controlPoint (vis n d u).side (vis n d u).col (vis n d u).row = _ from this.cpt h1 (by omega) (by omega), M_bind_ok, rhsAdd_eq hjR, M_bind_ok]
        refine ⟨_, rfl, hG', ?_, ?_, ?_⟩
        · refine mat_congr fun r _ c' _ => ?_
          rw [if_neg (by omega), if_neg (by omega)]
        · refine tab_congr fun r _ => ?_
          by_cases q : r = j
          · rw [if_pos q, if_pos q, if_pos rfl, show min (u + 1) bcp = u + 1 by omega, show min u bcp = u by omega, Finset.sum_range_succ]
            change gb j - _ + -(B u • P u) = _
            abel
          · rw [if_neg q, if_neg q, if_neg q]
        · dsimp only
          rw [Finset.sum_range_succ]
  obtain ⟨⟨S, A, b, sm⟩, e, i1, i2, i3, i4⟩ := key
  dsimp only at i1 i2 i3 i4
  subst i2 i3 i4
  unfold fillRow
  rw [hq, M_bind_ok]
  dsimp only
  rw [e, M_bind_ok]
  dsimp only
  rw [matSet_eq hjR (by omega), M_bind_ok, hp, M_bind_ok, rhsAdd_eq hjR, M_bind_ok]
  refine ⟨S, ∑ t ∈ Finset.range N, B t, ?_, i1⟩
  rw [Except.ok.injEq, FitState.mk.injEq]
  refine ⟨rfl, ?_, ?_, rfl⟩
  · refine mat_congr fun r _ c hc => ?_
    by_cases q : r = j
    · rw [if_pos q]
      by_cases q0 : c = 0
      · rw [if_pos ⟨q, q0⟩, if_pos q0]
      · rw [if_neg (fun w => q0 w.2), if_neg q0, if_pos ⟨q, by omega, by omega⟩]
    · rw [if_neg q, if_neg (fun w => q w.1), if_neg (fun w => q w.1)]
  · refine tab_congr fun r _ => ?_
    by_cases q : r = j
    · rw [if_pos q, if_pos q, if_pos rfl, show min N bcp = bcp by omega]
    · rw [if_neg q, if_neg q, if_neg q]

end GB

end Transfinite
