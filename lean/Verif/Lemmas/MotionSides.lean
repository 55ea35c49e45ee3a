import Verif.Lemmas.MotionPatch
import Verif.Lemmas.PatchUpdate
import Verif.Props.Barycentric
import Verif.Props.Blend

/-! The number of sides of the domain, and the total weight of the points in the evaluation. -/

namespace Transfinite

open Spec

namespace Motion

variable {K : Type} [Field K] [LinearOrder K] [Libm K]

theorem update_n {vs : List (P2 K)} {d : Domain K} (h : Domain.update vs = .ok d) : d.n = vs.length := by
  unfold Domain.update at h
  obtain ⟨_, _, h⟩ := bind_ok h
  exact Patch.updateFrom_n h

theorem circular_length {l : List K} {vs : List (P2 K)} (h : Domain.circularVertices l = .ok vs) : vs.length = l.length := by
  unfold Domain.circularVertices at h
  obtain ⟨x, _, h⟩ := bind_ok h
  obtain ⟨st, e, h⟩ := bind_ok h
  cases h
  have := loop_inv (fun i (st : List (P2 K) × K) => st.1.length = i) rfl (fun i a b ha e => by
    obtain ⟨_, _, e⟩ := bind_ok e
    cases e
    rw [List.length_append, ha]
    rfl) e
  rw [this, List.length_map]

theorem angular_length {l a : List K} {vs : List (P2 K)} (h : Domain.angularVertices l a = .ok vs) : vs.length = l.length := by
  unfold Domain.angularVertices at h
  obtain ⟨t, _, h⟩ := bind_ok h
  obtain ⟨v1, e1, h⟩ := bind_ok h
  obtain ⟨v2, e2, h⟩ := bind_ok h
  have h1 : v1.length = l.length := by
    unfold Domain.openPolygon at e1
    obtain ⟨st, e, h⟩ := bind_ok e1
    cases h
    exact loop_inv (fun i (st : List (P2 K) × K × P2 K) => st.1.length = i) rfl (fun i a b ha e => by
      obtain ⟨_, _, e⟩ := bind_ok e
      obtain ⟨_, _, e⟩ := bind_ok e
      cases e
      rw [List.length_append, ha]
      rfl) e
  have h2 : v2.length = v1.length := by
    unfold Domain.closePolygon at e2
    obtain ⟨st, e, h⟩ := bind_ok e2
    cases h
    exact loop_inv (fun _ (st : List (P2 K) × K) => st.1.length = v1.length) rfl (fun i a b ha e => by
      obtain ⟨_, _, e⟩ := bind_ok e
      obtain ⟨_, _, e⟩ := bind_ok e
      obtain ⟨_, _, e⟩ := bind_ok e
      obtain ⟨_, _, e⟩ := bind_ok e
      obtain ⟨w, e3, e⟩ := bind_ok e
      cases e
      unfold vset at e3
      split_ifs at e3
      cases e3
      rw [List.length_set, ha]) e
  unfold Domain.rescale at h
  obtain ⟨_, _, h⟩ := bind_ok h
  cases h
  rw [List.length_map, h2, h1]

theorem angular_n {cs : List (Curve K)} {d : Domain K} (h : Domain.angularUpdate cs = .ok d) : d.n = cs.length := by
  unfold Domain.angularUpdate at h
  obtain ⟨a, _, h⟩ := bind_ok h
  unfold Domain.angularUpdateFrom at h
  obtain ⟨vs, e1, h⟩ := bind_ok h
  obtain ⟨_, _, h⟩ := bind_ok h
  have hl : (Domain.curveLengths cs).length = cs.length := by
    unfold Domain.curveLengths
    rw [List.length_map]
  split_ifs at h
  · rw [update_n h, angular_length e1, hl]
  · obtain ⟨ws, e2, h⟩ := bind_ok h
    rw [update_n h, circular_length e2, hl]

theorem updateDomain_n {P D : Patch K} (h : P.updateDomain = .ok D) : D.dom.dom.n = P.surf.n := by
  cases hr : P.kind.regular with
  | true => exact Patch.updateDomain_regular h hr
  | false =>
    rw [angular_n (Patch.updateDomain_angular h hr)]
    unfold Patch.curves Surf.n
    rw [List.length_map]

theorem vset_length {α : Type} {l l' : List α} {i : ℕ} {a : α} (h : vset l i a = .ok l') : l'.length = l.length := by
  unfold vset at h
  split_ifs at h
  cases h
  rw [List.length_set]

theorem updateRibbon_length {ε : K} {rs rs' : List (Ribbon K)} {i : ℕ} (h : Surf.updateRibbon ε rs i = .ok rs') : rs'.length = rs.length := by
  unfold Surf.updateRibbon at h
  obtain ⟨_, _, h⟩ := bind_ok h
  obtain ⟨_, _, h⟩ := bind_ok h
  obtain ⟨_, _, h⟩ := bind_ok h
  exact vset_length h

theorem updateAll_n {ε : K} {S S' : Surf K} (h : S.updateAll ε = .ok S') : S'.n = S.n := by
  unfold Surf.updateAll at h
  obtain ⟨rs, e, h⟩ := bind_ok h
  have h1 := Patch.forLoop_inv' (fun rs : List (Ribbon K) => rs.length = S.n) rfl (fun _ _ _ a b => (updateRibbon_length b).trans a) e
  unfold Surf.updateCorners at h
  have h0 : ∀ cs, (⟨S.useGamma, rs, cs⟩ : Surf K).n = S.n := fun _ => h1
  refine Patch.forLoop_inv' (fun T : Surf K => T.n = S.n) (h0 _) (fun _ _ _ a b => ?_) h
  unfold Surf.n at *
  rw [(Patch.updateCorner_ribbons b).1]
  exact a

theorem updateOne_n {ε : K} {S S' : Surf K} {i : ℕ} (h : S.updateOne ε i = .ok S') : S'.n = S.n := by
  unfold Surf.updateOne at h
  obtain ⟨rs, e, h⟩ := bind_ok h
  obtain ⟨T, e1, h⟩ := bind_ok h
  unfold Surf.n
  rw [(Patch.updateCorner_ribbons h).1, (Patch.updateCorner_ribbons e1).1, updateRibbon_length e]

theorem orientLoop_length {cs cs' : List (Curve K)} (h : Transfinite.orientLoop cs = .ok cs') : cs'.length = cs.length := by
  unfold Transfinite.orientLoop at h
  refine Patch.forLoop_inv' (fun l : List (Curve K) => l.length = cs.length) rfl (fun _ _ _ a b => ?_) h
  unfold orientStep at b
  obtain ⟨_, _, b⟩ := bind_ok b
  obtain ⟨_, _, b⟩ := bind_ok b
  rw [vset_length b, a]

/-- The domain has as many sides as there are curves. -/
def Sides (P : Patch K) : Prop := P.dom.dom.n = P.surf.n

theorem form_sides {ε : K} {P P' : Patch K} (hp : Sides P) (h : ∃ Q m c, Patch.Queried ε P Q ∧ P' = { Q with mid := m, central := c }) : Sides P' := by
  obtain ⟨Q, m, c, hq, rfl⟩ := h
  unfold Sides at *
  dsimp only
  rw [hq.dom, hq.surf, hp]

theorem updateDomain_surf {P D : Patch K} (h : P.updateDomain = .ok D) : D.surf = P.surf := by
  unfold Patch.updateDomain at h
  split_ifs at h
  · obtain ⟨r, _, h⟩ := bind_ok h
    split_ifs at h
    · obtain ⟨o, _, h⟩ := bind_ok h
      cases h
      rfl
    · cases h
      rfl
  · obtain ⟨r, _, h⟩ := bind_ok h
    obtain ⟨o, _, h⟩ := bind_ok h
    cases h
    rfl

theorem update_sides {ε : K} {P P' : Patch K} (h : P.update ε = .ok P') : Sides P' := by
  obtain ⟨D, S, e1, _, e2, e3⟩ := Patch.update_parts h
  refine form_sides (P := { D with surf := S }) ?_ (Patch.finish_form e3)
  unfold Sides
  rw [updateDomain_n e1]
  dsimp only
  rw [updateAll_n e2, updateDomain_surf e1]

theorem updateSide_sides {ε : K} {P P' : Patch K} {i : ℕ} (h : P.updateSide ε i = .ok P') : Sides P' := by
  unfold Patch.updateSide at h
  obtain ⟨D, e1, h⟩ := bind_ok h
  split_ifs at h
  obtain ⟨S, e2, h⟩ := bind_ok h
  refine form_sides (P := { D with surf := S }) ?_ (Patch.finish_form h)
  unfold Sides
  rw [updateDomain_n e1]
  dsimp only
  rw [updateOne_n e2, updateDomain_surf e1]

theorem onRibbon_sides {P P' : Patch K} {i : ℕ} {f : Ribbon K → M (Ribbon K)} (hp : Sides P) (h : P.onRibbon i f = .ok P') : Sides P' := by
  unfold Patch.onRibbon at h
  obtain ⟨_, _, h⟩ := bind_ok h
  obtain ⟨_, _, h⟩ := bind_ok h
  obtain ⟨l, e, h⟩ := bind_ok h
  cases h
  unfold Sides at *
  rw [hp]
  exact (vset_length e).symm

theorem step_sides {ε : K} {P P' : Patch K} {c : Patch.Call K} (hp : Sides P) (hc : keepsCurves c = true) (h : P.step ε c = .ok P') : Sides P' := by
  have query : ∀ {c : Patch.Call K}, c.isQuery = true → P.step ε c = .ok P' → Sides P' := by
    intro c hc h
    have q := Patch.query_queried hc h
    unfold Sides at *
    rw [q.dom, q.surf, hp]
  have mid : ∀ {Q : Patch K}, Q.dom = P.dom → Q.surf = P.surf → Q.updateCentral ε = .ok P' → Sides P' := by
    intro Q h1 h2 h3
    refine form_sides (P := Q) ?_ (Patch.updateCentral_form h3)
    unfold Sides at *
    rw [h1, h2, hp]
  cases c with
  | gamma b => cases h; exact hp
  | curve i c => cases hc
  | curves cs => cases hc
  | loop =>
    obtain ⟨cs, e, h⟩ := bind_ok (show P.setupLoop = .ok P' from h)
    cases h
    unfold Sides Surf.n at *
    dsimp only
    rw [hp, List.length_zipWith, orientLoop_length e]
    unfold Patch.curves
    rw [List.length_map, min_self]
  | handler i v => exact onRibbon_sides hp h
  | mult i m => exact onRibbon_sides hp h
  | fence i f => exact onRibbon_sides hp h
  | reset i => exact onRibbon_sides hp h
  | setMid p =>
    unfold Patch.step at h
    dsimp only at h
    split_ifs at h
    exact mid (Q := { P with mid := p, midSet := true }) rfl rfl h
  | unsetMid =>
    unfold Patch.step at h
    dsimp only at h
    split_ifs at h
    exact mid (Q := { P with midSet := false }) rfl rfl h
  | update => exact update_sides h
  | updateSide i => exact updateSide_sides h
  | eval uv => exact query rfl h
  | mesh res => exact query rfl h
  | domainParams res => exact query rfl h
  | mapSide i uv => exact query rfl h
  | mapSides uv => exact query rfl h

theorem run_sides {ε : K} {P P' : Patch K} {cs : List (Patch.Call K)} (hp : Sides P) (hc : ∀ c ∈ cs, keepsCurves c = true) (h : P.run ε cs = .ok P') : Sides P' := by
  induction cs generalizing P with
  | nil => cases h; exact hp
  | cons c cs ih =>
    unfold Patch.run at h
    obtain ⟨Q, e, h⟩ := bind_ok h
    exact ih (step_sides hp (hc c (by simp)) e) (fun x hx => hc x (List.mem_cons_of_mem _ hx)) h

section order

variable [IsStrictOrderedRing K]

theorem mapM_tab_ok {β : Type} [Inhabited β] {f : ℕ → M β} {n : ℕ} {l : List β} (h : (List.range n).mapM f = .ok l) : ∃ x, l = tab n x ∧ ∀ j < n, f j = .ok (x j) := by
  induction n generalizing l with
  | zero =>
    cases h
    exact ⟨fun _ => default, rfl, fun j hj => by omega⟩
  | succ n ih =>
    rw [List.range_succ, List.mapM_append] at h
    obtain ⟨a, e1, h⟩ := bind_ok h
    obtain ⟨b, e2, h⟩ := bind_ok h
    cases h
    obtain ⟨x, rfl, hx⟩ := ih e1
    rw [List.mapM_cons, List.mapM_nil] at e2
    obtain ⟨y, e3, e2⟩ := bind_ok e2
    obtain ⟨_, e4, e2⟩ := bind_ok e2
    cases e4
    cases e2
    refine ⟨fun j => if j = n then y else x j, ?_, ?_⟩
    · unfold tab
      rw [List.range_succ, List.map_append]
      congr 1
      · refine List.map_congr_left fun j hj => ?_
        rw [if_neg (List.mem_range.mp hj).ne]
      · simp
    · intro j hj
      dsimp only
      by_cases hjn : j = n
      · rw [hjn, if_pos rfl]
        exact e3
      · rw [if_neg hjn]
        exact hx j (by omega)

omit [Libm K] [IsStrictOrderedRing K] in
theorem fewClose_congr {ε : K} {n : ℕ} {d d' : ℕ → K} (hn : 0 < n) (h : ∀ j < n, d j = d' j) (hd : FewClose ε n d) : FewClose ε n d' := by
  have hx : ∀ i, (i + 1) % n < n := fun i => Nat.mod_lt _ hn
  rcases hd with q | ⟨i, hi, h1, h2⟩ | ⟨i, hi, h1, h2, h3⟩
  · exact Or.inl fun j hj => h j hj ▸ q j hj
  · exact Or.inr (Or.inl ⟨i, hi, h i hi ▸ h1, fun j hj hne => h j hj ▸ h2 j hj hne⟩)
  · exact Or.inr (Or.inr ⟨i, hi, h i hi ▸ h1, h _ (hx i) ▸ h2, fun j hj a b => h j hj ▸ h3 j hj a b⟩)

theorem corner_sum {ε : K} (hε : 0 < ε) {n : ℕ} (hn : 3 ≤ n) {f : ℕ → P2 K} (h : FewClose ε n fun j => (f j).y) {b : List K} (hb : Surf.blendCorner ε n (tab n f) = .ok b) :
    ∑ j ∈ Finset.range n, b.getD j 0 = 1 := by
  have key : ∃ x : ℕ → K, Surf.blendCorner ε n (tab n f) = .ok (tab n x) ∧ ∑ j ∈ Finset.range n, x j = 1 := by
    rcases h with h | ⟨i, hi, h1, h2⟩ | ⟨i, hi, h1, h2, h3⟩
    · obtain ⟨x, e, _, hs, _⟩ := C28_corner_inside hε (by omega) h
      exact ⟨x, e, hs⟩
    · obtain ⟨x, e, _, hs, _⟩ := C28_corner_side hε hn hi h1 h2
      exact ⟨x, e, hs⟩
    · obtain ⟨x, e, _, hs, _⟩ := C28_corner_corner hn hi h1 h2 h3
      exact ⟨x, e, hs⟩
  obtain ⟨x, e, hs⟩ := key
  rw [e] at hb
  cases hb
  rw [sum_getD (length_tab _ _), sum_tab, hs]

/-- The total weight is one. -/
theorem weight_one {ε : K} (hε : 0 < ε) (hε1 : ε ≤ 1) {P : Patch K} (hi : Patch.Inv ε P) (hs : Sides P) (hn : 3 ≤ P.surf.n) {uv : P2 K} {r : List (P2 K) × Param.Obj K}
    (hr : Param.mapToRibbons ε P.kind.param uv P.param = .ok r)
    (hc : P.kind = .cornerBased ∨ P.kind = .generalizedCoons ∨ P.kind = .compositeRibbon → FewClose ε P.surf.n fun j => (r.1.getD j 0).y) : weight ε P r.1 1 := by
  have hlen : P.dom.dom.vertices.length = P.surf.n := hi.len.trans hs
  haveI : Inhabited (P2 K) := ⟨0⟩
  obtain ⟨o, ho, e⟩ := Patch.maps_eq (hi.param.resolve_left (by unfold Sides at hs; omega)) uv
  rw [hr, hlen] at e
  obtain ⟨f, hf, hraw⟩ := mapM_tab_ok e.symm
  rw [hf] at hc ⊢
  have hget : ∀ j < P.surf.n, (tab P.surf.n f).getD j 0 = f j := by
    intro j hj
    rw [List.getD_eq_getElem?_getD, vget_eq_ok.mp (vget_tab f hj)]
    rfl
  unfold weight
  cases hk : P.kind <;> dsimp only
  · intro b hb
    obtain ⟨x, e, _, hsum, _⟩ := C28_side hε (show 0 < P.surf.n by omega) f
    rw [e] at hb
    cases hb
    rw [sum_getD (length_tab _ _), sum_tab, hsum]
  · intro b hb
    exact corner_sum hε hn (fewClose_congr (by omega) (fun j hj => by rw [hget j hj]) (hc (Or.inl hk))) hb
  · intro b hb
    exact corner_sum hε hn (fewClose_congr (by omega) (fun j hj => by rw [hget j hj]) (hc (Or.inr (Or.inl hk)))) hb
  · intro b hb
    exact corner_sum hε hn (fewClose_congr (by omega) (fun j hj => by rw [hget j hj]) (hc (Or.inr (Or.inr hk)))) hb
  · obtain ⟨v, hv⟩ := exists_tab P.dom.dom.vertices
    rw [hlen] at hv
    -- all the sides have the same coordinates
    have h0 := hraw 0 (by omega)
    rw [hk] at h0 hraw
    obtain ⟨l, hl, _⟩ := bind_ok (show (Param.barycentric ε .wachspress P.dom.dom uv >>= fun l => Param.baryMapWith ε P.dom.dom l 0 uv) = .ok (f 0) from h0)
    obtain ⟨c, hc1, hc2, _⟩ := C11_partition_precision hn hv hε1 hl
    have hy : ∀ j < P.surf.n, (f j).y = 1 - c j - c (prevIx P.surf.n j) := by
      intro j hj
      have := hraw j hj
      change (Param.barycentric ε .wachspress P.dom.dom uv >>= fun l => Param.baryMapWith ε P.dom.dom l j uv) = .ok (f j) at this
      rw [hl, M_bind_ok, hc1] at this
      unfold Param.baryMapWith at this
      dsimp only at this
      rw [hlen, vget_tab _ (prevIx_lt (by omega)), M_bind_ok, vget_tab _ hj, M_bind_ok] at this
      split_ifs at this
      · obtain ⟨_, _, this⟩ := bind_ok this
        obtain ⟨_, _, this⟩ := bind_ok this
        obtain ⟨_, _, this⟩ := bind_ok this
        obtain ⟨_, _, this⟩ := bind_ok this
        obtain ⟨_, _, this⟩ := bind_ok this
        obtain ⟨_, _, this⟩ := bind_ok this
        obtain ⟨_, _, this⟩ := bind_ok this
        obtain ⟨_, _, this⟩ := bind_ok this
        split_ifs at this
        · rw [← Except.ok.inj this]
        · obtain ⟨_, _, this⟩ := bind_ok this
          rw [← Except.ok.inj this]
      · obtain ⟨_, _, this⟩ := bind_ok this
        rw [← Except.ok.inj this]
    rw [Finset.sum_congr rfl (fun j hj => by rw [hget j (Finset.mem_range.mp hj), hy j (Finset.mem_range.mp hj)])]
    have h2 : ∀ j, (1 - (1 - c j - c (prevIx P.surf.n j))) / 2 = (1 / 2) * (c j + c (prevIx P.surf.n j)) := fun j => by ring
    simp only [h2]
    rw [← Finset.mul_sum, Finset.sum_add_distrib, sum_prev, hc2]
    norm_num

end order

end Motion

end Transfinite
