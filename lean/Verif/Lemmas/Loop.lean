import Verif.Lemmas.InterpSurf
import Verif.Props.Ribbon

/-! # Updating all ribbons and corners of a surface -/

namespace Transfinite

theorem exists_tab' {α : Type} {l : List α} (h : 0 < l.length) : ∃ f, l = tab l.length f := by
  haveI : Inhabited α := ⟨l[0]⟩
  exact exists_tab l

section generic

variable {K : Type} [Field K] [LinearOrder K] [Libm K]

/-- What the update of a ribbon leaves unchanged. -/
theorem Ribbon.update_keeps {ε : K} {nb : Neighbors K} {r r' : Ribbon K} (h : Ribbon.update ε nb r = .ok r') :
    r'.kind = r.kind ∧ r'.curve = r.curve ∧ r'.fence = r.fence ∧ r'.mult = r.mult ∧ r'.handlerInit = r.handlerInit := by
  have hb : ∀ {r r' : Ribbon K}, Ribbon.baseUpdate ε nb r = .ok r' →
      r'.kind = r.kind ∧ r'.curve = r.curve ∧ r'.fence = r.fence ∧ r'.mult = r.mult ∧ r'.handlerInit = r.handlerInit := by
    intro r r' h
    unfold Ribbon.baseUpdate at h
    obtain ⟨_, _, h⟩ := bind_ok h
    obtain ⟨_, _, h⟩ := bind_ok h
    obtain ⟨_, _, h⟩ := bind_ok h
    cases h
    exact ⟨rfl, rfl, rfl, rfl, rfl⟩
  unfold Ribbon.update at h
  split at h
  · exact hb (r := { r with prevT := -nb.prev.der 1, nextT := nb.next.der 0 }) h
  · unfold Ribbon.handlerUpdate at h
    obtain ⟨r1, h1, h⟩ := bind_ok h
    obtain ⟨_, _, h⟩ := bind_ok h
    obtain ⟨_, _, h⟩ := bind_ok h
    have := hb (r := { r with prevT := -nb.prev.der 1, nextT := nb.next.der 0 }) h1
    cases h
    exact this
  · unfold Ribbon.coonsUpdate at h
    have := hb h
    exact this
  · unfold Ribbon.perpUpdate at h
    obtain ⟨r1, h1, h⟩ := bind_ok h
    obtain ⟨_, _, h⟩ := bind_ok h
    obtain ⟨_, _, h⟩ := bind_ok h
    obtain ⟨_, _, h⟩ := bind_ok h
    obtain ⟨_, _, h⟩ := bind_ok h
    obtain ⟨_, _, h⟩ := bind_ok h
    obtain ⟨_, _, h⟩ := bind_ok h
    have := hb h1
    cases h
    exact this
  · unfold Ribbon.nsidedUpdate at h
    have := hb h
    exact this
  · cases h; exact ⟨rfl, rfl, rfl, rfl, rfl⟩

namespace Surf

/-- The neighbours of side `j` in a loop of curves. -/
def nbOf (n : ℕ) (c : ℕ → Curve K) (j : ℕ) : Neighbors K :=
  ⟨c (prevIx n j), c (nextIx n j), c (prevIx n (prevIx n j)), c (nextIx n (nextIx n j)), decide (n = 3)⟩

omit [LinearOrder K] [Libm K] in
theorem neighbors_tab {n : ℕ} {r : ℕ → Ribbon K} {j : ℕ} (hj : j < n) :
    neighbors (tab n r) j = .ok (nbOf n (fun k => (r k).curve) j) := by
  have hn : 0 < n := by omega
  unfold neighbors
  rw [length_tab]
  dsimp only
  rw [vget_tab _ (prevIx_lt hn), M_bind_ok, vget_tab _ (nextIx_lt hn), M_bind_ok, vget_tab _ (prevIx_lt hn), M_bind_ok,
    vget_tab _ (nextIx_lt hn), M_bind_ok]
  rfl

omit [LinearOrder K] [Libm K] in
theorem nbOf_congr {n : ℕ} {c c' : ℕ → Curve K} (h : ∀ k < n, c k = c' k) {j : ℕ} (hj : j < n) : nbOf n c j = nbOf n c' j := by
  have hn : 0 < n := by omega
  unfold nbOf
  rw [h _ (prevIx_lt hn), h _ (nextIx_lt hn), h _ (prevIx_lt hn), h _ (nextIx_lt hn)]

theorem updateRibbon_iff {ε : K} {n : ℕ} {r : ℕ → Ribbon K} {j : ℕ} (hj : j < n) {rs : List (Ribbon K)} :
    updateRibbon ε (tab n r) j = .ok rs ↔
      ∃ r', Ribbon.update ε (nbOf n (fun k => (r k).curve) j) (r j) = .ok r' ∧ rs = tab n (Function.update r j r') := by
  unfold updateRibbon
  rw [neighbors_tab hj, M_bind_ok, vget_tab _ hj, M_bind_ok]
  constructor
  · intro h
    obtain ⟨r', h1, h2⟩ := bind_ok h
    rw [vset_tab _ _ hj] at h2
    exact ⟨r', h1, (Except.ok.inj h2).symm⟩
  · rintro ⟨r', h1, rfl⟩
    rw [h1, M_bind_ok, vset_tab _ _ hj]

theorem updateRibbons_iff {ε : K} {n : ℕ} {r : ℕ → Ribbon K} {m : ℕ} (hm : m ≤ n) {rs : List (Ribbon K)} :
    forLoop m (fun i rs => updateRibbon ε rs i) (tab n r) = .ok rs ↔
      ∃ r' : ℕ → Ribbon K, (∀ j < m, Ribbon.update ε (nbOf n (fun k => (r k).curve) j) (r j) = .ok (r' j)) ∧
        rs = tab n (fun j => if j < m then r' j else r j) := by
  induction m generalizing rs with
  | zero =>
    constructor
    · intro h; exact ⟨r, fun j hj => absurd hj (by omega), by cases h; simp⟩
    · rintro ⟨_, _, rfl⟩; simp
  | succ m ih =>
    rw [forLoop_succ]
    have curves : ∀ r' : ℕ → Ribbon K, (∀ j < m, Ribbon.update ε (nbOf n (fun k => (r k).curve) j) (r j) = .ok (r' j)) →
        nbOf n (fun k => (if k < m then r' k else r k).curve) m = nbOf n (fun k => (r k).curve) m := by
      intro r' h1
      apply nbOf_congr _ (by omega : m < n)
      intro k _
      split_ifs with h
      · exact (Ribbon.update_keeps (h1 k h)).2.1
      · rfl
    constructor
    · intro h
      obtain ⟨rs1, h1, h2⟩ := bind_ok h
      obtain ⟨r', h3, rfl⟩ := (ih (by omega)).mp h1
      obtain ⟨x, h4, h5⟩ := (updateRibbon_iff (by omega)).mp h2
      rw [curves r' h3, if_neg (lt_irrefl m)] at h4
      refine ⟨Function.update r' m x, ?_, ?_⟩
      · intro j hj
        by_cases hjm : j = m
        · rw [hjm, Function.update_self]; exact h4
        · rw [Function.update_of_ne hjm]; exact h3 j (by omega)
      · rw [h5]
        apply tab_congr
        intro j _
        by_cases hjm : j = m
        · rw [hjm, Function.update_self, if_pos (by omega), Function.update_self]
        · rw [Function.update_of_ne hjm, Function.update_of_ne hjm]
          congr 1
          rw [eq_iff_iff]; omega
    · rintro ⟨r', h1, rfl⟩
      have h2 := (ih (by omega) (rs := tab n (fun j => if j < m then r' j else r j))).mpr ⟨r', fun j hj => h1 j (by omega), rfl⟩
      rw [h2, M_bind_ok]
      refine (updateRibbon_iff (by omega)).mpr ⟨r' m, ?_, ?_⟩
      · rw [curves r' (fun j hj => h1 j (by omega)), if_neg (lt_irrefl m)]; exact h1 m (by omega)
      · apply tab_congr
        intro j _
        by_cases hjm : j = m
        · rw [hjm, Function.update_self, if_pos (by omega)]
        · rw [Function.update_of_ne hjm]
          congr 1
          rw [eq_iff_iff]; omega

theorem corners_iff {ε : K} {n : ℕ} {γ : Bool} {rs : List (Ribbon K)} {k : ℕ → Corner K} {m : ℕ} (hm : m ≤ n) {S' : Surf K} :
    forLoop m (fun i S => S.updateCorner ε i) ⟨γ, rs, tab n k⟩ = .ok S' ↔
      ∃ k' : ℕ → Corner K, (∀ j < m, cornerOf ε rs j = .ok (k' j)) ∧ S' = ⟨γ, rs, tab n (fun j => if j < m then k' j else k j)⟩ := by
  induction m generalizing S' with
  | zero =>
    constructor
    · intro h; exact ⟨k, fun j hj => absurd hj (by omega), by cases h; simp⟩
    · rintro ⟨_, _, rfl⟩; simp
  | succ m ih =>
    rw [forLoop_succ]
    constructor
    · intro h
      obtain ⟨S1, h1, h2⟩ := bind_ok h
      obtain ⟨k', h3, rfl⟩ := (ih (by omega)).mp h1
      unfold updateCorner at h2
      obtain ⟨x, h4, h5⟩ := bind_ok h2
      obtain ⟨cs, h6, h7⟩ := bind_ok h5
      dsimp only at h4 h6
      rw [vset_tab _ _ (by omega)] at h6
      cases h6
      cases h7
      refine ⟨Function.update k' m x, ?_, ?_⟩
      · intro j hj
        by_cases hjm : j = m
        · rw [hjm, Function.update_self]; exact h4
        · rw [Function.update_of_ne hjm]; exact h3 j (by omega)
      · congr 1
        apply tab_congr
        intro j _
        by_cases hjm : j = m
        · rw [hjm, Function.update_self, if_pos (by omega), Function.update_self]
        · rw [Function.update_of_ne hjm, Function.update_of_ne hjm]
          congr 1
          rw [eq_iff_iff]; omega
    · rintro ⟨k', h1, rfl⟩
      have h2 := (ih (by omega) (S' := ⟨γ, rs, tab n (fun j => if j < m then k' j else k j)⟩)).mpr ⟨k', fun j hj => h1 j (by omega), rfl⟩
      rw [h2, M_bind_ok]
      unfold updateCorner
      dsimp only
      rw [h1 m (by omega), M_bind_ok, vset_tab _ _ (by omega), M_bind_ok]
      congr 2
      apply tab_congr
      intro j _
      by_cases hjm : j = m
      · rw [hjm, Function.update_self, if_pos (by omega)]
      · rw [Function.update_of_ne hjm]
        congr 1
        rw [eq_iff_iff]; omega

/-- `update()` of the ribbons and corners: the new ribbons come from the old ones and the curves, the new corner data from
the new ribbons. -/
theorem updateAll_iff {ε : K} {n : ℕ} {S S' : Surf K} {r : ℕ → Ribbon K} (hS : S.ribbons = tab n r) :
    updateAll ε S = .ok S' ↔
      ∃ (r' : ℕ → Ribbon K) (k : ℕ → Corner K), (∀ j < n, Ribbon.update ε (nbOf n (fun k => (r k).curve) j) (r j) = .ok (r' j)) ∧
        (∀ j < n, cornerOf ε (tab n r') j = .ok (k j)) ∧ S' = ⟨S.useGamma, tab n r', tab n k⟩ := by
  have hn : S.n = n := by unfold Surf.n; rw [hS, length_tab]
  have h0 : ∀ cs : List (Corner K), ∃ k0 : ℕ → Corner K,
      cs.take n ++ List.replicate (n - cs.length) ⟨0, 0, 0, 0, 0⟩ = tab n k0 := by
    intro cs
    haveI : Inhabited (Corner K) := ⟨⟨0, 0, 0, 0, 0⟩⟩
    obtain ⟨f, hf⟩ := exists_tab (cs.take n ++ List.replicate (n - cs.length) (⟨0, 0, 0, 0, 0⟩ : Corner K))
    refine ⟨f, hf.trans ?_⟩
    congr 1
    simp only [List.length_append, List.length_take, List.length_replicate]
    omega
  have hc : ∀ {α : Type} {r' k0 : ℕ → α}, tab n (fun j => if j < n then r' j else k0 j) = tab n r' := by
    intro α r' k0
    apply tab_congr
    intro j hj
    rw [if_pos hj]
  unfold updateAll
  rw [hn, hS]
  constructor
  · intro h
    obtain ⟨rs, h1, h2⟩ := bind_ok h
    obtain ⟨r', h3, rfl⟩ := (updateRibbons_iff le_rfl).mp h1
    rw [hc] at h2
    unfold updateCorners at h2
    have hlen : ({ S with ribbons := tab n r' } : Surf K).n = n := by unfold Surf.n; simp
    rw [hlen] at h2
    dsimp only at h2
    obtain ⟨k0, hk0⟩ := h0 S.corners
    rw [hk0] at h2
    obtain ⟨k, h4, rfl⟩ := (corners_iff le_rfl).mp h2
    exact ⟨r', k, h3, h4, by rw [hc]⟩
  · rintro ⟨r', k, h1, h2, rfl⟩
    rw [(updateRibbons_iff le_rfl).mpr ⟨r', h1, rfl⟩, M_bind_ok, hc]
    unfold updateCorners
    have hlen : ({ S with ribbons := tab n r' } : Surf K).n = n := by unfold Surf.n; simp
    rw [hlen]
    dsimp only
    obtain ⟨k0, hk0⟩ := h0 S.corners
    rw [hk0]
    exact (corners_iff le_rfl).mpr ⟨k, h2, by rw [hc]⟩

theorem cornerOf_tab {ε : K} {n : ℕ} {r : ℕ → Ribbon K} {j : ℕ} (hj : j < n) {k : Corner K} (h : cornerOf ε (tab n r) j = .ok k) :
    ∃ t1 t2, k = ⟨(r j).curve.pt 1, -(r j).curve.der 1, (r (nextIx n j)).curve.der 0, t1, t2⟩ := by
  unfold cornerOf at h
  rw [length_tab, vget_tab _ hj, M_bind_ok, vget_tab _ (nextIx_lt (by omega)), M_bind_ok] at h
  obtain ⟨_, _, h⟩ := bind_ok h
  obtain ⟨_, _, h⟩ := bind_ok h
  obtain ⟨_, _, h⟩ := bind_ok h
  obtain ⟨_, _, h⟩ := bind_ok h
  obtain ⟨_, _, h⟩ := bind_ok h
  obtain ⟨_, _, h⟩ := bind_ok h
  cases h
  exact ⟨_, _, rfl⟩

end Surf

end generic

end Transfinite
