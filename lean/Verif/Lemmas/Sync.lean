import Verif.Lemmas.Ready

/-! Updates of single ribbons: idempotence, and ribbons and corners that are in their updated state except for some sides. -/

namespace Transfinite

variable {K : Type} [Field K] [LinearOrder K] [Libm K]

namespace Ribbon

theorem baseUpdate_idem {ε : K} {nb : Neighbors K} {r r' : Ribbon K} (h : baseUpdate ε nb r = .ok r') :
    r' = { r with rmf := r'.rmf } ∧ baseUpdate ε nb r' = .ok r' := by
  unfold baseUpdate at h
  obtain ⟨a, h1, h2⟩ := bind_ok h
  obtain ⟨b, h3, h4⟩ := bind_ok h2
  obtain ⟨m, h5, h6⟩ := bind_ok h4
  have e := Except.ok.inj h6
  rw [← e]
  refine ⟨rfl, ?_⟩
  unfold baseUpdate
  dsimp only
  rw [h1, M_bind_ok, h3, M_bind_ok, h5, M_bind_ok]

/-- A second update of a ribbon with the same neighbours changes nothing. -/
theorem update_idem {ε : K} {nb : Neighbors K} {r r' : Ribbon K} (h : update ε nb r = .ok r') : update ε nb r' = .ok r' := by
  have hk := (update_keeps h).1
  unfold update at h ⊢
  rw [hk]
  cases hr : r.kind with
  | compatible =>
    rw [hr] at h
    dsimp only at h ⊢
    unfold compatibleUpdate at h ⊢
    obtain ⟨e, h1⟩ := baseUpdate_idem h
    have : ({ r' with prevT := -nb.prev.der 1, nextT := nb.next.der 0 } : Ribbon K) = r' := by rw [e]
    rw [this]; exact h1
  | handler =>
    rw [hr] at h
    dsimp only at h ⊢
    unfold handlerUpdate at h ⊢
    obtain ⟨a, h1, h2⟩ := bind_ok h
    obtain ⟨m, h3, h4⟩ := bind_ok h2
    obtain ⟨v, h5, h6⟩ := bind_ok h4
    unfold compatibleUpdate at h1
    obtain ⟨e, h7⟩ := baseUpdate_idem h1
    have e' := Except.ok.inj h6
    have h8 : compatibleUpdate ε nb r' = .ok r' := by
      unfold compatibleUpdate
      have : ({ r' with prevT := -nb.prev.der 1, nextT := nb.next.der 0 } : Ribbon K) = r' := by rw [← e', e]
      rw [this, ← e']
      unfold baseUpdate at h7 ⊢
      dsimp only
      obtain ⟨x, g1, g2⟩ := bind_ok h7
      obtain ⟨y, g3, g4⟩ := bind_ok g2
      obtain ⟨z, g5, g6⟩ := bind_ok g4
      rw [g1, M_bind_ok, g3, M_bind_ok, g5, M_bind_ok]
      have := congrArg Ribbon.rmf (Except.ok.inj g6)
      change z = a.rmf at this
      rw [this]
    rw [h8, M_bind_ok]
    have h9 : normal ε r' (1 / 2) = .ok m := by rw [← e']; exact h3
    rw [h9, M_bind_ok]
    have h10 : effectiveHandler r' m = .ok v := by
      rw [← e']
      unfold effectiveHandler at h5 ⊢
      dsimp only
      split_ifs at h5 ⊢ with hi
      · rfl
      · exact h5
    rw [h10, M_bind_ok, ← e']
  | coons =>
    rw [hr] at h
    dsimp only at h ⊢
    unfold coonsUpdate at h ⊢
    dsimp only at h ⊢
    obtain ⟨e, h1⟩ := baseUpdate_idem h
    have : ({ r' with
        left := nb.prev, right := nb.next,
        top := if nb.three then [nb.prev.pt 0]
          else [nb.next.pt 1, nb.next.pt 1 + (1 / 3 : K) • nb.next2.der 0, nb.prev.pt 0 - (1 / 3 : K) • nb.prev2.der 1, nb.prev.pt 0],
        bl := r'.curve.pt 0, br := r'.curve.pt 1, tl := nb.prev.pt 0, tr := nb.next.pt 1 } : Ribbon K) = r' := by rw [e]
    rw [this]; exact h1
  | perpendicular =>
    rw [hr] at h
    dsimp only at h ⊢
    unfold perpUpdate at h ⊢
    obtain ⟨a, h1, h2⟩ := bind_ok h
    obtain ⟨t0, h3, h4⟩ := bind_ok h2
    obtain ⟨t1, h5, h6⟩ := bind_ok h4
    obtain ⟨n0, h7, h8⟩ := bind_ok h6
    obtain ⟨n1, h9, h10⟩ := bind_ok h8
    obtain ⟨p, h11, h12⟩ := bind_ok h10
    obtain ⟨q, h13, h14⟩ := bind_ok h12
    obtain ⟨e, g⟩ := baseUpdate_idem h1
    have e' := Except.ok.inj h14
    have h15 : baseUpdate ε nb r' = .ok r' := by
      rw [← e']
      unfold baseUpdate at g ⊢
      dsimp only
      obtain ⟨x, g1, g2⟩ := bind_ok g
      obtain ⟨y, g3, g4⟩ := bind_ok g2
      obtain ⟨z, g5, g6⟩ := bind_ok g4
      rw [g1, M_bind_ok, g3, M_bind_ok, g5, M_bind_ok]
      have := congrArg Ribbon.rmf (Except.ok.inj g6)
      change z = a.rmf at this
      rw [this]
    rw [h15, M_bind_ok]
    have c : r'.curve = a.curve := by rw [← e']
    rw [c, h3, M_bind_ok, h5, M_bind_ok]
    have n0' : normal ε r' 0 = .ok n0 := by rw [← e']; exact h7
    have n1' : normal ε r' 1 = .ok n1 := by rw [← e']; exact h9
    rw [n0', M_bind_ok, n1', M_bind_ok]
    dsimp only
    rw [h11, M_bind_ok, h13, M_bind_ok, ← e']
  | nsided =>
    rw [hr] at h
    dsimp only at h ⊢
    unfold nsidedUpdate at h ⊢
    obtain ⟨e, h1⟩ := baseUpdate_idem h
    have : ({ r' with baseLength := r'.curve.arc 0 1 } : Ribbon K) = r' := by rw [e]
    rw [this]; exact h1
  | dummy => rfl

end Ribbon

namespace Surf

theorem cornerOf_congr {ε : K} {n : ℕ} {r r' : ℕ → Ribbon K} {j : ℕ} (hj : j < n) (h1 : r' j = r j) (h2 : r' (nextIx n j) = r (nextIx n j)) :
    cornerOf ε (tab n r') j = cornerOf ε (tab n r) j := by
  unfold cornerOf
  rw [length_tab, length_tab, vget_tab _ hj, vget_tab _ hj, vget_tab _ (nextIx_lt (by omega)), vget_tab _ (nextIx_lt (by omega)), h1, h2]

/-- `update(i)` of the ribbons and corners. -/
theorem updateOne_iff {ε : K} {n : ℕ} {γ : Bool} {r : ℕ → Ribbon K} {q : ℕ → Corner K} {i : ℕ} (hi : i < n) {S' : Surf K} :
    updateOne ε ⟨γ, tab n r, tab n q⟩ i = .ok S' ↔
      ∃ (r' : Ribbon K) (k1 k2 : Corner K), Ribbon.update ε (nbOf n (fun k => (r k).curve) i) (r i) = .ok r' ∧
        cornerOf ε (tab n (Function.update r i r')) (prevIx n i) = .ok k1 ∧
        cornerOf ε (tab n (Function.update r i r')) i = .ok k2 ∧
        S' = ⟨γ, tab n (Function.update r i r'), tab n (Function.update (Function.update q (prevIx n i) k1) i k2)⟩ := by
  have hp : prevIx n i < n := prevIx_lt (by omega)
  unfold updateOne updateCorner
  constructor
  · intro h
    obtain ⟨rs, h1, h2⟩ := bind_ok h
    obtain ⟨S1, h3, h4⟩ := bind_ok h2
    obtain ⟨r', h5, rfl⟩ := (updateRibbon_iff hi).mp h1
    obtain ⟨k1, h6, h7⟩ := bind_ok h3
    obtain ⟨cs, h8, h9⟩ := bind_ok h7
    have hn : (⟨γ, tab n r, tab n q⟩ : Surf K).n = n := by unfold Surf.n; simp
    rw [hn] at h6 h8
    dsimp only at h6 h8
    rw [vset_tab _ _ hp] at h8
    rw [← Except.ok.inj h9, ← Except.ok.inj h8] at h4
    obtain ⟨k2, h10, h11⟩ := bind_ok h4
    obtain ⟨cs', h12, h13⟩ := bind_ok h11
    dsimp only at h10 h12 h13
    rw [vset_tab _ _ hi] at h12
    rw [← Except.ok.inj h12] at h13
    exact ⟨r', k1, k2, h5, h6, h10, (Except.ok.inj h13).symm⟩
  · rintro ⟨r', k1, k2, h1, h2, h3, rfl⟩
    rw [(updateRibbon_iff hi).mpr ⟨r', h1, rfl⟩, M_bind_ok]
    have hn : (⟨γ, tab n r, tab n q⟩ : Surf K).n = n := by unfold Surf.n; simp
    rw [hn]
    dsimp only
    rw [h2, M_bind_ok, vset_tab _ _ hp, M_bind_ok, M_bind_ok]
    dsimp only
    rw [h3, M_bind_ok, vset_tab _ _ hi, M_bind_ok]

/-- The ribbons outside `I`, and the corners between such ribbons, are in their updated state. -/
def SyncedBut (ε : K) (n : ℕ) (I : Set ℕ) (S : Surf K) : Prop :=
  ∃ (r : ℕ → Ribbon K) (q : ℕ → Corner K), S.ribbons = tab n r ∧ S.corners = tab n q ∧
    (∀ j < n, j ∉ I → Ribbon.update ε (nbOf n (fun k => (r k).curve) j) (r j) = .ok (r j)) ∧
    (∀ j < n, j ∉ I → nextIx n j ∉ I → cornerOf ε (tab n r) j = .ok (q j))

theorem SyncedBut.mono {ε : K} {n : ℕ} {I J : Set ℕ} {S : Surf K} (h : SyncedBut ε n I S) (hIJ : I ⊆ J) : SyncedBut ε n J S := by
  obtain ⟨r, q, h1, h2, h3, h4⟩ := h
  exact ⟨r, q, h1, h2, fun j hj hjI => h3 j hj (fun x => hjI (hIJ x)), fun j hj a b => h4 j hj (fun x => a (hIJ x)) (fun x => b (hIJ x))⟩

theorem SyncedBut.n_eq {ε : K} {n : ℕ} {I : Set ℕ} {S : Surf K} (h : SyncedBut ε n I S) : S.n = n := by
  obtain ⟨r, q, h1, _⟩ := h
  unfold Surf.n
  rw [h1, length_tab]

theorem updateAll_synced {ε : K} {n : ℕ} {S S' : Surf K} {r : ℕ → Ribbon K} (hS : S.ribbons = tab n r)
    (h : updateAll ε S = .ok S') : SyncedBut ε n ∅ S' := by
  obtain ⟨r', q, h1, h2, rfl⟩ := (updateAll_iff hS).mp h
  refine ⟨r', q, rfl, rfl, fun j hj _ => ?_, fun j hj _ _ => h2 j hj⟩
  have : nbOf n (fun k => (r' k).curve) j = nbOf n (fun k => (r k).curve) j :=
    nbOf_congr (fun k hk => (Ribbon.update_keeps (h1 k hk)).2.1) hj
  rw [this]
  exact Ribbon.update_idem (h1 j hj)

theorem SyncedBut.updateAll {ε : K} {n : ℕ} {S : Surf K} (h : SyncedBut ε n ∅ S) : updateAll ε S = .ok S := by
  obtain ⟨r, q, h1, h2, h3, h4⟩ := h
  refine (updateAll_iff h1).mpr ⟨r, q, fun j hj => h3 j hj (by simp), fun j hj => h4 j hj (by simp) (by simp), ?_⟩
  cases S
  subst h1 h2
  rfl

/-- A change of ribbon `i` that keeps its curve. -/
theorem SyncedBut.edit {ε : K} {n : ℕ} {I : Set ℕ} {S : Surf K} (h : SyncedBut ε n I S) {i : ℕ} (hi : i < n) {rs : List (Ribbon K)}
    {a a' : Ribbon K} (ha : vget S.ribbons i = .ok a) (hc : a'.curve = a.curve) (hs : vset S.ribbons i a' = .ok rs) :
    SyncedBut ε n (insert i I) { S with ribbons := rs } := by
  obtain ⟨r, q, h1, h2, h3, h4⟩ := h
  rw [h1, vget_tab _ hi] at ha
  rw [h1, vset_tab _ _ hi] at hs
  have e := Except.ok.inj ha
  have hcur : ∀ k < n, (Function.update r i a' k).curve = (r k).curve := by
    intro k _
    by_cases hki : k = i
    · rw [hki, Function.update_self, hc, e]
    · rw [Function.update_of_ne hki]
  refine ⟨Function.update r i a', q, (Except.ok.inj hs).symm, h2, fun j hj hjI => ?_, fun j hj a b => ?_⟩
  · have hji : j ≠ i := fun x => hjI (Set.mem_insert_iff.mpr (Or.inl x))
    rw [nbOf_congr hcur hj, Function.update_of_ne hji]
    exact h3 j hj (fun x => hjI (Set.mem_insert_of_mem _ x))
  · have hji : j ≠ i := fun x => a (Set.mem_insert_iff.mpr (Or.inl x))
    have hji' : nextIx n j ≠ i := fun x => b (Set.mem_insert_iff.mpr (Or.inl x))
    rw [cornerOf_congr hj (Function.update_of_ne hji _ _) (Function.update_of_ne hji' _ _)]
    exact h4 j hj (fun x => a (Set.mem_insert_of_mem _ x)) (fun x => b (Set.mem_insert_of_mem _ x))

theorem curves_update {n : ℕ} {ε : K} {nb : Neighbors K} {r : ℕ → Ribbon K} {i : ℕ} {r' : Ribbon K} (h : Ribbon.update ε nb (r i) = .ok r') :
    ∀ k < n, (Function.update r i r' k).curve = (r k).curve := by
  intro k _
  by_cases hki : k = i
  · rw [hki, Function.update_self, (Ribbon.update_keeps h).2.1]
  · rw [Function.update_of_ne hki]

theorem prevIx_nextIx' {n j : ℕ} (hj : j < n) : prevIx n (nextIx n j) = j := by
  unfold prevIx nextIx
  rcases Nat.lt_or_ge (j + 1) n with h | h
  · rw [Nat.mod_eq_of_lt h, show j + 1 + n - 1 = j + n by omega, Nat.add_mod_right, Nat.mod_eq_of_lt hj]
  · have : j + 1 = n := by omega
    rw [this, Nat.mod_self, Nat.zero_add, Nat.mod_eq_of_lt (by omega)]
    omega

/-- `update(i)` puts side `i` in its updated state. -/
theorem SyncedBut.updateOne {ε : K} {n : ℕ} {I : Set ℕ} {S S' : Surf K} (h : SyncedBut ε n I S) {i : ℕ} (hi : i < n)
    (e : updateOne ε S i = .ok S') : SyncedBut ε n (I \ {i}) S' := by
  obtain ⟨r, q, h1, h2, h3, h4⟩ := h
  have hS : S = ⟨S.useGamma, tab n r, tab n q⟩ := by cases S; subst h1 h2; rfl
  rw [hS] at e
  obtain ⟨r', k1, k2, e1, e2, e3, rfl⟩ := (updateOne_iff hi).mp e
  have hp : prevIx n i < n := prevIx_lt (by omega)
  refine ⟨_, _, rfl, rfl, fun j hj hjI => ?_, fun j hj a b => ?_⟩
  · rw [nbOf_congr (curves_update e1) hj]
    by_cases hji : j = i
    · rw [hji, Function.update_self]; exact Ribbon.update_idem e1
    · rw [Function.update_of_ne hji]
      exact h3 j hj (fun x => hjI ⟨x, hji⟩)
  · by_cases hji : j = i
    · rw [hji, Function.update_self]; exact e3
    · rw [Function.update_of_ne hji]
      by_cases hjp : j = prevIx n i
      · rw [hjp, Function.update_self]; exact e2
      · rw [Function.update_of_ne hjp]
        have hx : nextIx n j ≠ i := fun x => hjp (by rw [← x, prevIx_nextIx' hj])
        rw [cornerOf_congr hj (Function.update_of_ne hji _ _) (Function.update_of_ne hx _ _)]
        exact h4 j hj (fun x => a ⟨x, hji⟩) (fun x => b ⟨x, hx⟩)

/-- `update()` after `update(i)` is `update()`. -/
theorem updateAll_updateOne {ε : K} {n : ℕ} {S S' X : Surf K} {r : ℕ → Ribbon K} {q : ℕ → Corner K} (h1 : S.ribbons = tab n r)
    (h2 : S.corners = tab n q) {i : ℕ} (hi : i < n) (e : updateOne ε S i = .ok S') :
    Surf.updateAll ε S' = .ok X ↔ Surf.updateAll ε S = .ok X := by
  have hS : S = ⟨S.useGamma, tab n r, tab n q⟩ := by cases S; subst h1 h2; rfl
  have hg : S'.useGamma = S.useGamma ∧ ∃ r', Ribbon.update ε (nbOf n (fun k => (r k).curve) i) (r i) = .ok r' ∧
      S'.ribbons = tab n (Function.update r i r') := by
    rw [hS] at e
    obtain ⟨r', k1, k2, e1, e2, e3, e4⟩ := (updateOne_iff hi).mp e
    rw [e4]
    exact ⟨rfl, r', e1, rfl⟩
  obtain ⟨hg, r', e1, e2⟩ := hg
  rw [updateAll_iff h1, updateAll_iff e2, hg]
  refine exists_congr fun u => exists_congr fun k => and_congr_left fun _ => forall₂_congr fun j hj => ?_
  rw [nbOf_congr (curves_update e1) hj]
  by_cases hji : j = i
  · rw [hji, Function.update_self, Ribbon.update_idem e1, e1]
  · rw [Function.update_of_ne hji]

/-- If only side `i` is out of date, `update(i)` is `update()`. -/
theorem SyncedBut.one_iff_all {ε : K} {n : ℕ} {S X : Surf K} {i : ℕ} (h : SyncedBut ε n {i} S) (hi : i < n) :
    Surf.updateOne ε S i = .ok X ↔ Surf.updateAll ε S = .ok X := by
  have mp : ∀ {Y}, Surf.updateOne ε S i = .ok Y → Surf.updateAll ε S = .ok Y := by
    intro Y e
    have h' := h.updateOne hi e
    rw [Set.diff_self] at h'
    obtain ⟨r, q, h1, h2, _⟩ := h
    exact (updateAll_updateOne h1 h2 hi e).mp h'.updateAll
  refine ⟨mp, fun e => ?_⟩
  obtain ⟨r, q, h1, h2, h3, h4⟩ := id h
  have hS : S = ⟨S.useGamma, tab n r, tab n q⟩ := by cases S; subst h1 h2; rfl
  obtain ⟨u, k, e1, e2, e3⟩ := (updateAll_iff h1).mp e
  have hu : ∀ j < n, Function.update r i (u i) j = u j := by
    intro j hj
    by_cases hji : j = i
    · rw [hji, Function.update_self]
    · rw [Function.update_of_ne hji]
      have := e1 j hj
      rw [h3 j hj (by simpa using hji)] at this
      exact Except.ok.inj this
  have hp : prevIx n i < n := prevIx_lt (by omega)
  have ht : tab n (Function.update r i (u i)) = tab n u := tab_congr hu
  have : ∃ Y, Surf.updateOne ε S i = .ok Y := by
    rw [hS]
    exact ⟨_, (updateOne_iff hi).mpr ⟨u i, k (prevIx n i), k i, e1 i hi, by rw [ht]; exact e2 _ hp, by rw [ht]; exact e2 _ hi, rfl⟩⟩
  obtain ⟨Y, hY⟩ := this
  have := mp hY
  rw [e] at this
  rw [hY, ← this]

end Surf

end Transfinite
