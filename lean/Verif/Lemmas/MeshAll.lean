import Verif.Lemmas.MeshParams
import Verif.Lemmas.Polygon

/-! Mesh lemmas put together for all side counts. -/

namespace Transfinite

open Domain Spec

/-- the triangles of the mesh -/
def allTris (n R : ℕ) : List Tri := if n = 3 then all3 R else if n = 4 then all4 R else allN n R

theorem meshTopology_eq (n R : ℕ) : meshTopology n R = .ok (meshSize n R, allTris n R) := by
  unfold meshTopology allTris
  by_cases h3 : n = 3
  · simp [h3, topology3_eq]
  · by_cases h4 : n = 4
    · simp [h4, topology4_eq, all4]
    · simp [h3, h4, topologyN_eq]

theorem meshSize4 (R : ℕ) : meshSize 4 R = (R + 1) * (R + 1) := by simp [meshSize]

/-- the boundary loop -/
def bLoop (n R p : ℕ) : ℕ := if n = 3 then loop3 R p else if n = 4 then loop4 R p else encN n R p

theorem boundaryAll {n R : ℕ} (hn : 3 ≤ n) (hR : 1 ≤ R) : BoundaryLoop (allTris n R) (n * R) (bLoop n R) := by
  unfold allTris
  by_cases h3 : n = 3
  · subst h3
    have : bLoop 3 R = loop3 R := by funext p; simp [bLoop]
    rw [this]; exact boundary3 hR
  · by_cases h4 : n = 4
    · subst h4
      have : bLoop 4 R = loop4 R := by funext p; simp [bLoop]
      rw [this]; exact boundary4 hR
    · have : bLoop n R = encN n R := by funext p; simp [bLoop, h3, h4]
      rw [this, if_neg h3, if_neg h4]; exact boundaryN hn hR

/-- every index of the 4-sided mesh is decoded -/
theorem enc4_exists {R i : ℕ} (h : i < (R + 1) * (R + 1)) : ∃ j ≤ R, ∃ k ≤ R, i = enc4 R j k := by
  obtain ⟨j, hj, k, hk, e⟩ := pos_exists h
  exact ⟨j, by omega, k, by omega, e⟩

/-- every index of the 3-sided mesh is decoded -/
theorem enc3_exists {R i : ℕ} (h : i < triNum (R + 1)) : ∃ j ≤ R, ∃ k ≤ j, i = enc3 j k := by
  obtain ⟨j, k, hk, rfl⟩ := triNum_exists i
  refine ⟨j, ?_, k, hk, rfl⟩
  by_contra hj
  have := triNum_mono (show R + 1 ≤ j by omega)
  omega

/-- every index of the general mesh is decoded -/
theorem encN_exists {n R i : ℕ} (h : i < ringStart n (R + 1)) :
    i = 0 ∨ ∃ L, 1 ≤ L ∧ L ≤ R ∧ ∃ k < n, ∃ v < L, i = ringStart n L + (k * L + v) := by
  induction R with
  | zero => left; simp [ringStart] at h; exact h
  | succ R ih =>
    by_cases c : i < ringStart n (R + 1)
    · rcases ih c with h0 | ⟨L, h1, h2, h3⟩
      · exact Or.inl h0
      · exact Or.inr ⟨L, h1, by omega, h3⟩
    · right
      rw [ringStart_succ] at h
      obtain ⟨k, hk, v, hv, e⟩ := pos_exists (p := i - ringStart n (R + 1)) (n := n) (m := R + 1) (by omega)
      exact ⟨R + 1, by omega, le_rfl, k, hk, v, hv, by omega⟩

theorem encN_of_pos {n L k v : ℕ} (hk : k < n) (hv : v < L) :
    encN n L (k * L + v) = ringStart n L + (k * L + v) := by
  unfold encN; rw [Nat.mod_eq_of_lt (pos_lt hk hv)]

theorem onEdge_iff_loop {n R i : ℕ} (hn : 3 ≤ n) (hR : 1 ≤ R) (hi : i < meshSize n R) :
    onEdge n R i = true ↔ ∃ p < n * R, bLoop n R p = i := by
  by_cases h3 : n = 3
  · subst h3
    rw [meshSize3] at hi
    obtain ⟨j, hj, k, hk, rfl⟩ := enc3_exists hi
    rw [onEdge3 hj hk, ← mem_loop3 hR hj hk]
    simp [bLoop]
  · by_cases h4 : n = 4
    · subst h4
      rw [meshSize4] at hi
      obtain ⟨j, hj, k, hk, rfl⟩ := enc4_exists hi
      rw [onEdge4 hR hj hk, ← mem_loop4 hR hj hk]
      simp [bLoop]
    · rw [meshSizeN h3 h4] at hi
      have := mem_loopN hn hR hi
      unfold onEdge
      rw [if_neg h3, if_neg h4, decide_eq_true_eq, meshSizeN h3 h4, ge_iff_le, ← this]
      simp [bLoop, h3, h4]

section params

variable {K : Type*} [Field K] [CharZero K] [DecidableEq K]

theorem ptN_wrap {n R : ℕ} (c : P2 K) (v : ℕ → P2 K) {L k : ℕ} (hk : k < n) :
    ptN n R c v L k L = ptN n R c v L (nextIx n k) 0 := by
  unfold ptN
  rw [prevIx_nextIx hk]; simp

/-- points of the general mesh by ring, side and offset (including the end of the side) -/
theorem paramsN_eq' {n R : ℕ} (hn : 0 < n) (hR : 1 ≤ R) (c : P2 K) (v : ℕ → P2 K) :
    ∃ ps, paramsN n c (tab n v) R = .ok ps ∧ ps.length = ringStart n (R + 1) ∧
      ∀ L ≤ R, ∀ k < n, ∀ i ≤ L, ps[encN n L (k * L + i)]? = some (ptN n R c v L k i) := by
  obtain ⟨ps, h1, h2, h3, h4⟩ := paramsN_eq hn hR c v
  refine ⟨ps, h1, h2, ?_⟩
  intro L hL k hk i hi
  rcases Nat.eq_zero_or_pos L with rfl | hL0
  · have : i = 0 := by omega
    subst this
    have : encN n 0 (k * 0 + 0) = 0 := by simp [encN, ringStart]
    rw [this, h3]; simp [ptN]
  · rcases Nat.eq_or_lt_of_le hi with rfl | hi'
    · rw [ptN_wrap c v hk]
      have e : encN n i (k * i + i) = encN n i (nextIx n k * i + 0) := by
        rw [nextIx_eq hk]
        split
        · rename_i h
          have : k * i + i = n * i := by rw [← h]; ring
          rw [this]; unfold encN; simp
        · congr 1; ring
      rw [e, encN_of_pos (nextIx_lt hn) hL0]
      exact h4 i hL0 hL _ (nextIx_lt hn) 0 hL0
    · rw [encN_of_pos hk hi']
      exact h4 L hL0 hL k hk i hi'

/-- All mesh points, as a function of the index. -/
theorem parametersImpl_eq {d : Domain K} {v : ℕ → P2 K} (hn : 3 ≤ d.n) (hv : d.vertices = tab d.n v)
    {R : ℕ} (hR : 1 ≤ R) :
    ∃ f : ℕ → P2 K, d.parametersImpl R = .ok (tab (meshSize d.n R) f) ∧
      (d.n = 3 → ∀ j ≤ R, ∀ k ≤ j, f (enc3 j k) = pt3 R v j k) ∧
      (d.n = 4 → ∀ j ≤ R, ∀ k ≤ R, f (enc4 R j k) = pt4 R v j k) ∧
      (d.n ≠ 3 → d.n ≠ 4 → ∀ L ≤ R, ∀ k < d.n, ∀ i ≤ L,
        f (encN d.n L (k * L + i)) = ptN d.n R d.center v L k i) := by
  have key : ∀ ps : List (P2 K), ps = tab ps.length (fun i => ps.getD i 0) := fun ps =>
    eq_tab_of_get rfl (by intro i hi; simp [hi])
  have get : ∀ (ps : List (P2 K)) i a, ps[i]? = some a → ps.getD i 0 = a := by
    intro ps i a h; simp [List.getD, h]
  unfold parametersImpl
  rw [hv]
  by_cases h3 : d.n = 3
  · rw [h3]
    obtain ⟨ps, h1, h2, h5⟩ := params3_eq hR v
    refine ⟨fun i => ps.getD i 0, ?_, ?_, ?_, ?_⟩
    · rw [if_pos rfl, h1, meshSize3, ← h2, ← key]
    · intro _ j hj k hk; exact get _ _ _ (h5 j hj k hk)
    · omega
    · omega
  · by_cases h4 : d.n = 4
    · rw [h4]
      obtain ⟨ps, h1, h2, h5⟩ := params4_eq hR v
      refine ⟨fun i => ps.getD i 0, ?_, ?_, ?_, ?_⟩
      · rw [if_neg (by omega), if_pos rfl, h1, meshSize4, ← h2, ← key]
      · omega
      · intro _ j hj k hk; exact get _ _ _ (h5 j hj k hk)
      · omega
    · obtain ⟨ps, h1, h2, h5⟩ := paramsN_eq' (show 0 < d.n by omega) hR d.center v
      refine ⟨fun i => ps.getD i 0, ?_, ?_, ?_, ?_⟩
      · rw [if_neg h3, if_neg h4, h1, meshSizeN h3 h4, ← h2, ← key]
      · omega
      · omega
      · intro _ _ L hL k hk i hi; exact get _ _ _ (h5 L hL k hk i hi)

end params

end Transfinite
