import Verif.Lemmas.DomainUpdate
import Verif.Lemmas.Circle
import Verif.Props.Domain
import Mathlib.Algebra.BigOperators.Field

/-! # Property C09: the angular domain -/

namespace Transfinite

open Domain Spec Real

/-! ### Helper lemmas -/

private theorem openPolygon_eq (n : ℕ) (l a : ℕ → ℝ) :
    openPolygon (tab n l) (tab n a) = .ok (tab n fun i =>
      ∑ k ∈ Finset.range (i + 1), l k • circ (∑ j ∈ Finset.range k, a j)) := by
  unfold openPolygon
  rw [length_tab, forLoop_eq (fun m => (tab m fun i =>
      ∑ k ∈ Finset.range (i + 1), l k • circ (∑ j ∈ Finset.range k, a j),
      ∑ j ∈ Finset.range m, a j, ∑ k ∈ Finset.range m, l k • circ (∑ j ∈ Finset.range k, a j)))]
  · rfl
  · simp
  · intro k hk
    rw [vget_tab _ hk, M_bind_ok]
    dsimp only
    rw [vget_tab _ hk, M_bind_ok]
    simp only [tab_succ, Finset.sum_range_succ]
    rfl

theorem closePolygon_eq {n : ℕ} (l : ℕ → ℝ) (o : ℕ → P2 ℝ) (hL : ∑ k ∈ Finset.range n, l k ≠ 0) :
    closePolygon (tab n l) (tab n o) = .ok (tab n fun i =>
      o i - ((∑ k ∈ Finset.range (i + 1), l k) / ∑ k ∈ Finset.range n, l k) • o (n - 1)) := by
  unfold closePolygon
  rw [length_tab, forLoop_eq (fun m => (tab n fun i => if i < m then
      o i - ((∑ k ∈ Finset.range (i + 1), l k) / ∑ k ∈ Finset.range n, l k) • o (n - 1) else o i,
      ∑ k ∈ Finset.range m, l k))]
  · rw [M_bind_ok]
    congr 1
    apply tab_congr; intro i hi; rw [if_pos hi]
  · simp
  · intro k hk
    dsimp only
    rw [vget_tab _ hk, M_bind_ok]
    rw [vget_tab _ (show n - 1 < n by omega), M_bind_ok, vget_tab _ hk, M_bind_ok, sum_tab, fdiv_of_ne hL,
      M_bind_ok, vset_tab _ _ hk, M_bind_ok, if_neg (show ¬ n - 1 < k by omega), if_neg (lt_irrefl k),
      ← Finset.sum_range_succ]
    congr 2
    apply tab_congr
    intro i _
    by_cases h : i = k
    · subst h; simp
    · rw [Function.update_of_ne h]
      by_cases h2 : i < k
      · rw [if_pos h2, if_pos (by omega)]
      · rw [if_neg h2, if_neg (by omega)]

/-- Properties of the minimum and maximum searches. -/
private theorem foldl_min_spec {α : Type} (f : α → ℝ) (l : List α) (m : ℝ) :
    (∀ a ∈ l, l.foldl (fun m v => min m (f v)) m ≤ f a) ∧ l.foldl (fun m v => min m (f v)) m ≤ m ∧
    (l.foldl (fun m v => min m (f v)) m = m ∨ ∃ a ∈ l, l.foldl (fun m v => min m (f v)) m = f a) := by
  induction l generalizing m with
  | nil => simp
  | cons x l ih =>
    obtain ⟨h1, h2, h3⟩ := ih (min m (f x))
    refine ⟨?_, h2.trans (min_le_left _ _), ?_⟩
    · intro a ha
      rcases List.mem_cons.mp ha with rfl | h
      · exact h2.trans (min_le_right _ _)
      · exact h1 a h
    · rcases h3 with h | ⟨a, ha, h⟩
      · rcases min_choice m (f x) with hm | hm
        · left; rw [List.foldl_cons, h, hm]
        · right; exact ⟨x, by simp, by rw [List.foldl_cons, h, hm]⟩
      · right; exact ⟨a, by simp [ha], h⟩

private theorem foldl_max_spec {α : Type} (f : α → ℝ) (l : List α) (m : ℝ) :
    (∀ a ∈ l, f a ≤ l.foldl (fun m v => max m (f v)) m) ∧ m ≤ l.foldl (fun m v => max m (f v)) m ∧
    (l.foldl (fun m v => max m (f v)) m = m ∨ ∃ a ∈ l, l.foldl (fun m v => max m (f v)) m = f a) := by
  induction l generalizing m with
  | nil => simp
  | cons x l ih =>
    obtain ⟨h1, h2, h3⟩ := ih (max m (f x))
    refine ⟨?_, (le_max_left _ _).trans h2, ?_⟩
    · intro a ha
      rcases List.mem_cons.mp ha with rfl | h
      · exact (le_max_right _ _).trans h2
      · exact h1 a h
    · rcases h3 with h | ⟨a, ha, h⟩
      · rcases max_choice m (f x) with hm | hm
        · left; rw [List.foldl_cons, h, hm]
        · right; exact ⟨x, by simp, by rw [List.foldl_cons, h, hm]⟩
      · right; exact ⟨a, by simp [ha], h⟩

/-- `rescale` is a uniform scaling by a positive factor and a translation. -/
private theorem rescale_spec {n : ℕ} {c : ℕ → P2 ℝ} {vs : List (P2 ℝ)} (h : rescale (tab n c) = .ok vs)
    (h0 : ∃ i < n, c i = 0) :
    ∃ (k : ℝ) (t : P2 ℝ), 0 < k ∧ vs = tab n (fun i => t + k • c i) ∧
      (∀ v ∈ vs, -1 ≤ v.x ∧ v.x ≤ 1 ∧ -1 ≤ v.y ∧ v.y ≤ 1) ∧
      (∃ v ∈ vs, v.x = -1) ∧ (∃ v ∈ vs, v.y = -1) ∧ (∃ v ∈ vs, v.x = 1 ∨ v.y = 1) := by
  obtain ⟨i0, hi0, hz⟩ := h0
  have mem0 : (0 : P2 ℝ) ∈ tab n c := List.mem_map.mpr ⟨i0, List.mem_range.mpr hi0, hz⟩
  unfold rescale at h
  obtain ⟨a1, a2, a3⟩ := foldl_min_spec (fun v : P2 ℝ => v.x) (tab n c) 0
  obtain ⟨b1, b2, b3⟩ := foldl_min_spec (fun v : P2 ℝ => v.y) (tab n c) 0
  obtain ⟨c1, c2, c3⟩ := foldl_max_spec (fun v : P2 ℝ => v.x) (tab n c) 0
  obtain ⟨d1, d2, d3⟩ := foldl_max_spec (fun v : P2 ℝ => v.y) (tab n c) 0
  generalize (tab n c).foldl (fun m v => min m v.x) 0 = minx at *
  generalize (tab n c).foldl (fun m v => min m v.y) 0 = miny at *
  generalize (tab n c).foldl (fun m v => max m v.x) 0 = maxx at *
  generalize (tab n c).foldl (fun m v => max m v.y) 0 = maxy at *
  dsimp only at h
  set w := max (maxx - minx) (maxy - miny) with hw
  by_cases hw0 : w = 0
  · rw [hw0, fdiv_zero] at h; simp at h
  have hwx : maxx - minx ≤ w := le_max_left _ _
  have hwy : maxy - miny ≤ w := le_max_right _ _
  have hwpos : 0 < w := lt_of_le_of_ne (by linarith) (Ne.symm hw0)
  rw [fdiv_of_ne hw0, M_bind_ok] at h
  have hvs := (Except.ok.inj h).symm
  have a3' : ∃ v ∈ tab n c, v.x = minx := by
    rcases a3 with h | ⟨a, ha, h⟩
    · exact ⟨0, mem0, h.symm⟩
    · exact ⟨a, ha, h.symm⟩
  have b3' : ∃ v ∈ tab n c, v.y = miny := by
    rcases b3 with h | ⟨a, ha, h⟩
    · exact ⟨0, mem0, h.symm⟩
    · exact ⟨a, ha, h.symm⟩
  have c3' : ∃ v ∈ tab n c, v.x = maxx := by
    rcases c3 with h | ⟨a, ha, h⟩
    · exact ⟨0, mem0, h.symm⟩
    · exact ⟨a, ha, h.symm⟩
  have d3' : ∃ v ∈ tab n c, v.y = maxy := by
    rcases d3 with h | ⟨a, ha, h⟩
    · exact ⟨0, mem0, h.symm⟩
    · exact ⟨a, ha, h.symm⟩
  have img : ∀ v ∈ tab n c, (⟨-1, -1⟩ : P2 ℝ) + (2 / w) • (v - ⟨minx, miny⟩) ∈ vs := by
    intro v hv; rw [hvs]; exact List.mem_map.mpr ⟨v, hv, rfl⟩
  refine ⟨2 / w, ⟨-1, -1⟩ - (2 / w) • ⟨minx, miny⟩, by positivity, ?_, ?_, ?_, ?_, ?_⟩
  · rw [hvs]
    simp only [tab, List.map_map]
    apply List.map_congr_left
    intro i _
    simp only [Function.comp]
    rw [smul_sub]; abel
  · intro v hv
    rw [hvs] at hv
    obtain ⟨u, hu, rfl⟩ := List.mem_map.mp hv
    have e1 : 2 / w * (u.x - minx) = 2 * ((u.x - minx) / w) := by ring
    have e2 : 2 / w * (u.y - miny) = 2 * ((u.y - miny) / w) := by ring
    have p1 : 0 ≤ (u.x - minx) / w := div_nonneg (by linarith [a1 u hu]) hwpos.le
    have p2 : 0 ≤ (u.y - miny) / w := div_nonneg (by linarith [b1 u hu]) hwpos.le
    have p3 : (u.x - minx) / w ≤ 1 := by rw [div_le_one hwpos]; linarith [c1 u hu]
    have p4 : (u.y - miny) / w ≤ 1 := by rw [div_le_one hwpos]; linarith [d1 u hu]
    simp only [P2.add_x, P2.add_y, P2.smul_x, P2.smul_y, P2.sub_x, P2.sub_y, e1, e2]
    refine ⟨by linarith, by linarith, by linarith, by linarith⟩
  · obtain ⟨v, hv, e⟩ := a3'
    exact ⟨_, img v hv, by simp [e]⟩
  · obtain ⟨v, hv, e⟩ := b3'
    exact ⟨_, img v hv, by simp [e]⟩
  · rcases max_choice (maxx - minx) (maxy - miny) with hm | hm
    · obtain ⟨v, hv, e⟩ := c3'
      refine ⟨_, img v hv, Or.inl ?_⟩
      have : w = maxx - minx := hm
      simp only [P2.add_x, P2.smul_x, P2.sub_x, e, ← this]; field_simp; norm_num
    · obtain ⟨v, hv, e⟩ := d3'
      refine ⟨_, img v hv, Or.inr ?_⟩
      have : w = maxy - miny := hm
      simp only [P2.add_y, P2.smul_y, P2.sub_y, e, ← this]; field_simp; norm_num

private theorem angular_split {n : ℕ} (hn : 1 ≤ n) {l ang : ℕ → ℝ} {vs : List (P2 ℝ)}
    (h : angularVertices (tab n l) (tab n ang) = .ok vs) (hL : ∑ k ∈ Finset.range n, l k ≠ 0) :
    ∃ θ : ℕ → ℝ, θ 0 = 0 ∧
      (∀ i, i < n → θ (i + 1) - θ i = π - ang i * (((n - 2 : ℕ) : ℝ) * π / ∑ k ∈ Finset.range n, ang k)) ∧
      rescale (tab n fun i => ∑ k ∈ Finset.range (i + 1), l k • circ (θ k) -
        ((∑ k ∈ Finset.range (i + 1), l k) / ∑ k ∈ Finset.range n, l k) •
          ∑ k ∈ Finset.range n, l k • circ (θ k)) = .ok vs := by
  unfold angularVertices turningAngles at h
  by_cases ha : (∑ k ∈ Finset.range n, ang k) = 0
  · rw [sum_tab, ha] at h; simp at h
  rw [sum_tab, fdiv_of_ne ha, length_tab] at h
  simp only [M_bind_ok] at h
  have hm : (tab n ang).map (fun x => Libm.pi - x * (((n - 2 : ℕ) : ℝ) * Libm.pi / ∑ k ∈ Finset.range n, ang k)) =
      tab n fun i => π - ang i * (((n - 2 : ℕ) : ℝ) * π / ∑ k ∈ Finset.range n, ang k) := by
    simp only [tab, List.map_map]; rfl
  rw [hm, openPolygon_eq, M_bind_ok, closePolygon_eq l _ hL, M_bind_ok, Nat.sub_add_cancel hn] at h
  refine ⟨fun i => ∑ j ∈ Finset.range i, (π - ang j * (((n - 2 : ℕ) : ℝ) * π / ∑ k ∈ Finset.range n, ang k)),
    by simp, ?_, h⟩
  intro i _
  simp only [Finset.sum_range_succ]; ring

/-! ### The property -/

/-- C09: the polygon is closed: every side vector, including that of side 0 (which joins the last
vertex to the first one), is a positive multiple of `length * (direction - average direction)`, where
the directions turn by `π - angle * (n-2)π / Σ angles`. -/
theorem C09_closed {n : ℕ} (hn : 1 ≤ n) {l ang : ℕ → ℝ} {vs : List (P2 ℝ)}
    (h : angularVertices (tab n l) (tab n ang) = .ok vs) (hL : ∑ k ∈ Finset.range n, l k ≠ 0) :
    ∃ (k : ℝ) (θ : ℕ → ℝ) (v : ℕ → P2 ℝ), 0 < k ∧ θ 0 = 0 ∧
      (∀ i, i < n → θ (i + 1) - θ i = π - ang i * (((n - 2 : ℕ) : ℝ) * π / ∑ j ∈ Finset.range n, ang j)) ∧
      vs = tab n v ∧ ∀ i < n, v i - v ((i + n - 1) % n) = k • (l i • ((⟨cos (θ i), sin (θ i)⟩ : P2 ℝ) -
        (1 / ∑ j ∈ Finset.range n, l j) • ∑ j ∈ Finset.range n, l j • (⟨cos (θ j), sin (θ j)⟩ : P2 ℝ))) := by
  obtain ⟨θ, h0, h1, h2⟩ := angular_split hn h hL
  have last0 : ∃ i < n, ∑ k ∈ Finset.range (i + 1), l k • circ (θ k) -
        ((∑ k ∈ Finset.range (i + 1), l k) / ∑ k ∈ Finset.range n, l k) •
          ∑ k ∈ Finset.range n, l k • circ (θ k) = 0 := by
    refine ⟨n - 1, by omega, ?_⟩
    rw [Nat.sub_add_cancel hn, div_self hL, one_smul, sub_self]
  obtain ⟨k, t, hk, hvs, _⟩ := rescale_spec h2 last0
  refine ⟨k, θ, _, hk, h0, h1, hvs, ?_⟩
  intro i hi
  change _ - (t + k • (∑ j ∈ Finset.range (prevIx n i + 1), l j • circ (θ j) - _)) =
    k • (l i • (circ (θ i) - (1 / _) • ∑ j ∈ Finset.range n, l j • circ (θ j)))
  generalize hE : ∑ j ∈ Finset.range n, l j • circ (θ j) = E
  have hp : (i + n - 1) % n = prevIx n i := rfl
  simp only [hp]
  rw [prevIx_eq hi]
  by_cases hi0 : i = 0
  · subst hi0
    rw [if_pos rfl, Nat.sub_add_cancel hn, div_self hL, hE]
    simp only [zero_add, Finset.sum_range_one]
    have : l 0 / ∑ k ∈ Finset.range n, l k = l 0 * (1 / ∑ k ∈ Finset.range n, l k) := by ring
    rw [this]; module
  · rw [if_neg hi0, Nat.sub_add_cancel (by omega), Finset.sum_range_succ, Finset.sum_range_succ]
    have e : (∑ x ∈ Finset.range i, l x + l i) / ∑ k ∈ Finset.range n, l k =
      (∑ x ∈ Finset.range i, l x) / (∑ k ∈ Finset.range n, l k) + l i * (1 / ∑ k ∈ Finset.range n, l k) := by ring
    rw [e]; module

/-- C09: the polygon is in [-1,1]×[-1,1], and touches the left and bottom sides, and one of the right
and top sides of this square. -/
theorem C09_box {n : ℕ} (hn : 1 ≤ n) {l ang : ℕ → ℝ} {vs : List (P2 ℝ)}
    (h : angularVertices (tab n l) (tab n ang) = .ok vs) (hL : ∑ k ∈ Finset.range n, l k ≠ 0) :
    (∀ v ∈ vs, -1 ≤ v.x ∧ v.x ≤ 1 ∧ -1 ≤ v.y ∧ v.y ≤ 1) ∧
      (∃ v ∈ vs, v.x = -1) ∧ (∃ v ∈ vs, v.y = -1) ∧ (∃ v ∈ vs, v.x = 1 ∨ v.y = 1) := by
  obtain ⟨θ, h0, h1, h2⟩ := angular_split hn h hL
  have last0 : ∃ i < n, ∑ k ∈ Finset.range (i + 1), l k • circ (θ k) -
        ((∑ k ∈ Finset.range (i + 1), l k) / ∑ k ∈ Finset.range n, l k) •
          ∑ k ∈ Finset.range n, l k • circ (θ k) = 0 := by
    refine ⟨n - 1, by omega, ?_⟩
    rw [Nat.sub_add_cancel hn, div_self hL, one_smul, sub_self]
  obtain ⟨k, t, hk, hvs, h3⟩ := rescale_spec h2 last0
  exact h3

/-- C09: what the coded convexity check decides: a corner passes if the side before it is horizontal
or it turns to the left (or is straight). It succeeds if no side has zero length. -/
theorem C09_check_iff {n : ℕ} (v : ℕ → P2 ℝ) (hne : ∀ i < n, v i ≠ v ((i + n - 1) % n)) :
    ∃ b, convexCheck (tab n v) = .ok b ∧ (b = true ↔ ∀ i < n,
      (v i).y = (v ((i + n - 1) % n)).y ∨ 0 ≤ area2 (v ((i + n - 1) % n)) (v i) (v ((i + 1) % n))) := by
  have norm_pos : ∀ a : P2 ℝ, a ≠ 0 → 0 < a.norm ∧ a.norm ^ 2 = a.x * a.x + a.y * a.y := by
    intro a ha
    have : 0 < P2.dot a a := by
      unfold P2.dot
      by_contra hc
      have hx : a.x = 0 := by nlinarith [mul_self_nonneg a.x, mul_self_nonneg a.y]
      have hy : a.y = 0 := by nlinarith [mul_self_nonneg a.x, mul_self_nonneg a.y]
      exact ha (P2.ext hx hy)
    exact ⟨Real.sqrt_pos.mpr this, Real.sq_sqrt this.le⟩
  unfold convexCheck
  rw [length_tab]
  have key : ∃ b, forLoop n (fun i (convex : Bool) => do
      let v' ← vget (tab n v) i
      let p ← vget (tab n v) (prevIx n i)
      let q ← vget (tab n v) (nextIx n i)
      let v1 ← (v' - p).normalize
      let v2 ← (q - v').normalize
      if 0 < (v2 - P2.dot v1 v2 • v1).x * v1.y then .ok false else .ok convex) true = .ok b ∧
      (b = true ↔ ∀ i < n, (v i).y = (v ((i + n - 1) % n)).y ∨
        0 ≤ area2 (v ((i + n - 1) % n)) (v i) (v ((i + 1) % n))) := by
    apply forLoop_inv (fun m b => b = true ↔ ∀ i < m, (v i).y = (v ((i + n - 1) % n)).y ∨
        0 ≤ area2 (v ((i + n - 1) % n)) (v i) (v ((i + 1) % n)))
    · simp
    · intro i b hi hb
      rw [vget_tab v hi, vget_tab v (prevIx_lt (by omega)), vget_tab v (nextIx_lt (by omega))]
      simp only [M_bind_ok]
      have ha : v i - v (prevIx n i) ≠ 0 := sub_ne_zero.mpr (hne i hi)
      have hb' : v (nextIx n i) - v i ≠ 0 := by
        have := hne (nextIx n i) (nextIx_lt (by omega))
        have e : (nextIx n i + n - 1) % n = i := prevIx_nextIx hi
        rw [e] at this
        exact sub_ne_zero.mpr this
      have ear : area2 (v ((i + n - 1) % n)) (v i) (v ((i + 1) % n)) =
          P2.cross (v i - v (prevIx n i)) (v (nextIx n i) - v i) := by
        simp only [area2, P2.cross, P2.sub_x, P2.sub_y, prevIx, nextIx]; ring
      have ey : (v i).y = (v ((i + n - 1) % n)).y ↔ (v i - v (prevIx n i)).y = 0 := by
        simp only [P2.sub_y, prevIx, sub_eq_zero]
      generalize hA : v i - v (prevIx n i) = a at *
      generalize hB : v (nextIx n i) - v i = c at *
      obtain ⟨pa, na⟩ := norm_pos a ha
      obtain ⟨pc, _⟩ := norm_pos c hb'
      have eb : ∀ x : P2 ℝ, 0 < x.norm → x.normalize = .ok (x.norm⁻¹ • x) := by
        intro x hx; unfold P2.normalize; rw [if_neg hx.ne']
      rw [eb a pa, eb c pc]
      simp only [M_bind_ok]
      have ex : ((c.norm⁻¹ • c) - P2.dot (a.norm⁻¹ • a) (c.norm⁻¹ • c) • (a.norm⁻¹ • a)).x * (a.norm⁻¹ • a).y =
          -((a.norm⁻¹ * a.y) ^ 2 * (a.norm⁻¹ * c.norm⁻¹) * P2.cross a c) := by
        have hn1 : a.norm⁻¹ ^ 2 * (a.x * a.x + a.y * a.y) = 1 := by rw [← na]; field_simp
        simp only [P2.cross, P2.dot, P2.sub_x, P2.smul_x, P2.smul_y]
        generalize a.norm⁻¹ = r at *
        generalize c.norm⁻¹ = s at *
        linear_combination (-(r * a.y * s * c.x)) * hn1
      rw [ex]
      have cond : (0 < -((a.norm⁻¹ * a.y) ^ 2 * (a.norm⁻¹ * c.norm⁻¹) * P2.cross a c)) ↔
          ¬ (a.y = 0 ∨ 0 ≤ P2.cross a c) := by
        have hr : 0 < a.norm⁻¹ := inv_pos.mpr pa
        have hs : 0 < c.norm⁻¹ := inv_pos.mpr pc
        constructor
        · intro h hor
          rcases hor with h0 | h0
          · rw [h0] at h; simp at h
          · have : 0 ≤ (a.norm⁻¹ * a.y) ^ 2 * (a.norm⁻¹ * c.norm⁻¹) * P2.cross a c := by positivity
            linarith
        · intro h
          push_neg at h
          have h1 : 0 < (a.norm⁻¹ * a.y) ^ 2 := by
            have := mul_ne_zero hr.ne' h.1; positivity
          have := mul_neg_of_pos_of_neg (mul_pos h1 (mul_pos hr hs)) h.2
          linarith
      by_cases hc : 0 < -((a.norm⁻¹ * a.y) ^ 2 * (a.norm⁻¹ * c.norm⁻¹) * P2.cross a c)
      · rw [if_pos hc]
        refine ⟨false, rfl, ?_⟩
        constructor
        · intro h; cases h
        · intro h
          have := h i (by omega)
          rw [ey, ear] at this
          exact absurd this (cond.mp hc)
      · rw [if_neg hc]
        refine ⟨b, rfl, ?_⟩
        rw [hb]
        have hcc : a.y = 0 ∨ 0 ≤ P2.cross a c := by
          by_contra hcon; exact hc (cond.mpr hcon)
        constructor
        · intro h j hj
          rcases Nat.lt_or_ge j i with h' | h'
          · exact h j h'
          · have : j = i := by omega
            subst this
            rw [ey, ear]; exact hcc
        · intro h j hj; exact h j (by omega)
  exact key

/-- C09: soundness of the fallback: the polygon of an updated angular domain is either the angular one
that passed the check, or the circular one, when the check failed. -/
theorem C09_fallback {lengths angles : List ℝ} {d : Domain ℝ} (h : angularUpdateFrom lengths angles = .ok d) :
    ∃ vs b, angularVertices lengths angles = .ok vs ∧ convexCheck vs = .ok b ∧
      ((b = true ∧ update vs = .ok d) ∨
       (b = false ∧ ∃ vs', circularVertices lengths = .ok vs' ∧ update vs' = .ok d)) := by
  unfold angularUpdateFrom at h
  cases h1 : angularVertices lengths angles with
  | error e => rw [h1] at h; simp at h
  | ok vs =>
    rw [h1, M_bind_ok] at h
    cases h2 : convexCheck vs with
    | error e => rw [h2] at h; simp at h
    | ok b =>
      rw [h2, M_bind_ok] at h
      refine ⟨vs, b, rfl, h2, ?_⟩
      cases b with
      | true => left; exact ⟨rfl, by simpa using h⟩
      | false =>
        right
        refine ⟨rfl, ?_⟩
        simp only [Bool.false_eq_true, if_false] at h
        cases h3 : circularVertices lengths with
        | error e => rw [h3] at h; simp at h
        | ok vs' => rw [h3, M_bind_ok] at h; exact ⟨vs', rfl, h⟩

/-- Lengths and angles of the dart-shaped counterexample. -/
noncomputable def dartLengths : List ℝ := [1, 1, √3, √3]
/-- Angles between the consecutive curves of the dart (each in [0,π], as computed by `acos`). -/
noncomputable def dartAngles : List ℝ := [2 * π / 3, π / 12, π / 6, π / 12]

/-- C09 (disagreement): for boundary curves of lengths 1, 1, √3, √3 meeting at angles 120°, 15°, 30°, 15°
the angular polygon is a non-convex dart: it turns right at vertex 0, after the horizontal side 0, and the
coded check still accepts it. -/
theorem C09_check_misses_reflex : ∃ vs : List (P2 ℝ), ∃ v : ℕ → P2 ℝ,
    angularVertices dartLengths dartAngles = .ok vs ∧ vs = tab 4 v ∧ convexCheck vs = .ok true ∧
    area2 (v 3) (v 0) (v 1) < 0 := by
  have s3 : √3 * √3 = (3 : ℝ) := Real.mul_self_sqrt (by norm_num)
  have s3p : 0 < √(3 : ℝ) := Real.sqrt_pos.mpr (by norm_num)
  have s3l : (1 : ℝ) < √3 := by nlinarith
  have s3u : √(3 : ℝ) < 2 := by nlinarith
  have hsum : dartAngles.sum = π := by simp [dartAngles]; ring
  have hturn : turningAngles dartAngles = .ok [-(π / 3), 5 * π / 6, 2 * π / 3, 5 * π / 6] := by
    unfold turningAngles
    rw [hsum, fdiv_of_ne pi_pos.ne', M_bind_ok]
    have : ((dartAngles.length - 2 : ℕ) : ℝ) * Libm.pi / π = 2 := by
      change ((4 - 2 : ℕ) : ℝ) * π / π = 2
      have := pi_pos.ne'
      field_simp; norm_num
    simp only [this]
    simp only [dartAngles, List.map_cons, List.map_nil, Libm.pi]
    congr 2
    · ring
    · congr 1
      · ring
      · congr 1
        · ring
        · congr 1; ring
  have hopen : openPolygon dartLengths [-(π / 3), 5 * π / 6, 2 * π / 3, 5 * π / 6] =
      .ok [⟨1, 0⟩, ⟨3 / 2, -√3 / 2⟩, ⟨3 / 2, √3 / 2⟩, ⟨0, 0⟩] := by
    have c1 : cos (0 + -(π / 3)) = 1 / 2 := by rw [zero_add, cos_neg, cos_pi_div_three]
    have c2 : sin (0 + -(π / 3)) = -(√3 / 2) := by rw [zero_add, sin_neg, sin_pi_div_three]
    have c3 : cos (0 + -(π / 3) + 5 * π / 6) = 0 := by
      rw [show 0 + -(π / 3) + 5 * π / 6 = π / 2 by ring, cos_pi_div_two]
    have c4 : sin (0 + -(π / 3) + 5 * π / 6) = 1 := by
      rw [show 0 + -(π / 3) + 5 * π / 6 = π / 2 by ring, sin_pi_div_two]
    have c5 : cos (0 + -(π / 3) + 5 * π / 6 + 2 * π / 3) = -(√3 / 2) := by
      rw [show 0 + -(π / 3) + 5 * π / 6 + 2 * π / 3 = π / 6 + π by ring, cos_add_pi, cos_pi_div_six]
    have c6 : sin (0 + -(π / 3) + 5 * π / 6 + 2 * π / 3) = -(1 / 2) := by
      rw [show 0 + -(π / 3) + 5 * π / 6 + 2 * π / 3 = π / 6 + π by ring, sin_add_pi, sin_pi_div_six]
    have e0 : (0 : P2 ℝ) + (1 : ℝ) • ⟨cos 0, sin 0⟩ = ⟨1, 0⟩ := by ext <;> simp
    have e1 : (⟨1, 0⟩ : P2 ℝ) + (1 : ℝ) • ⟨cos (0 + -(π / 3)), sin (0 + -(π / 3))⟩ = ⟨3 / 2, -√3 / 2⟩ := by
      rw [c1, c2]; ext <;> simp <;> ring
    have e2 : (⟨3 / 2, -√3 / 2⟩ : P2 ℝ) + √3 • ⟨cos (0 + -(π / 3) + 5 * π / 6), sin (0 + -(π / 3) + 5 * π / 6)⟩ =
        ⟨3 / 2, √3 / 2⟩ := by
      rw [c3, c4]; ext <;> simp; ring
    have e3 : (⟨3 / 2, √3 / 2⟩ : P2 ℝ) + √3 • ⟨cos (0 + -(π / 3) + 5 * π / 6 + 2 * π / 3),
        sin (0 + -(π / 3) + 5 * π / 6 + 2 * π / 3)⟩ = ⟨0, 0⟩ := by
      rw [c5, c6]; ext
      · simp only [P2.add_x, P2.smul_x]; nlinarith
      · simp only [P2.add_y, P2.smul_y]; ring
    unfold openPolygon
    simp only [dartLengths, List.length_cons, List.length_nil, forLoop, M_bind_ok, vget, List.getElem?_cons_zero,
      List.getElem?_cons_succ, List.nil_append, List.cons_append]
    simp only [show ∀ x : ℝ, Libm.cos x = cos x from fun _ => rfl, show ∀ x : ℝ, Libm.sin x = sin x from fun _ => rfl,
      e0, e1, e2, e3]
  have hclose : closePolygon dartLengths [⟨1, 0⟩, ⟨3 / 2, -√3 / 2⟩, ⟨3 / 2, √3 / 2⟩, ⟨0, 0⟩] =
      .ok [⟨1, 0⟩, ⟨3 / 2, -√3 / 2⟩, ⟨3 / 2, √3 / 2⟩, ⟨0, 0⟩] := by
    have h1 : dartLengths = tab 4 (fun i => dartLengths.getD i 0) := by simp [tab, dartLengths, List.range_succ]
    have hsum : ∑ k ∈ Finset.range 4, dartLengths.getD k 0 ≠ 0 := by
      simp [dartLengths, Finset.sum_range_succ]; positivity
    have h2 : ([⟨1, 0⟩, ⟨3 / 2, -√3 / 2⟩, ⟨3 / 2, √3 / 2⟩, ⟨0, 0⟩] : List (P2 ℝ)) =
        tab 4 (fun i => ([⟨1, 0⟩, ⟨3 / 2, -√3 / 2⟩, ⟨3 / 2, √3 / 2⟩, ⟨0, 0⟩] : List (P2 ℝ)).getD i 0) := by
      simp [tab, List.range_succ]
    rw [h2]
    nth_rw 1 [h1]
    rw [closePolygon_eq _ _ hsum]
    congr 1
    apply tab_congr
    intro i _
    have : ([⟨1, 0⟩, ⟨3 / 2, -√3 / 2⟩, ⟨3 / 2, √3 / 2⟩, ⟨0, 0⟩] : List (P2 ℝ)).getD (4 - 1) 0 = 0 := rfl
    rw [this, smul_zero, sub_zero]
  set c : ℕ → P2 ℝ := fun i => ([⟨1, 0⟩, ⟨3 / 2, -√3 / 2⟩, ⟨3 / 2, √3 / 2⟩, ⟨0, 0⟩] : List (P2 ℝ)).getD i 0 with hc
  have hresc : rescale [⟨1, 0⟩, ⟨3 / 2, -√3 / 2⟩, ⟨3 / 2, √3 / 2⟩, ⟨0, 0⟩] =
      .ok (tab 4 fun i => (⟨-1, -1⟩ : P2 ℝ) + (2 / √3) • (c i - ⟨0, -√3 / 2⟩)) := by
    unfold rescale
    have m1 : ([⟨1, 0⟩, ⟨3 / 2, -√3 / 2⟩, ⟨3 / 2, √3 / 2⟩, ⟨0, 0⟩] : List (P2 ℝ)).foldl (fun m v => min m v.x) 0 = 0 := by
      simp; norm_num
    have m2 : ([⟨1, 0⟩, ⟨3 / 2, -√3 / 2⟩, ⟨3 / 2, √3 / 2⟩, ⟨0, 0⟩] : List (P2 ℝ)).foldl (fun m v => min m v.y) 0 = -√3 / 2 := by
      simp only [List.foldl_cons, List.foldl_nil]
      rw [min_self, min_eq_right (a := (0 : ℝ)) (b := -√3 / 2) (by linarith),
        min_eq_left (a := -√3 / 2) (b := √3 / 2) (by linarith), min_eq_left (by linarith)]
    have m3 : ([⟨1, 0⟩, ⟨3 / 2, -√3 / 2⟩, ⟨3 / 2, √3 / 2⟩, ⟨0, 0⟩] : List (P2 ℝ)).foldl (fun m v => max m v.x) 0 = 3 / 2 := by
      simp only [List.foldl_cons, List.foldl_nil]
      rw [max_eq_right (a := (0 : ℝ)) (by norm_num), max_eq_right (a := (1 : ℝ)) (by norm_num), max_self, max_eq_left (by norm_num)]
    have m4 : ([⟨1, 0⟩, ⟨3 / 2, -√3 / 2⟩, ⟨3 / 2, √3 / 2⟩, ⟨0, 0⟩] : List (P2 ℝ)).foldl (fun m v => max m v.y) 0 = √3 / 2 := by
      simp only [List.foldl_cons, List.foldl_nil]
      rw [max_self, max_eq_left (b := -√3 / 2) (by linarith), max_eq_right (a := (0 : ℝ)) (by linarith), max_eq_left (by linarith)]
    dsimp only
    rw [m1, m2, m3, m4, max_eq_right (by nlinarith), show √3 / 2 - -√3 / 2 = √3 by ring, fdiv_of_ne s3p.ne', M_bind_ok]
    simp [tab, List.range_succ, hc]
  set v : ℕ → P2 ℝ := fun i => (⟨-1, -1⟩ : P2 ℝ) + (2 / √3) • (c i - ⟨0, -√3 / 2⟩) with hv
  have har : ∀ i j k, area2 (v i) (v j) (v k) = (2 / √3) ^ 2 * area2 (c i) (c j) (c k) := by
    intro i j k
    simp only [hv, area2, P2.add_x, P2.add_y, P2.smul_x, P2.smul_y, P2.sub_x, P2.sub_y]; ring
  have kpos : (0 : ℝ) < (2 / √3) ^ 2 := by positivity
  have hy : ∀ i j, (v i).y = (v j).y ↔ (c i).y = (c j).y := by
    intro i j
    simp only [hv, P2.add_y, P2.smul_y, P2.sub_y]
    constructor
    · intro h
      have : 2 / √3 * ((c i).y - (c j).y) = 0 := by linarith
      rcases mul_eq_zero.mp this with h' | h'
      · exact absurd h' (by positivity)
      · linarith
    · intro h; rw [h]
  have hne : ∀ i j, c i ≠ c j → v i ≠ v j := by
    intro i j h e
    apply h
    have : (2 / √3) • (c i - c j) = 0 := by
      have e' : (⟨-1, -1⟩ : P2 ℝ) + (2 / √3) • (c i - ⟨0, -√3 / 2⟩) = (⟨-1, -1⟩ : P2 ℝ) + (2 / √3) • (c j - ⟨0, -√3 / 2⟩) := e
      have e2 := sub_eq_zero.mpr (add_left_cancel e')
      rw [← e2, ← smul_sub]; congr 1; abel
    ext
    · have h1 := congrArg P2.x this
      simp only [P2.smul_x, P2.sub_x, P2.zero_x] at h1
      rcases mul_eq_zero.mp h1 with h' | h'
      · exact absurd h' (by positivity)
      · linarith
    · have h1 := congrArg P2.y this
      simp only [P2.smul_y, P2.sub_y, P2.zero_y] at h1
      rcases mul_eq_zero.mp h1 with h' | h'
      · exact absurd h' (by positivity)
      · linarith
  refine ⟨tab 4 v, v, ?_, rfl, ?_, ?_⟩
  · unfold angularVertices
    rw [hturn, M_bind_ok, hopen, M_bind_ok, hclose, M_bind_ok, hresc]
  · obtain ⟨b, e, hb⟩ := C09_check_iff (n := 4) v (by
      intro i hi
      apply hne
      have : i = 0 ∨ i = 1 ∨ i = 2 ∨ i = 3 := by omega
      rcases this with rfl | rfl | rfl | rfl <;> intro h <;> have h1 := congrArg P2.x h <;>
        have h2 := congrArg P2.y h <;> simp [hc] at h1 h2 <;> linarith)
    have : b = true := by
      rw [hb]
      intro i hi
      rw [har, hy]
      have : i = 0 ∨ i = 1 ∨ i = 2 ∨ i = 3 := by omega
      rcases this with rfl | rfl | rfl | rfl
      · left; simp [hc]
      · right; apply mul_nonneg kpos.le; simp [hc, area2]; nlinarith
      · right; apply mul_nonneg kpos.le; simp [hc, area2]; nlinarith
      · right; apply mul_nonneg kpos.le; simp [hc, area2]; nlinarith
    rw [e, this]
  · rw [har]
    apply mul_neg_of_pos_of_neg kpos
    simp [hc, area2]; nlinarith

/-- The hypotheses of C09_closed and C09_box are met by the dart. -/
example : ∃ vs, angularVertices (tab 4 fun i => dartLengths.getD i 0) (tab 4 fun i => dartAngles.getD i 0) = .ok vs ∧
    ∑ k ∈ Finset.range 4, dartLengths.getD k 0 ≠ 0 := by
  have h1 : dartLengths = tab 4 (fun i => dartLengths.getD i 0) := by simp [tab, dartLengths, List.range_succ]
  have h2 : dartAngles = tab 4 (fun i => dartAngles.getD i 0) := by simp [tab, dartAngles, List.range_succ]
  rw [← h1, ← h2]
  obtain ⟨vs, _, h, _⟩ := C09_check_misses_reflex
  refine ⟨vs, h, ?_⟩
  simp [dartLengths, Finset.sum_range_succ]; positivity

end Transfinite
