import Verif.Lemmas.Bilinear
import Verif.Props.Domain
import Verif.Lemmas.Regular
import Verif.Props.Utilities

/-! # Property C14: the bilinear parameterization -/

namespace Transfinite

open Spec Param Domain

/-! ## C14 -/

/-- C14: outside of the tolerance bands of the code (a leading coefficient that is zero or not small,
and a discriminant that is zero or not small) the parameters solve the bilinear equation. Any polygon
with non-degenerate side `i`. -/
theorem C14_solves {n : ℕ} {v : ℕ → P2 ℝ} {c : P2 ℝ} {d : Domain ℝ} (hd : updateFrom (tab n v) c = .ok d)
    {ε : ℝ} (hε : 0 < ε) {i : ℕ} (hi : i < n) (hne : v i ≠ v ((i + n - 1) % n)) {uv : P2 ℝ} {s t : ℝ}
    (h : bilinearMap ε d i uv = .ok ⟨s, t⟩) {p1 p2 p : P2 ℝ}
    (h1 : d.toLocal i (v ((i + n - 2) % n) - v ((i + n - 1) % n)) = .ok p1)
    (h2 : d.toLocal i (v ((i + 1) % n) - v i) = .ok p2)
    (h3 : d.toLocal i (uv - v ((i + n - 1) % n)) = .ok p)
    (htol : (p1.y = p2.y ∧ ε ≤ |p.x * p2.y - (p.x + 1) * p1.y + (p1.x - p2.x) * p.y|) ∨
      (ε ≤ |p1.y - p2.y| ∧
        ((p.x * p2.y - (p.x + 1) * p1.y + (p1.x - p2.x) * p.y) ^ 2 - 4 * (p1.y - p2.y) * (p.x * p1.y - p.y * p1.x) = 0 ∨
         ε ≤ (p.x * p2.y - (p.x + 1) * p1.y + (p1.x - p2.x) * p.y) ^ 2 - 4 * (p1.y - p2.y) * (p.x * p1.y - p.y * p1.x)))) :
    uv = bilinear (v ((i + n - 2) % n)) (v ((i + n - 1) % n)) (v i) (v ((i + 1) % n)) s t := by
  have hlen : (tab n v).length = n := length_tab n v
  have hinv := C07_local_inverse (tab n v) c (i := i) (by rw [hlen]; exact hi) (by
    rw [hlen]
    have e1 := vget_eq_ok.mp (vget_tab v hi)
    have e2 := vget_eq_ok.mp (vget_tab v (show (i + n - 1) % n < n from Nat.mod_lt _ (by omega)))
    rw [e1, e2]
    intro he; exact hne (Option.some.inj he))
  obtain ⟨d', e', hto, _⟩ := hinv
  rw [hd] at e'
  obtain rfl := Except.ok.inj e'
  have hdeq := hd
  rw [updateFrom_eq] at hdeq
  have hdeq := (Except.ok.inj hdeq).symm
  have from_eq : ∀ l, d.fromLocal i l = .ok (l.x • duOf n v i + l.y • dvOf n v c i) := by
    intro l
    rw [hdeq]
    unfold fromLocal
    simp only [vget_tab _ hi, M_bind_ok]
  have back : ∀ w l, d.toLocal i w = .ok l → w = l.x • duOf n v i + l.y • dvOf n v c i := by
    intro w l hw
    obtain ⟨l', e1, e2⟩ := hto w
    rw [hw] at e1
    obtain rfl := Except.ok.inj e1
    rw [from_eq] at e2
    exact (Except.ok.inj e2).symm
  unfold bilinearMap at h
  have hv : d.vertices = tab n v := by rw [hdeq]
  rw [hv, hlen] at h
  dsimp only at h
  rw [vget_tab v (show prevIx n i 2 < n from prevIx_lt (by omega)), vget_tab v (show prevIx n i < n from prevIx_lt (by omega)),
    vget_tab v hi, vget_tab v (show nextIx n i < n from nextIx_lt (by omega))] at h
  simp only [M_bind_ok] at h
  change (do
    let p1 ← d.toLocal i (v ((i + n - 2) % n) - v ((i + n - 1) % n))
    let p2 ← d.toLocal i (v ((i + 1) % n) - v i)
    let p ← d.toLocal i (uv - v ((i + n - 1) % n))
    let s ← bilinearSolve ε (p1.y - p2.y) (p.x * p2.y - (p.x + 1) * p1.y + (p1.x - p2.x) * p.y) (p.x * p1.y - p.y * p1.x)
    let t ← fdiv p.y (p1.y * (1 - s) + p2.y * s)
    Except.ok (⟨s, t⟩ : P2 ℝ)) = _ at h
  rw [h1, h2, h3] at h
  simp only [M_bind_ok] at h
  cases hs : bilinearSolve ε (p1.y - p2.y) (p.x * p2.y - (p.x + 1) * p1.y + (p1.x - p2.x) * p.y) (p.x * p1.y - p.y * p1.x) with
  | error e => rw [hs] at h; simp at h
  | ok s' =>
    rw [hs] at h
    simp only [M_bind_ok] at h
    by_cases hden : p1.y * (1 - s') + p2.y * s' = 0
    · rw [hden] at h; simp at h
    · rw [fdiv_of_ne hden, M_bind_ok] at h
      have hst := Except.ok.inj h
      have e1 : s' = s := congrArg P2.x hst
      have e2 : p.y / (p1.y * (1 - s') + p2.y * s') = t := congrArg P2.y hst
      subst e1
      have hroot := bilinearSolve_root hε hs (by
        rcases htol with ⟨a, b⟩ | ⟨a, b⟩
        · left; exact ⟨by rw [a]; ring, b⟩
        · right; exact ⟨a, by rw [← pow_two]; exact b⟩)
      have hy : p.y = t * (p1.y * (1 - s') + p2.y * s') := by rw [← e2, div_mul_cancel₀ _ hden]
      have hx : p.x = s' + t * (p1.x * (1 - s') + p2.x * s') := by
        have : (p.x - (s' + t * (p1.x * (1 - s') + p2.x * s'))) * (p1.y * (1 - s') + p2.y * s') = 0 := by
          linear_combination hroot + (p1.x * (1 - s') + p2.x * s') * hy
        rcases mul_eq_zero.mp this with h0 | h0
        · linarith
        · exact absurd h0 hden
      have b1 := back _ _ h1
      have b2 := back _ _ h2
      have b3 := back _ _ h3
      have bdu : duOf n v i = v i - v ((i + n - 1) % n) := rfl
      have k0 : v ((i + n - 2) % n) = v ((i + n - 1) % n) + (p1.x • duOf n v i + p1.y • dvOf n v c i) := by
        rw [← b1]; abel
      have k2 : v i = v ((i + n - 1) % n) + duOf n v i := by rw [bdu]; abel
      have k3 : v ((i + 1) % n) = v ((i + n - 1) % n) + duOf n v i + (p2.x • duOf n v i + p2.y • dvOf n v c i) := by
        rw [← b2, ← k2]; abel
      have k : uv = v ((i + n - 1) % n) + (p.x • duOf n v i + p.y • dvOf n v c i) := by rw [← b3]; abel
      rw [k, k0, k3]
      unfold bilinear
      conv_rhs => rw [k2]
      rw [hx, hy]
      module

/-- C14: the mapping inverts the bilinear map of its quadrilateral: in a strictly convex domain every
point of the quadrilateral spanned by side `i` and its neighbours is mapped to its bilinear
parameters (outside of the tolerance bands; for triangles the apex is excluded). -/
theorem C14_inverts {d : Domain ℝ} {n : ℕ} {v : ℕ → P2 ℝ} (h : ConvexDomain d n v) {ε : ℝ} (hε : 0 < ε)
    {i : ℕ} (hi : i < n) :
    ∃ p1 p2, d.toLocal i (v ((i + n - 2) % n) - v ((i + n - 1) % n)) = .ok p1 ∧
      d.toLocal i (v ((i + 1) % n) - v i) = .ok p2 ∧ 0 < p1.y ∧ 0 < p2.y ∧
      ∀ s t, 0 ≤ s → s ≤ 1 → 0 ≤ t → t ≤ 1 → (4 ≤ n ∨ t < 1) → BilinearTol ε p1 p2 s t →
        bilinearMap ε d i (bilinear (v ((i + n - 2) % n)) (v ((i + n - 1) % n)) (v i) (v ((i + 1) % n)) s t) =
          .ok ⟨s, t⟩ := by
  obtain ⟨p1, p2, h1, h2, h3, h4, _, _, _, h5⟩ := bilinearMap_inverts h hε hi
  exact ⟨p1, p2, h1, h2, h3, h4, h5⟩

/-- C14: side points. Side `i` gets `(s,0)`, the previous side gets `(1,s)` and the next side gets
`(0,1-s)`, outside of the tolerance bands of the respective sides (in a triangle the far corner of
the neighbouring sides is excluded). -/
theorem C14_side {d : Domain ℝ} {n : ℕ} {v : ℕ → P2 ℝ} (h : ConvexDomain d n v) {ε : ℝ} (hε : 0 < ε)
    {i : ℕ} (hi : i < n) {s : ℝ} (s0 : 0 ≤ s) (s1 : s ≤ 1) {p1 p2 : ℕ → P2 ℝ}
    (hp1 : ∀ j < n, d.toLocal j (v ((j + n - 2) % n) - v ((j + n - 1) % n)) = .ok (p1 j))
    (hp2 : ∀ j < n, d.toLocal j (v ((j + 1) % n) - v j) = .ok (p2 j)) :
    ∃ p, d.edgePoint i s = .ok p ∧
      (BilinearTol ε (p1 i) (p2 i) s 0 → bilinearMap ε d i p = .ok ⟨s, 0⟩) ∧
      (BilinearTol ε (p1 ((i + n - 1) % n)) (p2 ((i + n - 1) % n)) 1 s → (4 ≤ n ∨ s < 1) →
        bilinearMap ε d ((i + n - 1) % n) p = .ok ⟨1, s⟩) ∧
      (BilinearTol ε (p1 ((i + 1) % n)) (p2 ((i + 1) % n)) 0 (1 - s) → (4 ≤ n ∨ 0 < s) →
        bilinearMap ε d ((i + 1) % n) p = .ok ⟨0, 1 - s⟩) := by
  have hn := h.hn
  have hx : nextIx n i < n := nextIx_lt (by omega)
  have hp : prevIx n i < n := prevIx_lt (by omega)
  refine ⟨_, h.edgePoint hi s, ?_, ?_, ?_⟩
  · intro ht
    obtain ⟨a, b, ha, hb, _, _, _, _, _, k⟩ := bilinearMap_inverts h hε hi
    rw [hp1 i hi] at ha
    rw [hp2 i hi] at hb
    obtain rfl := Except.ok.inj ha
    obtain rfl := Except.ok.inj hb
    have := k s 0 s0 s1 le_rfl zero_le_one (Or.inr one_pos) ht
    rw [← this]; congr 1
    unfold sidePoint bilinear; module
  · intro ht hs
    obtain ⟨a, b, ha, hb, _, _, _, _, _, k⟩ := bilinearMap_inverts h hε hp
    rw [hp1 _ hp] at ha
    rw [hp2 _ hp] at hb
    obtain rfl := Except.ok.inj ha
    obtain rfl := Except.ok.inj hb
    have := k 1 s zero_le_one le_rfl s0 s1 hs ht
    rw [show (prevIx n i + 1) % n = i from nextIx_prevIx hi] at this
    rw [show (i + n - 1) % n = prevIx n i from rfl, ← this]; congr 1
    unfold sidePoint bilinear
    rw [show (i + n - 1) % n = prevIx n i from rfl]; module
  · intro ht hs
    obtain ⟨a, b, ha, hb, _, _, _, _, _, k⟩ := bilinearMap_inverts h hε hx
    rw [hp1 _ hx] at ha
    rw [hp2 _ hx] at hb
    obtain rfl := Except.ok.inj ha
    obtain rfl := Except.ok.inj hb
    have := k 0 (1 - s) le_rfl zero_le_one (by linarith) (by linarith) (by rcases hs with q | q; exacts [Or.inl q, Or.inr (by linarith)]) ht
    rw [show (i + 1) % n = nextIx n i from rfl, ← this]; congr 1
    have e1 : (nextIx n i + n - 1) % n = i := prevIx_nextIx hi
    have e2 : (nextIx n i + n - 2) % n = prevIx n i := by
      rw [nextIx_eq hi, prevIx_eq hi]
      split_ifs with a b b
      · omega
      · rw [Nat.zero_add, Nat.mod_eq_of_lt (by omega)]; omega
      · rw [b, show 0 + 1 + n - 2 = n - 1 by omega, Nat.mod_eq_of_lt (by omega)]
      · rw [show i + 1 + n - 2 = (i - 1) + n by omega, Nat.add_mod_right, Nat.mod_eq_of_lt (by omega)]
    unfold sidePoint bilinear
    rw [e1, e2, show (i + n - 1) % n = prevIx n i from rfl]; module

section regular
open Real

/-- The shape of the quadrilaterals of a regular domain. -/
private theorem regular_shape {n : ℕ} (hn : 3 ≤ n) {d : Domain ℝ} {r φ : ℝ} (hr : 0 < r)
    (hd : ConvexDomain d n (regularVertex n r φ)) {i : ℕ} {p1 p2 : P2 ℝ}
    (h1 : leftOf n (regularVertex n r φ) i (regularVertex n r φ ((i + n - 2) % n)) =
      P2.dot (duOf n (regularVertex n r φ) i) (duOf n (regularVertex n r φ) i) * p1.y)
    (h2 : leftOf n (regularVertex n r φ) i (regularVertex n r φ ((i + 1) % n)) =
      P2.dot (duOf n (regularVertex n r φ) i) (duOf n (regularVertex n r φ) i) * p2.y)
    (h3 : area2 (regularVertex n r φ ((i + n - 2) % n)) (regularVertex n r φ ((i + n - 1) % n)) (regularVertex n r φ ((i + 1) % n)) =
        P2.dot (duOf n (regularVertex n r φ) i) (duOf n (regularVertex n r φ) i) * (p1.y - (p1.x * p2.y - p1.y * p2.x))) :
    p1.y = sin (2 * π / n) ∧ p2.y = sin (2 * π / n) ∧
      p1.y - (p1.x * p2.y - p1.y * p2.x) = sin (2 * π / n) * (1 + 2 * cos (2 * π / n)) ∧ 0 < sin (2 * π / n) := by
  have hn0 : (0 : ℝ) < n := by positivity
  have hn3 : (3 : ℝ) ≤ n := by exact_mod_cast hn
  set α := 2 * π / n with hα
  have hα0 : 0 < α := by positivity
  have hαn : α * n = 2 * π := by rw [hα]; field_simp
  have hα1 : α < π := by
    have : α * 3 ≤ 2 * π := by rw [← hαn]; gcongr
    linarith [pi_pos]
  have hsin : 0 < sin α := sin_pos_of_pos_of_lt_pi hα0 hα1
  have hs2 : 0 < sin (α / 2) := sin_pos_of_pos_of_lt_pi (by linarith) (by linarith)
  set θ := φ + α * i with hθ
  have v0 : regularVertex n r φ ((i + n - 2) % n) = r • circ (θ - 2 * α) := by
    rw [regularVertex_mod (by omega), Nat.cast_sub (by omega), ← hα]
    rw [show φ + α * (((i + n : ℕ) : ℝ) - ((2 : ℕ) : ℝ)) = θ - 2 * α + 2 * π by push_cast; rw [← hαn, hθ]; ring, circ_add_two_pi]
  have v1 : regularVertex n r φ ((i + n - 1) % n) = r • circ (θ - α) := by
    rw [regularVertex_mod (by omega), Nat.cast_sub (by omega), ← hα]
    rw [show φ + α * (((i + n : ℕ) : ℝ) - ((1 : ℕ) : ℝ)) = θ - α + 2 * π by push_cast; rw [← hαn, hθ]; ring, circ_add_two_pi]
  have v2 : regularVertex n r φ i = r • circ θ := rfl
  have v3 : regularVertex n r φ ((i + 1) % n) = r • circ (θ + α) := by
    rw [regularVertex_mod (by omega), ← hα]
    rw [show φ + α * ((i + 1 : ℕ) : ℝ) = θ + α by push_cast; rw [hθ]; ring]
  have hN : P2.dot (duOf n (regularVertex n r φ) i) (duOf n (regularVertex n r φ) i) = r ^ 2 * (4 * sin (α / 2) ^ 2) := by
    unfold duOf
    rw [show prevIx n i = (i + n - 1) % n from rfl, v1, v2]
    simp only [P2.dot, P2.sub_x, P2.sub_y, P2.smul_x, P2.smul_y, circ]
    have e : cos α = 1 - 2 * sin (α / 2) ^ 2 := by
      have := cos_two_mul (α / 2)
      rw [show 2 * (α / 2) = α by ring] at this
      have h := sin_sq_add_cos_sq (α / 2)
      linarith
    have e2 : cos α = cos θ * cos (θ - α) + sin θ * sin (θ - α) := by
      rw [← cos_sub]; congr 1; ring
    have k1 := sin_sq_add_cos_sq θ
    have k2 := sin_sq_add_cos_sq (θ - α)
    linear_combination r ^ 2 * k1 + r ^ 2 * k2 - 2 * r ^ 2 * e + 2 * r ^ 2 * e2
  have hr2 : 0 < r ^ 2 * (4 * sin (α / 2) ^ 2) := by positivity
  unfold leftOf at h1 h2
  rw [v0, v1, v2, area2_smul, area2_circ, hN] at h1
  rw [v1, v2, v3, area2_smul, area2_circ, hN] at h2
  rw [v0, v1, v3, area2_smul, area2_circ, hN] at h3
  rw [show (θ - (θ - α)) / 2 = α / 2 by ring] at h1 h2
  rw [show (θ - 2 * α - θ) / 2 = -α by ring, show (θ - 2 * α - (θ - α)) / 2 = -(α / 2) by ring, sin_neg, sin_neg] at h1
  rw [show (θ + α - θ) / 2 = α / 2 by ring, show (θ + α - (θ - α)) / 2 = α by ring] at h2
  rw [show (θ - α - (θ - 2 * α)) / 2 = α / 2 by ring, show (θ + α - (θ - α)) / 2 = α by ring,
    show (θ + α - (θ - 2 * α)) / 2 = α + α / 2 by ring] at h3
  have e3 : sin (α + α / 2) = sin (α / 2) * (1 + 2 * cos α) := by
    rw [sin_add]
    have a := sin_two_mul (α / 2)
    have b := cos_two_mul (α / 2)
    rw [show 2 * (α / 2) = α by ring] at a b
    rw [a, b]; ring
  rw [e3] at h3
  refine ⟨?_, ?_, ?_, hsin⟩
  · apply mul_left_cancel₀ hr2.ne'; linear_combination -h1
  · apply mul_left_cancel₀ hr2.ne'; linear_combination -h2
  · apply mul_left_cancel₀ hr2.ne'; linear_combination -h3

/-- C14: in a regular domain (the default of all surfaces that use this parameterization) the mapping
inverts the bilinear map for every point of the quadrilateral of every side, as long as the domain
does not have so many sides that `sin(2π/n)` is below the tolerance (for triangles, and outside of a
neighbourhood of the apex). -/
theorem C14_regular {n : ℕ} (hn : 3 ≤ n) {d0 : Domain ℝ} (hd0 : d0.n ≠ n) :
    ∃ d v, d0.regularUpdate n = .ok (d, true) ∧ ConvexDomain d n v ∧
      ∀ ε, 0 < ε → ∀ i < n, ∀ s t, 0 ≤ s → s ≤ 1 → 0 ≤ t → t ≤ 1 →
        ε ≤ sin (2 * π / n) * (if n = 3 then 1 - t else 1) →
        bilinearMap ε d i (bilinear (v ((i + n - 2) % n)) (v ((i + n - 1) % n)) (v i) (v ((i + 1) % n)) s t) =
          .ok ⟨s, t⟩ := by
  obtain ⟨d, r, φ, hr, e, hd, _⟩ := regular_normal hn d0 hd0
  refine ⟨d, _, e, hd, ?_⟩
  intro ε hε i hi s t s0 s1 t0 t1 hle
  obtain ⟨p1, p2, _, _, _, _, h1, h2, h3, k⟩ := bilinearMap_inverts hd hε hi
  obtain ⟨e1, e2, e3, hsin⟩ := regular_shape hn hr hd h1 h2 h3
  apply k s t s0 s1 t0 t1
  · by_cases hn3 : n = 3
    · right
      rw [if_pos hn3] at hle
      by_contra hc
      have : t = 1 := le_antisymm t1 (not_lt.mp hc)
      rw [this] at hle; linarith
    · left; omega
  · left
    refine ⟨by rw [e1, e2], le_trans hle ?_⟩
    have : p1.y - t * (p1.x * p2.y - p1.y * p2.x) = sin (2 * π / n) * (1 - t) + t * (sin (2 * π / n) * (1 + 2 * cos (2 * π / n))) := by
      rw [← e3]; linear_combination (1 - t) * e1
    rw [this]
    by_cases hn3 : n = 3
    · have hc : cos (2 * π / n) = -1 / 2 := by
        rw [hn3, show 2 * π / ((3 : ℕ) : ℝ) = π - π / 3 by push_cast; ring, cos_pi_sub, cos_pi_div_three]; ring
      rw [if_pos hn3, hc]
      linarith
    · rw [if_neg hn3]
      have hc : 0 ≤ cos (2 * π / n) := by
        apply cos_nonneg_of_neg_pi_div_two_le_of_le
        · have : 0 ≤ 2 * π / n := by positivity
          linarith [pi_pos]
        · rw [div_le_iff₀ (by positivity)]
          have : (4 : ℝ) ≤ n := by exact_mod_cast (show 4 ≤ n by omega)
          nlinarith [pi_pos]
      have := mul_nonneg t0 (mul_nonneg hsin.le hc)
      linarith

/-- The hypotheses are met by the square with the tolerance used by libgeom (1e-8). -/
example : ∃ d v, (⟨0, 0, [], [], []⟩ : Domain ℝ).regularUpdate 4 = .ok (d, true) ∧ ConvexDomain d 4 v ∧
    bilinearMap (1 / 10 ^ 8) d 2 (bilinear (v 0) (v 1) (v 2) (v 3) (1/3) (1/4)) = .ok ⟨1/3, 1/4⟩ := by
  obtain ⟨d, v, h1, h2, h3⟩ := C14_regular (n := 4) (by norm_num) (d0 := ⟨0, 0, [], [], []⟩) (by decide)
  refine ⟨d, v, h1, h2, ?_⟩
  have := h3 (1 / 10 ^ 8) (by norm_num) 2 (by norm_num) (1/3) (1/4) (by norm_num) (by norm_num) (by norm_num) (by norm_num)
    (by
      rw [show 2 * π / ((4 : ℕ) : ℝ) = π / 2 by push_cast; ring, sin_pi_div_two]; norm_num)
  exact this

end regular

end Transfinite
