import Verif.Model.Parameterization
import Verif.Lemmas.ConvexDomain

/-! Helper lemmas for the bilinear parameterization. -/

namespace Transfinite

open Spec

namespace Param

section
variable {K : Type} [Field K] [LinearOrder K] [Libm K]

/-- The equation for the side parameter can always be solved. -/
theorem bilinearSolve_ok {ε : K} (hε : 0 < ε) [IsStrictOrderedRing K] (a b c : K) : ∃ s, bilinearSolve ε a b c = .ok s := by
  unfold bilinearSolve
  split_ifs with h1 h2
  · exact ⟨_, rfl⟩
  · have : b ≠ 0 := by rintro rfl; rw [abs_zero] at h2; exact h2 hε
    exact ⟨_, fdiv_of_ne this⟩
  · have : 2 * a ≠ 0 := by
      have : a ≠ 0 := by rintro rfl; rw [abs_zero] at h1; exact h1 hε
      simpa using this
    dsimp only
    rw [fdiv_of_ne this, M_bind_ok, fdiv_of_ne this, M_bind_ok]
    have key : ∀ (p : Prop) [Decidable p] (x y : K), ∃ s, (if p then (.ok x : M K) else .ok y) = .ok s := by
      intro p _ x y
      split_ifs <;> exact ⟨_, rfl⟩
    exact key _ _ _

/-- The side parameter of the bilinear map. -/
theorem bilinearSide_of_map {ε : K} {d : Domain K} {i : ℕ} {uv : P2 K} {s t : K} (h : bilinearMap ε d i uv = .ok ⟨s, t⟩) :
    bilinearSide ε d i uv = .ok s := by
  have bind_ok : ∀ {α β : Type} {x : M α} {f : α → M β} {b : β}, (x >>= f) = .ok b → ∃ a, x = .ok a ∧ f a = .ok b := by
    intro α β x f b h
    cases x with
    | error e => cases h
    | ok a => exact ⟨a, rfl, h⟩
  unfold bilinearMap at h
  obtain ⟨v0, e0, h⟩ := bind_ok h
  obtain ⟨v1, e1, h⟩ := bind_ok h
  obtain ⟨v2, e2, h⟩ := bind_ok h
  obtain ⟨v3, e3, h⟩ := bind_ok h
  obtain ⟨p1, f1, h⟩ := bind_ok h
  obtain ⟨p2, f2, h⟩ := bind_ok h
  obtain ⟨p, f3, h⟩ := bind_ok h
  obtain ⟨s', g1, h⟩ := bind_ok h
  obtain ⟨t', g2, h⟩ := bind_ok h
  cases h
  unfold bilinearSide
  dsimp only at *
  rw [e0, M_bind_ok, e1, M_bind_ok, e2, M_bind_ok, e3, M_bind_ok, f1, M_bind_ok, f2, M_bind_ok, f3, M_bind_ok]
  exact g1

end

/-- Outside of the tolerance bands the chosen number is a root. -/
theorem bilinearSolve_root {ε a b c s : ℝ} (hε : 0 < ε) (h : bilinearSolve ε a b c = .ok s)
    (htol : (a = 0 ∧ ε ≤ |b|) ∨ (ε ≤ |a| ∧ (b * b - 4 * a * c = 0 ∨ ε ≤ b * b - 4 * a * c))) :
    a * s ^ 2 + b * s + c = 0 := by
  unfold bilinearSolve at h
  rcases htol with ⟨ha, hb⟩ | ⟨ha, hD⟩
  · have hb0 : b ≠ 0 := by intro h0; rw [h0, abs_zero] at hb; linarith
    rw [ha, abs_zero, if_pos hε, if_neg (not_lt.mpr hb), fdiv_of_ne hb0] at h
    rw [← Except.ok.inj h, ha]; field_simp; ring
  · have ha0 : a ≠ 0 := by intro h0; rw [h0, abs_zero] at ha; linarith
    have h2a : 2 * a ≠ 0 := by simpa using ha0
    rw [if_neg (not_lt.mpr ha)] at h
    have hDeq : (if b * b - 4 * a * c < ε then 0 else b * b - 4 * a * c) = b * b - 4 * a * c := by
      rcases hD with h0 | h0
      · rw [h0]; simp
      · rw [if_neg (not_lt.mpr h0)]
    have hD0 : 0 ≤ b * b - 4 * a * c := by rcases hD with h0 | h0 <;> linarith
    dsimp only at h
    rw [hDeq, fdiv_of_ne h2a, fdiv_of_ne h2a] at h
    simp only [M_bind_ok] at h
    change (if max 0 ((if -b / (2 * a) + √(b * b - 4 * a * c) / (2 * a) < -b / (2 * a) - √(b * b - 4 * a * c) / (2 * a) then
      (-b / (2 * a) - √(b * b - 4 * a * c) / (2 * a), -b / (2 * a) + √(b * b - 4 * a * c) / (2 * a)) else
      (-b / (2 * a) + √(b * b - 4 * a * c) / (2 * a), -b / (2 * a) - √(b * b - 4 * a * c) / (2 * a))).1 - 1) <
      max 0 (-(if -b / (2 * a) + √(b * b - 4 * a * c) / (2 * a) < -b / (2 * a) - √(b * b - 4 * a * c) / (2 * a) then
      (-b / (2 * a) - √(b * b - 4 * a * c) / (2 * a), -b / (2 * a) + √(b * b - 4 * a * c) / (2 * a)) else
      (-b / (2 * a) + √(b * b - 4 * a * c) / (2 * a), -b / (2 * a) - √(b * b - 4 * a * c) / (2 * a))).2) then
      (Except.ok _ : M ℝ) else Except.ok _) = _ at h
    have hsq := Real.mul_self_sqrt hD0
    set D := √(b * b - 4 * a * c) with hDdef
    have r1 : a * (-b / (2 * a) + D / (2 * a)) ^ 2 + b * (-b / (2 * a) + D / (2 * a)) + c = 0 := by
      field_simp; linear_combination hsq
    have r2 : a * (-b / (2 * a) - D / (2 * a)) ^ 2 + b * (-b / (2 * a) - D / (2 * a)) + c = 0 := by
      field_simp; linear_combination hsq
    split_ifs at h <;> rw [← Except.ok.inj h] <;> assumption

/-- A unique root in the unit interval is found. -/
theorem bilinearSolve_unique {ε a b c r : ℝ} (hε : 0 < ε) (h0 : 0 ≤ r) (h1 : r ≤ 1)
    (hr : a * r ^ 2 + b * r + c = 0)
    (hu : ∀ r', 0 ≤ r' → r' ≤ 1 → a * r' ^ 2 + b * r' + c = 0 → r' = r)
    (htol : (a = 0 ∧ ε ≤ |b|) ∨ (ε ≤ |a| ∧ (b * b - 4 * a * c = 0 ∨ ε ≤ b * b - 4 * a * c))) :
    bilinearSolve ε a b c = .ok r := by
  unfold bilinearSolve
  rcases htol with ⟨ha, hb⟩ | ⟨ha, hD⟩
  · have hb0 : b ≠ 0 := by intro h0; rw [h0, abs_zero] at hb; linarith
    rw [ha, abs_zero, if_pos hε, if_neg (not_lt.mpr hb), fdiv_of_ne hb0]
    congr 1
    rw [div_eq_iff hb0]
    rw [ha] at hr; linear_combination -hr
  · have ha0 : a ≠ 0 := by intro h0; rw [h0, abs_zero] at ha; linarith
    have h2a : 2 * a ≠ 0 := by simpa using ha0
    rw [if_neg (not_lt.mpr ha)]
    have hDeq : (if b * b - 4 * a * c < ε then 0 else b * b - 4 * a * c) = b * b - 4 * a * c := by
      rcases hD with h0 | h0
      · rw [h0]; simp
      · rw [if_neg (not_lt.mpr h0)]
    dsimp only
    rw [hDeq, fdiv_of_ne h2a, fdiv_of_ne h2a]
    simp only [M_bind_ok]
    have hsq : Libm.sqrt (b * b - 4 * a * c) = |2 * a * r + b| := by
      change √(b * b - 4 * a * c) = _
      have : b * b - 4 * a * c = (2 * a * r + b) ^ 2 := by linear_combination -4 * a * hr
      rw [this, Real.sqrt_sq_eq_abs]
    rw [hsq]
    set r' := -b / a - r with hr'
    have hroot' : a * r' ^ 2 + b * r' + c = 0 := by
      rw [hr']; field_simp; linear_combination a * hr
    have hcases : (-b / (2 * a) + |2 * a * r + b| / (2 * a) = r ∧ -b / (2 * a) - |2 * a * r + b| / (2 * a) = r') ∨
        (-b / (2 * a) + |2 * a * r + b| / (2 * a) = r' ∧ -b / (2 * a) - |2 * a * r + b| / (2 * a) = r) := by
      rcases abs_cases (2 * a * r + b) with ⟨e, _⟩ | ⟨e, _⟩
      · left; rw [e, hr']; constructor <;> field_simp <;> ring
      · right; rw [e, hr']; constructor <;> field_simp <;> ring
    have hw : r' = r ∨ r' < 0 ∨ 1 < r' := by
      by_cases k1 : 0 ≤ r'
      · by_cases k2 : r' ≤ 1
        · exact Or.inl (hu r' k1 k2 hroot')
        · exact Or.inr (Or.inr (not_le.mp k2))
      · exact Or.inr (Or.inl (not_le.mp k1))
    have hm1 : max 0 (r - 1) = 0 := max_eq_left (by linarith)
    have hm2 : max 0 (-r) = 0 := max_eq_left (by linarith)
    rcases hcases with ⟨e1, e2⟩ | ⟨e1, e2⟩ <;> rw [e1, e2] <;> rcases hw with hw | hw | hw
    · rw [hw]; simp
    · rw [if_neg (by linarith : ¬ r < r')]
      dsimp only
      rw [hm1, if_pos (by rw [lt_max_iff]; right; linarith)]
    · rw [if_pos (by linarith : r < r')]
      dsimp only
      rw [hm2, if_neg (by simp)]
    · rw [hw]; simp
    · rw [if_pos (by linarith : r' < r)]
      dsimp only
      rw [hm1, if_pos (by rw [lt_max_iff]; right; linarith)]
    · rw [if_neg (by linarith : ¬ r' < r)]
      dsimp only
      rw [hm2, if_neg (by simp)]

/-- The tolerance condition of the bilinear parameterization for the point with parameters `(s,t)`;
`p1` and `p2` are the local directions of the two neighbouring sides. -/
def BilinearTol (ε : ℝ) (p1 p2 : P2 ℝ) (s t : ℝ) : Prop :=
  (p1.y = p2.y ∧ ε ≤ p1.y - t * (p1.x * p2.y - p1.y * p2.x)) ∨
  (ε ≤ |p1.y - p2.y| ∧ ε ≤ (p1.y * (1 - s) + p2.y * s - t * (p1.x * p2.y - p1.y * p2.x)) ^ 2)

/-- The quadratic equation of the code at a point with known bilinear parameters. -/
theorem bilinear_core {ε : ℝ} (hε : 0 < ε) {p1 p2 p : P2 ℝ} {s t : ℝ} (s0 : 0 ≤ s) (s1 : s ≤ 1)
    (g1 : t * (p1.x * p2.y - p1.y * p2.x) < p1.y) (g2 : t * (p1.x * p2.y - p1.y * p2.x) < p2.y)
    (hpx : p.x = s + t * (p1.x * (1 - s) + p2.x * s)) (hpy : p.y = t * (p1.y * (1 - s) + p2.y * s))
    (htol : BilinearTol ε p1 p2 s t) :
    bilinearSolve ε (p1.y - p2.y) (p.x * p2.y - (p.x + 1) * p1.y + (p1.x - p2.x) * p.y) (p.x * p1.y - p.y * p1.x) = .ok s := by
  have fac : ∀ r, (p1.y - p2.y) * r ^ 2 + (p.x * p2.y - (p.x + 1) * p1.y + (p1.x - p2.x) * p.y) * r + (p.x * p1.y - p.y * p1.x) =
      (r - s) * (t * (p1.x * p2.y - p1.y * p2.x) - (p1.y * (1 - r) + p2.y * r)) := by
    intro r; rw [hpx, hpy]; ring
  apply bilinearSolve_unique hε s0 s1
  · rw [fac]; ring
  · intro r r0 r1 hr
    rw [fac] at hr
    rcases mul_eq_zero.mp hr with h | h
    · linarith
    · exfalso
      generalize t * (p1.x * p2.y - p1.y * p2.x) = X at *
      have m1 := mul_nonneg (sub_pos.mpr g1).le (sub_nonneg.mpr r1)
      have m2 := mul_nonneg (sub_pos.mpr g2).le r0
      have e : (p1.y - X) * (1 - r) + (p2.y - X) * r = 0 := by linear_combination -h
      have z2 : (p2.y - X) * r = 0 := by linarith
      have z1 : (p1.y - X) * (1 - r) = 0 := by linarith
      rcases mul_eq_zero.mp z2 with z | z
      · linarith
      · rw [z] at z1; linarith
  · rcases htol with ⟨a, b⟩ | ⟨a, b⟩
    · left
      refine ⟨by rw [a]; ring, le_trans b ?_⟩
      have e : p.x * p2.y - (p.x + 1) * p1.y + (p1.x - p2.x) * p.y = -(p1.y - t * (p1.x * p2.y - p1.y * p2.x)) := by
        rw [hpx, hpy, ← a]; ring
      rw [e, abs_neg]
      exact le_abs_self _
    · right
      refine ⟨a, Or.inr (le_trans b (le_of_eq ?_))⟩
      rw [hpx, hpy]; ring

set_option maxHeartbeats 1000000 in
/-- The bilinear parameterization inverts the bilinear map of its quadrilateral, with the geometric
meaning of the quantities in the tolerance condition. -/
theorem bilinearMap_inverts {d : Domain ℝ} {n : ℕ} {v : ℕ → P2 ℝ} (h : ConvexDomain d n v) {ε : ℝ} (hε : 0 < ε)
    {i : ℕ} (hi : i < n) :
    ∃ p1 p2, d.toLocal i (v ((i + n - 2) % n) - v ((i + n - 1) % n)) = .ok p1 ∧
      d.toLocal i (v ((i + 1) % n) - v i) = .ok p2 ∧ 0 < p1.y ∧ 0 < p2.y ∧
      leftOf n v i (v ((i + n - 2) % n)) = P2.dot (duOf n v i) (duOf n v i) * p1.y ∧
      leftOf n v i (v ((i + 1) % n)) = P2.dot (duOf n v i) (duOf n v i) * p2.y ∧
      area2 (v ((i + n - 2) % n)) (v ((i + n - 1) % n)) (v ((i + 1) % n)) =
        P2.dot (duOf n v i) (duOf n v i) * (p1.y - (p1.x * p2.y - p1.y * p2.x)) ∧
      ∀ s t, 0 ≤ s → s ≤ 1 → 0 ≤ t → t ≤ 1 → (4 ≤ n ∨ t < 1) → BilinearTol ε p1 p2 s t →
        bilinearMap ε d i (bilinear (v ((i + n - 2) % n)) (v ((i + n - 1) % n)) (v i) (v ((i + 1) % n)) s t) =
          .ok ⟨s, t⟩ := by
  have hn := h.hn
  have hp : prevIx n i < n := prevIx_lt (by omega)
  have hp2 : prevIx n i 2 < n := prevIx_lt (by omega)
  have hx : nextIx n i < n := nextIx_lt (by omega)
  have hpp : prevIx n (prevIx n i) = prevIx n i 2 := by
    rw [prevIx_eq hp, prevIx_eq hi]
    unfold prevIx
    by_cases h0 : i = 0
    · rw [if_pos h0, if_neg (by omega), h0, Nat.mod_eq_of_lt (by omega)]; omega
    · rw [if_neg h0]
      by_cases h1 : i = 1
      · rw [h1, if_pos (by omega), Nat.mod_eq_of_lt (by omega)]; omega
      · rw [if_neg (by omega), show i + n - 2 = (i - 2) + n by omega, Nat.add_mod_right, Nat.mod_eq_of_lt (by omega)]; omega
  have hdu := h.du_pos hi
  set N := P2.dot (duOf n v i) (duOf n v i) with hN
  set du := duOf n v i with hdu'
  -- local coordinates of the other vertices
  have key : ∀ w, d.toLocal i w = .ok ⟨P2.dot w du / N, (du.x * w.y - du.y * w.x) / N⟩ := by
    intro w
    have := h.toLocal_prev hi (v (prevIx n i) + w)
    rw [add_sub_cancel_left] at this
    rw [this]
    congr 3
    simp only [leftOf, area2, P2.add_x, P2.add_y, hdu', duOf, prevIx, P2.sub_x, P2.sub_y]; ring
  have q0 : v ((i + n - 2) % n) = v (prevIx n i 2) := rfl
  have q1 : v ((i + n - 1) % n) = v (prevIx n i) := rfl
  have q3 : v ((i + 1) % n) = v (nextIx n i) := rfl
  have hy1 : 0 < (du.x * (v (prevIx n i 2) - v (prevIx n i)).y - du.y * (v (prevIx n i 2) - v (prevIx n i)).x) / N := by
    have := h.convex i hi (prevIx n i 2) hp2
      (by rw [← hpp]; intro e; rw [prevIx_eq hp, prevIx_eq hi] at e; split_ifs at e <;> omega)
      (by rw [← hpp]; exact prev_ne (by omega) hp)
    apply div_pos _ hdu
    have e : leftOf n v i (v (prevIx n i 2)) = du.x * (v (prevIx n i 2) - v (prevIx n i)).y -
        du.y * (v (prevIx n i 2) - v (prevIx n i)).x := by
      simp only [leftOf, area2, hdu', duOf, prevIx, P2.sub_x, P2.sub_y]
    rw [← e]; exact this
  have hy2 : 0 < (du.x * (v (nextIx n i) - v i).y - du.y * (v (nextIx n i) - v i).x) / N := by
    have := cornerArea_pos hn h.convex hi
    apply div_pos _ hdu
    have e : cornerArea n v i = du.x * (v (nextIx n i) - v i).y - du.y * (v (nextIx n i) - v i).x := by
      simp only [cornerArea, leftOf, area2, hdu', duOf, prevIx, nextIx, P2.sub_x, P2.sub_y]; ring
    rw [← e]; exact this
  have c1 : 0 ≤ leftOf n v (prevIx n i) (v (nextIx n i)) := h.convex.nonneg hp hx
  have c1' : 4 ≤ n → 0 < leftOf n v (prevIx n i) (v (nextIx n i)) := by
    intro h4
    apply h.convex _ hp _ hx (next_ne_prev hn hi)
    change nextIx n i ≠ prevIx n (prevIx n i)
    rw [prevIx_eq hp, prevIx_eq hi, nextIx_eq hi]
    split_ifs <;> omega
  have c2 : 0 ≤ leftOf n v (nextIx n i) (v (prevIx n i 2)) := h.convex.nonneg hx hp2
  have c2' : 4 ≤ n → 0 < leftOf n v (nextIx n i) (v (prevIx n i 2)) := by
    intro h4
    apply h.convex _ hx _ hp2
    · rw [← hpp, prevIx_eq hp, prevIx_eq hi, nextIx_eq hi]
      split_ifs <;> omega
    · change prevIx n i 2 ≠ prevIx n (nextIx n i)
      rw [prevIx_nextIx hi, ← hpp, prevIx_eq hp, prevIx_eq hi]
      split_ifs <;> omega
  have l1 : leftOf n v (prevIx n i) (v (nextIx n i)) = area2 (v (prevIx n i 2)) (v (prevIx n i)) (v (nextIx n i)) := by
    unfold leftOf
    rw [show (prevIx n i + n - 1) % n = prevIx n i 2 from hpp]
  have l2 : leftOf n v (nextIx n i) (v (prevIx n i 2)) = area2 (v i) (v (nextIx n i)) (v (prevIx n i 2)) := by
    unfold leftOf
    rw [show (nextIx n i + n - 1) % n = i from prevIx_nextIx hi]
  have g0 := h.vget_vertex hp2
  have g1 := h.vget_vertex hp
  have g2 := h.vget_vertex hi
  have g3 := h.vget_vertex hx
  have hlen := h.length_eq
  have f1 : leftOf n v i (v (prevIx n i 2)) = du.x * (v (prevIx n i 2) - v (prevIx n i)).y -
      du.y * (v (prevIx n i 2) - v (prevIx n i)).x := by
    simp only [leftOf, area2, hdu', duOf, prevIx, P2.sub_x, P2.sub_y]
  have f2 : leftOf n v i (v (nextIx n i)) = du.x * (v (nextIx n i) - v i).y - du.y * (v (nextIx n i) - v i).x := by
    simp only [leftOf, area2, hdu', duOf, prevIx, nextIx, P2.sub_x, P2.sub_y]; ring
  have hdux : du = v i - v (prevIx n i) := rfl
  rw [l1] at c1 c1'
  rw [l2] at c2 c2'
  rw [q0, q1, q3, f1, f2]
  clear_value N du
  clear q0 q1 q3 l1 l2 f1 f2
  generalize v (prevIx n i 2) = w0 at *
  generalize v (prevIx n i) = w1 at *
  generalize v (nextIx n i) = w3 at *
  generalize v i = w2 at *
  have hN0 : N ≠ 0 := hdu.ne'
  have hNe : N = du.x * du.x + du.y * du.y := hN
  have k1 := key (w0 - w1)
  have k2 := key (w3 - w2)
  obtain ⟨p1, hp1⟩ : ∃ p1 : P2 ℝ, ⟨P2.dot (w0 - w1) du / N, (du.x * (w0 - w1).y - du.y * (w0 - w1).x) / N⟩ = p1 := ⟨_, rfl⟩
  rw [hp1] at k1
  obtain ⟨p2, hp2d⟩ : ∃ p2 : P2 ℝ, ⟨P2.dot (w3 - w2) du / N, (du.x * (w3 - w2).y - du.y * (w3 - w2).x) / N⟩ = p2 := ⟨_, rfl⟩
  rw [hp2d] at k2
  have hy1' : 0 < p1.y := by rw [← hp1]; exact hy1
  have hy2' : 0 < p2.y := by rw [← hp2d]; exact hy2
  have x1N : p1.x * N = P2.dot (w0 - w1) du := by rw [← hp1]; field_simp
  have x2N : p2.x * N = P2.dot (w3 - w2) du := by rw [← hp2d]; field_simp
  have y1N : p1.y * N = du.x * (w0 - w1).y - du.y * (w0 - w1).x := by rw [← hp1]; field_simp
  have y2N : p2.y * N = du.x * (w3 - w2).y - du.y * (w3 - w2).x := by rw [← hp2d]; field_simp
  have XN : (p1.x * p2.y - p1.y * p2.x) * N = (w0 - w1).x * (w3 - w2).y - (w0 - w1).y * (w3 - w2).x := by
    apply mul_right_cancel₀ hN0
    calc (p1.x * p2.y - p1.y * p2.x) * N * N = (p1.x * N) * (p2.y * N) - (p1.y * N) * (p2.x * N) := by ring
      _ = _ := by rw [x1N, x2N, y1N, y2N, hNe]; simp only [P2.dot]; ring
  have d1 : area2 w0 w1 w3 = N * (p1.y - (p1.x * p2.y - p1.y * p2.x)) := by
    rw [mul_comm, sub_mul, XN, y1N, hdux]
    simp only [area2, P2.sub_x, P2.sub_y]; ring
  have d2 : area2 w2 w3 w0 = N * (p2.y - (p1.x * p2.y - p1.y * p2.x)) := by
    rw [mul_comm, sub_mul, XN, y2N, hdux]
    simp only [area2, P2.sub_x, P2.sub_y]; ring
  rw [d1] at c1 c1'
  rw [d2] at c2 c2'
  refine ⟨p1, p2, k1, k2, hy1', hy2', by rw [← y1N, mul_comm], by rw [← y2N, mul_comm], d1, ?_⟩
  intro s t s0 s1 t0 t1 hnt htol
  have e1 : t * (p1.x * p2.y - p1.y * p2.x) < p1.y := by
    generalize p1.x * p2.y - p1.y * p2.x = X at *
    rcases hnt with h4 | ht
    · have : 0 < p1.y - X := (mul_pos_iff_of_pos_left hdu).mp (c1' h4)
      rcases le_total X 0 with hX | hX <;> nlinarith
    · have : 0 ≤ p1.y - X := (mul_nonneg_iff_of_pos_left hdu).mp c1
      rcases le_total X 0 with hX | hX <;> nlinarith
  have e2 : t * (p1.x * p2.y - p1.y * p2.x) < p2.y := by
    generalize p1.x * p2.y - p1.y * p2.x = X at *
    rcases hnt with h4 | ht
    · have : 0 < p2.y - X := (mul_pos_iff_of_pos_left hdu).mp (c2' h4)
      rcases le_total X 0 with hX | hX <;> nlinarith
    · have : 0 ≤ p2.y - X := (mul_nonneg_iff_of_pos_left hdu).mp c2
      rcases le_total X 0 with hX | hX <;> nlinarith
  have hb : bilinear w0 w1 w2 w3 s t - w1 = s • du + (t * (1 - s)) • (w0 - w1) + (t * s) • (w3 - w2) := by
    rw [hdux]; unfold bilinear; module
  unfold bilinearMap
  rw [hlen]
  dsimp only
  rw [g0, g1, g2, g3]
  simp only [M_bind_ok]
  rw [k1, k2, key]
  simp only [M_bind_ok]
  have px : P2.dot (bilinear w0 w1 w2 w3 s t - w1) du / N = s + t * (p1.x * (1 - s) + p2.x * s) := by
    rw [hb, div_eq_iff hN0]
    have : P2.dot (s • du + (t * (1 - s)) • (w0 - w1) + (t * s) • (w3 - w2)) du =
        s * P2.dot du du + t * (1 - s) * P2.dot (w0 - w1) du + t * s * P2.dot (w3 - w2) du := by
      simp only [P2.dot, P2.add_x, P2.add_y, P2.smul_x, P2.smul_y]; ring
    rw [this, ← x1N, ← x2N, ← hN]; ring
  have py : (du.x * (bilinear w0 w1 w2 w3 s t - w1).y - du.y * (bilinear w0 w1 w2 w3 s t - w1).x) / N =
      t * (p1.y * (1 - s) + p2.y * s) := by
    rw [hb, div_eq_iff hN0]
    simp only [P2.add_x, P2.add_y, P2.smul_x, P2.smul_y]
    linear_combination -(t * (1 - s)) * y1N - (t * s) * y2N
  have hh : 0 < p1.y * (1 - s) + p2.y * s := by
    rcases eq_or_lt_of_le s0 with r | r
    · rw [← r]; linarith
    · have := mul_pos hy2' r
      have := mul_nonneg hy1'.le (sub_nonneg.mpr s1)
      linarith
  rw [px, py, bilinear_core hε (p := ⟨s + t * (p1.x * (1 - s) + p2.x * s), t * (p1.y * (1 - s) + p2.y * s)⟩) s0 s1 e1 e2 rfl rfl htol,
    M_bind_ok, fdiv_of_ne hh.ne', M_bind_ok, mul_div_cancel_right₀ _ hh.ne']

end Param

end Transfinite
