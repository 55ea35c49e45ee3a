import Verif.Model.Patch
import Verif.Lemmas.Loop

/-! # C26, C27: `setupLoop` -/

namespace Transfinite

section generic

variable {K : Type} [Field K] [LinearOrder K] [Libm K]

/-- The curves after `setupLoop`, one after the other. -/
private def oriented (n : ℕ) (c : ℕ → Curve K) : ℕ → Curve K
  | 0 => if min ((c 0).pt 0 - (c (1 % n)).pt 0).norm ((c 0).pt 0 - (c (1 % n)).pt 1).norm <
      min ((c 0).pt 1 - (c (1 % n)).pt 0).norm ((c 0).pt 1 - (c (1 % n)).pt 1).norm then (c 0).reverse else c 0
  | j + 1 => if ((c (j + 1)).pt 1 - (oriented n c j).pt 1).norm < ((c (j + 1)).pt 0 - (oriented n c j).pt 1).norm then (c (j + 1)).reverse
    else c (j + 1)

private theorem step_zero {n : ℕ} (hn : 0 < n) (c : ℕ → Curve K) :
    orientStep 0 (tab n c) = .ok (tab n (Function.update c 0 (oriented n c 0))) := by
  unfold orientStep needsReverse
  have e : nextIx n 0 = 1 % n := by simp [nextIx]
  simp only [length_tab, vget_tab _ hn, M_bind_ok, if_true, vget_tab _ (Nat.mod_lt 1 hn), vset_tab _ _ hn, e, oriented, decide_eq_true_eq]

private theorem step_succ {n k : ℕ} (hk : k + 1 < n) (c f : ℕ → Curve K) (h1 : f k = oriented n c k) (h2 : f (k + 1) = c (k + 1)) :
    orientStep (k + 1) (tab n f) = .ok (tab n (Function.update f (k + 1) (oriented n c (k + 1)))) := by
  unfold orientStep needsReverse
  have e : prevIx n (k + 1) = k := by
    unfold prevIx
    rw [show k + 1 + n - 1 = k + n by omega, Nat.add_mod_right, Nat.mod_eq_of_lt (by omega)]
  simp only [length_tab, vget_tab _ hk, M_bind_ok, Nat.add_eq_zero_iff, one_ne_zero, and_false, if_false, e,
    vget_tab _ (show k < n by omega), vset_tab _ _ hk, h1, h2, oriented, decide_eq_true_eq]

private theorem orient_steps (n : ℕ) (c : ℕ → Curve K) (m : ℕ) (hm : m ≤ n) :
    forLoop m orientStep (tab n c) = .ok (tab n (fun j => if j < m then oriented n c j else c j)) := by
  induction m with
  | zero => simp
  | succ m ih =>
    rw [forLoop_succ, ih (by omega), M_bind_ok]
    have upd : Function.update (fun j => if j < m then oriented n c j else c j) m (oriented n c m) =
        fun j => if j < m + 1 then oriented n c j else c j := by
      funext j
      by_cases hj : j = m
      · subst hj; simp
      · rw [Function.update_of_ne hj]
        congr 1
        rw [eq_iff_iff]; omega
    cases m with
    | zero =>
      have e : (fun j => if j < 0 then oriented n c j else c j) = c := by funext j; simp
      rw [e] at upd ⊢
      rw [step_zero (by omega), upd]
    | succ k => rw [step_succ (by omega) c _ (by simp) (by simp), upd]

private theorem orientLoop_eq (n : ℕ) (c : ℕ → Curve K) : orientLoop (tab n c) = .ok (tab n (oriented n c)) := by
  unfold orientLoop
  rw [length_tab, orient_steps n c n le_rfl]
  congr 1
  apply tab_congr
  intro j hj
  rw [if_pos hj]

private theorem oriented_cases (n : ℕ) (c : ℕ → Curve K) (j : ℕ) : oriented n c j = c j ∨ oriented n c j = (c j).reverse := by
  cases j with
  | zero => unfold oriented; split_ifs; exacts [Or.inr rfl, Or.inl rfl]
  | succ j => unfold oriented; split_ifs; exacts [Or.inr rfl, Or.inl rfl]

private theorem reverse_pt (c : Curve K) : c.reverse.pt 0 = c.pt 1 ∧ c.reverse.pt 1 = c.pt 0 := by
  simp [Curve.reverse]

private theorem norm_sub_comm (p q : P3 K) : (p - q).norm = (q - p).norm := by
  unfold P3.norm
  congr 1
  simp only [P3.dot, P3.sub_x, P3.sub_y, P3.sub_z]
  ring

/-- C27: `setupLoop` can always be called, and every curve is unchanged or reversed. -/
theorem C27_total (cs : List (Curve K)) : ∃ cs', orientLoop cs = .ok cs' ∧ cs'.length = cs.length ∧
    ∀ j (h : j < cs.length), cs'[j]? = some cs[j] ∨ cs'[j]? = some cs[j].reverse := by
  rcases Nat.eq_zero_or_pos cs.length with h0 | h0
  · rw [List.length_eq_zero_iff] at h0
    subst h0
    exact ⟨[], rfl, rfl, fun j h => absurd h (by simp)⟩
  · obtain ⟨c, hc⟩ := exists_tab' h0
    refine ⟨_, by rw [hc]; exact orientLoop_eq _ c, by simp, fun j hj => ?_⟩
    have e1 : (tab cs.length (oriented cs.length c))[j]? = some (oriented cs.length c j) := by simp [tab, hj]
    have e2 : cs[j] = c j := by
      have e : cs[j]? = some (c j) := by rw [hc]; simp [tab, hj]
      rw [List.getElem?_eq_getElem hj] at e
      exact Option.some.inj e
    rw [e1, e2]
    exact (oriented_cases _ c j).imp (congrArg some) (congrArg some)

/-- C27: a second `setupLoop` changes nothing, for any curves (meeting at their ends or not). -/
theorem C27_idempotent {cs cs' : List (Curve K)} (h : orientLoop cs = .ok cs') : orientLoop cs' = .ok cs' := by
  rcases Nat.eq_zero_or_pos cs.length with h0 | h0
  · rw [List.length_eq_zero_iff] at h0
    subst h0
    cases h
    rfl
  · obtain ⟨c, hc⟩ := exists_tab' h0
    generalize cs.length = n at *
    subst hc
    rw [orientLoop_eq] at h
    cases h
    rw [orientLoop_eq]
    congr 1
    apply tab_congr
    intro j hj
    induction j with
    | zero =>
      by_cases h1 : 1 % n = 0
      · have hself : ∀ f : ℕ → Curve K, oriented n f 0 = f 0 := by
          intro f
          rw [oriented, h1, if_neg]
          rw [norm_sub_comm ((f 0).pt 1) ((f 0).pt 0), sub_self, sub_self, min_comm]
          exact lt_irrefl _
        exact hself _
      · have hmin : ∀ p : P3 K, min (p - (oriented n c (1 % n)).pt 0).norm (p - (oriented n c (1 % n)).pt 1).norm =
            min (p - (c (1 % n)).pt 0).norm (p - (c (1 % n)).pt 1).norm := by
          intro p
          rcases oriented_cases n c (1 % n) with e | e <;> rw [e]
          rw [(reverse_pt _).1, (reverse_pt _).2, min_comm]
        rw [oriented, hmin, hmin, if_neg]
        rw [oriented]
        split_ifs with h2
        · rw [(reverse_pt _).1, (reverse_pt _).2]; exact h2.not_gt
        · exact h2
    | succ j ih =>
      have hj' := ih (by omega)
      rw [oriented, hj']
      have key : ¬ ((oriented n c (j + 1)).pt 1 - (oriented n c j).pt 1).norm < ((oriented n c (j + 1)).pt 0 - (oriented n c j).pt 1).norm := by
        rw [oriented]
        split_ifs with h1
        · rw [(reverse_pt _).1, (reverse_pt _).2]; exact h1.not_gt
        · exact h1
      rw [if_neg key]

/-- C27: a second `setupLoop()` of a surface leaves it as it is. -/
theorem C27_surface {P P' : Patch K} (h : P.setupLoop = .ok P') : P'.setupLoop = .ok P' := by
  unfold Patch.setupLoop at h
  obtain ⟨cs, e, h⟩ := bind_ok h
  have hid := C27_idempotent e
  obtain ⟨cs', e', hlen, _⟩ := C27_total P.curves
  rw [e] at e'
  cases e'
  have hl : P.surf.ribbons.length = cs.length := by rw [hlen]; simp [Patch.curves]
  have z1 : ∀ (rs : List (Ribbon K)) (cs : List (Curve K)), rs.length = cs.length →
      (List.zipWith (fun (r : Ribbon K) c => ({ r with curve := c } : Ribbon K)) rs cs).map (·.curve) = cs := by
    intro rs
    induction rs with
    | nil => intro cs h; cases cs with
      | nil => rfl
      | cons c cs => simp at h
    | cons r rs ih => intro cs h; cases cs with
      | nil => simp at h
      | cons c cs => simp only [List.zipWith_cons_cons, List.map_cons]; rw [ih cs (by simpa using h)]
  have z2 : ∀ (rs : List (Ribbon K)) (cs : List (Curve K)),
      List.zipWith (fun (r : Ribbon K) c => ({ r with curve := c } : Ribbon K))
        (List.zipWith (fun (r : Ribbon K) c => ({ r with curve := c } : Ribbon K)) rs cs) cs =
      List.zipWith (fun (r : Ribbon K) c => ({ r with curve := c } : Ribbon K)) rs cs := by
    intro rs
    induction rs with
    | nil => intro cs; rfl
    | cons r rs ih => intro cs; cases cs with
      | nil => rfl
      | cons c cs => simp only [List.zipWith_cons_cons]; rw [ih cs]
  cases h
  unfold Patch.setupLoop Patch.curves
  dsimp only
  rw [z1 _ _ hl, hid, M_bind_ok, z2]

end generic

/-! ### C26 -/

private theorem dot_le (a b : P3 ℝ) : P3.dot a b ≤ a.norm * b.norm := by
  have h : P3.dot a b ^ 2 ≤ P3.dot a a * P3.dot b b := by
    simp only [P3.dot]
    nlinarith [sq_nonneg (a.x * b.y - a.y * b.x), sq_nonneg (a.x * b.z - a.z * b.x), sq_nonneg (a.y * b.z - a.z * b.y)]
  rw [← P3.norm_mul_self, ← P3.norm_mul_self] at h
  exact le_of_abs_le (abs_le_of_sq_le_sq (by nlinarith) (mul_nonneg a.norm_nonneg b.norm_nonneg))

private theorem norm_add_le (a b : P3 ℝ) : (a + b).norm ≤ a.norm + b.norm := by
  have h1 := P3.norm_mul_self (a + b)
  have h2 : P3.dot (a + b) (a + b) = P3.dot a a + 2 * P3.dot a b + P3.dot b b := by
    simp only [P3.dot, P3.add_x, P3.add_y, P3.add_z]; ring
  have h3 := dot_le a b
  rw [h2, ← P3.norm_mul_self a, ← P3.norm_mul_self b] at h1
  have := a.norm_nonneg
  have := b.norm_nonneg
  exact le_of_sq_le_sq (by nlinarith) (by linarith)

private theorem dist_triangle (a b c : P3 ℝ) : (a - c).norm ≤ (a - b).norm + (b - c).norm := by
  have := norm_add_le (a - b) (b - c)
  rwa [sub_add_sub_cancel] at this

/-- Specification: the two ends of the curve are at the points `a` and `b`, up to the distance `δ`. -/
def Joins (δ : ℝ) (c : Curve ℝ) (a b : P3 ℝ) : Prop := (c.pt 0 - a).norm ≤ δ ∧ (c.pt 1 - b).norm ≤ δ

/-- C26: when curve `i` joins the corners `i-1` and `i` in one direction or the other, with gaps of at most `δ`, and the corners are
farther than `4δ` from each other, then after `setupLoop` every curve runs from corner `i-1` to corner `i`; curves are
only reversed. -/
theorem C26_orients {n : ℕ} (hn : 3 ≤ n) {c : ℕ → Curve ℝ} {q : ℕ → P3 ℝ} {δ : ℝ}
    (hq : ∀ i < n, ∀ j < n, i ≠ j → 4 * δ < (q i - q j).norm)
    (hc : ∀ i < n, Joins δ (c i) (q ((i + n - 1) % n)) (q i) ∨ Joins δ (c i) (q i) (q ((i + n - 1) % n))) :
    ∃ c' : ℕ → Curve ℝ, orientLoop (tab n c) = .ok (tab n c') ∧
      ∀ i < n, (c' i = c i ∨ c' i = (c i).reverse) ∧ Joins δ (c' i) (q ((i + n - 1) % n)) (q i) := by
  refine ⟨_, orientLoop_eq n c, fun j hj => ⟨oriented_cases n c j, ?_⟩⟩
  have rev : ∀ {c : Curve ℝ} {a b : P3 ℝ}, Joins δ c a b → Joins δ c.reverse b a := by
    intro c a b h
    exact ⟨by rw [(reverse_pt c).1]; exact h.2, by rw [(reverse_pt c).2]; exact h.1⟩
  -- points near the same corner are close, points near different corners are not
  have close : ∀ {x y a : P3 ℝ}, (x - a).norm ≤ δ → (y - a).norm ≤ δ → (x - y).norm ≤ 2 * δ := by
    intro x y a h1 h2
    have := dist_triangle x a y
    rw [norm_sub_comm a y] at this
    linarith
  have far : ∀ {x y a b : P3 ℝ}, (x - a).norm ≤ δ → (y - b).norm ≤ δ → 4 * δ < (a - b).norm → 2 * δ < (x - y).norm := by
    intro x y a b h1 h2 h3
    have t1 := dist_triangle a x b
    have t2 := dist_triangle x y b
    rw [norm_sub_comm a x] at t1
    linarith
  induction j with
  | zero =>
    have e1 : (1 % n) = 1 := Nat.mod_eq_of_lt (by omega)
    have e0 : (0 + n - 1) % n = n - 1 := by rw [Nat.mod_eq_of_lt (by omega)]; omega
    have e01 : (1 + n - 1) % n = 0 := by rw [show 1 + n - 1 = n by omega, Nat.mod_self]
    have h1 := hc 1 (by omega)
    rw [e01] at h1
    have h0 := hc 0 hj
    rw [e0] at h0 ⊢
    rw [oriented, e1]
    -- distances to the two ends of curve 1
    have near : ∀ {x : P3 ℝ}, (x - q 0).norm ≤ δ → min (x - (c 1).pt 0).norm (x - (c 1).pt 1).norm ≤ 2 * δ := by
      intro x hx
      rcases h1 with h1 | h1
      · exact min_le_of_left_le (close hx h1.1)
      · exact min_le_of_right_le (close hx h1.2)
    have away : ∀ {x : P3 ℝ}, (x - q (n - 1)).norm ≤ δ → 2 * δ < min (x - (c 1).pt 0).norm (x - (c 1).pt 1).norm := by
      intro x hx
      have f0 := hq (n - 1) (by omega) 0 (by omega) (by omega)
      have f1 := hq (n - 1) (by omega) 1 (by omega) (by omega)
      rcases h1 with h1 | h1
      · exact lt_min (far hx h1.1 f0) (far hx h1.2 f1)
      · exact lt_min (far hx h1.1 f1) (far hx h1.2 f0)
    rcases h0 with h0 | h0
    · rw [if_neg]
      · exact h0
      · exact not_lt.mpr ((near h0.2).trans (away h0.1).le)
    · rw [if_pos]
      · exact rev h0
      · exact lt_of_le_of_lt (near h0.1) (away h0.2)
  | succ j ih =>
    have hp := ih (by omega)
    have e : (j + 1 + n - 1) % n = j := by
      rw [show j + 1 + n - 1 = j + n by omega, Nat.add_mod_right, Nat.mod_eq_of_lt (by omega)]
    have h := hc (j + 1) hj
    have f := hq (j + 1) hj j (by omega) (by omega)
    rw [e] at h ⊢
    rw [oriented]
    rcases h with h | h
    · rw [if_neg]
      · exact h
      · exact not_lt.mpr ((close h.1 hp.2).trans (far h.2 hp.2 f).le)
    · rw [if_pos]
      · exact rev h
      · exact lt_of_le_of_lt (close h.2 hp.2) (far h.1 hp.2 f)

/-- C26: for curves that meet exactly, the end of every curve is the start of the next one. -/
theorem C26_closed {n : ℕ} (hn : 3 ≤ n) {c : ℕ → Curve ℝ} {q : ℕ → P3 ℝ} (hq : ∀ i < n, ∀ j < n, i ≠ j → q i ≠ q j)
    (hc : ∀ i < n, ((c i).pt 0 = q ((i + n - 1) % n) ∧ (c i).pt 1 = q i) ∨ ((c i).pt 0 = q i ∧ (c i).pt 1 = q ((i + n - 1) % n))) :
    ∃ c' : ℕ → Curve ℝ, orientLoop (tab n c) = .ok (tab n c') ∧
      ∀ i < n, (c' i = c i ∨ c' i = (c i).reverse) ∧ (c' i).pt 1 = (c' ((i + 1) % n)).pt 0 := by
  have z : ∀ {a b : P3 ℝ}, a = b → (a - b).norm ≤ 0 := by
    intro a b h
    rw [h, sub_self, P3.norm_eq_zero.mpr rfl]
  have z' : ∀ {a b : P3 ℝ}, (a - b).norm ≤ 0 → a = b := fun {a b} h =>
    sub_eq_zero.mp (P3.norm_eq_zero.mp (le_antisymm h (P3.norm_nonneg _)))
  obtain ⟨c', e, h⟩ := C26_orients hn (c := c) (q := q) (δ := 0)
    (fun i hi j hj hij => by
      rw [mul_zero]
      exact P3.norm_pos (sub_ne_zero.mpr (hq i hi j hj hij)))
    (fun i hi => (hc i hi).imp (fun h => ⟨z h.1, z h.2⟩) (fun h => ⟨z h.1, z h.2⟩))
  refine ⟨c', e, fun i hi => ⟨(h i hi).1, ?_⟩⟩
  have hx : nextIx n i < n := nextIx_lt (by omega)
  have h1 := (h _ hx).2.1
  change ((c' (nextIx n i)).pt 0 - q (prevIx n (nextIx n i))).norm ≤ 0 at h1
  rw [prevIx_nextIx hi] at h1
  rw [z' (h i hi).2.2]
  exact (z' h1).symm

/-- C26: a loop that is already closed head to tail is left alone, whatever its corners. -/
theorem C26_oriented {n : ℕ} {c : ℕ → Curve ℝ} (hc : ∀ i < n, (c i).pt 1 = (c ((i + 1) % n)).pt 0) :
    orientLoop (tab n c) = .ok (tab n c) := by
  rw [orientLoop_eq]
  congr 1
  apply tab_congr
  intro j hj
  induction j with
  | zero =>
    have e := hc 0 hj
    rw [zero_add] at e
    rw [oriented, if_neg]
    rw [not_lt]
    refine le_trans (min_le_left _ _) ?_
    rw [e, sub_self, P3.norm_eq_zero.mpr rfl]
    exact le_min (P3.norm_nonneg _) (P3.norm_nonneg _)
  | succ j ih =>
    have e := hc j (by omega)
    rw [Nat.mod_eq_of_lt hj] at e
    rw [oriented, ih (by omega), if_neg]
    rw [not_lt, e, sub_self, P3.norm_eq_zero.mpr rfl]
    exact P3.norm_nonneg _

/-- C26, for a surface object: `setupLoop()` changes only the curves, by reversing some of them, so that each runs
from corner `i-1` to corner `i`; the handlers, multipliers and fences of the ribbons, the domain and the corner data are kept. -/
theorem C26_surface {n : ℕ} (hn : 3 ≤ n) {P : Patch ℝ} {c : ℕ → Curve ℝ} (hP : P.curves = tab n c) {q : ℕ → P3 ℝ} {δ : ℝ}
    (hq : ∀ i < n, ∀ j < n, i ≠ j → 4 * δ < (q i - q j).norm)
    (hc : ∀ i < n, Joins δ (c i) (q ((i + n - 1) % n)) (q i) ∨ Joins δ (c i) (q i) (q ((i + n - 1) % n))) :
    ∃ P' c', P.setupLoop = .ok P' ∧ P'.curves = tab n c' ∧
      (∀ i < n, (c' i = c i ∨ c' i = (c i).reverse) ∧ Joins δ (c' i) (q ((i + n - 1) % n)) (q i)) ∧
      P'.dom = P.dom ∧ P'.param = P.param ∧ P'.surf.corners = P.surf.corners ∧
      ∀ i < n, ∃ r, vget P.surf.ribbons i = .ok r ∧ vget P'.surf.ribbons i = .ok { r with curve := c' i } := by
  obtain ⟨c', e, h⟩ := C26_orients hn hq hc
  have hlen : P.surf.ribbons.length = n := by
    have := congrArg List.length hP
    simpa [Patch.curves] using this
  obtain ⟨r, hr⟩ := exists_tab' (l := P.surf.ribbons) (by omega)
  rw [hlen] at hr
  have z : List.zipWith (fun (r : Ribbon ℝ) c => ({ r with curve := c } : Ribbon ℝ)) (tab n r) (tab n c') =
      tab n fun i => { r i with curve := c' i } := by
    unfold tab
    rw [List.zipWith_map, List.zipWith_self]
  refine ⟨{ P with
    surf := { P.surf with ribbons := List.zipWith (fun (r : Ribbon ℝ) c => { r with curve := c }) P.surf.ribbons (tab n c') },
    linked := true }, c', by rw [Patch.setupLoop, hP, e, M_bind_ok], ?_, h, rfl, rfl, rfl, ?_⟩
  · unfold Patch.curves
    dsimp only
    rw [hr, z]
    simp [tab]
  · intro i hi
    refine ⟨r i, by rw [hr, vget_tab _ hi], ?_⟩
    dsimp only
    rw [hr, z, vget_tab _ hi]

/-! ### Non-vacuity -/

/-- A triangle whose second curve runs backwards and whose third curve starts a little off its corner. -/
private noncomputable def triangle : ℕ → Curve ℝ
  | 0 => segment ⟨10, 0, 0⟩ ⟨0, 0, 0⟩
  | 1 => segment ⟨0, 10, 0⟩ ⟨10, 0, 0⟩
  | _ => segment ⟨0, 10, 1⟩ ⟨0, 0, 0⟩

private noncomputable def corner : ℕ → P3 ℝ
  | 0 => ⟨10, 0, 0⟩
  | 1 => ⟨0, 10, 0⟩
  | _ => ⟨0, 0, 0⟩

private theorem norm_le_one {a : P3 ℝ} (h : P3.dot a a ≤ 1) : a.norm ≤ 1 := by
  have := P3.norm_mul_self a
  have := a.norm_nonneg
  nlinarith

private theorem lt_norm {a : P3 ℝ} (h : 16 < P3.dot a a) : 4 * 1 < a.norm := by
  have := P3.norm_mul_self a
  have := a.norm_nonneg
  nlinarith

example : ∃ c' : ℕ → Curve ℝ, orientLoop (tab 3 triangle) = .ok (tab 3 c') ∧
    ∀ i < 3, (c' i = triangle i ∨ c' i = (triangle i).reverse) ∧
      Joins 1 (c' i) (corner ((i + 3 - 1) % 3)) (corner i) := by
  refine C26_orients le_rfl ?_ ?_
  · intro i hi j hj hij
    apply lt_norm
    interval_cases i <;> interval_cases j <;> first | exact absurd rfl hij | norm_num [P3.dot, corner]
  · intro i hi
    interval_cases i
    · exact Or.inr ⟨norm_le_one (by norm_num [P3.dot, triangle, segment, corner]), norm_le_one (by norm_num [P3.dot, triangle, segment, corner])⟩
    · exact Or.inr ⟨norm_le_one (by norm_num [P3.dot, triangle, segment, corner]), norm_le_one (by norm_num [P3.dot, triangle, segment, corner])⟩
    · exact Or.inl ⟨norm_le_one (by norm_num [P3.dot, triangle, segment, corner]), norm_le_one (by norm_num [P3.dot, triangle, segment, corner])⟩

end Transfinite
