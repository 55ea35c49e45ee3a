import Verif.Lemmas.Demo
import Verif.Props.Total
import Verif.Props.Midpoint

/-! # C93: the checks and the meshes of the test program -/

namespace Transfinite

open Spec Real

namespace Demo

variable {ε : ℝ} {n : ℕ} {c : ℕ → Curve ℝ} {P P' : Patch ℝ} {v : ℕ → P2 ℝ} {kind : PatchKind}

/-- The point of side `i` at the parameter `j`/40 is at distance `d` from the boundary curve. -/
def ErrorAt (ε : ℝ) (P : Patch ℝ) (c : ℕ → Curve ℝ) (i j : ℕ) (d : ℝ) : Prop :=
  ∃ p, SideValue ε P i (j / 40) p ∧ (p - (c i).pt (j / 40)).norm = d

private theorem ready_curves (h : UpToDate ε kind n c P) (hn : 3 ≤ n) (hd : ConvexDomain P.dom.dom n v) :
    Patch.ParamOk ε P ∧ ∀ i < n, ∃ r, vget P.surf.ribbons i = .ok r ∧ r.curve = c i := by
  obtain ⟨hr, _⟩ := upToDate_ready h hn
  refine ⟨hr.inv.param.resolve_left (by rw [hd.n_eq]; omega), fun i hi => ?_⟩
  obtain ⟨r, h1, h2⟩ := hr.surf.ribs
  exact ⟨r i, by rw [h1, vget_tab _ hi], (h2 i hi).basic.2.1⟩

/-- C93: what the positional error is: the largest distance of the 41 points of each side from the boundary curve. -/
theorem C93_meaning (hn : 3 ≤ n) (h : UpToDate ε kind n c P) (hd : ConvexDomain P.dom.dom n v) {e : ℝ}
    (he : positionalError ε P = .ok (e, P')) :
    (∀ i < n, ∀ j ≤ 40, ∃ d ≤ e, ErrorAt ε P c i j d) ∧ ∃ i < n, ∃ j ≤ 40, ErrorAt ε P c i j e := by
  obtain ⟨hp, hc⟩ := ready_curves h hn hd
  unfold positionalError at he
  rw [hd.n_eq] at he
  have inner : ∀ i < n, ∀ m, ∀ D : ℕ → ℕ → Prop, ∀ st st', Tested ε P c D st → forLoop m (fun j st => positionalStep ε i j st) st = .ok st' →
      Tested ε P c (fun a b => D a b ∨ (a = i ∧ b < m)) st' := by
    intro i hi m
    induction m with
    | zero =>
      intro D st st' h0 h1
      cases h1
      exact h0.congr (fun a b => by simp)
    | succ m ih =>
      intro D st st' h0 h1
      rw [forLoop_succ] at h1
      obtain ⟨s1, e1, h1⟩ := bind_ok h1
      have t1 := ih D st s1 h0 e1
      obtain ⟨p, p1, p2, p3⟩ := (step_iff hp hc hi t1.1).2 st' h1
      refine (t1.next p1 p2 p3).congr (fun a b => ?_)
      constructor
      · rintro ((h | ⟨h, h'⟩) | ⟨h, h'⟩)
        · exact Or.inl h
        · exact Or.inr ⟨h, by omega⟩
        · exact Or.inr ⟨h, by omega⟩
      · rintro (h | ⟨h, h'⟩)
        · exact Or.inl (Or.inl h)
        · rcases Nat.lt_succ_iff_lt_or_eq.mp h' with h' | h'
          · exact Or.inl (Or.inr ⟨h, h'⟩)
          · exact Or.inr ⟨h, h'⟩
  have outer : ∀ m ≤ n, ∀ st', forLoop m (fun i st => forLoop 41 (fun j st => positionalStep ε i j st) st) (0, P) = .ok st' →
      Tested ε P c (fun a b => a < m ∧ b < 41) st' := by
    intro m
    induction m with
    | zero =>
      intro _ st' h1
      cases h1
      exact ⟨Patch.Queried.refl ε P, le_rfl, fun i j h => by omega, Or.inl rfl⟩
    | succ m ih =>
      intro hm st' h1
      rw [forLoop_succ] at h1
      obtain ⟨s1, e1, h1⟩ := bind_ok h1
      refine (inner m (by omega) 41 _ s1 st' (ih (by omega) s1 e1) h1).congr (fun a b => by omega)
  obtain ⟨_, t0, t1, t2⟩ := outer n le_rfl _ he
  have first : ∀ i < n, ∀ j ≤ 40, ∃ d ≤ e, ErrorAt ε P c i j d := by
    intro i hi j hj
    obtain ⟨p, p1, p2⟩ := t1 i j ⟨hi, by omega⟩
    exact ⟨_, p2, p, p1, rfl⟩
  refine ⟨first, ?_⟩
  rcases t2 with t2 | ⟨i, j, p, ⟨hi, hj⟩, p1, p2⟩
  · obtain ⟨d, hd, p, p1, p2⟩ := first 0 (by omega) 0 (by omega)
    have : d = e := le_antisymm hd (by rw [show e = 0 from t2, ← p2]; exact Real.sqrt_nonneg _)
    exact ⟨0, by omega, 0, by omega, p, p1, by rw [← this]; exact p2⟩
  · exact ⟨i, hi, j, by omega, p, p1, p2⟩

/-- The test succeeds if all of its points can be evaluated. -/
theorem positional_defined (hn : 3 ≤ n) (h : UpToDate ε kind n c P) (hd : ConvexDomain P.dom.dom n v)
    (hs : ∀ i < n, ∀ j ≤ 40, ∃ p, SideValue ε P i ((j : ℕ) / 40) p) : ∃ x, positionalError ε P = .ok x := by
  obtain ⟨hp, hc⟩ := ready_curves h hn hd
  unfold positionalError
  rw [hd.n_eq]
  obtain ⟨st, e, _⟩ := forLoop_inv (n := n) (body := fun i st => forLoop 41 (fun j st => positionalStep ε i j st) st) (s := ((0 : ℝ), P))
    (fun _ (st : ℝ × Patch ℝ) => Patch.Queried ε P st.2) (Patch.Queried.refl ε P) (by
      intro i st hi hq
      exact forLoop_inv (n := 41) (body := fun j st => positionalStep ε i j st) (fun _ (st : ℝ × Patch ℝ) => Patch.Queried ε P st.2) hq (by
        intro j st hj hq
        obtain ⟨p, hp'⟩ := hs i hi j (by omega)
        obtain ⟨st', e⟩ := (step_iff hp hc hi hq).1 p hp'
        obtain ⟨_, _, q, _⟩ := (step_iff hp hc hi hq).2 st' e
        exact ⟨st', e, q⟩))
  exact ⟨st, e⟩

/-- The points of the sides that the test looks at. -/
theorem side_value (hε : 0 < ε) (hε1 : ε ≤ 1 / 50) (hεn : ε ≤ sin (2 * π / n) ^ 2 * sin (π / n) / 2) (hl : Patch.GoodLoop ε n c)
    (hk : kind ≠ .sideBased) (h : UpToDate ε kind n c P) {i j : ℕ} (hi : i < n) (hj : j ≤ 40) :
    SideValue ε P i ((j : ℕ) / 40) ((c i).pt (j / 40)) := by
  have hn := hl.sides
  have hloop : Loop n c := ⟨hn, hl.closed, hl.regular⟩
  obtain ⟨sp1, sp2⟩ := sin_pi_div_pos hn
  have l1 := Real.sin_le_one (π / n)
  have l2 := Real.sin_le_one (2 * π / n)
  have hjr : (j : ℝ) ≤ 40 := by exact_mod_cast hj
  have h0 : (0 : ℝ) ≤ (j : ℝ) / 40 := by positivity
  have h1 : (j : ℝ) / 40 ≤ 1 := by rw [div_le_one (by norm_num)]; exact hjr
  have g0 : ε ≤ (j : ℝ) / 40 ∨ (j : ℝ) / 40 = 0 := by
    rcases Nat.eq_zero_or_pos j with rfl | hj0
    · right; simp
    · left
      have : (1 : ℝ) ≤ j := by exact_mod_cast hj0
      linarith
  have g1 : (1 : ℝ) / 40 ≤ 1 - (j : ℝ) / 40 ∨ (j : ℝ) / 40 = 1 := by
    rcases Nat.lt_or_ge j 40 with hj' | hj'
    · left
      have : (j : ℝ) + 1 ≤ 40 := by exact_mod_cast hj'
      linarith
    · right
      have : j = 40 := by omega
      rw [this]; norm_num
  have g1' : ε ≤ 1 - (j : ℝ) / 40 ∨ (j : ℝ) / 40 = 1 := g1.imp_left (fun h => by linarith)
  have hεn' : ε ≤ sin (2 * π / n) * sin (π / n) / 2 := by
    refine hεn.trans ?_
    have : sin (2 * π / n) ^ 2 * sin (π / n) ≤ sin (2 * π / n) * sin (π / n) := by
      apply mul_le_mul_of_nonneg_right _ sp1.le
      nlinarith
    linarith
  have hεs : ε ≤ sin (2 * π / n) := by
    have : sin (2 * π / n) * sin (π / n) ≤ sin (2 * π / n) * 1 := mul_le_mul_of_nonneg_left l1 sp2.le
    linarith
  have h3 : n = 3 → (j : ℝ) / 40 = 1 ∨ ε ≤ sin (2 * π / 3) * (1 - (j : ℝ) / 40) := by
    intro _
    rcases g1 with g | g
    · right
      have e : sin (2 * π / 3) = Real.sqrt 3 / 2 := by
        rw [show 2 * π / 3 = π - π / 3 by ring, Real.sin_pi_sub, Real.sin_pi_div_three]
      have s3 : (8 / 5 : ℝ) ≤ Real.sqrt 3 := Real.le_sqrt_of_sq_le (by norm_num)
      rw [e]
      nlinarith
    · exact Or.inl g
  cases kind with
  | sideBased => exact absurd rfl hk
  | cornerBased =>
    refine C31_side hε (by linarith) hεs hloop hl.exact h hi h0 h1 (fun h => ?_)
    rcases h3 h with g | g
    · left; rw [g]; simpa using hε
    · exact Or.inr g
  | generalizedCoons => exact C32_side hε hεn' hloop hl.exact h hi h0 h1 h3
  | compositeRibbon => exact C33_side hε (by linarith) hloop hl.exact h hi h0 h1
  | midpoint => exact C34_midpoint hε (by linarith) hloop hl.exact h hi g0 g1'
  | midpointCoons => exact C34_midpointCoons hε hεn hloop hl.exact h hi g0 g1'
  | c0Coons => exact C35_side hε (by linarith) hn hl.closed h hi h0 g1'

/-- C93: for the six classes on a regular domain the positional error is zero. -/
theorem C93_zero (hε : 0 < ε) (hε1 : ε ≤ 1 / 50) (hεn : ε ≤ sin (2 * π / n) ^ 2 * sin (π / n) / 2) (hl : Patch.GoodLoop ε n c)
    (hk : kind ≠ .sideBased) (h : UpToDate ε kind n c P) : ∃ P', positionalError ε P = .ok (0, P') := by
  have hn := hl.sides
  obtain ⟨hr, hkk⟩ := upToDate_ready h hn
  obtain ⟨r, φ, _, hd⟩ := hr.regularDomain (by rw [hkk]; cases kind <;> first | rfl | exact absurd rfl hk) hn
  have hs : ∀ i < n, ∀ j ≤ 40, SideValue ε P i ((j : ℕ) / 40) ((c i).pt (j / 40)) :=
    fun i hi j hj => side_value hε hε1 hεn hl hk h hi hj
  obtain ⟨⟨e, P'⟩, he⟩ := positional_defined hn h hd (fun i hi j hj => ⟨_, hs i hi j hj⟩)
  obtain ⟨_, i, hi, j, hj, p, ⟨uv, Q, p1, p2⟩, p3⟩ := C93_meaning hn h hd he
  obtain ⟨uv', Q', q1, q2⟩ := hs i hi j hj
  rw [p1] at q1
  cases q1
  rw [p2] at q2
  cases q2
  rw [sub_self, P3.norm_eq_zero.mpr rfl] at p3
  exact ⟨P', by rw [he, ← p3]⟩

/-- The ribbons: the curve, the normals and the cross derivatives. -/
private theorem ready_ribbons (hε : 0 < ε) (hl : Patch.GoodLoop ε n c) (h : UpToDate ε kind n c P) {i : ℕ} (hi : i < n) :
    ∃ r, vget P.surf.ribbons i = .ok r ∧ r.curve = c i ∧ (∀ s, 0 ≤ s → s ≤ 1 → ∃ m, r.normal ε s = .ok m ∧ P3.dot m m = 1) ∧
      (kind ≠ .c0Coons → ∀ s, 0 ≤ s → s ≤ 1 → ∃ x, r.crossDerivative ε s = .ok x ∧ ∀ d, r.eval ε ⟨s, d⟩ = .ok ((c i).pt s + d • x)) := by
  have hn := hl.sides
  obtain ⟨hr, hk⟩ := upToDate_ready h hn
  have hkr : P.kind.ribbon = .handler ∨ P.kind.ribbon = .coons := by cases P.kind <;> simp [PatchKind.ribbon]
  obtain ⟨r, h1, h2⟩ := hr.surf.ribs
  have hb := h2 i hi
  have hbb := hb.basic
  refine ⟨r i, by rw [h1, vget_tab _ hi], hbb.2.1, ?_, ?_⟩
  · intro s s0 s1
    obtain ⟨r0, r1, k1, k2, k3, k4, k5⟩ := hb
    have hu := update_updated k4 (by rw [k1]; rcases hkr with e | e <;> rw [e] <;> simp)
    obtain ⟨a, b, e1, _, e3⟩ := hu.rmf
    have ha := (P3.normalize_unit e1).2.2
    obtain ⟨m, hm⟩ := (C21_defined hε (by simp [RMF.resolution]) ha e3).2 s s0 (by rw [k2]; exact hl.regular i hi s s0 s1)
    refine ⟨m, ?_, C21_unit hε (by simp [RMF.resolution]) ha e3 hm⟩
    rw [k5]
    unfold Ribbon.normal
    dsimp only
    rw [hu.fence, k3]
    exact hm
  · intro hc s s0 s1
    obtain ⟨r', h1', h2'⟩ := Surf.Ready.cross_total hε hkr hr.surf hl.regular
    have e : r' i = r i := by
      have : vget P.surf.ribbons i = .ok (r i) := by rw [h1, vget_tab _ hi]
      rw [h1', vget_tab _ hi] at this
      exact Except.ok.inj this
    obtain ⟨x, hx⟩ := h2' i hi s s0 s1
    rw [e] at hx
    refine ⟨x, hx, fun d => ?_⟩
    have hkind : (r i).kind = .handler := by
      rw [hbb.1, hk]
      cases kind <;> first | rfl | exact absurd rfl hc
    rw [Surf.eval_base (by rw [hkind]; simp) (by rw [hkind]; simp)]
    unfold Ribbon.baseEval
    rw [hx, M_bind_ok, hbb.2.1]

/-- C93: the midpoint error is zero, if there are not four sides. -/
theorem C93_midpoint (hε : 0 < ε) (hε1 : ε ≤ 1 / 200) (hε2 : ε ≤ 2 / n) (hl : Patch.GoodLoop ε n c) (h4 : n ≠ 4)
    (hk : kind = .midpoint ∨ kind = .midpointCoons) (h : Usable ε kind n c P) (hd : ConvexDomain P.dom.dom n v) :
    ∃ P', midpointError ε P = .ok (0, P') := by
  have hn := hl.sides
  have hc : kind ≠ .c0Coons := by rcases hk with rfl | rfl <;> decide
  have hm : ∃ m, chosenMidpoint ε P = .ok m := by
    unfold chosenMidpoint
    rw [hd.n_eq]
    obtain ⟨s, e, _⟩ := forLoop_inv (n := n) (body := fun i (p : P3 ℝ) => do
      let r ← vget P.surf.ribbons i
      let q ← r.eval ε ⟨3 / 5, 2 / 5⟩
      .ok (p + q)) (s := 0) (fun _ _ => True) trivial (by
        intro i p hi _
        obtain ⟨r, r1, _, _, r4⟩ := ready_ribbons hε hl h.1 hi
        obtain ⟨x, _, hx⟩ := r4 hc (3 / 5) (by norm_num) (by norm_num)
        rw [r1, M_bind_ok, hx, M_bind_ok]
        exact ⟨_, rfl, trivial⟩)
    rw [e, M_bind_ok, fdiv_of_ne (by have : n ≠ 0 := by omega
                                     exact_mod_cast this), M_bind_ok]
    exact ⟨_, rfl⟩
  obtain ⟨m, hm⟩ := hm
  obtain ⟨P1, e1, _, _⟩ := C64_call hε (by linarith) hl h hd (x := .setMid m) hk
  obtain ⟨Q, e2⟩ := C36_set hε hε1 hε2 hn h4 hk h.1 e1 (qs := []) (by simp) rfl
  refine ⟨Q, ?_⟩
  unfold midpointError
  rw [hm, M_bind_ok, e1, M_bind_ok, e2, M_bind_ok]
  dsimp only
  rw [sub_self]
  congr 2
  unfold P3.normSqr
  exact P3.dot_zero_left 0

/-- C93: the fence is a closed band: its base points are on the boundary curves, each top point is at distance `|scaling|`
from its base point, in the direction of the normal, and the quads join neighbouring columns, the last one with the first. -/
theorem C93_fence (hε : 0 < ε) (hl : Patch.GoodLoop ε n c) (h : UpToDate ε kind n c P) {res : ℕ} (hres : 0 < res) (scaling : ℝ) :
    ∃ pts, fence ε n res scaling P.surf = .ok (pts, closedBand (n * res)) ∧ pts.length = 2 * (n * res) ∧
      (∀ i < n, ∀ j < res, ∃ r m, vget P.surf.ribbons i = .ok r ∧ r.normal ε (j / res) = .ok m ∧ P3.dot m m = 1 ∧
        pts[2 * (i * res + j)]? = some ((c i).pt (j / res)) ∧ pts[2 * (i * res + j) + 1]? = some ((c i).pt (j / res) + scaling • m)) ∧
      ∀ t ∈ closedBand (n * res), t.1 < pts.length ∧ t.2.1 < pts.length ∧ t.2.2 < pts.length := by
  have hn := hl.sides
  have hr0 : (0 : ℝ) < res := by exact_mod_cast hres
  have key : ∀ i j, ∃ m, i < n → j < res → ∃ r, vget P.surf.ribbons i = .ok r ∧ r.curve = c i ∧ r.normal ε (j / res) = .ok m ∧ P3.dot m m = 1 := by
    intro i j
    by_cases hi : i < n
    · by_cases hj : j < res
      · obtain ⟨r, r1, r2, r3, _⟩ := ready_ribbons hε hl h hi
        obtain ⟨m, m1, m2⟩ := r3 (j / res) (by positivity) (by
          rw [div_le_one hr0]
          exact_mod_cast hj.le)
        exact ⟨m, fun _ _ => ⟨r, r1, r2, m1, m2⟩⟩
      · exact ⟨0, fun _ h => absurd h hj⟩
    · exact ⟨0, fun h => absurd h hi⟩
  choose m hm using key
  obtain ⟨pts, e, l1, l2⟩ := pairs_loop (n := n) (m := res) (a := fun i j => (c i).pt ((j : ℝ) / res))
    (b := fun i j => (c i).pt ((j : ℝ) / res) + scaling • m i j) (body := fun i j pv => do
      let u ← fdiv (j : ℝ) (res : ℝ)
      let r ← vget P.surf.ribbons i
      let m ← r.normal ε u
      .ok (pv ++ [r.curve.pt u, r.curve.pt u + scaling • m])) (by
      intro i j l hi hj
      obtain ⟨r, r1, r2, r3, _⟩ := hm i j hi hj
      rw [fdiv_of_ne hr0.ne', M_bind_ok, r1, M_bind_ok, r3, M_bind_ok, r2])
  refine ⟨pts, ?_, l1, ?_, fun t ht => by rw [l1]; exact closedBand_lt ht⟩
  · unfold fence
    have e' : fencePoints ε n res scaling P.surf = .ok pts := e
    rw [e', M_bind_ok, fenceTriangles_eq (Nat.mul_pos (by omega) hres), M_bind_ok]
  · intro i hi j hj
    obtain ⟨r, r1, _, r3, r4⟩ := hm i j hi hj
    exact ⟨r, m i j, r1, r3, r4, l2 i hi j hj⟩

/-- C93: the ribbon mesh consists of `n` open bands: on side `i` from the boundary curve to the points of the ribbon at distance `len`,
which are the points of the curve plus `len` times the cross derivative. -/
theorem C93_ribbons (hε : 0 < ε) (hl : Patch.GoodLoop ε n c) (hk : kind ≠ .c0Coons) (h : UpToDate ε kind n c P) {res : ℕ} (hres : 0 < res)
    (len : ℝ) :
    ∃ pts, ribbons ε n res len P.surf = .ok (pts, openBands n res) ∧ pts.length = 2 * (n * (res + 1)) ∧
      (∀ i < n, ∀ j ≤ res, ∃ r x, vget P.surf.ribbons i = .ok r ∧ r.crossDerivative ε (j / res) = .ok x ∧
        pts[2 * (i * (res + 1) + j)]? = some ((c i).pt (j / res)) ∧ pts[2 * (i * (res + 1) + j) + 1]? = some ((c i).pt (j / res) + len • x)) ∧
      ∀ t ∈ openBands n res, t.1 < pts.length ∧ t.2.1 < pts.length ∧ t.2.2 < pts.length := by
  have hn := hl.sides
  have hr0 : (0 : ℝ) < res := by exact_mod_cast hres
  have key : ∀ i j, ∃ x, i < n → j < res + 1 → ∃ r, vget P.surf.ribbons i = .ok r ∧ r.curve = c i ∧ r.crossDerivative ε (j / res) = .ok x ∧
      r.eval ε ⟨j / res, len⟩ = .ok ((c i).pt (j / res) + len • x) := by
    intro i j
    by_cases hi : i < n
    · by_cases hj : j < res + 1
      · obtain ⟨r, r1, r2, _, r4⟩ := ready_ribbons hε hl h hi
        obtain ⟨x, x1, x2⟩ := r4 hk (j / res) (by positivity) (by
          rw [div_le_one hr0]
          exact_mod_cast Nat.lt_succ_iff.mp hj)
        exact ⟨x, fun _ _ => ⟨r, r1, r2, x1, x2 len⟩⟩
      · exact ⟨0, fun _ h => absurd h hj⟩
    · exact ⟨0, fun h => absurd h hi⟩
  choose x hx using key
  obtain ⟨pts, e, l1, l2⟩ := pairs_loop (n := n) (m := res + 1) (a := fun i j => (c i).pt ((j : ℝ) / res))
    (b := fun i j => (c i).pt ((j : ℝ) / res) + len • x i j) (body := fun i j pv => do
      let u ← fdiv (j : ℝ) (res : ℝ)
      let r ← vget P.surf.ribbons i
      let p ← r.eval ε ⟨u, len⟩
      .ok (pv ++ [r.curve.pt u, p])) (by
      intro i j l hi hj
      obtain ⟨r, r1, r2, _, r4⟩ := hx i j hi hj
      rw [fdiv_of_ne hr0.ne', M_bind_ok, r1, M_bind_ok, r4, M_bind_ok, r2])
  refine ⟨pts, ?_, l1, ?_, fun t ht => by rw [l1]; exact openBands_lt ht⟩
  · unfold ribbons
    have e' : ribbonPoints ε n res len P.surf = .ok pts := e
    rw [e', M_bind_ok, ribbonTriangles_eq, M_bind_ok]
  · intro i hi j hj
    obtain ⟨r, r1, _, r3, r4⟩ := hx i j hi (by omega)
    exact ⟨r, x i j, r1, r3, l2 i hi j (by omega)⟩

/-- C93: with resolution 0 both fail: the loop of the fence does not end (the unsigned expression `size - 2` wraps around), and the
ribbons divide by zero. -/
theorem C93_resolution (S : Surf ℝ) (hn : 0 < n) (scaling len : ℝ) :
    fence ε n 0 scaling S = .error .diverge ∧ ribbons ε n 0 len S = .error .divZero := by
  constructor
  · unfold fence
    have e : fencePoints ε n 0 scaling S = .ok [] := forLoop_eq (fun _ => []) rfl (fun _ _ => rfl)
    rw [e, M_bind_ok]
    rfl
  · have e : ribbonPoints ε n 0 len S = .error .divZero := by
      unfold ribbonPoints
      have : ∀ m, forLoop (m + 1) (fun i pv => forLoop (0 + 1) (fun j pv => do
          let u ← fdiv (j : ℝ) ((0 : ℕ) : ℝ)
          let r ← vget S.ribbons i
          let p ← r.eval ε ⟨u, len⟩
          .ok (pv ++ [r.curve.pt u, p])) pv) ([] : List (P3 ℝ)) = .error .divZero := by
        intro m
        induction m with
        | zero => simp [forLoop, fdiv]
        | succ m ih => rw [forLoop_succ, ih]; rfl
      obtain ⟨m, rfl⟩ : ∃ m, n = m + 1 := ⟨n - 1, by omega⟩
      exact this m
    unfold ribbons
    rw [e]
    rfl

/-! ### Non-vacuity -/

/-- All six classes on the square, the meshes with the default parameters of the program. -/
example (kind : PatchKind) (hk : kind ≠ .sideBased) (hc : kind ≠ .c0Coons) : ∃ P P' pts pts',
    (Patch.new kind).run (1 / 10000) ([.curves (tab 4 squareLoop), .loop] ++ squareHandlers ++ [.update]) = .ok P ∧
      positionalError (1 / 10000) P = .ok (0, P') ∧ fence (1 / 10000) 4 15 20 P.surf = .ok (pts, closedBand 60) ∧
      ribbons (1 / 10000) 4 15 (1 / 4) P.surf = .ok (pts', openBands 4 15) := by
  obtain ⟨P, v, e, u, d, -⟩ := square_built kind
  obtain ⟨P', e'⟩ := C93_zero (by norm_num) (by norm_num) (by
    have h1 : Real.sin (2 * π / (4 : ℕ)) = 1 := by
      rw [show 2 * π / (4 : ℕ) = π / 2 by push_cast; ring]; exact Real.sin_pi_div_two
    have h2 : Real.sin (π / (4 : ℕ)) = Real.sqrt 2 / 2 := by
      push_cast; exact Real.sin_pi_div_four
    have h3 : (1 : ℝ) ≤ Real.sqrt 2 := Real.le_sqrt_of_sq_le (by norm_num)
    rw [h1, h2]
    linarith) square_good hk u.1
  obtain ⟨pts, f1, -⟩ := C93_fence (by norm_num) square_good u.1 (res := 15) (by norm_num) 20
  obtain ⟨pts', f2, -⟩ := C93_ribbons (by norm_num) square_good hc u.1 (res := 15) (by norm_num) (1 / 4)
  exact ⟨P, P', pts, pts', e, e', f1, f2⟩

/-- The midpoint error on the triangle. -/
example (kind : PatchKind) (hk : kind = .midpoint ∨ kind = .midpointCoons) : ∃ P P',
    (Patch.new kind).run (1 / 10000) triangleCalls = .ok P ∧ midpointError (1 / 10000) P = .ok (0, P') := by
  obtain ⟨P, v, e, u, d⟩ := triangle_built kind (by rcases hk with rfl | rfl <;> decide)
  obtain ⟨P', e'⟩ := C93_midpoint (by norm_num) (by norm_num) (by norm_num) triangle_good (by norm_num) hk u d
  exact ⟨P, P', e, e'⟩

end Demo

end Transfinite
