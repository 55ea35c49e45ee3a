import Verif.Lemmas.GBFit

/-! The smoothing rows and the result of the fit in gb-fit.cc. -/

namespace Transfinite

open Spec Param

namespace GB

variable {n d : ℕ}

/-! ### Positions -/

theorem vis_main {t : ℕ} (ht : t < enumCount n d) : Name.Main n d (vis n d t) := visited_spec ht

theorem vis_row {t f : ℕ} (ht : t < enumCount n d) (hf : f ≤ (d + 1) / 2) : t < rowStart n d f ↔ (vis n d t).row < f := by
  rw [enumCount_eq] at ht
  obtain ⟨h1, h2, h3, _, h4⟩ := visited_at (by omega) ht
  constructor
  · intro h
    by_contra c
    have h5 : rowStart n d f ≤ rowStart n d (enumPos n d ⟨0, 0, 0⟩ t).row := rowStart_mono (not_lt.mp c) (by omega)
    omega
  · intro h
    have h5 : rowStart n d ((enumPos n d ⟨0, 0, 0⟩ t).row + 1) ≤ rowStart n d f := rowStart_mono h (by omega)
    rw [rowStart_succ (by omega)] at h5
    have h6 : ((enumPos n d ⟨0, 0, 0⟩ t).side + 1) * (d - 2 * (enumPos n d ⟨0, 0, 0⟩ t).row) ≤ n * (d - 2 * (enumPos n d ⟨0, 0, 0⟩ t).row) := Nat.mul_le_mul_right _ h1
    rw [Nat.succ_mul] at h6
    omega

/-- The condition in `findControlPoint`. -/
def Matches (n d i j k : ℕ) (a : Name) : Prop :=
  (i = a.side ∧ j = a.col ∧ k = a.row) ∨ (i = (a.side + n - 1) % n ∧ j = usub d a.row ∧ k = a.col) ∨ (i = (a.side + 1) % n ∧ j = a.row ∧ k = usub d a.col)

instance (n d i j k : ℕ) (a : Name) : Decidable (Matches n d i j k a) := by unfold Matches; infer_instance

theorem find_unique {i j k t off : ℕ} (ht : t < enumCount n d) (h : Matches n d i j k (vis n d t)) (hu : ∀ u < enumCount n d, Matches n d i j k (vis n d u) → u = t) :
    findControlPoint n d (enumCount n d) off i j k = .ok (1 + t + off) := by
  unfold findControlPoint
  rw [enumLoop_eq, forLoop_eq (fun u => if u ≤ t then none else some (1 + t + off)) (by simp)]
  · rw [M_bind_ok, if_neg (by omega)]
    rfl
  · intro u hu'
    by_cases hut : u ≤ t
    · rw [if_pos hut]
      unfold findStep
      dsimp only
      change (if Matches n d i j k (vis n d u) then _ else _) = _
      by_cases heq : u = t
      · subst heq
        rw [if_pos h, if_neg (by omega)]
      · rw [if_neg (fun w => heq (hu u hu' w)), if_pos (by omega)]
    · rw [if_neg hut, if_neg (by omega)]
      rfl

theorem find_none {i j k off : ℕ} (h : ∀ u < enumCount n d, ¬Matches n d i j k (vis n d u)) : findControlPoint n d (enumCount n d) off i j k = .ok 0 := by
  unfold findControlPoint
  rw [enumLoop_eq, forLoop_eq (fun _ => none) rfl]
  · rfl
  · intro u hu
    unfold findStep
    dsimp only
    exact if_neg (h u hu)

/-- `q` is the point with the number `idx` (1-based) in the loop. -/
def IsAt (n d : ℕ) (q : Name) (idx : ℕ) : Prop := ∃ t < enumCount n d, idx = t + 1 ∧ SamePoint n d q (vis n d t)

theorem isAt_exists {q : Name} (hq : q.InRange n d) : ∃ idx, IsAt n d q idx ∧ findControlPoint n d (enumCount n d) 0 q.side q.col q.row = .ok idx := by
  obtain ⟨t, ht, hs, e⟩ := find_eq hq 0
  exact ⟨t + 1, ⟨t, ht, rfl, hs⟩, by rw [e]; congr 1; omega⟩

theorem isAt_same {q q' : Name} {idx : ℕ} (hq : q.InRange n d) (hq' : q'.InRange n d) (h : IsAt n d q idx) (h' : IsAt n d q' idx) : SamePoint n d q q' := by
  obtain ⟨t, ht, rfl, hs⟩ := h
  obtain ⟨t', ht', e, hs'⟩ := h'
  rw [show t' = t by omega] at hs'
  exact samePoint_trans hq.1 hq'.1 hs (samePoint_symm hs')

theorem isAt_main {t idx : ℕ} (ht : t < enumCount n d) (h : IsAt n d (vis n d t) idx) : idx = t + 1 := by
  obtain ⟨u, hu, rfl, hs⟩ := h
  rw [visited_inj ht hu (main_unique (vis_main ht) (vis_main hu) hs)]

/-! ### Writing weights -/

section writes

variable (bcp : ℕ) (Pt : ℕ → P3 ℝ)

/-- The matrix and the right-hand side after setting the weight `x.2` of the control point `x.1` in row `j`. -/
noncomputable def wr (j : ℕ) (fg : (ℕ → ℕ → ℝ) × (ℕ → P3 ℝ)) (x : ℕ × ℝ) : (ℕ → ℕ → ℝ) × (ℕ → P3 ℝ) :=
  if x.1 = 0 ∨ bcp < x.1 then (fun r c => if r = j ∧ c = x.1 - bcp then x.2 else fg.1 r c, fg.2)
  else (fg.1, fun r => if r = j then fg.2 j + -(x.2 • Pt (x.1 - 1)) else fg.2 r)

/-- The control point with a given number, for the solution `X`. -/
def ptOf (X : ℕ → P3 ℝ) (idx : ℕ) : P3 ℝ := if idx = 0 ∨ bcp < idx then X (idx - bcp) else Pt (idx - 1)

/-- The residual of an equation. -/
noncomputable def res (C : ℕ) (X : ℕ → P3 ℝ) (fg : (ℕ → ℕ → ℝ) × (ℕ → P3 ℝ)) (r : ℕ) : P3 ℝ := (∑ c ∈ Finset.range C, fg.1 r c • X c) - fg.2 r

variable {bcp Pt}

theorem wr_other {j r : ℕ} (hr : r ≠ j) (fg : (ℕ → ℕ → ℝ) × (ℕ → P3 ℝ)) (x : ℕ × ℝ) : (∀ c, (wr bcp Pt j fg x).1 r c = fg.1 r c) ∧ (wr bcp Pt j fg x).2 r = fg.2 r := by
  unfold wr
  split_ifs with q
  · exact ⟨fun c => if_neg (fun w => hr w.1), rfl⟩
  · exact ⟨fun c => rfl, if_neg hr⟩

theorem foldl_wr_other {j r : ℕ} (hr : r ≠ j) (L : List (ℕ × ℝ)) (fg : (ℕ → ℕ → ℝ) × (ℕ → P3 ℝ)) :
    (∀ c, (L.foldl (wr bcp Pt j) fg).1 r c = fg.1 r c) ∧ (L.foldl (wr bcp Pt j) fg).2 r = fg.2 r := by
  induction L generalizing fg with
  | nil => exact ⟨fun _ => rfl, rfl⟩
  | cons x L ih =>
    rw [List.foldl_cons]
    obtain ⟨h1, h2⟩ := ih (wr bcp Pt j fg x)
    obtain ⟨h3, h4⟩ := wr_other hr fg x (bcp := bcp) (Pt := Pt)
    exact ⟨fun c => (h1 c).trans (h3 c), h2.trans h4⟩

theorem res_congr {C r : ℕ} {X : ℕ → P3 ℝ} {fg fg' : (ℕ → ℕ → ℝ) × (ℕ → P3 ℝ)} (h1 : ∀ c, fg.1 r c = fg'.1 r c) (h2 : fg.2 r = fg'.2 r) : res C X fg r = res C X fg' r := by
  unfold res
  rw [h2]
  congr 1
  exact Finset.sum_congr rfl fun c _ => by rw [h1]

theorem res_wr {C j : ℕ} {fg : (ℕ → ℕ → ℝ) × (ℕ → P3 ℝ)} {x : ℕ × ℝ} (hx : x.1 < bcp + C) (hC : 0 < C) (h0 : x.1 = 0 ∨ bcp < x.1 → fg.1 j (x.1 - bcp) = 0) (X : ℕ → P3 ℝ) :
    res C X (wr bcp Pt j fg x) j = res C X fg j + x.2 • ptOf bcp Pt X x.1 := by
  unfold wr ptOf
  split_ifs with q
  · unfold res
    dsimp only
    have hm : x.1 - bcp ∈ Finset.range C := Finset.mem_range.mpr (by omega)
    rw [← Finset.sum_erase_add _ _ hm, ← Finset.sum_erase_add (s := Finset.range C) (f := fun c => fg.1 j c • X c) hm, if_pos ⟨rfl, rfl⟩, h0 q, zero_smul, add_zero]
    rw [Finset.sum_congr rfl (g := fun c => fg.1 j c • X c) fun c hc => by rw [if_neg (fun w => (Finset.mem_erase.mp hc).1 w.2)]]
    abel
  · unfold res
    dsimp only
    rw [if_pos rfl]
    abel

theorem res_foldl {C j : ℕ} (hC : 0 < C) {L : List (ℕ × ℝ)} (hL : (L.map Prod.fst).Nodup) (hx : ∀ x ∈ L, x.1 < bcp + C) {fg : (ℕ → ℕ → ℝ) × (ℕ → P3 ℝ)}
    (h0 : ∀ x ∈ L, (x.1 = 0 ∨ bcp < x.1) → fg.1 j (x.1 - bcp) = 0) (X : ℕ → P3 ℝ) :
    res C X (L.foldl (wr bcp Pt j) fg) j = res C X fg j + (L.map fun x => x.2 • ptOf bcp Pt X x.1).sum := by
  induction L generalizing fg with
  | nil => simp
  | cons x L ih =>
    rw [List.map_cons, List.nodup_cons] at hL
    rw [List.foldl_cons, ih hL.2 (fun y hy => hx y (List.mem_cons_of_mem _ hy)), res_wr (hx x List.mem_cons_self) hC (h0 x List.mem_cons_self), List.map_cons, List.sum_cons, add_assoc]
    intro y hy hq
    have hne : y.1 ≠ x.1 := fun e => hL.1 (e ▸ List.mem_map_of_mem (f := Prod.fst) hy)
    have := h0 y (List.mem_cons_of_mem _ hy) hq
    unfold wr
    split_ifs with q
    · dsimp only
      rw [if_neg (by omega), this]
    · exact this

theorem setWeight_eq {S : GB ℝ} {R j i col row idx : ℕ} {w : ℝ} (hidx : findControlPoint n d (enumCount n d) 0 i col row = .ok idx) (hle : idx ≤ enumCount n d)
    (hb : bcp ≤ enumCount n d) (hj : j < R) (hr : idx ≠ 0 → idx ≤ bcp → S.controlPoint i col row = .ok (Pt (idx - 1))) (fg : (ℕ → ℕ → ℝ) × (ℕ → P3 ℝ)) :
    S.setWeight n d bcp (enumCount n d) j i col row w (mat R (enumCount n d + 1 - bcp) fg.1, tab R fg.2) =
      .ok (mat R (enumCount n d + 1 - bcp) (wr bcp Pt j fg (idx, w)).1, tab R (wr bcp Pt j fg (idx, w)).2) := by
  unfold setWeight wr
  rw [hidx, M_bind_ok]
  dsimp only
  by_cases c1 : bcp < idx
  · rw [if_pos c1, if_pos (Or.inr c1), matSet_eq hj (by omega), M_bind_ok]
  · rw [if_neg c1]
    by_cases c2 : idx = 0
    · subst c2
      rw [if_pos rfl, if_pos (Or.inl rfl), matSet_eq hj (by omega), M_bind_ok, Nat.zero_sub]
    · rw [if_neg c2, if_neg (by omega), hr c2 (by omega), M_bind_ok, rhsAdd_eq hj, M_bind_ok]

end writes

/-! ### The smoothing rows -/

theorem prev_cases {i : ℕ} (hi : i < n) : (i + n - 1) % n = if i = 0 then n - 1 else i - 1 := by
  split_ifs with q
  · subst q; rw [Nat.zero_add, Nat.mod_eq_of_lt (by omega)]
  · rw [show i + n - 1 = (i - 1) + n by omega, Nat.add_mod_right, Nat.mod_eq_of_lt (by omega)]

theorem samePoint_side {a b : Name} (hn : 3 ≤ n) (ha : a.side < n) (he : a.side = b.side) (h : SamePoint n d a b) : a = b := by
  obtain ⟨i, j, k⟩ := a
  obtain ⟨i', j', k'⟩ := b
  dsimp only at ha he
  subst he
  have := prev_cases ha
  rcases h with h | ⟨_, _, h⟩ | ⟨_, _, h⟩
  · exact h
  · simp only [Name.mk.injEq] at h
    split_ifs at this <;> omega
  · simp only [Name.mk.injEq] at h
    split_ifs at this <;> omega

theorem above_find (hn : 3 ≤ n) {a : Name} (ha : Name.Main n d a) : ∃ idx, findControlPoint n d (enumCount n d) 0 a.side a.col (a.row + 1) = .ok idx ∧
    ((above n d a = none ∧ idx = 0) ∨ ∃ q, above n d a = some q ∧ q.InRange n d ∧ IsAt n d q idx ∧ (a.row + 1 < (d + 1) / 2 → q = ⟨a.side, a.col, a.row + 1⟩) ∧
      (¬a.row + 1 < (d + 1) / 2 → a.row + 1 = (d + 1) / 2 ∧ a.col = a.row ∧ q = ⟨(a.side + n - 1) % n, d - (d + 1) / 2, (d + 1) / 2 - 1⟩)) := by
  obtain ⟨i, c, r⟩ := a
  obtain ⟨h1, h2, h3⟩ := ha
  dsimp only at *
  unfold above
  dsimp only
  by_cases c1 : r + 1 < (d + 1) / 2
  · rw [if_pos c1]
    have hq : (⟨i, c, r + 1⟩ : Name).InRange n d := ⟨h1, by dsimp only; omega, c1⟩
    obtain ⟨idx, h, e⟩ := isAt_exists hq
    exact ⟨idx, e, Or.inr ⟨_, rfl, hq, h, fun _ => rfl, fun w => absurd c1 w⟩⟩
  · rw [if_neg c1]
    have hr : r + 1 = (d + 1) / 2 := by omega
    by_cases c2 : d % 2 = 0 ∧ c = (d + 1) / 2
    · rw [if_pos c2]
      refine ⟨0, find_none fun u hu => ?_, Or.inl ⟨rfl, rfl⟩⟩
      obtain ⟨m1, m2, m3⟩ := vis_main hu
      unfold Matches
      rw [usub_of_le (by omega), usub_of_le (by omega)]
      omega
    · rw [if_neg c2]
      have hm : Name.Main n d ⟨(i + n - 1) % n, d - (d + 1) / 2, (d + 1) / 2 - 1⟩ := ⟨Nat.mod_lt _ (by omega), by dsimp only; omega, by dsimp only; omega⟩
      obtain ⟨t, ht, e, _⟩ := visited_mem hm.1 hm.2.1 hm.2.2
      refine ⟨1 + t + 0, find_unique ht ?_ ?_, Or.inr ⟨_, rfl, hm.inRange, ⟨t, ht, by omega, Or.inl e.symm⟩, fun w => absurd w c1, fun _ => ⟨hr, by omega, rfl⟩⟩⟩
      · unfold Matches
        change _ ∨ _ ∨ _
        rw [show vis n d t = _ from e]
        dsimp only
        rw [usub_of_le (show d - (d + 1) / 2 ≤ d by omega)]
        exact Or.inr (Or.inr ⟨(nextIx_prevIx h1).symm, by omega, by omega⟩)
      · intro u hu hmat
        obtain ⟨m1, m2, m3⟩ := vis_main hu
        refine visited_inj hu ht ?_
        rw [e]
        unfold Matches at hmat
        rw [usub_of_le (by omega), usub_of_le (by omega)] at hmat
        change vis n d u = _
        rcases hmat with ⟨_, _, w⟩ | ⟨_, w1, w2⟩ | ⟨w1, w2, w3⟩
        · omega
        · omega
        · rcases hv : vis n d u with ⟨i', j', k'⟩
          rw [hv] at m1 m2 m3 w1 w2 w3
          dsimp only at *
          simp only [Name.mk.injEq]
          refine ⟨?_, by omega, by omega⟩
          rw [w1]
          exact (prevIx_nextIx m1).symm

theorem isAt_le {q : Name} {idx : ℕ} (h : IsAt n d q idx) : idx ≠ 0 ∧ idx ≤ enumCount n d := by
  obtain ⟨t, ht, rfl, _⟩ := h
  omega

section

variable {S : GB ℝ} {F : ℕ → ℕ → ℕ → P3 ℝ} {bcp : ℕ}

theorem read_at (hF : HasNet S n d F) (hc : ∀ a b : Name, a.InRange n d → b.InRange n d → SamePoint n d a b → F a.side a.col a.row = F b.side b.col b.row) {q : Name}
    (hq : q.InRange n d) {idx : ℕ} (h : IsAt n d q idx) :
    S.controlPoint q.side q.col q.row = .ok (F (vis n d (idx - 1)).side (vis n d (idx - 1)).col (vis n d (idx - 1)).row) := by
  obtain ⟨t, ht, rfl, hs⟩ := h
  rw [show S.controlPoint q.side q.col q.row = _ from hF.cpt hq.1 hq.2.1 hq.2.2, Nat.add_sub_cancel, hc q (vis n d t) hq (vis_main ht).inRange hs]

/-- The weights of the row of an inner point. -/
theorem smooth_inner (hn : 3 ≤ n) (hF : HasNet S n d F)
    (hc : ∀ a b : Name, a.InRange n d → b.InRange n d → SamePoint n d a b → F a.side a.col a.row = F b.side b.col b.row) {fixed : ℕ} (hf1 : 1 ≤ fixed) (hf2 : fixed ≤ (d + 1) / 2)
    (hb : bcp = rowStart n d fixed) {t : ℕ} (ht : t < enumCount n d) (htb : bcp ≤ t) {R j : ℕ} (hj : j < R) (s : ℝ) (fg : (ℕ → ℕ → ℝ) × (ℕ → P3 ℝ))
    (h0 : ∀ c, fg.1 j c = 0) (h0' : fg.2 j = 0) : ∃ fg' : (ℕ → ℕ → ℝ) × (ℕ → P3 ℝ),
      (do
        let q ← fdiv (-s) 4
        let Ab ← S.setWeight n d bcp (enumCount n d) j (vis n d t).side (usub (vis n d t).col 1) (vis n d t).row q (mat R (enumCount n d + 1 - bcp) fg.1, tab R fg.2)
        let Ab ← S.setWeight n d bcp (enumCount n d) j (vis n d t).side ((vis n d t).col + 1) (vis n d t).row q Ab
        let Ab ← S.setWeight n d bcp (enumCount n d) j (vis n d t).side (vis n d t).col (usub (vis n d t).row 1) q Ab
        let Ab ← S.setWeight n d bcp (enumCount n d) j (vis n d t).side (vis n d t).col ((vis n d t).row + 1) q Ab
        let A ← matSet Ab.1 j (t + 1 - bcp) s
        .ok (A, Ab.2)) = Except.ok (mat R (enumCount n d + 1 - bcp) fg'.1, tab R fg'.2) ∧
      (∀ r ≠ j, (∀ c, fg'.1 r c = fg.1 r c) ∧ fg'.2 r = fg.2 r) ∧
      ∀ (X : ℕ → P3 ℝ) (val : Name → P3 ℝ), (∀ q idx, q.InRange n d → IsAt n d q idx → val q = ptOf bcp (fun t => F (vis n d t).side (vis n d t).col (vis n d t).row) X idx) →
        res (enumCount n d + 1 - bcp) X fg' j = s • val (vis n d t) - (s / 4) • ((neighbours n d (vis n d t)).map (optPoint val (X 0))).sum := by
  set Pt : ℕ → P3 ℝ := fun t => F (vis n d t).side (vis n d t).col (vis n d t).row with hPt
  have hle : bcp ≤ enumCount n d := by omega
  have hrow : fixed ≤ (vis n d t).row := by
    by_contra w
    have := (vis_row ht hf2).mpr (by omega)
    omega
  have hmain := vis_main ht
  have hown : IsAt n d (vis n d t) (t + 1) := ⟨t, ht, rfl, Or.inl rfl⟩
  generalize hv : vis n d t = a at *
  obtain ⟨i, c, r⟩ := a
  obtain ⟨h1, h2, h3⟩ := hmain
  dsimp only at *
  have hq1 : (⟨i, c - 1, r⟩ : Name).InRange n d := ⟨h1, by dsimp only; omega, by dsimp only; omega⟩
  have hq2 : (⟨i, c + 1, r⟩ : Name).InRange n d := ⟨h1, by dsimp only; omega, by dsimp only; omega⟩
  have hq3 : (⟨i, c, r - 1⟩ : Name).InRange n d := ⟨h1, by dsimp only; omega, by dsimp only; omega⟩
  have hq0 : (⟨i, c, r⟩ : Name).InRange n d := ⟨h1, by dsimp only; omega, by dsimp only; omega⟩
  obtain ⟨i1, a1, e1⟩ := isAt_exists hq1
  obtain ⟨i2, a2, e2⟩ := isAt_exists hq2
  obtain ⟨i3, a3, e3⟩ := isAt_exists hq3
  obtain ⟨i4, e4, a4⟩ := above_find hn (a := ⟨i, c, r⟩) ⟨h1, h2, h3⟩
  dsimp only at e1 e2 e3 e4
  set L : List (ℕ × ℝ) := [(i1, -s / 4), (i2, -s / 4), (i3, -s / 4), (i4, -s / 4), (t + 1, s)] with hL
  have l1 := isAt_le a1
  have l2 := isAt_le a2
  have l3 := isAt_le a3
  have l4 : i4 ≤ enumCount n d := by
    rcases a4 with ⟨_, w⟩ | ⟨q, _, _, w, _⟩
    · omega
    · exact (isAt_le w).2
  have r4 : i4 ≠ 0 → i4 ≤ bcp → S.controlPoint i c (r + 1) = .ok (Pt (i4 - 1)) := by
    intro w1 w2
    rcases a4 with ⟨_, w⟩ | ⟨q, _, qr, w, g1, g2⟩
    · exact absurd w w1
    · by_cases cc : r + 1 < (d + 1) / 2
      · have := g1 cc
        subst this
        exact read_at hF hc qr w
      · obtain ⟨g3, g4, rfl⟩ := g2 cc
        have hm : Name.Main n d ⟨(i + n - 1) % n, d - (d + 1) / 2, (d + 1) / 2 - 1⟩ := ⟨Nat.mod_lt _ (by omega), by dsimp only; omega, by dsimp only; omega⟩
        obtain ⟨u, hu, rfl, hs⟩ := w
        have heq := main_unique hm (vis_main hu) hs
        have hu' := (vis_row (f := fixed) hu hf2).not
        rw [← heq] at hu'
        dsimp only at hu'
        omega
  refine ⟨L.foldl (wr bcp Pt j) fg, ?_, fun r hr => foldl_wr_other hr L fg, ?_⟩
  · rw [fdiv_of_ne (by norm_num), M_bind_ok, usub_of_le (show 1 ≤ c by omega), usub_of_le (show 1 ≤ r by omega),
      setWeight_eq (Pt := Pt) e1 l1.2 hle hj (fun _ _ => read_at hF hc hq1 a1), M_bind_ok,
      setWeight_eq (Pt := Pt) e2 l2.2 hle hj (fun _ _ => read_at hF hc hq2 a2), M_bind_ok,
      setWeight_eq (Pt := Pt) e3 l3.2 hle hj (fun _ _ => read_at hF hc hq3 a3), M_bind_ok,
      setWeight_eq (Pt := Pt) e4 l4 hle hj r4, M_bind_ok]
    dsimp only
    rw [matSet_eq hj (by omega), M_bind_ok]
    simp only [hL, List.foldl_cons, List.foldl_nil]
    conv_rhs => rw [wr]
    rw [if_pos (Or.inr (show bcp < t + 1 by omega))]
  · intro X val hval
    have ne : ∀ {q q' : Name} {x y : ℕ}, q.InRange n d → q'.InRange n d → IsAt n d q x → IsAt n d q' y → q.side = q'.side → q ≠ q' → x ≠ y := by
      intro q q' x y g1 g2 g3 g4 g5 g6 g7
      subst g7
      exact g6 (samePoint_side hn g1.1 g5 (isAt_same g1 g2 g3 g4))
    have n12 := ne hq1 hq2 a1 a2 rfl (by simp only [ne_eq, Name.mk.injEq]; omega)
    have n13 := ne hq1 hq3 a1 a3 rfl (by simp only [ne_eq, Name.mk.injEq]; omega)
    have n10 := ne hq1 hq0 a1 hown rfl (by simp only [ne_eq, Name.mk.injEq]; omega)
    have n23 := ne hq2 hq3 a2 a3 rfl (by simp only [ne_eq, Name.mk.injEq]; omega)
    have n20 := ne hq2 hq0 a2 hown rfl (by simp only [ne_eq, Name.mk.injEq]; omega)
    have n30 := ne hq3 hq0 a3 hown rfl (by simp only [ne_eq, Name.mk.injEq]; omega)
    have n4 : i4 ≠ i1 ∧ i4 ≠ i2 ∧ i4 ≠ i3 ∧ i4 ≠ t + 1 := by
      rcases a4 with ⟨_, w⟩ | ⟨q, _, qr, w, g1, g2⟩
      · omega
      · by_cases cc : r + 1 < (d + 1) / 2
        · have := g1 cc
          subst this
          exact ⟨ne qr hq1 w a1 rfl (by simp only [ne_eq, Name.mk.injEq]; omega), ne qr hq2 w a2 rfl (by simp only [ne_eq, Name.mk.injEq]; omega),
            ne qr hq3 w a3 rfl (by simp only [ne_eq, Name.mk.injEq]; omega), ne qr hq0 w hown rfl (by simp only [ne_eq, Name.mk.injEq]; omega)⟩
        · obtain ⟨g3, g4, rfl⟩ := g2 cc
          have p1 := prev_cases h1
          have p2 := prev_cases (n := n) (i := (i + n - 1) % n) (Nat.mod_lt _ (by omega))
          have fin : ∀ {q' : Name} {y : ℕ}, q'.InRange n d → IsAt n d q' y → q'.side = i →
              (q'.col < (d + 1) / 2 → ¬(d - (d + 1) / 2 = d - q'.row ∧ (d + 1) / 2 - 1 = q'.col)) → i4 ≠ y := by
            rintro ⟨i', c', r'⟩ y g5 g6 rfl g7 g8
            subst g8
            rcases isAt_same qr g5 w g6 with x | ⟨_, _, x⟩ | ⟨x1, _, x⟩
            · simp only [Name.mk.injEq] at x
              dsimp only at *
              split_ifs at p1 <;> omega
            · simp only [Name.mk.injEq] at x
              dsimp only at *
              obtain ⟨x, _⟩ := x
              split_ifs at p1 p2 <;> omega
            · simp only [Name.mk.injEq] at x
              exact g7 x1 x.2
          refine ⟨fin hq1 a1 rfl ?_, fin hq2 a2 rfl ?_, fin hq3 a3 rfl ?_, fin hq0 hown rfl ?_⟩ <;> dsimp only <;> omega
    rw [res_foldl (by omega) (L := L)]
    · have hres : res (enumCount n d + 1 - bcp) X fg j = 0 := by
        unfold res
        rw [h0', sub_zero]
        exact Finset.sum_eq_zero fun c _ => by rw [h0, zero_smul]
      have h4 : ptOf bcp Pt X i4 = optPoint val (X 0) (above n d ⟨i, c, r⟩) := by
        rcases a4 with ⟨g1, rfl⟩ | ⟨q, g1, qr, w, _, _⟩
        · rw [g1]
          unfold ptOf optPoint
          rw [if_pos (Or.inl rfl), Nat.zero_sub]
        · rw [g1]
          exact (hval q i4 qr w).symm
      rw [hres, zero_add, hL]
      unfold neighbours
      simp only [List.map_cons, List.map_nil, List.sum_cons, List.sum_nil, add_zero]
      rw [h4, ← hval _ _ hq1 a1, ← hval _ _ hq2 a2, ← hval _ _ hq3 a3, ← hval _ _ hq0 hown]
      simp only [optPoint]
      rw [show -s / 4 = -(s / 4) by ring]
      simp only [neg_smul, smul_add]
      abel
    · rw [hL]
      simp only [List.map_cons, List.map_nil, List.nodup_cons, List.mem_cons, List.not_mem_nil, or_false, List.nodup_nil, not_false_eq_true, and_true, not_or]
      refine ⟨⟨n12, n13, n4.1.symm, n10⟩, ⟨n23, n4.2.1.symm, n20⟩, ⟨n4.2.2.1.symm, n30⟩, n4.2.2.2⟩
    · intro x hx
      rw [hL] at hx
      simp only [List.mem_cons, List.not_mem_nil, or_false] at hx
      rcases hx with rfl | rfl | rfl | rfl | rfl <;> dsimp only <;> omega
    · intro x _ _
      exact h0 _

end

end GB

end Transfinite
