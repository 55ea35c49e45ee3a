import Verif.Model.NelderMead
import Verif.Spec.NelderMead
import Mathlib.Algebra.BigOperators.Ring.Finset

/-! # Lemmas on the method of Nelder and Mead -/

namespace Transfinite.NelderMead

open Spec

variable {K : Type} [Field K] [LinearOrder K] {n : ℕ} {f : List K → K} {P : ℕ → ℕ → K}

theorem forLoop_inplace {n : ℕ} (a b : ℕ → K) (body : ℕ → List K → M (List K)) (h : ∀ k < n, ∀ g : ℕ → K, g k = a k → body k (tab n g) = .ok (tab n (Function.update g k (b k)))) :
    forLoop n body (tab n a) = .ok (tab n b) := by
  have key : ∀ m ≤ n, forLoop m body (tab n a) = .ok (tab n fun j => if j < m then b j else a j) := by
    intro m
    induction m with
    | zero => intro _; simp [forLoop]
    | succ m ih =>
      intro hm
      rw [forLoop_succ, ih (by omega), M_bind_ok, h m (by omega) _ (by rw [if_neg (lt_irrefl m)])]
      congr 1
      refine tab_congr fun j _ => ?_
      rw [Function.update_apply]
      by_cases q : j = m
      · rw [if_pos q, if_pos (by omega), q]
      · rw [if_neg q]
        by_cases q' : j < m
        · rw [if_pos q', if_pos (by omega)]
        · rw [if_neg q', if_neg (by omega)]
  rw [key n (le_refl n)]
  congr 1
  exact tab_congr fun j hj => by rw [if_pos hj]

theorem addmul_eq (a b : ℕ → K) (t : K) : addmul (tab n a) (tab n b) t = .ok (tab n fun j => a j + b j * t) := by
  unfold addmul
  rw [length_tab]
  refine forLoop_inplace _ _ _ fun k hk g hg => ?_
  rw [vget_tab _ hk, M_bind_ok, vget_tab _ hk, M_bind_ok, vset_tab _ _ hk, hg]

theorem average_eq (a b : ℕ → K) : average (tab n a) (tab n b) = .ok (tab n fun j => (a j + b j) / 2) := by
  unfold average
  rw [length_tab]
  refine forLoop_inplace _ _ _ fun k hk g hg => ?_
  rw [vget_tab _ hk, M_bind_ok, vget_tab _ hk, M_bind_ok, vset_tab _ _ hk, hg]

/-- The simplex with the given vertices. -/
def simplex (f : List K → K) (n : ℕ) (P : ℕ → ℕ → K) : Simplex K := ⟨tab (n + 1) fun i => tab n (P i), tab (n + 1) fun i => f (tab n (P i))⟩

theorem simplex_congr {Q : ℕ → ℕ → K} (h : ∀ i ≤ n, ∀ j < n, P i j = Q i j) : simplex f n P = simplex f n Q := by
  unfold simplex
  have : ∀ i < n + 1, tab n (P i) = tab n (Q i) := fun i hi => tab_congr fun j hj => h i (by omega) j hj
  congr 1
  · exact tab_congr this
  · exact tab_congr fun i hi => by rw [this i hi]

theorem start_eq (x : ℕ → K) (step : K) : start f (tab n x) step = .ok (simplex f n fun i j => if i = j + 1 then x j + step else x j) := by
  unfold start
  rw [length_tab, replicate_eq_tab]
  have key : ∀ m ≤ n, forLoop m (fun i (S : List (List K)) => do
    let p ← vget S (i + 1)
    let a ← vget p i
    let p' ← vset p i (a + step)
    vset S (i + 1) p') (tab (n + 1) fun _ => tab n x) = .ok (tab (n + 1) fun i => tab n fun j => if i = j + 1 ∧ j < m then x j + step else x j) := by
    intro m
    induction m with
    | zero => intro _; simp [forLoop]
    | succ m ih =>
      intro hm
      rw [forLoop_succ, ih (by omega), M_bind_ok, vget_tab _ (by omega), M_bind_ok, vget_tab _ (by omega), M_bind_ok, vset_tab _ _ (by omega), M_bind_ok, vset_tab _ _ (by omega)]
      congr 1
      refine tab_congr fun i _ => ?_
      rw [Function.update_apply]
      by_cases q : i = m + 1
      · rw [if_pos q]
        refine tab_congr fun j _ => ?_
        rw [Function.update_apply]
        by_cases q' : j = m
        · rw [if_pos q', if_neg (by omega), if_pos (by omega), q']
        · rw [if_neg q', if_neg (by omega), if_neg (by omega)]
      · rw [if_neg q]
        refine tab_congr fun j _ => ?_
        by_cases q' : i = j + 1 ∧ j < m
        · rw [if_pos q', if_pos (by omega)]
        · rw [if_neg q', if_neg (by omega)]
  rw [key n (le_refl n), M_bind_ok]
  have : (tab (n + 1) fun i => tab n fun j => if i = j + 1 ∧ j < n then x j + step else x j) = tab (n + 1) fun i => tab n fun j => if i = j + 1 then x j + step else x j :=
    tab_congr fun i _ => tab_congr fun j hj => by simp [hj]
  rw [this, List.map_map]
  rfl

/-- What is known about the selected vertices. -/
structure Picked (m : ℕ) (v : ℕ → K) (e : Extremes) : Prop where
  low : e.low < m
  high : e.high < m
  second : e.second < m
  le : ∀ i < m, v e.low ≤ v i
  ge : ∀ i < m, v i ≤ v e.high
  sec : ∀ i < m, i ≠ e.high → v i ≤ v e.second

theorem pick_eq (v : ℕ → K) {m : ℕ} (hm : m < n + 1) {e : Extremes} (h : m = 0 ∧ e = ⟨0, 0, 0⟩ ∨ Picked m v e) : ∃ e', pick (tab (n + 1) v) m e = .ok e' ∧ Picked (m + 1) v e' := by
  have hb : e.low < n + 1 ∧ e.high < n + 1 ∧ e.second < n + 1 := by
    rcases h with ⟨_, rfl⟩ | h
    · exact ⟨by simp, by simp, by simp⟩
    · exact ⟨h.low.trans (by omega), h.high.trans (by omega), h.second.trans (by omega)⟩
  unfold pick
  rw [vget_tab _ hm, M_bind_ok, vget_tab _ hb.1, M_bind_ok, vget_tab _ hb.2.1, M_bind_ok, vget_tab _ hb.2.2, M_bind_ok]
  rcases h with ⟨rfl, rfl⟩ | h
  · dsimp only
    rw [if_neg (lt_irrefl _), if_neg (lt_irrefl _), if_neg (lt_irrefl _)]
    exact ⟨_, rfl, by simp, by simp, by simp, fun i hi => by rw [Nat.lt_one_iff.mp hi], fun i hi => by rw [Nat.lt_one_iff.mp hi], fun i hi _ => by rw [Nat.lt_one_iff.mp hi]⟩
  · have h0 := h.low
    have hlh := h.le _ h.high
    have hls := h.le _ h.second
    have hsh := h.ge _ h.second
    have split : ∀ {p : ℕ → Prop}, (∀ i < m, p i) → p m → ∀ i < m + 1, p i := by
      intro p a b i hi
      rcases Nat.lt_succ_iff_lt_or_eq.mp hi with q | q
      · exact a i q
      · rw [q]; exact b
    split_ifs with c1 c2 c3
    · refine ⟨_, rfl, by simp, h.high.trans (by omega), h.second.trans (by omega), split (fun i hi => c1.le.trans (h.le i hi)) (le_refl _), split h.ge (c1.le.trans hlh), ?_⟩
      exact split h.sec fun _ => c1.le.trans hls
    · refine ⟨_, rfl, h0.trans (by omega), by simp, h.high.trans (by omega), split h.le (hlh.trans c2.le), split (fun i hi => (h.ge i hi).trans c2.le) (le_refl _), ?_⟩
      exact split (fun i hi _ => h.ge i hi) fun q => absurd rfl q
    · refine ⟨_, rfl, h0.trans (by omega), h.high.trans (by omega), by simp, split h.le (not_lt.mp c1), split h.ge (not_lt.mp c2), ?_⟩
      exact split (fun i hi q => (h.sec i hi q).trans c3.le) fun _ => le_refl _
    · exact ⟨_, rfl, h0.trans (by omega), h.high.trans (by omega), h.second.trans (by omega), split h.le (not_lt.mp c1), split h.ge (not_lt.mp c2), split h.sec fun _ => not_lt.mp c3⟩

theorem extremes_eq : ∃ e, extremes n (simplex f n P) = .ok (e, tab n fun j => ∑ i ∈ Finset.range (n + 1), P i j * (1 / (n : K))) ∧ Picked (n + 1) (fun i => f (tab n (P i))) e := by
  unfold extremes
  have key : ∀ m ≤ n + 1, ∃ e, forLoop m (fun i (r : Extremes × List K) => do
    let p ← vget (simplex f n P).S i
    let c ← addmul r.2 p (1 / (n : K))
    let e ← pick (simplex f n P).y i r.1
    .ok (e, c)) (⟨0, 0, 0⟩, List.replicate n 0) = .ok (e, tab n fun j => ∑ i ∈ Finset.range m, P i j * (1 / (n : K))) ∧
      (m = 0 ∧ e = ⟨0, 0, 0⟩ ∨ Picked m (fun i => f (tab n (P i))) e) := by
    intro m
    induction m with
    | zero =>
      intro _
      refine ⟨_, ?_, Or.inl ⟨rfl, rfl⟩⟩
      rw [replicate_eq_tab]
      rfl
    | succ m ih =>
      intro hm
      obtain ⟨e, h1, h2⟩ := ih (by omega)
      obtain ⟨e', h3, h4⟩ := pick_eq (n := n) _ (by omega) h2
      refine ⟨e', ?_, Or.inr h4⟩
      rw [forLoop_succ, h1, M_bind_ok]
      unfold simplex
      dsimp only
      rw [vget_tab _ (by omega), M_bind_ok, addmul_eq, M_bind_ok, h3, M_bind_ok]
      congr 2
      exact tab_congr fun j _ => by rw [Finset.sum_range_succ]
  obtain ⟨e, h1, h2⟩ := key (n + 1) (le_refl _)
  exact ⟨e, h1, h2.resolve_left (by simp)⟩

theorem replace_eq {i : ℕ} (hi : i ≤ n) (p : ℕ → K) : replace (simplex f n P) i (tab n p) (f (tab n p)) = .ok (simplex f n (Function.update P i p)) := by
  unfold replace simplex
  dsimp only
  rw [vset_tab _ _ (by omega), M_bind_ok, vset_tab _ _ (by omega), M_bind_ok]
  congr 2
  · refine tab_congr fun k _ => ?_
    by_cases q : k = i
    · rw [q, Function.update_self, Function.update_self]
    · rw [Function.update_of_ne q, Function.update_of_ne q]
  · refine tab_congr fun k _ => ?_
    by_cases q : k = i
    · rw [q, Function.update_self, Function.update_self]
    · rw [Function.update_of_ne q, Function.update_of_ne q]

theorem shrink_eq {a : ℕ} (ha : a ≤ n) : forLoop (n + 1) (shrinkOne f a) (simplex f n P) = .ok (simplex f n fun i j => if i = a then P a j else (P i j + P a j) / 2) := by
  have key : ∀ m ≤ n + 1, forLoop m (shrinkOne f a) (simplex f n P) = .ok (simplex f n fun i j => if i = a ∨ m ≤ i then P i j else (P i j + P a j) / 2) := by
    intro m
    induction m with
    | zero => intro _; simp [forLoop]
    | succ m ih =>
      intro hm
      rw [forLoop_succ, ih (by omega), M_bind_ok]
      unfold shrinkOne
      by_cases q : m = a
      · rw [if_pos q]
        congr 1
        refine simplex_congr fun i _ j _ => ?_
        by_cases q' : i = a ∨ m ≤ i
        · rw [if_pos q', if_pos (by omega)]
        · rw [if_neg q', if_neg (by omega)]
      · rw [if_neg q]
        have e1 : vget (simplex f n fun i j => if i = a ∨ m ≤ i then P i j else (P i j + P a j) / 2).S m = .ok (tab n (P m)) := by
          refine (vget_tab _ (by omega)).trans ?_
          congr 1
          exact tab_congr fun j _ => if_pos (Or.inr (le_refl m))
        have e2 : vget (simplex f n fun i j => if i = a ∨ m ≤ i then P i j else (P i j + P a j) / 2).S a = .ok (tab n (P a)) := by
          refine (vget_tab _ (by omega)).trans ?_
          congr 1
          exact tab_congr fun j _ => if_pos (Or.inl rfl)
        rw [e1, M_bind_ok, e2, M_bind_ok, average_eq, M_bind_ok, replace_eq (by omega)]
        congr 1
        refine simplex_congr fun i _ j _ => ?_
        by_cases q1 : i = m
        · rw [q1, Function.update_self, if_neg (by omega)]
        · rw [Function.update_of_ne q1]
          by_cases q' : i = a ∨ m ≤ i
          · rw [if_pos q', if_pos (by omega)]
          · rw [if_neg q', if_neg (by omega)]
  rw [key (n + 1) (le_refl _)]
  congr 1
  refine simplex_congr fun i hi j _ => ?_
  by_cases q : i = a
  · rw [if_pos (Or.inl q), if_pos q, q]
  · rw [if_neg (by omega), if_neg q]

variable [IsStrictOrderedRing K]

theorem iteration_eq (f : List K → K) (n : ℕ) (P : ℕ → ℕ → K) : ∃ Q e, iteration f n (simplex f n P) = .ok (simplex f n Q) ∧ Picked (n + 1) (fun i => f (tab n (P i))) e ∧
    NMStep (fun v => f (tab n v)) n P Q e.low e.high (f (tab n (P e.second))) := by
  obtain ⟨e, h1, h2⟩ := extremes_eq (f := f) (n := n) (P := P)
  have hh : e.high < n + 1 := h2.high
  have hl : e.low < n + 1 := h2.low
  have hS : ∀ Q : ℕ → ℕ → K, ∀ i < n + 1, vget (simplex f n Q).S i = .ok (tab n (Q i)) := fun Q i hi => vget_tab _ hi
  have hy : ∀ Q : ℕ → ℕ → K, ∀ i < n + 1, vget (simplex f n Q).y i = .ok (f (tab n (Q i))) := fun Q i hi => vget_tab _ hi
  have hc : (tab n fun j => (∑ i ∈ Finset.range (n + 1), P i j * (1 / (n : K))) + P e.high j * (-1 / (n : K))) = tab n (faceCentroid n P e.high) := by
    refine tab_congr fun j _ => ?_
    unfold faceCentroid
    rw [← Finset.add_sum_erase _ _ (Finset.mem_range.mpr hh), ← Finset.sum_mul]
    ring
  have hr : (tab n fun j => faceCentroid n P e.high j + faceCentroid n P e.high j * 1 + P e.high j * -1) = tab n (along (faceCentroid n P e.high) (P e.high) (-1)) := by
    refine tab_congr fun j _ => ?_
    unfold along
    ring
  have he : (tab n fun j => faceCentroid n P e.high j + along (faceCentroid n P e.high) (P e.high) (-1) j * 2 + faceCentroid n P e.high j * -2) =
      tab n (along (faceCentroid n P e.high) (P e.high) (-2)) := by
    refine tab_congr fun j _ => ?_
    unfold along
    ring
  have hco : ∀ p : ℕ → K, (tab n fun j => faceCentroid n P e.high j + p j * (1 / 2) + faceCentroid n P e.high j * -(1 / 2)) = tab n (along (faceCentroid n P e.high) p (1 / 2)) := by
    intro p
    refine tab_congr fun j _ => ?_
    unfold along
    ring
  have upd : ∀ p : ℕ → K, ∀ i ≤ n, ∀ j < n, Function.update P e.high p i j = if i = e.high then p j else P i j := by
    intro p i _ j _
    by_cases q : i = e.high
    · rw [q, Function.update_self, if_pos rfl]
    · rw [Function.update_of_ne q, if_neg q]
  unfold iteration
  rw [h1, M_bind_ok]
  dsimp only
  rw [hS _ _ hh, M_bind_ok, addmul_eq, M_bind_ok, hc]
  unfold move
  rw [hS _ _ hh, M_bind_ok, addmul_eq, M_bind_ok, addmul_eq, M_bind_ok, hr]
  dsimp only
  rw [hy _ _ hl, M_bind_ok, hy _ _ h2.second, M_bind_ok]
  unfold NMStep
  dsimp only
  set c := faceCentroid n P e.high with hcd
  set xr := along c (P e.high) (-1) with hxr
  split_ifs with c1 c2
  · unfold expand
    rw [addmul_eq, M_bind_ok, addmul_eq, M_bind_ok, he]
    dsimp only
    split_ifs with c3
    · exact ⟨_, e, replace_eq (by omega) _, h2, Or.inl ⟨c1, c3, upd _⟩⟩
    · exact ⟨_, e, replace_eq (by omega) _, h2, Or.inr (Or.inl ⟨c1, not_lt.mp c3, upd _⟩)⟩
  · unfold contract keepReflected
    rw [hy _ _ hh, M_bind_ok]
    have main : ∀ p : ℕ → K, (f (tab n xr) ≤ f (tab n (P e.high)) ∧ p = xr ∨ f (tab n (P e.high)) < f (tab n xr) ∧ p = P e.high) →
        ∃ Q, (do
          let xh ← vget (simplex f n (Function.update P e.high p)).S e.high
          let x1 ← addmul (tab n c) xh (1 / 2)
          let xc ← addmul x1 (tab n c) (-(1 / 2))
          let yc := f xc
          let yh ← vget (simplex f n (Function.update P e.high p)).y e.high
          if yc > yh then forLoop (n + 1) (shrinkOne f e.low) (simplex f n (Function.update P e.high p)) else replace (simplex f n (Function.update P e.high p)) e.high xc yc) = .ok (simplex f n Q) ∧
          (f (tab n (along c p (1 / 2))) ≤ f (tab n p) ∧ (∀ i ≤ n, ∀ j < n, Q i j = if i = e.high then along c p (1 / 2) j else P i j) ∨
           f (tab n p) < f (tab n (along c p (1 / 2))) ∧ ∀ i ≤ n, ∀ j < n, Q i j =
              if i = e.low then Function.update P e.high p e.low j else (Function.update P e.high p i j + Function.update P e.high p e.low j) / 2) := by
      intro p _
      rw [hS _ _ hh, Function.update_self, M_bind_ok, addmul_eq, M_bind_ok, addmul_eq, M_bind_ok, hco]
      dsimp only
      rw [hy _ _ hh, Function.update_self, M_bind_ok]
      split_ifs with c4
      · exact ⟨_, shrink_eq (by omega), Or.inr ⟨c4, fun i _ j _ => rfl⟩⟩
      · refine ⟨_, replace_eq (by omega) _, Or.inl ⟨not_lt.mp c4, ?_⟩⟩
        rw [Function.update_idem]
        exact upd _
    split_ifs with c3
    · obtain ⟨Q, q1, q2⟩ := main xr (Or.inl ⟨c3, rfl⟩)
      rw [replace_eq (by omega), M_bind_ok]
      exact ⟨Q, e, q1, h2, Or.inr (Or.inr (Or.inr ⟨not_lt.mp c1, c2, xr, Or.inl ⟨c3, rfl⟩, q2⟩))⟩
    · obtain ⟨Q, q1, q2⟩ := main (P e.high) (Or.inr ⟨not_le.mp c3, rfl⟩)
      rw [M_bind_ok]
      have hu : Function.update P e.high (P e.high) = P := Function.update_eq_self _ _
      rw [hu] at q1
      exact ⟨Q, e, q1, h2, Or.inr (Or.inr (Or.inr ⟨not_lt.mp c1, c2, P e.high, Or.inr ⟨not_le.mp c3, rfl⟩, q2⟩))⟩
  · exact ⟨_, e, replace_eq (by omega) _, h2, Or.inr (Or.inr (Or.inl ⟨not_lt.mp c1, not_lt.mp c2, upd _⟩))⟩

end Transfinite.NelderMead
