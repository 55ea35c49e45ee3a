import Verif.Lemmas.NelderMead
import Mathlib.Data.Rat.Cast.Order
import Mathlib.Algebra.Order.BigOperators.Ring.Finset

/-! # C59: optimization by the method of Nelder and Mead -/

namespace Transfinite.NelderMead

open Spec

variable {K : Type} [Field K] [LinearOrder K] [IsStrictOrderedRing K] {n : ℕ} {f : List K → K}

/-- C59: every iteration is a step of the method of Nelder and Mead (see `Spec.NMStep`), with a vertex of the lowest value, a vertex of the highest value, and a test value that is not less
than the values in the other vertices. -/
theorem C59_step (f : List K → K) (n : ℕ) (P : ℕ → ℕ → K) : ∃ Q a h m, iteration f n ⟨tab (n + 1) fun i => tab n (P i), tab (n + 1) fun i => f (tab n (P i))⟩ =
      .ok ⟨tab (n + 1) fun i => tab n (Q i), tab (n + 1) fun i => f (tab n (Q i))⟩ ∧ a ≤ n ∧ h ≤ n ∧
    (∀ i ≤ n, f (tab n (P a)) ≤ f (tab n (P i)) ∧ f (tab n (P i)) ≤ f (tab n (P h)) ∧ (i ≠ h → f (tab n (P i)) ≤ m)) ∧ m ≤ f (tab n (P h)) ∧
    NMStep (fun v => f (tab n v)) n P Q a h m := by
  obtain ⟨Q, e, h1, h2, h3⟩ := iteration_eq f n P
  exact ⟨Q, e.low, e.high, _, h1, Nat.lt_succ_iff.mp h2.low, Nat.lt_succ_iff.mp h2.high,
    fun i hi => ⟨h2.le i (by omega), h2.ge i (by omega), h2.sec i (by omega)⟩, h2.ge _ h2.second, h3⟩

/-- No step loses the best value. -/
theorem step_best {F : (ℕ → K) → K} (hF : ∀ u v : ℕ → K, (∀ j < n, u j = v j) → F u = F v) {P Q : ℕ → ℕ → K} {a h : ℕ} {m : K} (ha : a ≤ n) (hh : h ≤ n)
    (hP : ∀ i ≤ n, F (P a) ≤ F (P i) ∧ F (P i) ≤ F (P h)) (hm : m ≤ F (P h)) (hs : NMStep F n P Q a h m) : ∃ i ≤ n, F (Q i) ≤ F (P a) := by
  have other : ∀ p : ℕ → K, (∀ i ≤ n, ∀ j < n, Q i j = if i = h then p j else P i j) → (a = h → F p ≤ F (P a)) → ∃ i ≤ n, F (Q i) ≤ F (P a) := by
    intro p hQ hp
    by_cases q : a = h
    · refine ⟨a, ha, ?_⟩
      rw [hF (Q a) p fun j hj => by rw [hQ a ha j hj, if_pos q]]
      exact hp q
    · refine ⟨a, ha, le_of_eq (hF _ _ fun j hj => by rw [hQ a ha j hj, if_neg q])⟩
  unfold NMStep at hs
  rcases hs with ⟨h1, h2, h3⟩ | ⟨h1, h2, h3⟩ | ⟨h1, h2, h3⟩ | ⟨h1, h2, p, h3, h4⟩
  · exact other _ h3 fun _ => (h2.trans h1).le
  · exact other _ h3 fun _ => h1.le
  · exact other _ h3 fun q => by rw [q]; exact h2.trans hm
  · have hp : F p ≤ F (P h) := by
      rcases h3 with ⟨q, rfl⟩ | ⟨q, rfl⟩
      · exact q
      · exact le_refl _
    rcases h4 with ⟨h4, h5⟩ | ⟨h4, h5⟩
    · exact other _ h5 fun q => by rw [q]; exact h4.trans hp
    · refine ⟨a, ha, ?_⟩
      rw [hF (Q a) (Function.update P h p a) fun j hj => by rw [h5 a ha j hj, if_pos rfl]]
      by_cases q : a = h
      · rw [q, Function.update_self]; exact hp
      · rw [Function.update_of_ne q]

theorem spread_eq (v : ℕ → K) : spread n (tab (n + 1) v) = variance n v := by
  unfold spread variance
  dsimp only
  rw [sum_tab, List.map_map]
  have := sum_tab (n + 1) ((fun yi => (yi - (∑ i ∈ Finset.range (n + 1), v i) / ((n : K) + 1)) ^ 2) ∘ v)
  rw [this]
  rfl

theorem iteration_best (f : List K → K) (n : ℕ) (P : ℕ → ℕ → K) : ∃ Q, iteration f n (simplex f n P) = .ok (simplex f n Q) ∧
    ∀ i ≤ n, ∃ k ≤ n, f (tab n (Q k)) ≤ f (tab n (P i)) := by
  obtain ⟨Q, a, h, m, e, ha, hh, hP, hm, hs⟩ := C59_step f n P
  refine ⟨Q, e, fun i hi => ?_⟩
  obtain ⟨k, hk, hle⟩ := step_best (F := fun v => f (tab n v)) (fun u v huv => by rw [tab_congr huv]) ha hh (fun i hi => ⟨(hP i hi).1, (hP i hi).2.1⟩) hm hs
  exact ⟨k, hk, hle.trans (hP i hi).1⟩

theorem loop_best (f : List K → K) (n : ℕ) (tol : K) (k : ℕ) (P : ℕ → ℕ → K) (d : Option K) : ∃ Q d', loop f n tol k (simplex f n P) d = .ok (simplex f n Q, d') ∧
    (∀ i ≤ n, ∃ k ≤ n, f (tab n (Q k)) ≤ f (tab n (P i))) ∧ (d' = d ∧ Q = P ∧ (k = 0 ∨ atLeast tol d = false) ∨ d' = some (variance n fun i => f (tab n (Q i))) ∧ 0 < k) := by
  induction k generalizing P d with
  | zero => exact ⟨P, d, rfl, fun i hi => ⟨i, hi, le_refl _⟩, Or.inl ⟨rfl, rfl, Or.inl rfl⟩⟩
  | succ k ih =>
    unfold loop
    by_cases h : atLeast tol d = true
    · rw [if_pos h]
      obtain ⟨R, e, hR⟩ := iteration_best f n P
      rw [e, M_bind_ok]
      obtain ⟨Q, d', e', h1, h2⟩ := ih R (some (spread n (simplex f n R).y))
      refine ⟨Q, d', e', fun i hi => ?_, Or.inr ⟨?_, Nat.succ_pos k⟩⟩
      · obtain ⟨j, hj, hle⟩ := hR i hi
        obtain ⟨l, hl, hle'⟩ := h1 j hj
        exact ⟨l, hl, hle'.trans hle⟩
      · rcases h2 with ⟨q1, q2, _⟩ | q
        · rw [q1, q2]
          exact congrArg some (spread_eq _)
        · exact q.1
    · rw [if_neg h]
      exact ⟨P, d, rfl, fun i hi => ⟨i, hi, le_refl _⟩, Or.inl ⟨rfl, rfl, Or.inr (by simpa using h)⟩⟩

theorem minimum_eq (v : ℕ → K) : ∃ m ≤ n, minimum n (tab (n + 1) v) = .ok m ∧ ∀ i ≤ n, v m ≤ v i := by
  unfold minimum
  have key : ∀ k ≤ n, ∃ m ≤ k, forLoop k (fun i (m : ℕ) => do
    let a ← vget (tab (n + 1) v) (i + 1)
    let b ← vget (tab (n + 1) v) m
    .ok (if a < b then i + 1 else m)) 0 = .ok m ∧ ∀ i ≤ k, v m ≤ v i := by
    intro k
    induction k with
    | zero => intro _; exact ⟨0, le_refl _, rfl, fun i hi => by rw [Nat.le_zero.mp hi]⟩
    | succ k ih =>
      intro hk
      obtain ⟨m, hm, e, h⟩ := ih (by omega)
      refine ⟨if v (k + 1) < v m then k + 1 else m, by split_ifs <;> omega, ?_, fun i hi => ?_⟩
      · rw [forLoop_succ, e, M_bind_ok, vget_tab _ (by omega), M_bind_ok, vget_tab _ (by omega), M_bind_ok]
      · rcases Nat.le_succ_iff.mp hi with q | q
        · split_ifs with c
          · exact c.le.trans (h i q)
          · exact h i q
        · rw [q]
          split_ifs with c
          · exact le_refl _
          · exact not_lt.mp c
  exact key n (le_refl n)

/-- C59: `optimize` never fails; the value in the point it gives is not greater than the value in the starting point and in any other vertex of the starting simplex, which are one step away from
the starting point in the directions of the axes. The point is a best vertex of the last simplex, and the returned value tells whether the variance of the values in its vertices is less than the
tolerance (the returned value is false without any iteration). -/
theorem C59_optimize (f : List K → K) (x : ℕ → K) (maxIteration : ℕ) (tolerance step : K) : ∃ x' b, optimize f (tab n x) maxIteration tolerance step = .ok (tab n x', b) ∧
    f (tab n x') ≤ f (tab n x) ∧ (∀ i < n, f (tab n x') ≤ f (tab n fun j => if j = i then x j + step else x j)) ∧
    (maxIteration = 0 → b = false) ∧
    (0 < maxIteration → ∃ Q : ℕ → ℕ → K, (∃ i ≤ n, x' = Q i) ∧ (∀ i ≤ n, f (tab n x') ≤ f (tab n (Q i))) ∧ (b = true ↔ variance n (fun i => f (tab n (Q i))) < tolerance)) := by
  unfold optimize
  rw [start_eq, M_bind_ok, length_tab]
  obtain ⟨Q, d, e, h1, h2⟩ := loop_best f n tolerance maxIteration (fun i j => if i = j + 1 then x j + step else x j) none
  rw [e, M_bind_ok]
  obtain ⟨m, hm, e', h⟩ := minimum_eq (n := n) fun i => f (tab n (Q i))
  change ∃ x' b, (do
    let m ← minimum n (tab (n + 1) fun i => f (tab n (Q i)))
    let x' ← vget (tab (n + 1) fun i => tab n (Q i)) m
    Except.ok (x', !atLeast tolerance d)) = _ ∧ _
  rw [e', M_bind_ok, vget_tab _ (by omega), M_bind_ok]
  refine ⟨Q m, _, rfl, ?_, fun i hi => ?_, fun h0 => ?_, fun h0 => ⟨Q, ⟨m, hm, rfl⟩, h, ?_⟩⟩
  · obtain ⟨k, hk, hle⟩ := h1 0 (by omega)
    have : (tab n fun j => if 0 = j + 1 then x j + step else x j) = tab n x := tab_congr fun j _ => if_neg (by omega)
    rw [this] at hle
    exact (h k hk).trans hle
  · obtain ⟨k, hk, hle⟩ := h1 (i + 1) (by omega)
    have : (tab n fun j => if i + 1 = j + 1 then x j + step else x j) = tab n fun j => if j = i then x j + step else x j :=
      tab_congr fun j _ => by simp only [Nat.add_right_cancel_iff, eq_comm]
    rw [this] at hle
    exact (h k hk).trans hle
  · rcases h2 with ⟨q, _⟩ | q
    · rw [q]; rfl
    · omega
  · rcases h2 with ⟨q1, q2, q3 | q3⟩ | ⟨q, _⟩
    · omega
    · simp [atLeast] at q3
    · rw [q]
      simp [atLeast]

/-- C59: more iterations never give a worse point. -/
theorem C59_monotone (f : List K → K) (x : ℕ → K) (k l : ℕ) (hkl : k ≤ l) (tolerance step : K) {p q : List K} {b c : Bool} (hp : optimize f (tab n x) k tolerance step = .ok (p, b))
    (hq : optimize f (tab n x) l tolerance step = .ok (q, c)) : f q ≤ f p := by
  have split : ∀ (k m : ℕ) (P : ℕ → ℕ → K) (d : Option K), ∃ Q R d1 d2, loop f n tolerance k (simplex f n P) d = .ok (simplex f n Q, d1) ∧
      loop f n tolerance (k + m) (simplex f n P) d = .ok (simplex f n R, d2) ∧ ∀ i ≤ n, ∃ j ≤ n, f (tab n (R j)) ≤ f (tab n (Q i)) := by
    intro k m
    induction k with
    | zero =>
      intro P d
      obtain ⟨R, d', e, h, _⟩ := loop_best f n tolerance m P d
      exact ⟨P, R, d, d', rfl, by rw [Nat.zero_add]; exact e, h⟩
    | succ k ih =>
      intro P d
      rw [Nat.succ_add]
      unfold loop
      by_cases h : atLeast tolerance d = true
      · rw [if_pos h, if_pos h]
        obtain ⟨P', e, _⟩ := iteration_best f n P
        rw [e, M_bind_ok, M_bind_ok]
        exact ih P' _
      · rw [if_neg h, if_neg h]
        exact ⟨P, P, d, d, rfl, rfl, fun i hi => ⟨i, hi, le_refl _⟩⟩
  obtain ⟨Q, R, d1, d2, e1, e2, h⟩ := split k (l - k) (fun i j => if i = j + 1 then x j + step else x j) none
  rw [Nat.add_sub_cancel' hkl] at e2
  obtain ⟨m1, hm1, e3, h3⟩ := minimum_eq (n := n) fun i => f (tab n (Q i))
  obtain ⟨m2, hm2, e4, h4⟩ := minimum_eq (n := n) fun i => f (tab n (R i))
  unfold optimize at hp hq
  rw [start_eq, M_bind_ok, length_tab] at hp hq
  rw [e1, M_bind_ok] at hp
  rw [e2, M_bind_ok] at hq
  change (do
    let m ← minimum n (tab (n + 1) fun i => f (tab n (Q i)))
    let x' ← vget (tab (n + 1) fun i => tab n (Q i)) m
    Except.ok (x', !atLeast tolerance d1)) = _ at hp
  change (do
    let m ← minimum n (tab (n + 1) fun i => f (tab n (R i)))
    let x' ← vget (tab (n + 1) fun i => tab n (R i)) m
    Except.ok (x', !atLeast tolerance d2)) = _ at hq
  rw [e3, M_bind_ok, vget_tab _ (by omega), M_bind_ok] at hp
  rw [e4, M_bind_ok, vget_tab _ (by omega), M_bind_ok] at hq
  cases hp
  cases hq
  obtain ⟨j, hj, hle⟩ := h m1 hm1
  exact (h4 j hj).trans hle

/-- C59: without a positive tolerance, the returned value is always false. -/
theorem C59_tolerance (f : List K → K) (x : ℕ → K) (maxIteration : ℕ) {tolerance : K} (ht : tolerance ≤ 0) (step : K) : ∃ x', optimize f (tab n x) maxIteration tolerance step = .ok (x', false) := by
  obtain ⟨x', b, e, _, _, h0, h1⟩ := C59_optimize (n := n) f x maxIteration tolerance step
  refine ⟨tab n x', ?_⟩
  rw [e]
  rcases Nat.eq_zero_or_pos maxIteration with q | q
  · rw [h0 q]
  · obtain ⟨Q, _, _, h⟩ := h1 q
    cases b with
    | false => rfl
    | true =>
      have := h.mp rfl
      have h2 : 0 ≤ variance n fun i => f (tab n (Q i)) := by
        unfold variance
        have : (0 : K) < (n : K) + 1 := by exact_mod_cast Nat.succ_pos n
        exact div_nonneg (Finset.sum_nonneg fun i _ => sq_nonneg _) this.le
      exact absurd (this.trans_le ht) (not_lt.mpr h2)

/-! ## The number of evaluations -/

/-- `m` uses the values of the function `f` in at most `N` points. -/
def Uses {α : Type} (N : ℕ) (f : List K → K) (m : (List K → K) → M α) : Prop := ∃ pts : List (List K), pts.length ≤ N ∧ ∀ g : List K → K, (∀ p ∈ pts, g p = f p) → m g = m f

omit [IsStrictOrderedRing K] [LinearOrder K] [Field K] in
theorem Uses.const {α : Type} {f : List K → K} (m : M α) : Uses 0 f fun _ => m := ⟨[], by simp, fun _ _ => rfl⟩

omit [IsStrictOrderedRing K] [LinearOrder K] [Field K] in
theorem Uses.mono {α : Type} {N N' : ℕ} {f : List K → K} {m : (List K → K) → M α} (h : Uses N f m) (hN : N ≤ N') : Uses N' f m := by
  obtain ⟨p, h1, h2⟩ := h
  exact ⟨p, h1.trans hN, h2⟩

omit [IsStrictOrderedRing K] [LinearOrder K] [Field K] in
theorem Uses.bind {α β : Type} {N N' : ℕ} {f : List K → K} {m : (List K → K) → M α} {k : (List K → K) → α → M β} (h : Uses N f m) (h' : ∀ a, m f = .ok a → Uses N' f fun g => k g a) :
    Uses (N + N') f fun g => m g >>= k g := by
  obtain ⟨p, h1, h2⟩ := h
  cases e : m f with
  | error x =>
    refine ⟨p, by omega, fun g hg => ?_⟩
    dsimp only
    rw [h2 g hg, e]
    rfl
  | ok a =>
    obtain ⟨p', h3, h4⟩ := h' a e
    refine ⟨p ++ p', by rw [List.length_append]; omega, fun g hg => ?_⟩
    dsimp only
    rw [h2 g fun q hq => hg q (List.mem_append_left _ hq), e, M_bind_ok, M_bind_ok]
    exact h4 g fun q hq => hg q (List.mem_append_right _ hq)

omit [IsStrictOrderedRing K] [LinearOrder K] [Field K] in
theorem Uses.bind0 {α β : Type} {N : ℕ} {f : List K → K} {m : M α} {k : (List K → K) → α → M β} (h' : ∀ a, m = .ok a → Uses N f fun g => k g a) : Uses N f fun g => m >>= k g :=
  (Uses.bind (N' := N) (Uses.const (f := f) m) h').mono (by omega)

omit [IsStrictOrderedRing K] [LinearOrder K] [Field K] in
theorem Uses.value {α : Type} {N : ℕ} {f : List K → K} (x : List K) {k : (List K → K) → K → M α} (h : Uses N f fun g => k g (f x)) : Uses (N + 1) f fun g => k g (g x) := by
  obtain ⟨p, h1, h2⟩ := h
  refine ⟨x :: p, by simpa using h1, fun g hg => ?_⟩
  dsimp only
  rw [hg x List.mem_cons_self]
  exact h2 g fun q hq => hg q (List.mem_cons_of_mem _ hq)

omit [IsStrictOrderedRing K] [LinearOrder K] [Field K] in
theorem Uses.forLoop {σ : Type} {N m : ℕ} {f : List K → K} {body : (List K → K) → ℕ → σ → M σ} {s : σ} (c : ℕ → ℕ) (hc : ∑ i ∈ Finset.range m, c i ≤ N)
    (h : ∀ i < m, ∀ s, Uses (c i) f fun g => body g i s) : Uses N f fun g => Transfinite.forLoop m (body g) s := by
  refine Uses.mono ?_ hc
  induction m generalizing N with
  | zero => exact Uses.const _
  | succ m ih =>
    rw [Finset.sum_range_succ]
    refine Uses.bind (ih (N := ∑ i ∈ Finset.range m, c i) (le_refl _) fun i hi => h i (by omega)) fun a _ => h m (by omega) a

omit [IsStrictOrderedRing K] in
theorem shrink_uses (f : List K → K) (n low : ℕ) (hl : low ≤ n) (s : Simplex K) : Uses n f fun g => forLoop (n + 1) (shrinkOne g low) s := by
  refine Uses.forLoop (fun i => if i = low then 0 else 1) ?_ fun i _ s => ?_
  · rw [← Finset.add_sum_erase _ _ (Finset.mem_range.mpr (Nat.lt_succ_of_le hl)), if_pos rfl, zero_add,
      Finset.sum_congr rfl (fun i hi => if_neg (Finset.ne_of_mem_erase hi)), Finset.sum_const, Finset.card_erase_of_mem (Finset.mem_range.mpr (Nat.lt_succ_of_le hl)), Finset.card_range]
    simp
  · unfold shrinkOne
    by_cases q : i = low
    · simp only [if_pos q]
      exact Uses.const _
    · simp only [if_neg q]
      refine Uses.bind0 fun a _ => Uses.bind0 fun b _ => Uses.bind0 fun x _ => ?_
      exact Uses.value (N := 0) x (k := fun _ v => replace s i x v) (Uses.const _)

theorem iteration_uses (f : List K → K) (n : ℕ) (P : ℕ → ℕ → K) : Uses (n + 2) f fun g => iteration g n (simplex f n P) := by
  unfold iteration
  obtain ⟨e, h1, h2⟩ := extremes_eq (f := f) (n := n) (P := P)
  refine Uses.bind0 fun r hr => Uses.bind0 fun xh _ => Uses.bind0 fun c _ => ?_
  rw [h1] at hr
  cases hr
  unfold move
  refine Uses.bind0 fun xh _ => Uses.bind0 fun x1 _ => Uses.bind0 fun xr _ => ?_
  refine Uses.value (N := n + 1) xr (k := fun g yr => do
    let yl ← vget (simplex f n P).y e.low
    let ys ← vget (simplex f n P).y e.second
    if yr < yl then expand g (simplex f n P) e.high c xr yr
    else if yr > ys then contract g n (simplex f n P) e.low e.high c xr yr
    else replace (simplex f n P) e.high xr yr) ?_
  refine Uses.bind0 fun yl _ => Uses.bind0 fun ys _ => ?_
  by_cases c1 : f xr < yl
  · simp only [if_pos c1]
    unfold expand
    refine Uses.bind0 fun x1 _ => Uses.bind0 fun xe _ => ?_
    refine (Uses.value (N := 0) xe (k := fun g ye => if ye < f xr then replace (simplex f n P) e.high xe ye else replace (simplex f n P) e.high xr (f xr)) (Uses.const _)).mono (by omega)
  · simp only [if_neg c1]
    by_cases c2 : f xr > ys
    · simp only [if_pos c2]
      unfold contract
      refine Uses.bind0 fun s _ => Uses.bind0 fun xh _ => Uses.bind0 fun x1 _ => Uses.bind0 fun xc _ => ?_
      refine Uses.value (N := n) xc (k := fun g yc => do
        let yh ← vget s.y e.high
        if yc > yh then forLoop (n + 1) (shrinkOne g e.low) s else replace s e.high xc yc) ?_
      refine Uses.bind0 fun yh _ => ?_
      by_cases c3 : f xc > yh
      · simp only [if_pos c3]
        exact shrink_uses f n e.low (Nat.lt_succ_iff.mp h2.low) s
      · simp only [if_neg c3]
        exact (Uses.const _).mono (by omega)
    · simp only [if_neg c2]
      exact (Uses.const _).mono (by omega)

theorem loop_uses (f : List K → K) (n : ℕ) (tol : K) (k : ℕ) (P : ℕ → ℕ → K) (d : Option K) : Uses (k * (n + 2)) f fun g => loop g n tol k (simplex f n P) d := by
  induction k generalizing P d with
  | zero => exact (Uses.const _).mono (by omega)
  | succ k ih =>
    unfold loop
    by_cases h : atLeast tol d = true
    · simp only [if_pos h]
      refine (Uses.bind (iteration_uses f n P) (N' := k * (n + 2)) fun s hs => ?_).mono (by rw [Nat.succ_mul]; omega)
      obtain ⟨Q, e, _⟩ := iteration_best f n P
      rw [e] at hs
      cases hs
      exact ih Q _
    · simp only [if_neg h]
      exact (Uses.const _).mono (by omega)

/-- C59: the function is evaluated in at most `n + 1` points for the starting simplex and `n + 2` points in every iteration: the result does not depend on its value in other points. -/
theorem C59_evaluations (f : List K → K) (x : ℕ → K) (maxIteration : ℕ) (tolerance step : K) : ∃ pts : List (List K), pts.length ≤ n + 1 + maxIteration * (n + 2) ∧
    ∀ g : List K → K, (∀ p ∈ pts, g p = f p) → optimize g (tab n x) maxIteration tolerance step = optimize f (tab n x) maxIteration tolerance step := by
  have : Uses (n + 1 + maxIteration * (n + 2)) f fun g => optimize g (tab n x) maxIteration tolerance step := by
    unfold optimize
    refine Uses.bind (N := n + 1) (N' := maxIteration * (n + 2)) ?_ fun s hs => ?_
    · refine ⟨tab (n + 1) fun i => tab n fun j => if i = j + 1 then x j + step else x j, by simp, fun g hg => ?_⟩
      dsimp only
      rw [start_eq, start_eq]
      unfold simplex
      congr 2
      refine tab_congr fun i hi => hg _ (List.mem_map.mpr ⟨i, List.mem_range.mpr hi, rfl⟩)
    · rw [start_eq] at hs
      cases hs
      rw [length_tab]
      exact Uses.bind (N' := 0) (loop_uses f n tolerance maxIteration _ none) fun r _ => Uses.const _
  exact this

section examples

/-- The hypotheses of the theorems do not restrict the input. The value against which the reflected point is tested is not always the second highest one: with the values 5, 3, 4 it is the highest. -/
example : extremes 2 (⟨[[5, 0], [3, 0], [4, 0]], [5, 3, 4]⟩ : Simplex ℚ) = .ok (⟨1, 0, 0⟩, [6, 0]) := by decide +kernel

example : optimize (fun x : List ℚ => (x.map fun a => (a - 3) ^ 2).sum) [0] 2 (1 / 10) 1 = .ok ([3], false) := by decide +kernel

example : optimize (fun x : List ℚ => (x.map fun a => (a - 3) ^ 2).sum) [0] 7 (1 / 10) 1 = .ok ([3], true) := by decide +kernel

end examples

end Transfinite.NelderMead
