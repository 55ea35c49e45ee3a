import Verif.Lemmas.Sharing

/-! Worlds that any program can reach. -/

namespace Transfinite

open Spec

variable {K : Type} [Field K] [LinearOrder K] [Libm K]

/-- Surfaces in a reachable state, with any programs. -/
structure Reach (ε : K) (W : World K) : Prop where
  inv : ∀ (k : ℕ) (o : GB K × ℕ), W.objs[k]? = some o → ∃ c : Cell K, W.cells[o.2]? = some c ∧ GB.Inv ε (o.1.withCell c)
  kind : ∀ (j k : ℕ) (o o' : GB K × ℕ), W.objs[j]? = some o → W.objs[k]? = some o' → o.2 = o'.2 → o.1.kind = o'.1.kind

theorem append_get {α : Type} {l : List α} {a b : α} {i : ℕ} (h : (l ++ [a])[i]? = some b) : l[i]? = some b ∨ i = l.length ∧ b = a := by
  rw [List.getElem?_append] at h
  split_ifs at h with q
  · exact Or.inl h
  · have : i = l.length := by
      by_contra q
      rw [List.getElem?_eq_none_iff.mpr (by simp only [List.length_singleton]; omega)] at h
      cases h
    subst this
    simp only [Nat.sub_self, List.getElem?_cons_zero, Option.some.injEq] at h
    exact Or.inr ⟨rfl, h.symm⟩

theorem set_get {α : Type} {l : List α} {a b : α} {i k : ℕ} (h : (l.set k a)[i]? = some b) : i ≠ k ∧ l[i]? = some b ∨ i = k ∧ b = a := by
  rw [List.getElem?_set] at h
  split_ifs at h with q1 q2
  · exact Or.inr ⟨q1.symm, (Option.some.inj h).symm⟩
  · exact Or.inl ⟨fun q => q1 q.symm, h⟩

theorem vget_ok_some {α : Type} {l : List α} {i : ℕ} {a : α} (h : vget l i = .ok a) : l[i]? = some a := by
  unfold vget at h
  cases e : l[i]? with
  | none => rw [e] at h; cases h
  | some b => rw [e] at h; cases h; rfl

theorem vset_ok_set {α : Type} {l l' : List α} {i : ℕ} {a : α} (h : vset l i a = .ok l') : i < l.length ∧ l' = l.set i a := by
  unfold vset at h
  split_ifs at h with q
  cases h
  exact ⟨q, rfl⟩

/-- The parts of a call. -/
theorem World.call_ok {ε : K} {arc : List (P3 K) → K → K → K} {W W' : World K} {k : ℕ} {cl : GB.Call K} (h : W.step ε arc (.call k cl) = .ok W') :
    ∃ (o : GB K × ℕ) (c : Cell K) (G : GB K), W.objs[k]? = some o ∧ W.cells[o.2]? = some c ∧ (o.1.withCell c).step ε arc cl = .ok G ∧
      W' = ⟨W.objs.set k (G, o.2), W.cells.set o.2 ⟨G.dom, G.param⟩⟩ := by
  unfold World.step at h
  dsimp only at h
  obtain ⟨o, e1, h⟩ := bind_ok h
  obtain ⟨c, e2, h⟩ := bind_ok h
  obtain ⟨G, e3, h⟩ := bind_ok h
  obtain ⟨os, e4, h⟩ := bind_ok h
  obtain ⟨cs, e5, h⟩ := bind_ok h
  cases h
  rw [(vset_ok_set e4).2, (vset_ok_set e5).2]
  exact ⟨o, c, G, vget_ok_some e1, vget_ok_some e2, e3, rfl⟩

theorem Reach.step {ε : K} {arc : List (P3 K) → K → K → K} {W W' : World K} (h : Reach ε W) {op : Op K} (e : W.step ε arc op = .ok W') : Reach ε W' := by
  cases op with
  | new kind g l =>
    unfold World.step at e
    cases e
    have lt : ∀ (k : ℕ) (o : GB K × ℕ), W.objs[k]? = some o → o.2 < W.cells.length := by
      intro k o ho
      obtain ⟨c, q, _⟩ := h.inv k o ho
      exact (List.getElem?_eq_some_iff.mp q).1
    refine ⟨fun k o ho => ?_, fun j k o o' h1 h2 h3 => ?_⟩
    · rcases append_get ho with q | ⟨rfl, rfl⟩
      · obtain ⟨c, q1, q2⟩ := h.inv k o q
        exact ⟨c, by rw [List.getElem?_append_left (lt k o q)]; exact q1, q2⟩
      · exact ⟨_, List.getElem?_concat_length, GB.new_inv ε kind g l⟩
    · rcases append_get h1 with q | ⟨rfl, rfl⟩ <;> rcases append_get h2 with q' | ⟨rfl, rfl⟩
      · exact h.kind j k o o' q q' h3
      · have := lt j o q; dsimp only at h3; omega
      · have := lt k o' q'; dsimp only at h3; omega
      · rfl
  | copy k =>
    unfold World.step at e
    dsimp only at e
    obtain ⟨o, e1, e⟩ := bind_ok e
    cases e
    have e1 := vget_ok_some e1
    refine ⟨fun i o' ho => ?_, fun i j o1 o2 h1 h2 h3 => ?_⟩
    · rcases append_get ho with q | ⟨rfl, rfl⟩
      · exact h.inv i o' q
      · exact h.inv k o' e1
    · rcases append_get h1 with q | ⟨rfl, rfl⟩ <;> rcases append_get h2 with q' | ⟨rfl, rfl⟩
      · exact h.kind i j o1 o2 q q' h3
      · exact h.kind i k _ _ q e1 h3
      · exact h.kind k j _ _ e1 q' h3
      · rfl
  | assign k l =>
    unfold World.step at e
    dsimp only at e
    obtain ⟨o, e1, e⟩ := bind_ok e
    obtain ⟨os, e2, e⟩ := bind_ok e
    cases e
    have e1 := vget_ok_some e1
    rw [(vset_ok_set e2).2]
    refine ⟨fun i o' ho => ?_, fun i j o1 o2 h1 h2 h3 => ?_⟩
    · rcases set_get ho with ⟨_, q⟩ | ⟨rfl, rfl⟩
      · exact h.inv i o' q
      · exact h.inv l o' e1
    · rcases set_get h1 with ⟨_, q⟩ | ⟨rfl, rfl⟩ <;> rcases set_get h2 with ⟨_, q'⟩ | ⟨rfl, rfl⟩
      · exact h.kind i j o1 o2 q q' h3
      · exact h.kind i l _ _ q e1 h3
      · exact h.kind l j _ _ e1 q' h3
      · rfl
  | call k cl =>
    obtain ⟨o, c, G, e1, e2, e3, rfl⟩ := World.call_ok e
    obtain ⟨c', q1, q2⟩ := h.inv k o e1
    rw [e2] at q1
    cases q1
    obtain ⟨i1, i2, _⟩ := GB.step_inv q2 e3
    have i2 : G.kind = o.1.kind := i2
    have hcl : o.2 < W.cells.length := (List.getElem?_eq_some_iff.mp e2).1
    refine ⟨fun i o' ho => ?_, fun i j o1 o2 h1 h2 h3 => ?_⟩
    · rcases set_get ho with ⟨_, q⟩ | ⟨rfl, rfl⟩
      · by_cases ha : o.2 = o'.2
        · refine ⟨⟨G.dom, G.param⟩, by dsimp only; rw [ha, List.getElem?_set_self (by rw [← ha]; exact hcl)], ?_⟩
          exact i1.congr (by rw [i2]; exact (h.kind k i o o' e1 q ha).symm) rfl rfl
        · obtain ⟨c', z1, z2⟩ := h.inv i o' q
          exact ⟨c', by dsimp only; rw [List.getElem?_set_ne ha]; exact z1, z2⟩
      · exact ⟨⟨G.dom, G.param⟩, by dsimp only; rw [List.getElem?_set_self hcl], i1⟩
    · rcases set_get h1 with ⟨_, q⟩ | ⟨rfl, rfl⟩ <;> rcases set_get h2 with ⟨_, q'⟩ | ⟨rfl, rfl⟩
      · exact h.kind i j o1 o2 q q' h3
      · exact (h.kind i _ _ _ q e1 h3).trans i2.symm
      · exact i2.trans (h.kind _ j _ _ e1 q' h3)
      · rfl

theorem Reach.run {ε : K} {arc : List (P3 K) → K → K → K} {ops : List (Op K)} {W W' : World K} (h : Reach ε W) (e : W.run ε arc ops = .ok W') : Reach ε W' := by
  induction ops generalizing W with
  | nil => cases e; exact h
  | cons op ops ih =>
    unfold World.run at e
    obtain ⟨W1, e1, e⟩ := bind_ok e
    exact ih (h.step e1) e

theorem Reach.empty (ε : K) : Reach ε (World.empty : World K) :=
  ⟨fun k o h => by simp [World.empty] at h, fun j k o o' h => by simp [World.empty] at h⟩

/-- Calls on one of two surfaces with the same address. -/
theorem World.calls_ok {ε : K} {arc : List (P3 K) → K → K → K} {j k : ℕ} (hjk : j ≠ k) (cs : List (GB.Call K)) {W W' : World K} {o o' : GB K × ℕ}
    (h1 : W.objs[k]? = some o) (h2 : W.objs[j]? = some o') (h3 : o'.2 = o.2) (e : W.run ε arc (cs.map (Op.call j)) = .ok W') :
    W'.objs[k]? = some o ∧ ∃ o1, W'.objs[j]? = some o1 ∧ o1.2 = o.2 := by
  induction cs generalizing W o' with
  | nil => cases e; exact ⟨h1, o', h2, h3⟩
  | cons c cs ih =>
    rw [List.map_cons] at e
    unfold World.run at e
    obtain ⟨W1, e1, e⟩ := bind_ok e
    obtain ⟨a, c', G, q1, q2, q3, rfl⟩ := World.call_ok e1
    rw [h2] at q1
    cases q1
    refine ih (o' := (G, o'.2)) ?_ ?_ h3 e
    · dsimp only
      rw [List.getElem?_set_ne hjk]
      exact h1
    · dsimp only
      rw [List.getElem?_set_self (List.getElem?_eq_some_iff.mp h2).1]

theorem World.run_append {ε : K} {arc : List (P3 K) → K → K → K} {xs ys : List (Op K)} {W W' : World K} (e : W.run ε arc (xs ++ ys) = .ok W') :
    ∃ W1, W.run ε arc xs = .ok W1 ∧ W1.run ε arc ys = .ok W' := by
  induction xs generalizing W with
  | nil => exact ⟨W, rfl, e⟩
  | cons c xs ih =>
    rw [List.cons_append] at e
    unfold World.run at e
    obtain ⟨W1, e1, e⟩ := bind_ok e
    obtain ⟨W2, e2, e3⟩ := ih e
    refine ⟨W2, ?_, e3⟩
    unfold World.run
    rw [e1]
    exact e2

/-- A loop that finishes has done all iterations. -/
theorem forLoop_all {α : Type} {n : ℕ} {f : ℕ → α → M α} {s r : α} (h : forLoop n f s = .ok r) : ∀ i < n, ∃ a b, f i a = .ok b := by
  induction n generalizing r with
  | zero => intro i hi; omega
  | succ n ih =>
    rw [forLoop_succ] at h
    obtain ⟨a, e1, e2⟩ := bind_ok h
    intro i hi
    rcases Nat.lt_succ_iff_lt_or_eq.mp hi with q | rfl
    · exact ih e1 i q
    · exact ⟨a, r, e2⟩

theorem forLoop_first {α : Type} {n : ℕ} {f : ℕ → α → M α} {s r : α} (h : forLoop n f s = .ok r) (hn : 0 < n) : ∃ b, f 0 s = .ok b := by
  induction n generalizing r with
  | zero => omega
  | succ n ih =>
    rw [forLoop_succ] at h
    obtain ⟨a, e1, e2⟩ := bind_ok h
    rcases Nat.eq_zero_or_pos n with rfl | q
    · unfold forLoop at e1
      cases e1
      exact ⟨r, e2⟩
    · exact ih e1 q

/-- Too few parameters. -/
theorem GB.evalWith_fails {ε : K} {G : GB K} {sds : List (P2 K)} (h : sds.length < G.n) (p : P3 K) : G.evalWith ε sds ≠ .ok p := by
  intro e
  unfold evalWith at e
  have none : ∀ i, sds.length ≤ i → ∀ a, vget sds i ≠ .ok a := by
    intro i hi a q
    have := (List.getElem?_eq_some_iff.mp (vget_ok_some q)).1
    omega
  split at e
  · unfold sideEval at e
    obtain ⟨r, e1, _⟩ := bind_ok e
    obtain ⟨b, e2⟩ := forLoop_first e1 (by omega)
    unfold evalSide at e2
    dsimp only at e2
    obtain ⟨_, _, e2⟩ := bind_ok e2
    obtain ⟨_, e3, _⟩ := bind_ok e2
    refine none _ ?_ _ e3
    unfold prevIx
    rw [Nat.mod_eq_of_lt (by omega)]
    omega
  · unfold cornerEval at e
    obtain ⟨r, e1, _⟩ := bind_ok e
    obtain ⟨a, b, e2⟩ := forLoop_all e1 sds.length h
    unfold cornerStep at e2
    obtain ⟨_, e3, _⟩ := bind_ok e2
    exact none _ le_rfl _ e3

end Transfinite
