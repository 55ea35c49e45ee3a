import Verif.Lemmas.SPatch
import Verif.Props.GenBezier

/-! The state of S-patches in a history of calls. -/

namespace Transfinite

open Spec

namespace SPatch

section net

variable {K : Type} [Field K] {n d : ℕ} {net net' net'' : List (List ℕ × P3 K)}

theorem nextIx_ne {n i : ℕ} (hn : 2 ≤ n) (hi : i < n) : nextIx n i ≠ i := by
  rw [nextIx_eq hi]
  split_ifs <;> omega

/-- Some missing control points on the boundary were set to zero. -/
structure Ext (n d : ℕ) (net net' : List (List ℕ × P3 K)) : Prop where
  keys : Keys net → Keys net'
  get : ∀ l, mapGet net' l = mapGet net l ∨ mapGet net l = none ∧ mapGet net' l = some 0 ∧ ∃ i < n, ∃ j ≤ d, l = tab n (sideLabel d i (nextIx n i) j)

theorem Ext.refl : Ext n d net net := ⟨id, fun _ => Or.inl rfl⟩

theorem Ext.trans (h : Ext n d net net') (h' : Ext n d net' net'') : Ext n d net net'' := by
  refine ⟨fun q => h'.keys (h.keys q), fun l => ?_⟩
  rcases h'.get l with q | ⟨q1, q2, q3⟩
  · rw [q]; exact h.get l
  · rcases h.get l with w | ⟨_, w, _⟩
    · exact Or.inr ⟨by rw [← w, q1], q2, q3⟩
    · rw [q1] at w; cases w

theorem Ext.value (h : Ext n d net net') (l : List ℕ) : value net' l = value net l := by
  unfold SPatch.value
  rcases h.get l with q | ⟨q1, q2, _⟩
  · rw [q]
  · rw [q1, q2]; rfl

theorem Ext.some (h : Ext n d net net') {l : List ℕ} (hl : mapGet net l ≠ none) : mapGet net' l = mapGet net l := by
  rcases h.get l with q | ⟨q, _⟩
  · exact q
  · exact absurd q hl

theorem sideLabel_labels (hn : 2 ≤ n) {i j : ℕ} (hi : i < n) (hj : j ≤ d) : sideLabel d i (nextIx n i) j ∈ labels n d := by
  have h1 : nextIx n i < n := nextIx_lt (by omega)
  have h2 : nextIx n i ≠ i := nextIx_ne (by omega) hi
  unfold labels
  rw [Finset.mem_piAntidiag]
  constructor
  · rw [← Finset.add_sum_erase _ _ (Finset.mem_range.mpr hi), ← Finset.add_sum_erase _ _ (show nextIx n i ∈ (Finset.range n).erase i from Finset.mem_erase.mpr ⟨h2, Finset.mem_range.mpr h1⟩),
      Finset.sum_eq_zero]
    · unfold sideLabel
      rw [if_pos rfl, if_neg h2, if_pos rfl]
      omega
    · intro x hx
      have a := Finset.ne_of_mem_erase hx
      have b := Finset.ne_of_mem_erase (Finset.mem_of_mem_erase hx)
      unfold sideLabel
      rw [if_neg b, if_neg a]
  · intro x hx
    unfold sideLabel at hx
    rw [Finset.mem_range]
    split_ifs at hx with a b
    · rw [a]; exact hi
    · rw [b]; exact h1
    · exact absurd rfl hx

theorem Ext.proper (hn : 2 ≤ n) (h : Ext n d net net') (hp : Proper n d net) : Proper n d net' := by
  intro l hl
  rcases h.get l with q | ⟨_, _, i, hi, j, hj, rfl⟩
  · rw [q] at hl; exact hp l hl
  · exact labels_label (sideLabel_labels hn hi hj)

theorem mapRef_eq {i j : ℕ} (hi : i < n) (hj : j ≤ d) : ∃ net', mapRef net (tab n (sideLabel d i (nextIx n i) j)) = (value net (tab n (sideLabel d i (nextIx n i) j)), net') ∧
    Ext n d net net' ∧ mapGet net' (tab n (sideLabel d i (nextIx n i) j)) ≠ none := by
  unfold mapRef value
  cases h : mapGet net (tab n (sideLabel d i (nextIx n i) j)) with
  | some p => exact ⟨net, rfl, Ext.refl, by rw [h]; simp⟩
  | none =>
    refine ⟨_, rfl, ⟨keys_put, fun l => ?_⟩, by rw [mapGet_put, if_pos rfl]; simp⟩
    rw [mapGet_put]
    split_ifs with q
    · rw [q]
      exact Or.inr ⟨h, rfl, i, hi, j, hj, rfl⟩
    · exact Or.inl rfl

theorem shiftIndex_eq (hn : 2 ≤ n) {i j : ℕ} (hi : i < n) (hj : j < d) : shiftIndex (tab n (sideLabel d i (nextIx n i) j)) i (nextIx n i) = .ok (tab n (sideLabel d i (nextIx n i) (j + 1))) := by
  have h1 : nextIx n i < n := nextIx_lt (by omega)
  have h2 : nextIx n i ≠ i := nextIx_ne (by omega) hi
  unfold shiftIndex
  rw [vget_tab _ hi, M_bind_ok, vset_tab _ _ hi, M_bind_ok, vget_tab _ h1, M_bind_ok, vset_tab _ _ h1]
  congr 1
  refine tab_congr fun x _ => ?_
  have e1 : sideLabel d i (nextIx n i) j i = d - j := if_pos rfl
  have e2 : sideLabel d i (nextIx n i) j (nextIx n i) = j := by unfold sideLabel; rw [if_neg h2, if_pos rfl]
  rw [Function.update_apply, Function.update_apply, Function.update_apply, if_neg h2, e1, e2, usub_of_le (by omega)]
  unfold sideLabel
  by_cases a : x = nextIx n i
  · rw [if_pos a, if_neg (by rw [a]; exact h2), if_pos a]
  · rw [if_neg a]
    by_cases b : x = i
    · rw [if_pos b, if_pos b]
      omega
    · rw [if_neg b, if_neg b, if_neg b, if_neg a, if_neg a]

theorem boundary_eq (hn : 2 ≤ n) {i : ℕ} (hi : i < n) (net : List (List ℕ × P3 K)) : ∃ net', boundary n d i net =
    .ok (tab (d + 1) fun j => value net (tab n (sideLabel d i (nextIx n i) j)), net') ∧ Ext n d net net' ∧ ∀ j ≤ d, mapGet net' (tab n (sideLabel d i (nextIx n i) j)) ≠ none := by
  unfold boundary
  rw [replicate_eq_tab, vset_tab _ _ hi, M_bind_ok]
  have e0 : tab n (Function.update (fun _ => 0) i d) = tab n (sideLabel d i (nextIx n i) 0) := tab_congr fun x _ => by
    rw [Function.update_apply]
    unfold sideLabel
    simp
  rw [e0]
  obtain ⟨⟨pv, m, idx⟩, e, i1, i2, i3, i4⟩ := forLoop_inv (n := d) (body := fun _ (st : List (P3 K) × List (List ℕ × P3 K) × List ℕ) => do
      let r := mapRef st.2.1 st.2.2
      let index ← shiftIndex st.2.2 i (nextIx n i)
      Except.ok (st.1 ++ [r.1], r.2, index)) (s := ([], net, tab n (sideLabel d i (nextIx n i) 0)))
    (fun j (st : List (P3 K) × List (List ℕ × P3 K) × List ℕ) => st.1 = tab j (fun j => value net (tab n (sideLabel d i (nextIx n i) j))) ∧ Ext n d net st.2.1 ∧
      st.2.2 = tab n (sideLabel d i (nextIx n i) j) ∧ ∀ j' < j, mapGet st.2.1 (tab n (sideLabel d i (nextIx n i) j')) ≠ none)
    ⟨rfl, Ext.refl, rfl, fun _ h => by omega⟩ (by
      rintro j ⟨pv, m, idx⟩ hj ⟨i1, i2, i3, i4⟩
      dsimp only at i1 i2 i3 i4 ⊢
      subst i1 i3
      obtain ⟨m', e1, e2, e3⟩ := mapRef_eq (net := m) hi hj.le
      rw [e1, shiftIndex_eq hn hi hj, M_bind_ok]
      refine ⟨_, rfl, ?_, i2.trans e2, rfl, fun j' hj' => ?_⟩
      · dsimp only
        rw [tab_succ, i2.value]
      · by_cases q : j' = j
        · rw [q]; exact e3
        · rw [e2.some (i4 j' (by omega))]
          exact i4 j' (by omega))
  rw [e, M_bind_ok]
  dsimp only at i1 i2 i3 i4 ⊢
  subst i1 i3
  obtain ⟨m', e1, e2, e3⟩ := mapRef_eq (net := m) hi le_rfl
  rw [e1]
  refine ⟨m', ?_, i2.trans e2, fun j' hj' => ?_⟩
  · dsimp only
    rw [tab_succ, i2.value]
  · by_cases q : j' = d
    · rw [q]; exact e3
    · rw [e2.some (i4 j' (by omega))]
      exact i4 j' (by omega)

theorem boundaries_eq (arc : List (P3 K) → K → K → K) (hn : 2 ≤ n) (net : List (List ℕ × P3 K)) : ∃ net', boundaries arc n d net =
    .ok (tab n fun i => bezierCurve arc (tab (d + 1) fun j => value net (tab n (sideLabel d i (nextIx n i) j))), net') ∧ Ext n d net net' ∧
      ∀ i < n, ∀ j ≤ d, mapGet net' (tab n (sideLabel d i (nextIx n i) j)) ≠ none := by
  unfold boundaries
  obtain ⟨⟨cs, m⟩, e, i1, i2, i3⟩ := forLoop_inv (n := n) (body := fun i (st : List (Curve K) × List (List ℕ × P3 K)) => do
      let r ← boundary n d i st.2
      Except.ok (st.1 ++ [bezierCurve arc r.1], r.2)) (s := ([], net))
    (fun i (st : List (Curve K) × List (List ℕ × P3 K)) => st.1 = tab i (fun i => bezierCurve arc (tab (d + 1) fun j => value net (tab n (sideLabel d i (nextIx n i) j)))) ∧
      Ext n d net st.2 ∧ ∀ i' < i, ∀ j ≤ d, mapGet st.2 (tab n (sideLabel d i' (nextIx n i') j)) ≠ none)
    ⟨rfl, Ext.refl, fun _ h => by omega⟩ (by
      rintro i ⟨cs, m⟩ hi ⟨i1, i2, i3⟩
      dsimp only at i1 i2 i3 ⊢
      subst i1
      obtain ⟨m', e1, e2, e3⟩ := boundary_eq (d := d) hn hi m
      rw [e1, M_bind_ok]
      refine ⟨_, rfl, ?_, i2.trans e2, fun i' hi' j hj => ?_⟩
      · dsimp only
        rw [tab_succ (n := i)]
        simp only [i2.value]
      · by_cases q : i' = i
        · rw [q]; exact e3 j hj
        · rw [e2.some (i3 i' (by omega) j hj)]
          exact i3 i' (by omega) j hj)
  dsimp only at i1 i2 i3
  subst i1
  exact ⟨m, e, i2, i3⟩

end net

section state

variable {K : Type} [Field K] [LinearOrder K] [Libm K] {n d : ℕ}

/-- What always holds for an object. -/
structure Inv (ε : K) (S : SPatch K) : Prop where
  keys : Keys S.net
  dom : S.dom.dom.n = 0 ∨ Param.Fresh ε (.bary .wachspress) S.dom.dom S.param ∧ ∃ vs, Domain.regularVertices S.dom.dom.n = .ok vs ∧ Domain.updateFrom vs 0 = .ok S.dom.dom

theorem new_inv (ε : K) (g : ℕ) : Inv ε (SPatch.new g : SPatch K) := ⟨List.nodup_nil, Or.inl rfl⟩

theorem eval_keeps {ε : K} {S : SPatch K} {uv : P2 K} {r : P3 K × SPatch K} (h : S.eval ε uv = .ok r) : r.2 = { S with param := r.2.param } := by
  unfold eval at h
  obtain ⟨x, e, h⟩ := bind_ok h
  obtain ⟨p, _, h⟩ := bind_ok h
  cases h
  rfl

theorem eval_inv {ε : K} {S : SPatch K} {uv : P2 K} {r : P3 K × SPatch K} (h : S.eval ε uv = .ok r) (hi : Inv ε S) : Inv ε r.2 := by
  unfold eval at h
  obtain ⟨x, e, h⟩ := bind_ok h
  obtain ⟨p, _, h⟩ := bind_ok h
  cases h
  exact ⟨hi.keys, hi.dom.imp id fun q => ⟨q.1.bary e, q.2⟩⟩

theorem updateDomain_keeps {S S' : SPatch K} (h : S.updateDomain = .ok S') : S' = { S with dom := S'.dom, param := S'.param } := by
  unfold updateDomain at h
  obtain ⟨r, e, h⟩ := bind_ok h
  split_ifs at h
  · obtain ⟨o, e3, h⟩ := bind_ok h
    cases h; rfl
  · cases h; rfl

theorem updateDomain_inv {ε : K} {S S' : SPatch K} (h : S.updateDomain = .ok S') (hi : Inv ε S) : Inv ε S' ∧ S'.dom.dom.n = S.curves.length := by
  unfold updateDomain at h
  obtain ⟨r, e, h⟩ := bind_ok h
  unfold Domain.regularUpdate at e
  split_ifs at e with hn
  · cases e
    cases h
    exact ⟨hi, hn⟩
  · obtain ⟨vs, e1, e⟩ := bind_ok e
    obtain ⟨d, e2, e⟩ := bind_ok e
    cases e
    rw [if_pos rfl] at h
    obtain ⟨o, e3, h⟩ := bind_ok h
    cases h
    have hdn : d.n = S.curves.length := by rw [Patch.updateFrom_n e2, Patch.regularVertices_length e1]
    refine ⟨⟨hi.keys, Or.inr ⟨Param.Fresh.new e3, vs, ?_, e2⟩⟩, hdn⟩
    change Domain.regularVertices d.n = _
    rw [hdn, e1]

theorem mapRef_keys {net : List (List ℕ × P3 K)} {l : List ℕ} (h : Keys net) : Keys (mapRef net l).2 := by
  unfold mapRef
  split
  · exact h
  · exact keys_put h

theorem boundaries_keys {arc : List (P3 K) → K → K → K} {net : List (List ℕ × P3 K)} {r : List (Curve K) × List (List ℕ × P3 K)} (h : boundaries arc n d net = .ok r) (hk : Keys net) :
    Keys r.2 := by
  refine Patch.forLoop_inv' (fun st : List (Curve K) × List (List ℕ × P3 K) => Keys st.2) (show Keys ([], net).2 from hk) ?_ h
  intro i x y hx e
  obtain ⟨b, e1, e⟩ := bind_ok e
  cases e
  unfold boundary at e1
  obtain ⟨idx, _, e1⟩ := bind_ok e1
  obtain ⟨st, e2, e1⟩ := bind_ok e1
  cases e1
  have := Patch.forLoop_inv' (fun st : List (P3 K) × List (List ℕ × P3 K) × List ℕ => Keys st.2.1) (show Keys (([] : List (P3 K)), x.2, idx).2.1 from hx) (fun k u v hu e => by
    obtain ⟨idx', _, e⟩ := bind_ok e
    cases e
    exact mapRef_keys hu) e2
  exact mapRef_keys this

theorem setupLoop_inv {ε : K} {arc : List (P3 K) → K → K → K} {S S' : SPatch K} (h : S.setupLoop arc = .ok S') (hi : Inv ε S) : Inv ε S' := by
  unfold setupLoop at h
  obtain ⟨r, e1, h⟩ := bind_ok h
  obtain ⟨cs, e2, h⟩ := bind_ok h
  exact (updateDomain_inv h ⟨boundaries_keys e1 hi.keys, hi.dom⟩).1

theorem step_inv {ε : K} {arc : List (P3 K) → K → K → K} {S S' : SPatch K} {c : Call K} (hi : Inv ε S) (e : S.step ε arc c = .ok S') : Inv ε S' := by
  cases c with
  | init n d => cases e; exact ⟨List.nodup_nil, hi.dom⟩
  | set i p => cases e; exact ⟨keys_put hi.keys, hi.dom⟩
  | curves cs => cases e; exact ⟨hi.keys, hi.dom⟩
  | loop => exact setupLoop_inv (arc := arc) e hi
  | eval uv =>
    obtain ⟨r, e1, e⟩ := bind_ok (show (S.eval ε uv >>= fun r => .ok r.2) = .ok S' from e)
    cases e
    exact eval_inv e1 hi

theorem run_inv {ε : K} {arc : List (P3 K) → K → K → K} {S S' : SPatch K} {cs : List (Call K)} (hi : Inv ε S) (e : S.run ε arc cs = .ok S') : Inv ε S' := by
  induction cs generalizing S with
  | nil => cases e; exact hi
  | cons c cs ih =>
    unfold run at e
    obtain ⟨S1, e1, e⟩ := bind_ok e
    exact ih (step_inv hi e1) e

theorem run_split {ε : K} {arc : List (P3 K) → K → K → K} {S S' : SPatch K} {xs ys : List (Call K)} (e : S.run ε arc (xs ++ ys) = .ok S') :
    ∃ S1, S.run ε arc xs = .ok S1 ∧ S1.run ε arc ys = .ok S' := by
  induction xs generalizing S with
  | nil => exact ⟨S, rfl, e⟩
  | cons c xs ih =>
    rw [List.cons_append] at e
    unfold run at e
    obtain ⟨S1, e1, e⟩ := bind_ok e
    obtain ⟨S2, e2, e⟩ := ih e
    refine ⟨S2, ?_, e⟩
    unfold run
    rw [e1, M_bind_ok, e2]

theorem run_join {ε : K} {arc : List (P3 K) → K → K → K} {S S1 S' : SPatch K} {xs ys : List (Call K)} (h1 : S.run ε arc xs = .ok S1)
    (h2 : S1.run ε arc ys = .ok S') : S.run ε arc (xs ++ ys) = .ok S' := by
  induction xs generalizing S with
  | nil => cases h1; exact h2
  | cons c xs ih =>
    unfold run at h1
    obtain ⟨S2, e1, h1⟩ := bind_ok h1
    rw [List.cons_append]
    unfold run
    rw [e1, M_bind_ok]
    exact ih h1

end state

section real

variable {n d : ℕ} {ε : ℝ} {arc : List (P3 ℝ) → ℝ → ℝ → ℝ} {S S' : SPatch ℝ}

/-- Curve `i` made by `setupLoop`. -/
noncomputable def sideCurve (arc : List (P3 ℝ) → ℝ → ℝ → ℝ) (n d : ℕ) (net : List (List ℕ × P3 ℝ)) (i : ℕ) : Curve ℝ :=
  bezierCurve arc (tab (d + 1) fun j => value net (tab n (sideLabel d i (nextIx n i) j)))

theorem sideCurve_pt (net : List (List ℕ × P3 ℝ)) (i : ℕ) (u : ℝ) :
    (sideCurve arc n d net i).pt u = bezier d (fun j => value net (tab n (sideLabel d i (nextIx n i) j))) u := by
  exact GB.bezierCurve_pt arc d _ u

theorem sideLabel_end (i ip ipp : ℕ) (h : ip ≠ i) (h' : ipp ≠ ip) : sideLabel d i ip d = sideLabel d ip ipp 0 := by
  funext x
  unfold sideLabel
  by_cases a : x = i
  · rw [if_pos a, if_neg (by rw [a]; exact h.symm)]
    split_ifs <;> omega
  · rw [if_neg a]
    by_cases b : x = ip
    · rw [if_pos b, if_pos b]; omega
    · rw [if_neg b, if_neg b]
      split_ifs <;> rfl

theorem setupLoop_orient (hn : 2 ≤ n) (net : List (List ℕ × P3 ℝ)) : orientLoop (tab n (sideCurve arc n d net)) = .ok (tab n (sideCurve arc n d net)) := by
  refine C26_oriented fun i hi => ?_
  have h1 : nextIx n i < n := nextIx_lt (by omega)
  rw [sideCurve_pt, Ribbon.bezier_one]
  change _ = (sideCurve arc n d net (nextIx n i)).pt 0
  rw [sideCurve_pt, Ribbon.bezier_zero, sideLabel_end _ _ (nextIx n (nextIx n i)) (nextIx_ne hn hi) (nextIx_ne hn h1)]

theorem setupLoop_parts (hn : 2 ≤ n) (h1 : S.n = n) (h2 : S.depth = d) : ∃ net', Ext n d S.net net' ∧ (∀ i < n, ∀ j ≤ d, mapGet net' (tab n (sideLabel d i (nextIx n i) j)) ≠ none) ∧
    S.setupLoop arc = updateDomain { S with n := n, net := net', curves := tab n (sideCurve arc n d S.net) } := by
  obtain ⟨net', e1, e2, e3⟩ := boundaries_eq (d := d) arc hn S.net
  refine ⟨net', e2, e3, ?_⟩
  unfold setupLoop
  rw [h1, h2, e1, M_bind_ok]
  have := setupLoop_orient (arc := arc) (d := d) hn S.net
  dsimp only
  rw [show (tab n fun i => bezierCurve arc (tab (d + 1) fun j => value S.net (tab n (sideLabel d i (nextIx n i) j)))) = tab n (sideCurve arc n d S.net) from rfl, this, M_bind_ok, length_tab]

theorem setupLoop_total (hn : 3 ≤ n) (h1 : S.n = n) : ∃ S', S.setupLoop arc = .ok S' := by
  obtain ⟨net', _, _, e⟩ := setupLoop_parts (arc := arc) (by omega) h1 rfl
  rw [e]
  unfold updateDomain
  dsimp only
  rw [length_tab]
  by_cases h0 : S.dom.dom.n = n
  · unfold Domain.regularUpdate
    rw [if_pos h0, M_bind_ok, if_neg (by simp)]
    exact ⟨_, rfl⟩
  · obtain ⟨d, r, φ, _, e, hd, _⟩ := regular_normal hn S.dom.dom h0
    rw [e, M_bind_ok, if_pos rfl]
    exact ⟨_, rfl⟩

/-- Calls between two changes of the shape of the network. -/
def Call.Within (n d : ℕ) : Call ℝ → Prop
  | .init _ _ => False
  | .curves _ => False
  | .set i _ => Label n d i
  | _ => True

/-- The shape of the network. -/
structure Shape (n d : ℕ) (S : SPatch ℝ) : Prop where
  n_eq : S.n = n
  depth : S.depth = d
  proper : Proper n d S.net

theorem step_shape (hn : 2 ≤ n) (h : Shape n d S) {c : Call ℝ} (hc : c.Within n d) (e : S.step ε arc c = .ok S') :
    Shape n d S' ∧ (c = .loop ∧ Inv ε S ∨ S.dom.dom.n = n → S'.dom.dom.n = n) := by
  cases c with
  | init n d => exact absurd hc id
  | set i p => cases e; exact ⟨⟨h.n_eq, h.depth, proper_put h.proper hc⟩, fun q => q.resolve_left (fun w => by cases w.1)⟩
  | curves cs => exact absurd hc id
  | loop =>
    obtain ⟨net', e1, e2, e3⟩ := setupLoop_parts (arc := arc) hn h.n_eq h.depth
    have e : S.setupLoop arc = .ok S' := e
    rw [e3] at e
    have k := updateDomain_keeps e
    refine ⟨⟨by rw [k], by rw [k]; exact h.depth, by rw [k]; exact e1.proper hn h.proper⟩, ?_⟩
    have : S'.dom.dom.n = n := by
      unfold updateDomain at e
      obtain ⟨r, e4, e⟩ := bind_ok e
      dsimp only at e4
      rw [length_tab] at e4
      unfold Domain.regularUpdate at e4
      split_ifs at e4 with hn
      · cases e4
        cases e
        exact hn
      · obtain ⟨vs, e5, e4⟩ := bind_ok e4
        obtain ⟨d, e6, e4⟩ := bind_ok e4
        cases e4
        rw [if_pos rfl] at e
        obtain ⟨o, e7, e⟩ := bind_ok e
        cases e
        rw [Patch.updateFrom_n e6, Patch.regularVertices_length e5]
    exact fun _ => this
  | eval uv =>
    obtain ⟨r, e1, e⟩ := bind_ok (show (S.eval ε uv >>= fun r => .ok r.2) = .ok S' from e)
    cases e
    have k := eval_keeps e1
    rw [k]
    exact ⟨⟨h.n_eq, h.depth, h.proper⟩, fun q => q.resolve_left (fun w => by cases w.1)⟩

theorem run_shape (hn : 2 ≤ n) (h : Shape n d S) (hi : Inv ε S) {cs : List (Call ℝ)} (hc : ∀ c ∈ cs, c.Within n d) (e : S.run ε arc cs = .ok S') :
    Shape n d S' ∧ (.loop ∈ cs ∨ S.dom.dom.n = n → S'.dom.dom.n = n) := by
  induction cs generalizing S with
  | nil => cases e; exact ⟨h, fun q => q.resolve_left (by simp)⟩
  | cons c cs ih =>
    unfold run at e
    obtain ⟨S1, e1, e⟩ := bind_ok e
    obtain ⟨s1, s2⟩ := step_shape hn h (hc c (by simp)) e1
    obtain ⟨t1, t2⟩ := ih s1 (step_inv hi e1) (fun x hx => hc x (List.mem_cons_of_mem _ hx)) e
    refine ⟨t1, fun q => t2 ?_⟩
    rcases q with q | q
    · rcases List.mem_cons.mp q with w | w
      · exact Or.inr (s2 (Or.inl ⟨w.symm, hi⟩))
      · exact Or.inl w
    · exact Or.inr (s2 (Or.inr q))

/-- `S` is the result of a history of calls: anything, then `initNetwork(n, d)`, then any number of `setControlPoint` calls (with the labels of an `n`-sided
patch of depth `d`), `setupLoop` and `eval`, at least one of them `setupLoop`. -/
def Usable (ε : ℝ) (arc : List (P3 ℝ) → ℝ → ℝ → ℝ) (n d : ℕ) (calls : List (Call ℝ)) (S : SPatch ℝ) : Prop :=
  ∃ g before rest, calls = before ++ .init n d :: rest ∧ (SPatch.new g).run ε arc calls = .ok S ∧ (∀ c ∈ rest, c.Within n d) ∧ .loop ∈ rest

theorem Usable.state {calls : List (Call ℝ)} (hn : 3 ≤ n) (h : Usable ε arc n d calls S) : Shape n d S ∧ Inv ε S ∧ ∃ v, ConvexDomain S.dom.dom n v := by
  obtain ⟨g, before, rest, rfl, hr, hc, hl⟩ := h
  obtain ⟨S1, e1, e2⟩ := run_split hr
  unfold run at e2
  obtain ⟨S2, e3, e2⟩ := bind_ok e2
  have hi := run_inv (new_inv ε g) hr
  cases e3
  have hs : Shape n d (S1.initNetwork n d) := ⟨rfl, rfl, fun l hl => absurd rfl hl⟩
  obtain ⟨s1, s2⟩ := run_shape (by omega) hs (step_inv (arc := arc) (c := .init n d) (run_inv (new_inv ε g) e1) rfl) hc e2
  have hdn := s2 (Or.inl hl)
  refine ⟨s1, hi, ?_⟩
  rcases hi.dom with q | ⟨_, vs, q1, q2⟩
  · omega
  · rw [hdn] at q1
    obtain ⟨r, φ, _, hd, _⟩ := regular_convex hn q1 q2
    exact ⟨_, hd⟩

end real

end SPatch

end Transfinite
