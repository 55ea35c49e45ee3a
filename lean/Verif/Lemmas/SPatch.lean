import Verif.Model.SPatch
import Verif.Spec.SPatch
import Verif.Lemmas.ParamFresh
import Verif.Lemmas.GenBezierBuilt
import Mathlib.Data.Nat.Choose.Multinomial
import Mathlib.Algebra.BigOperators.Ring.Finset

/-! Lemmas for S-patches. -/

namespace Transfinite

open Spec

namespace Param

variable {K : Type} [Field K] [LinearOrder K] [Libm K]

theorem Fresh.bary {ε : K} {t : BaryType} {d : Domain K} {o : Obj K} (h : Fresh ε (.bary t) d o) {uv : P2 K} {r : List K × Obj K}
    (e : baryCached ε t uv o = .ok r) : Fresh ε (.bary t) d r.2 := by
  obtain ⟨o0, cs, e1, e2, e3⟩ := h
  refine ⟨o0, cs ++ [.bary uv], e1, ?_, ?_⟩
  · intro d' hd
    rcases List.mem_append.mp hd with q | q
    · exact e2 d' q
    · simp at q
  · refine Patch.run_append e3 ?_
    unfold Param.run Param.step
    simp only [e, M_bind_ok]
    rfl

theorem Fresh.bary_of_raw {ε : K} {t : BaryType} {d : Domain K} {o : Obj K} (h : Fresh ε (.bary t) d o) {uv : P2 K} {l : List K} (hl : barycentric ε t d uv = .ok l) :
    ∃ o', baryCached ε t uv o = .ok (l, o') := by
  obtain ⟨o0, cs, e1, hcs, e2⟩ := h
  obtain ⟨fr, h1, h2, _, _, _, _, h3⟩ := C19_transparent e1 e2
  rw [Patch.lastDomain_queries hcs] at h1 h2
  have h4 := h3 uv t rfl
  rw [h2, hl] at h4
  cases h : baryCached ε t uv o with
  | error e => rw [h] at h4; cases h4
  | ok r =>
    rw [h] at h4
    exact ⟨r.2, by rw [← Except.ok.inj h4]⟩

end Param

namespace SPatch

section net

variable {K : Type} {net : List (List ℕ × P3 K)} {i j : List ℕ} {p : P3 K}

/-- The keys of a `std::map` are different. -/
def Keys (net : List (List ℕ × P3 K)) : Prop := (net.map (·.1)).Nodup

theorem mapGet_eq_none : mapGet net i = none ↔ i ∉ net.map (·.1) := by
  induction net with
  | nil => simp [mapGet]
  | cons e r ih =>
    unfold mapGet
    split_ifs with h
    · simp [h]
    · rw [ih, List.map_cons, List.mem_cons, not_or]
      exact ⟨fun q => ⟨fun w => h w.symm, q⟩, fun q => q.2⟩

theorem mapGet_put : mapGet (mapPut net i p) j = if j = i then some p else mapGet net j := by
  induction net with
  | nil =>
    unfold mapPut mapGet
    by_cases h : j = i
    · rw [if_pos h.symm, if_pos h]
    · rw [if_neg fun w => h w.symm, if_neg h]; rfl
  | cons e r ih =>
    unfold mapPut
    by_cases h : e.1 = i
    · rw [if_pos h]
      unfold mapGet
      by_cases hj : j = i
      · rw [if_pos hj.symm, if_pos hj]
      · rw [if_neg fun w => hj w.symm, if_neg hj, if_neg fun w => hj (w.symm.trans h)]
    · rw [if_neg h]
      conv_lhs => unfold mapGet
      conv_rhs => unfold mapGet
      rw [ih]
      by_cases hj : j = i
      · rw [if_pos hj, if_pos hj, if_neg fun w => h (w.trans hj)]
      · rw [if_neg hj, if_neg hj]

theorem keys_put (h : Keys net) : Keys (mapPut net i p) := by
  induction net with
  | nil => simp [mapPut, Keys]
  | cons e r ih =>
    unfold Keys at h ih ⊢
    rw [List.map_cons, List.nodup_cons] at h
    unfold mapPut
    split_ifs with hi
    · rw [List.map_cons, List.nodup_cons, ← hi]
      exact h
    · rw [List.map_cons, List.nodup_cons]
      refine ⟨?_, ih h.2⟩
      rw [← mapGet_eq_none, mapGet_put, if_neg hi, mapGet_eq_none]
      exact h.1

/-- The value of an entry; missing entries count as zero. -/
def value [Field K] (net : List (List ℕ × P3 K)) (i : List ℕ) : P3 K := (mapGet net i).getD 0

/-- Every key is a label. -/
def Proper (n d : ℕ) (net : List (List ℕ × P3 K)) : Prop := ∀ i, mapGet net i ≠ none → Label n d i

theorem proper_put {n d : ℕ} (h : Proper n d net) (hi : Label n d i) : Proper n d (mapPut net i p) := by
  intro j hj
  rw [mapGet_put] at hj
  split_ifs at hj with q
  · rw [q]; exact hi
  · exact h j hj

theorem sum_net {ι V : Type} [AddCommMonoid V] (T : Finset ι) (g : ι → List ℕ) (hg : Set.InjOn g T) (F : List ℕ → P3 K → V) (hk : Keys net)
    (hT : ∀ i, mapGet net i ≠ none → ∃ k ∈ T, g k = i) : (net.map fun e => F e.1 e.2).sum = ∑ k ∈ T, ((mapGet net (g k)).map (F (g k))).getD 0 := by
  classical
  induction net with
  | nil => simp [mapGet]
  | cons e r ih =>
    obtain ⟨k0, hk0, hg0⟩ := hT e.1 (by unfold mapGet; rw [if_pos rfl]; simp)
    have hk' := hk
    unfold Keys at hk
    rw [List.map_cons, List.nodup_cons] at hk
    have hnone : mapGet r e.1 = none := mapGet_eq_none.mpr hk.1
    rw [List.map_cons, List.sum_cons, ih hk.2 (fun i hi => hT i (by
      unfold mapGet
      split_ifs <;> simp_all))]
    rw [← Finset.add_sum_erase T _ hk0, ← Finset.add_sum_erase T (fun k => ((mapGet (e :: r) (g k)).map (F (g k))).getD 0) hk0]
    rw [hg0, hnone]
    have h1 : mapGet (e :: r) e.1 = some e.2 := by unfold mapGet; rw [if_pos rfl]
    rw [h1]
    simp only [Option.map_none, Option.getD_none, zero_add, Option.map_some, Option.getD_some]
    congr 1
    refine Finset.sum_congr rfl fun k hkk => ?_
    have hne : ¬e.1 = g k := by
      intro w
      have := hg (Finset.mem_of_mem_erase hkk) hk0 (by rw [hg0, w])
      exact Finset.ne_of_mem_erase hkk this
    conv_rhs => unfold mapGet
    rw [if_neg hne]

end net

section weights

variable {K : Type} [Field K] [CharZero K] {n d : ℕ}

theorem labels_label {k : ℕ → ℕ} (h : k ∈ labels n d) : Label n d (tab n k) := by
  unfold labels at h
  rw [Finset.mem_piAntidiag] at h
  exact ⟨length_tab _ _, by rw [sum_tab]; exact h.1⟩

theorem label_labels {i : List ℕ} (h : Label n d i) : ∃ k ∈ labels n d, tab n k = i := by
  obtain ⟨h1, h2⟩ := h
  refine ⟨fun x => i.getD x 0, ?_, ?_⟩
  · unfold labels
    rw [Finset.mem_piAntidiag]
    constructor
    · rw [← sum_tab, ← h2]
      congr 1
      exact (eq_tab_of_get h1 (by intro x hx; rw [List.getD_eq_getElem _ _ hx])).symm
    · intro x hx
      rw [Finset.mem_range]
      by_contra q
      exact hx (by simp [List.getD, List.getElem?_eq_none (show i.length ≤ x by omega)])
  · exact (eq_tab_of_get h1 (by intro x hx; rw [List.getD_eq_getElem _ _ hx])).symm

theorem labels_inj : Set.InjOn (fun k : ℕ → ℕ => tab n k) (labels n d) := by
  intro k hk k' hk' h
  unfold labels at hk hk'
  rw [Finset.mem_coe, Finset.mem_piAntidiag] at hk hk'
  funext x
  by_cases hx : x < n
  · exact tab_inj h hx
  · have a : k x = 0 := by by_contra q; exact hx (Finset.mem_range.mp (hk.2 x q))
    have b : k' x = 0 := by by_contra q; exact hx (Finset.mem_range.mp (hk'.2 x q))
    rw [a, b]

theorem multinomial_eq {k : ℕ → ℕ} (hk : k ∈ labels n d) (hd : d ≤ 20) : multinomial (tab n k) = .ok (Nat.multinomial (Finset.range n) k) := by
  unfold labels at hk
  rw [Finset.mem_piAntidiag] at hk
  unfold multinomial
  rw [length_tab, forLoop_eq (fun m => (∑ i ∈ Finset.range m, k i, ∏ i ∈ Finset.range m, (k i).factorial)) (by simp) (fun m hm => by
    rw [vget_tab _ hm, M_bind_ok]
    have : k m ≤ 20 := by
      have := Finset.single_le_sum (f := k) (s := Finset.range n) (fun _ _ => Nat.zero_le _) (Finset.mem_range.mpr hm)
      exact this.trans (hk.1.le.trans hd)
    unfold fact
    rw [if_pos this, M_bind_ok, Finset.sum_range_succ, Finset.prod_range_succ]), M_bind_ok]
  dsimp only
  unfold fact
  rw [if_pos (by rw [hk.1]; exact hd), M_bind_ok]
  rfl

theorem multinomial_cast (k : ℕ → ℕ) : (Nat.multinomial (Finset.range n) k : K) =
    ((∑ i ∈ Finset.range n, k i).factorial : K) / (∏ i ∈ Finset.range n, ((k i).factorial : K)) := by
  have h := Nat.multinomial_spec (Finset.range n) k
  have h0 : (∏ i ∈ Finset.range n, ((k i).factorial : K)) ≠ 0 := Finset.prod_ne_zero_iff.mpr fun i _ => by exact_mod_cast Nat.factorial_ne_zero _
  rw [eq_div_iff h0, ← h]
  push_cast
  ring

theorem multiBernstein_eq {k : ℕ → ℕ} (hk : k ∈ labels n d) (hd : d ≤ 20) (c : ℕ → K) : multiBernstein (tab n k) (tab n c) = .ok (multiBern n c k) := by
  unfold multiBernstein
  rw [multinomial_eq hk hd, M_bind_ok, length_tab, forLoop_eq (fun m => (Nat.multinomial (Finset.range n) k : K) * ∏ i ∈ Finset.range m, c i ^ k i) (by simp) (fun m hm => by
    rw [vget_tab _ hm, M_bind_ok, vget_tab _ hm, M_bind_ok, Finset.prod_range_succ, mul_assoc])]
  unfold multiBern
  rw [multinomial_cast]

theorem multiBern_sum (c : ℕ → K) : ∑ k ∈ labels n d, multiBern n c k = (∑ i ∈ Finset.range n, c i) ^ d := by
  rw [Finset.sum_pow_eq_sum_piAntidiag]
  refine Finset.sum_congr rfl fun k _ => ?_
  unfold multiBern
  rw [multinomial_cast]

theorem sumNet_eq {net : List (List ℕ × P3 K)} (hp : Proper n d net) (hk : Keys net) (hd : d ≤ 20) (c : ℕ → K) :
    sumNet (tab n c) net 0 = .ok (∑ k ∈ labels n d, multiBern n c k • value net (tab n k)) := by
  have hw : ∀ i, ∃ w, Label n d i → multiBernstein i (tab n c) = .ok w ∧ ∀ k ∈ labels n d, tab n k = i → w = multiBern n c k := by
    intro i
    by_cases hi : Label n d i
    · obtain ⟨k, h1, h2⟩ := label_labels hi
      refine ⟨multiBern n c k, fun _ => ⟨by rw [← h2]; exact multiBernstein_eq h1 hd c, fun k' h3 h4 => ?_⟩⟩
      rw [labels_inj h1 h3 (h2.trans h4.symm)]
    · exact ⟨0, fun h => absurd h hi⟩
  choose w hw using hw
  have step : ∀ (net : List (List ℕ × P3 K)) (p : P3 K), (∀ e ∈ net, Label n d e.1) → sumNet (tab n c) net p = .ok (p + (net.map fun e => w e.1 • e.2).sum) := by
    intro net
    induction net with
    | nil => intro p _; unfold sumNet; simp
    | cons e r ih =>
      intro p h
      unfold sumNet
      rw [(hw e.1 (h e (by simp))).1, M_bind_ok, ih _ fun e he => h e (List.mem_cons_of_mem _ he), List.map_cons, List.sum_cons, add_assoc]
  rw [step net 0 fun e he => hp e.1 fun w => (mapGet_eq_none.mp w) (List.mem_map_of_mem he), zero_add,
    sum_net (labels n d) (fun k => tab n k) labels_inj (fun i p => w i • p) hk fun i hi => label_labels (hp i hi)]
  congr 1
  refine Finset.sum_congr rfl fun k hk => ?_
  rw [(hw (tab n k) (labels_label hk)).2 k hk rfl]
  unfold value
  cases mapGet net (tab n k) <;> simp

end weights

end SPatch

end Transfinite
