import Verif.Model.Threads
import Verif.Props.ParamCache
import Verif.Lemmas.Ribbon

/-! # C107: evaluation in several threads -/

namespace Transfinite

namespace Spec

/-- Two lists of accesses, by two threads, are in conflict: there is an object that both access, and one of them writes it. -/
def Conflict {L : Type} (a b : List (Access L)) : Prop := ∃ x ∈ a, ∃ y ∈ b, x.loc = y.loc ∧ (x.write = true ∨ y.write = true)

end Spec

open Spec

namespace Param

variable {K : Type} [Field K] [LinearOrder K] [Libm K]

/-- A data race on the caches: the next steps of two threads are in conflict (undefined behaviour in C++). -/
def Threads.Race (ε : K) (k : Kind K) (S : Threads K) : Prop :=
  ∃ (i j : ℕ) (t u : Thread K), i ≠ j ∧ S.threads[i]? = some t ∧ S.threads[j]? = some u ∧ Conflict (t.accesses ε k S.obj) (u.accesses ε k S.obj)

variable {ε : K} {k : Kind K} {d : Domain K} {mult : List K}

/-- The invariant of a thread: what it has computed so far is right. -/
def Thread.Right (ε : K) (k : Kind K) (d : Domain K) (mult : List K) (t : Thread K) : Prop :=
  match t.pos with
  | .find => True
  | .side i r => i ≤ d.vertices.length ∧ (List.range i).mapM (fun i => mapRaw ε k d mult i t.uv) = .ok r
  | .store r => (List.range d.vertices.length).mapM (fun i => mapRaw ε k d mult i t.uv) = .ok r
  | .done x => x = (List.range d.vertices.length).mapM fun i => mapRaw ε k d mult i t.uv

/-- The number of steps a thread still has to do. -/
def Thread.rank (n : ℕ) (t : Thread K) : ℕ :=
  match t.pos with
  | .find => n + 3
  | .side i _ => n - i + 2
  | .store _ => 1
  | .done _ => 0

theorem finish_right {uv : P2 K} {r : List (P2 K)} (h : (List.range d.vertices.length).mapM (fun i => mapRaw ε k d mult i uv) = .ok r) :
    finish k d.vertices.length r = .ok r := by
  unfold finish
  cases k with
  | interconnected => exact fix_id h
  | _ => rfl

theorem mapM_range_error {α : Type} {g : ℕ → M α} {i : ℕ} {r : List α} {e : Fault} (h1 : (List.range i).mapM g = .ok r) (h2 : g i = .error e) :
    ∀ n, i < n → (List.range n).mapM g = .error e := by
  intro n hn
  induction n with
  | zero => omega
  | succ n ih =>
    rw [List.range_succ, List.mapM_append]
    rcases Nat.lt_succ_iff_lt_or_eq.mp hn with q | rfl
    · rw [ih q]; rfl
    · rw [h1]
      simp only [M_bind_ok, List.mapM_cons]
      rw [h2]; rfl

theorem thread_step (n : ℕ) (hn : d.vertices.length = n) {t : Thread K} {o : Obj K} (ho : CachesRight ε k d mult o) (ht : t.Right ε k d mult) :
    CachesRight ε k d mult (t.step ε k o).2 ∧ (t.step ε k o).1.Right ε k d mult ∧ (t.step ε k o).1.uv = t.uv ∧ (t.step ε k o).1.rank n ≤ t.rank n - 1 := by
  subst hn
  obtain ⟨uv, pos⟩ := t
  cases pos with
  | find =>
    unfold Thread.step
    dsimp only
    cases e : mapFind o.cache uv with
    | some r =>
      have := ho.cache uv r (mapFind_some e)
      refine ⟨ho, ?_, rfl, Nat.zero_le _⟩
      change finish k o.dom.vertices.length r = _
      rw [ho.dom, finish_right this, this]
    | none => exact ⟨ho, ⟨Nat.zero_le _, rfl⟩, rfl, by change d.vertices.length - 0 + 2 ≤ d.vertices.length + 3 - 1; omega⟩
  | side i r =>
    obtain ⟨hi, hr⟩ := ht
    dsimp only at hr
    unfold Thread.step
    dsimp only
    rw [ho.dom]
    split_ifs with c
    · rcases sim_map ε k d mult i uv o ho with ⟨a, o', e1, e2, h⟩ | ⟨e, e1, e2⟩
      · rw [e1]
        refine ⟨h, ⟨c, ?_⟩, rfl, by change d.vertices.length - (i + 1) + 2 ≤ d.vertices.length - i + 2 - 1; omega⟩
        rw [List.range_succ, List.mapM_append, hr]
        simp only [M_bind_ok, List.mapM_cons, List.mapM_nil]
        rw [e2]; rfl
      · rw [e1]
        exact ⟨ho, (mapM_range_error hr e2 _ c).symm, rfl, Nat.zero_le _⟩
    · obtain rfl : i = d.vertices.length := by omega
      exact ⟨ho, hr, rfl, by change 1 ≤ d.vertices.length - d.vertices.length + 2 - 1; omega⟩
  | store r =>
    have ht : (List.range d.vertices.length).mapM (fun i => mapRaw ε k d mult i uv) = .ok r := ht
    refine ⟨⟨ho.dom, ho.mults, ?_, ho.bary⟩, ?_, rfl, Nat.zero_le _⟩
    · intro uv' r' hm
      rcases List.mem_cons.mp hm with q | q
      · obtain ⟨rfl, rfl⟩ := Prod.mk.inj q
        exact ht
      · exact ho.cache uv' r' q
    · change finish k o.dom.vertices.length r = _
      rw [ho.dom, finish_right ht]
      exact ht.symm
  | done x => exact ⟨ho, ht, rfl, Nat.zero_le _⟩

theorem threads_step {S : Threads K} (ho : CachesRight ε k d mult S.obj) (ht : ∀ t ∈ S.threads, t.Right ε k d mult) (j : ℕ) :
    CachesRight ε k d mult (S.step ε k j).obj ∧ (∀ t ∈ (S.step ε k j).threads, t.Right ε k d mult) := by
  unfold Threads.step
  split
  · exact ⟨ho, ht⟩
  · rename_i t e
    obtain ⟨h1, h2, _, _⟩ := thread_step _ rfl ho (ht t (List.mem_of_getElem? e))
    refine ⟨h1, fun u hu => ?_⟩
    rcases List.mem_or_eq_of_mem_set hu with q | rfl
    · exact ht u q
    · exact h2

theorem threads_run (schedule : List ℕ) : ∀ {S : Threads K}, CachesRight ε k d mult S.obj → (∀ t ∈ S.threads, t.Right ε k d mult) →
    CachesRight ε k d mult (S.run ε k schedule).obj ∧ (∀ t ∈ (S.run ε k schedule).threads, t.Right ε k d mult) ∧
    (∀ j t, S.threads[j]? = some t → ∃ u, (S.run ε k schedule).threads[j]? = some u ∧ u.uv = t.uv ∧ u.rank d.vertices.length ≤ t.rank d.vertices.length - schedule.count j) := by
  induction schedule with
  | nil => intro S ho ht; exact ⟨ho, ht, fun j t e => ⟨t, e, rfl, le_refl _⟩⟩
  | cons c cs ih =>
    intro S ho ht
    obtain ⟨h1, h2⟩ := threads_step ho ht c
    obtain ⟨q1, q2, q3⟩ := ih h1 h2
    refine ⟨q1, q2, fun j t e => ?_⟩
    rw [List.count_cons]
    by_cases hc : c = j
    · subst hc
      obtain ⟨_, _, r1, r2⟩ := thread_step _ rfl ho (ht t (List.mem_of_getElem? e))
      have e' : (S.step ε k c).threads[c]? = some (t.step ε k S.obj).1 := by
        unfold Threads.step
        rw [e]
        dsimp only
        rw [List.getElem?_set_self (List.getElem?_eq_some_iff.mp e).1]
      obtain ⟨u, u1, u2, u3⟩ := q3 c _ e'
      refine ⟨u, u1, u2.trans r1, u3.trans ?_⟩
      simp only [beq_self_eq_true, if_true]
      omega
    · have e' : (S.step ε k c).threads[j]? = some t := by
        unfold Threads.step
        split
        · exact e
        · dsimp only
          rw [List.getElem?_set_ne hc, e]
      obtain ⟨u, u1, u2, u3⟩ := q3 j _ e'
      refine ⟨u, u1, u2, u3.trans ?_⟩
      rw [if_neg (by simpa using hc)]
      omega

theorem start_right (uvs : List (P2 K)) (o : Obj K) : ∀ t ∈ (Threads.start uvs o).threads, t.Right ε k d mult := by
  intro t ht
  obtain ⟨uv, _, rfl⟩ := List.mem_map.mp ht
  trivial

theorem start_get {uvs : List (P2 K)} (o : Obj K) {j : ℕ} {uv : P2 K} (h : uvs[j]? = some uv) : (Threads.start uvs o).threads[j]? = some ⟨uv, .find⟩ := by
  unfold Threads.start
  rw [List.getElem?_map, h]; rfl

/-- C107: if every lookup, every call of `mapToRibbon` and every insertion were protected by a lock, then any number of threads could call `mapToRibbons` of the same
object: after any history of calls, with any interleaving, a thread that got enough steps has returned, with the result (or failure) of a single call. -/
theorem C107_values {d0 : Domain K} {o0 o : Obj K} {cs : List (Call K)} (h0 : update k d0 = .ok o0) (h : run ε k o0 cs = .ok o)
    {uvs : List (P2 K)} (schedule : List ℕ) {j : ℕ} {uv : P2 K} (hj : uvs[j]? = some uv) (hc : o.dom.vertices.length + 3 ≤ schedule.count j) :
    ((Threads.start uvs o).run ε k schedule).threads[j]? = some ⟨uv, .done (Prod.fst <$> mapToRibbons ε k uv o)⟩ := by
  obtain ⟨m0, rfl, hg0⟩ := update_good (ε := ε) h0
  obtain ⟨m, hu, hg⟩ := run_good cs h0 hg0 h
  obtain ⟨_, q2, q3⟩ := threads_run schedule (S := Threads.start uvs o) hg (start_right uvs o)
  obtain ⟨u, u1, u2, u3⟩ := q3 j _ (start_get o hj)
  rw [hg.dom] at hc
  have r0 : u.rank (lastDomain d0 cs).vertices.length = 0 := by
    have : (⟨uv, .find⟩ : Thread K).rank (lastDomain d0 cs).vertices.length = (lastDomain d0 cs).vertices.length + 3 := rfl
    omega
  have r1 := q2 u (List.mem_of_getElem? u1)
  rw [u1]
  obtain ⟨uv', pos⟩ := u
  dsimp only at u2
  subst u2
  cases pos with
  | done x =>
    have r1 : x = _ := r1
    rw [r1, sim_fst (sim_maps ε k _ m uv') hg]
  | find => exact absurd r0 (Nat.succ_ne_zero _)
  | side i r => exact absurd r0 (Nat.succ_ne_zero _)
  | store r => exact absurd r0 (Nat.succ_ne_zero _)

theorem mapFind_of_mem {β : Type} {m : List (P2 K × β)} {uv : P2 K} {b : β} (h : (uv, b) ∈ m) : ∃ b', mapFind m uv = some b' := by
  cases e : mapFind m uv with
  | some b' => exact ⟨b', rfl⟩
  | none =>
    unfold mapFind at e
    rw [Option.map_eq_none_iff, List.find?_eq_none] at e
    have := e _ h
    simp [ptLess] at this

/-- Threads for cached points only read. -/
theorem warm_run {uvs : List (P2 K)} {o : Obj K} (h : ∀ uv ∈ uvs, ∃ r, (uv, r) ∈ o.cache) (schedule : List ℕ) : ∀ {S : Threads K}, S.obj = o →
    (∀ t ∈ S.threads, t.uv ∈ uvs ∧ (t.pos = .find ∨ ∃ x, t.pos = .done x)) →
    (S.run ε k schedule).obj = o ∧ ∀ t ∈ (S.run ε k schedule).threads, t.uv ∈ uvs ∧ (t.pos = .find ∨ ∃ x, t.pos = .done x) := by
  induction schedule with
  | nil => intro S ho ht; exact ⟨ho, ht⟩
  | cons c cs ih =>
    intro S ho ht
    change (((S.step ε k c).run ε k cs).obj = o) ∧ ∀ t ∈ ((S.step ε k c).run ε k cs).threads, _
    have key : ∀ t ∈ S.threads, (t.step ε k S.obj).2 = o ∧ (t.step ε k S.obj).1.uv ∈ uvs ∧ ∃ x, (t.step ε k S.obj).1.pos = .done x := by
      intro t hm
      obtain ⟨q1, q2⟩ := ht t hm
      obtain ⟨uv, pos⟩ := t
      dsimp only at q1 q2
      rcases q2 with rfl | ⟨x, rfl⟩
      · obtain ⟨r, hr⟩ := h uv q1
        obtain ⟨b, hb⟩ := mapFind_of_mem hr
        unfold Thread.step
        dsimp only
        rw [ho, hb]
        exact ⟨rfl, q1, _, rfl⟩
      · exact ⟨ho, q1, x, rfl⟩
    apply ih
    · unfold Threads.step
      split
      · exact ho
      · rename_i t e
        exact (key t (List.mem_of_getElem? e)).1
    · unfold Threads.step
      split
      · exact ht
      · rename_i t e
        intro u hu
        rcases List.mem_or_eq_of_mem_set hu with q | rfl
        · exact ht u q
        · obtain ⟨_, q1, q2⟩ := key t (List.mem_of_getElem? e)
          exact ⟨q1, Or.inr q2⟩

/-- A thread running alone, before its insertion. -/
theorem cold_run {S : Threads K} {j : ℕ} {uv : P2 K} {l : List (P2 K)} (ho : CachesRight ε k d mult S.obj) (hj : S.threads[j]? = some ⟨uv, .find⟩)
    (hn : mapFind S.obj.cache uv = none) (hl : (List.range d.vertices.length).mapM (fun i => mapRaw ε k d mult i uv) = .ok l) :
    ∃ o', S.run ε k (List.replicate (d.vertices.length + 2) j) = ⟨S.threads.set j ⟨uv, .store l⟩, o'⟩ := by
  have hlt := (List.getElem?_eq_some_iff.mp hj).1
  obtain ⟨_, hl2⟩ := mapM_range_ok hl
  have loop : ∀ c ≤ d.vertices.length, ∃ r o', S.run ε k (List.replicate (c + 1) j) = ⟨S.threads.set j ⟨uv, .side c r⟩, o'⟩ ∧ CachesRight ε k d mult o' ∧
      (List.range c).mapM (fun i => mapRaw ε k d mult i uv) = .ok r := by
    intro c
    induction c with
    | zero =>
      intro _
      refine ⟨[], S.obj, ?_, ho, rfl⟩
      change S.step ε k j = _
      unfold Threads.step
      rw [hj]
      unfold Thread.step
      dsimp only
      rw [hn]
    | succ c ih =>
      intro hc
      obtain ⟨r, o', e, ho', hr⟩ := ih (by omega)
      obtain ⟨sd, hs, _⟩ := hl2 c hc
      rcases sim_map ε k d mult c uv o' ho' with ⟨a, o2, e1, e2, h⟩ | ⟨f, e1, e2⟩
      · refine ⟨r ++ [a], o2, ?_, h, ?_⟩
        · rw [List.replicate_succ', Threads.run, List.foldl_append]
          change Threads.step ε k (S.run ε k (List.replicate (c + 1) j)) j = _
          rw [e]
          unfold Threads.step
          dsimp only
          rw [List.getElem?_set_self hlt]
          unfold Thread.step
          dsimp only
          rw [ho'.dom, if_pos (show c < _ from hc), e1]
          dsimp only
          rw [List.set_set]
        · rw [List.range_succ, List.mapM_append, hr]
          simp only [M_bind_ok, List.mapM_cons, List.mapM_nil]
          rw [e2]; rfl
      · rw [hs] at e2; cases e2
  obtain ⟨r, o', e, ho', hr⟩ := loop _ (le_refl _)
  obtain rfl : r = l := by rw [hl] at hr; exact (Except.ok.inj hr).symm
  refine ⟨o', ?_⟩
  rw [List.replicate_succ', Threads.run, List.foldl_append]
  change Threads.step ε k (S.run ε k (List.replicate (d.vertices.length + 1) j)) j = _
  rw [e]
  unfold Threads.step
  dsimp only
  rw [List.getElem?_set_self hlt]
  unfold Thread.step
  dsimp only
  rw [ho'.dom, if_neg (lt_irrefl _)]
  dsimp only
  rw [List.set_set]

/-- C107: the calls of two or more threads on the same object (as the evaluations of a surface and of its copies) are free of data races, with every interleaving, exactly if all
points are in the cache before. -/
theorem C107_race {d0 : Domain K} {o0 o : Obj K} {cs : List (Call K)} (h0 : update k d0 = .ok o0) (h : run ε k o0 cs = .ok o)
    {uvs : List (P2 K)} (h2 : 2 ≤ uvs.length) (hok : ∀ uv ∈ uvs, ∃ r, mapToRibbons ε k uv o = .ok r) :
    (∀ schedule, ¬((Threads.start uvs o).run ε k schedule).Race ε k) ↔ ∀ uv ∈ uvs, ∃ r, (uv, r) ∈ o.cache := by
  obtain ⟨m0, rfl, hg0⟩ := update_good (ε := ε) h0
  obtain ⟨m, hu, hg⟩ := run_good cs h0 hg0 h
  constructor
  · intro hr uv huv
    cases e : mapFind o.cache uv with
    | some r => exact ⟨r, mapFind_some e⟩
    | none =>
      exfalso
      obtain ⟨j, hj⟩ := List.mem_iff_getElem?.mp huv
      obtain ⟨r, hr1⟩ := hok uv huv
      have hl := sim_fst (sim_maps ε k _ m uv) hg
      rw [hr1] at hl
      obtain ⟨o', ho'⟩ := cold_run (S := Threads.start uvs o) hg (start_get o hj) e hl.symm
      apply hr _
      rw [ho']
      have hlt := (List.getElem?_eq_some_iff.mp hj).1
      obtain ⟨i, hi, hij⟩ : ∃ i, i < uvs.length ∧ j ≠ i := by
        by_cases q : j = 0
        · exact ⟨1, by omega, by omega⟩
        · exact ⟨0, by omega, q⟩
      refine ⟨j, i, ⟨uv, .store r.1⟩, ⟨uvs[i], .find⟩, hij, ?_, ?_, ⟨.cache, true⟩, List.mem_singleton_self _, ⟨.cache, false⟩, List.mem_singleton_self _, rfl, Or.inl rfl⟩
      · dsimp only
        rw [List.getElem?_set_self (by unfold Threads.start; simpa using hlt)]
      · dsimp only
        rw [List.getElem?_set_ne hij, start_get o (List.getElem?_eq_getElem hi)]
  · rintro hw schedule ⟨i, j, t, u, _, ei, ej, x, hx, y, hy, _, hxy⟩
    obtain ⟨_, q⟩ := warm_run (ε := ε) (k := k) hw schedule (S := Threads.start uvs o) rfl (by
      intro t ht
      obtain ⟨uv, huv, rfl⟩ := List.mem_map.mp ht
      exact ⟨huv, Or.inl rfl⟩)
    have reads : ∀ t ∈ ((Threads.start uvs o).run ε k schedule).threads, ∀ a ∈ t.accesses ε k ((Threads.start uvs o).run ε k schedule).obj, a.write = false := by
      intro t ht a ha
      obtain ⟨_, p⟩ := q t ht
      unfold Thread.accesses at ha
      rcases p with p | ⟨x, p⟩
      · rw [p] at ha
        rw [List.mem_singleton.mp ha]
      · rw [p] at ha
        cases ha
    rcases hxy with w | w
    · rw [reads t (List.mem_of_getElem? ei) x hx] at w; cases w
    · rw [reads u (List.mem_of_getElem? ej) y hy] at w; cases w

theorem mapToRibbon_cache {i : ℕ} {uv : P2 K} {o : Obj K} {r : P2 K × Obj K} (h : mapToRibbon ε k i uv o = .ok r) : r.2.cache = o.cache := by
  have bc : ∀ {t : BaryType} {o : Obj K} {r : List K × Obj K}, baryCached ε t uv o = .ok r → r.2.cache = o.cache := by
    intro t o r h
    unfold baryCached at h
    split at h
    · cases h; rfl
    · obtain ⟨l, _, h⟩ := bind_ok h
      cases h; rfl
  have bm : ∀ {t : BaryType} {i : ℕ} {o : Obj K} {r : P2 K × Obj K}, baryMapC ε t i uv o = .ok r → r.2.cache = o.cache := by
    intro t i o r h
    unfold baryMapC at h
    obtain ⟨l, h1, h⟩ := bind_ok h
    obtain ⟨sd, _, h⟩ := bind_ok h
    cases h
    exact bc h1
  have pc : ∀ {m : M (P2 K)}, pureC m o = .ok r → r.2.cache = o.cache := by
    intro m h
    unfold pureC at h
    obtain ⟨sd, _, h⟩ := bind_ok h
    cases h; rfl
  cases k with
  | bary t => exact bm h
  | constrained =>
    change constrainedMapC ε i uv o = _ at h
    unfold constrainedMapC at h
    dsimp only at h
    obtain ⟨a, h1, h⟩ := bind_ok h
    obtain ⟨b, h2, h⟩ := bind_ok h
    obtain ⟨c, h3, h⟩ := bind_ok h
    obtain ⟨sd, _, h⟩ := bind_ok h
    cases h
    exact (bm h3).trans ((bm h2).trans (bm h1))
  | overlap =>
    change overlapMapC ε i uv o = _ at h
    unfold overlapMapC at h
    dsimp only at h
    split_ifs at h
    obtain ⟨a, h1, h⟩ := bind_ok h
    obtain ⟨b, _, h⟩ := bind_ok h
    cases h
    exact bc h1
  | polar =>
    change polarMapC ε i uv o = _ at h
    unfold polarMapC at h
    dsimp only at h
    obtain ⟨_, _, h⟩ := bind_ok h
    obtain ⟨_, _, h⟩ := bind_ok h
    split_ifs at h
    · cases h; rfl
    obtain ⟨_, _, h⟩ := bind_ok h
    obtain ⟨_, _, h⟩ := bind_ok h
    obtain ⟨_, _, h⟩ := bind_ok h
    obtain ⟨_, _, h⟩ := bind_ok h
    obtain ⟨l, h1, h⟩ := bind_ok h
    obtain ⟨_, _, h⟩ := bind_ok h
    cases h
    exact bc h1
  | bilinear => exact pc h
  | parallel => exact pc h
  | superD => exact pc h
  | interconnected => exact pc h
  | perpPolar => exact pc h
  | circular f => exact pc h

theorem mapToRibbons_cache {uv : P2 K} {o : Obj K} {r : List (P2 K) × Obj K} (h : mapToRibbons ε k uv o = .ok r) :
    (∀ e ∈ o.cache, e ∈ r.2.cache) ∧ ∃ l, (uv, l) ∈ r.2.cache := by
  unfold mapToRibbons at h
  obtain ⟨b, h1, h⟩ := bind_ok h
  have hr : r.2 = b.2 := by
    cases k with
    | interconnected =>
      obtain ⟨_, _, h⟩ := bind_ok h
      cases h; rfl
    | _ => cases h; rfl
  rw [hr]
  unfold mapToRibbonsBase at h1
  split at h1
  · rename_i l e
    cases h1
    exact ⟨fun _ q => q, l, mapFind_some e⟩
  · obtain ⟨st, h2, h1⟩ := bind_ok h1
    cases h1
    have keep : ∀ n (st : List (P2 K) × Obj K), forLoop n (fun i (st : List (P2 K) × Obj K) => do
        let sd ← mapToRibbon ε k i uv st.2
        (.ok (st.1 ++ [sd.1], sd.2) : M _)) ([], o) = .ok st → st.2.cache = o.cache := by
      intro n
      induction n with
      | zero => intro st h; cases h; rfl
      | succ n ih =>
        intro st h
        rw [forLoop_succ] at h
        obtain ⟨s1, e1, h⟩ := bind_ok h
        obtain ⟨sd, e2, h⟩ := bind_ok h
        cases h
        exact (mapToRibbon_cache e2).trans (ih s1 e1)
    have := keep _ _ h2
    refine ⟨fun e he => List.mem_cons_of_mem _ ?_, _, List.mem_cons_self⟩
    rw [this]
    exact he

/-- C107: it is enough to evaluate once before in one thread: after any history of calls, when `mapToRibbons` was called for all points of the threads, there are no data races. -/
theorem C107_warm {d0 : Domain K} {o0 o1 o : Obj K} {cs : List (Call K)} (h0 : update k d0 = .ok o0) (h : run ε k o0 cs = .ok o1)
    {uvs : List (P2 K)} (hw : run ε k o1 (uvs.map .maps) = .ok o) (schedule : List ℕ) : ¬((Threads.start uvs o).run ε k schedule).Race ε k := by
  have cached : ∀ (us : List (P2 K)) {o1 o : Obj K}, run ε k o1 (us.map .maps) = .ok o → (∀ e ∈ o1.cache, e ∈ o.cache) ∧ ∀ uv ∈ us, ∃ r, (uv, r) ∈ o.cache := by
    intro us
    induction us with
    | nil => intro o1 o h; cases h; exact ⟨fun _ q => q, fun _ q => absurd q List.not_mem_nil⟩
    | cons u us ih =>
      intro o1 o h
      rw [List.map_cons] at h
      unfold run at h
      obtain ⟨o2, e, h⟩ := bind_ok h
      unfold step at e
      obtain ⟨r, e1, e⟩ := bind_ok e
      cases e
      obtain ⟨p1, p2⟩ := mapToRibbons_cache e1
      obtain ⟨q1, q2⟩ := ih h
      refine ⟨fun x hx => q1 x (p1 x hx), fun v hv => ?_⟩
      rcases List.mem_cons.mp hv with rfl | hv
      · obtain ⟨l, hl⟩ := p2
        exact ⟨l, q1 _ hl⟩
      · exact q2 v hv
  obtain ⟨_, hc⟩ := cached uvs hw
  rintro ⟨i, j, t, u, hij, ei, ej, c⟩
  have hrun : run ε k o0 (cs ++ uvs.map .maps) = .ok o := by
    have : ∀ (cs cs' : List (Call K)) (o0 o1 : Obj K), run ε k o0 cs = .ok o1 → run ε k o0 (cs ++ cs') = run ε k o1 cs' := by
      intro cs cs'
      induction cs with
      | nil => intro o0 o1 h; cases h; rfl
      | cons c cs ih =>
        intro o0 o1 h
        unfold run at h
        obtain ⟨o2, e, h⟩ := bind_ok h
        rw [List.cons_append]
        conv_lhs => unfold run
        rw [e, M_bind_ok]
        exact ih _ _ h
    rw [this _ _ _ _ h, hw]
  obtain ⟨m0, rfl, hg0⟩ := update_good (ε := ε) h0
  obtain ⟨m, hu, hg⟩ := run_good _ h0 hg0 hrun
  have hlen : (((Threads.start uvs o).run ε k schedule).threads).length = uvs.length := by
    have : ∀ (sch : List ℕ) (S : Threads K), (S.run ε k sch).threads.length = S.threads.length := by
      intro sch
      induction sch with
      | nil => intro S; rfl
      | cons c sch ih =>
        intro S
        change ((S.step ε k c).run ε k sch).threads.length = _
        rw [ih]
        unfold Threads.step
        split <;> simp
    rw [this]
    simp [Threads.start]
  refine (C107_race h0 hrun (uvs := uvs) ?_ ?_).mpr hc schedule ⟨i, j, t, u, hij, ei, ej, c⟩
  · have := (List.getElem?_eq_some_iff.mp ei).1
    have := (List.getElem?_eq_some_iff.mp ej).1
    omega
  · intro uv huv
    obtain ⟨r, hr⟩ := hc uv huv
    rcases sim_maps ε k _ m uv o hg with ⟨a, o', e1, _, _⟩ | ⟨e, _, e2⟩
    · exact ⟨_, e1⟩
    · rw [hg.cache uv r hr] at e2; cases e2

theorem mapToRibbon_dom {i : ℕ} {uv : P2 K} {o : Obj K} {r : P2 K × Obj K} (h : mapToRibbon ε k i uv o = .ok r) : r.2.dom = o.dom := by
  have bc : ∀ {t : BaryType} {o : Obj K} {r : List K × Obj K}, baryCached ε t uv o = .ok r → r.2.dom = o.dom := by
    intro t o r h
    unfold baryCached at h
    split at h
    · cases h; rfl
    · obtain ⟨l, _, h⟩ := bind_ok h
      cases h; rfl
  have bm : ∀ {t : BaryType} {i : ℕ} {o : Obj K} {r : P2 K × Obj K}, baryMapC ε t i uv o = .ok r → r.2.dom = o.dom := by
    intro t i o r h
    unfold baryMapC at h
    obtain ⟨l, h1, h⟩ := bind_ok h
    obtain ⟨sd, _, h⟩ := bind_ok h
    cases h
    exact bc h1
  have pc : ∀ {m : M (P2 K)}, pureC m o = .ok r → r.2.dom = o.dom := by
    intro m h
    unfold pureC at h
    obtain ⟨sd, _, h⟩ := bind_ok h
    cases h; rfl
  cases k with
  | bary t => exact bm h
  | constrained =>
    change constrainedMapC ε i uv o = _ at h
    unfold constrainedMapC at h
    dsimp only at h
    obtain ⟨a, h1, h⟩ := bind_ok h
    obtain ⟨b, h2, h⟩ := bind_ok h
    obtain ⟨c, h3, h⟩ := bind_ok h
    obtain ⟨sd, _, h⟩ := bind_ok h
    cases h
    exact (bm h3).trans ((bm h2).trans (bm h1))
  | overlap =>
    change overlapMapC ε i uv o = _ at h
    unfold overlapMapC at h
    dsimp only at h
    split_ifs at h
    obtain ⟨a, h1, h⟩ := bind_ok h
    obtain ⟨b, _, h⟩ := bind_ok h
    cases h
    exact bc h1
  | polar =>
    change polarMapC ε i uv o = _ at h
    unfold polarMapC at h
    dsimp only at h
    obtain ⟨_, _, h⟩ := bind_ok h
    obtain ⟨_, _, h⟩ := bind_ok h
    split_ifs at h
    · cases h; rfl
    obtain ⟨_, _, h⟩ := bind_ok h
    obtain ⟨_, _, h⟩ := bind_ok h
    obtain ⟨_, _, h⟩ := bind_ok h
    obtain ⟨_, _, h⟩ := bind_ok h
    obtain ⟨l, h1, h⟩ := bind_ok h
    obtain ⟨_, _, h⟩ := bind_ok h
    cases h
    exact bc h1
  | bilinear => exact pc h
  | parallel => exact pc h
  | superD => exact pc h
  | interconnected => exact pc h
  | perpPolar => exact pc h
  | circular f => exact pc h

theorem done_stays {S : Threads K} {j : ℕ} {uv : P2 K} {x : M (List (P2 K))} (h : S.threads[j]? = some ⟨uv, .done x⟩) (c : ℕ) : S.run ε k (List.replicate c j) = S := by
  obtain ⟨hlt, hget⟩ := List.getElem?_eq_some_iff.mp h
  induction c with
  | zero => rfl
  | succ c ih =>
    change Threads.run ε k (S.step ε k j) (List.replicate c j) = S
    have : S.step ε k j = S := by
      unfold Threads.step
      rw [h]
      change (⟨S.threads.set j ⟨uv, .done x⟩, S.obj⟩ : Threads K) = S
      rw [← hget, List.set_getElem_self]
    rw [this, ih]

/-- C107: the steps of a thread are those of `mapToRibbons`: a single thread ends with the same result and the same contents of the caches. -/
theorem C107_alone {uv : P2 K} {o : Obj K} {r : List (P2 K) × Obj K} (h : mapToRibbons ε k uv o = .ok r) :
    (Threads.start [uv] o).run ε k (List.replicate (o.dom.vertices.length + 3) 0) = ⟨[⟨uv, .done (.ok r.1)⟩], r.2⟩ := by
  have base : ∃ b, mapToRibbonsBase ε k uv o = .ok b ∧ finish k b.2.dom.vertices.length b.1 = .ok r.1 ∧ b.2 = r.2 := by
    unfold mapToRibbons at h
    obtain ⟨b, h1, h⟩ := bind_ok h
    refine ⟨b, h1, ?_⟩
    unfold finish
    cases k with
    | interconnected =>
      obtain ⟨sds, h2, h⟩ := bind_ok h
      cases h
      exact ⟨h2, rfl⟩
    | _ => cases h; exact ⟨rfl, rfl⟩
  obtain ⟨b, hb, hf, he⟩ := base
  unfold mapToRibbonsBase at hb
  split at hb
  · rename_i l e
    cases hb
    dsimp only at hf he
    rw [← he]
    change Threads.run ε k (Threads.step ε k (Threads.start [uv] o) 0) (List.replicate (o.dom.vertices.length + 2) 0) = _
    have : Threads.step ε k (Threads.start [uv] o) 0 = ⟨[⟨uv, .done (.ok r.1)⟩], o⟩ := by
      change (⟨[((⟨uv, .find⟩ : Thread K).step ε k o).1], ((⟨uv, .find⟩ : Thread K).step ε k o).2⟩ : Threads K) = _
      unfold Thread.step
      dsimp only
      rw [e]
      dsimp only
      rw [hf]
    rw [this]
    exact done_stays rfl _
  · rename_i e
    obtain ⟨st, h2, hb⟩ := bind_ok hb
    cases hb
    dsimp only at hf he
    have domk : ∀ c (st : List (P2 K) × Obj K), forLoop c (fun i (st : List (P2 K) × Obj K) => do
        let sd ← mapToRibbon ε k i uv st.2
        (.ok (st.1 ++ [sd.1], sd.2) : M _)) ([], o) = .ok st → st.2.dom = o.dom := by
      intro c
      induction c with
      | zero => intro st h; cases h; rfl
      | succ c ih =>
        intro st h
        rw [forLoop_succ] at h
        obtain ⟨s1, e1, h⟩ := bind_ok h
        obtain ⟨sd, e2, h⟩ := bind_ok h
        cases h
        exact (mapToRibbon_dom e2).trans (ih s1 e1)
    have loop : ∀ c ≤ o.dom.vertices.length, ∀ (st : List (P2 K) × Obj K), forLoop c (fun i (st : List (P2 K) × Obj K) => do
        let sd ← mapToRibbon ε k i uv st.2
        (.ok (st.1 ++ [sd.1], sd.2) : M _)) ([], o) = .ok st →
        (Threads.start [uv] o).run ε k (List.replicate (c + 1) 0) = ⟨[⟨uv, .side c st.1⟩], st.2⟩ := by
      intro c
      induction c with
      | zero =>
        intro _ st h
        cases h
        change (⟨[((⟨uv, .find⟩ : Thread K).step ε k o).1], ((⟨uv, .find⟩ : Thread K).step ε k o).2⟩ : Threads K) = _
        unfold Thread.step
        dsimp only
        rw [e]
      | succ c ih =>
        intro hc st h
        rw [forLoop_succ] at h
        obtain ⟨s1, e1, h⟩ := bind_ok h
        obtain ⟨sd, e2, h⟩ := bind_ok h
        cases h
        rw [List.replicate_succ', Threads.run, List.foldl_append]
        change Threads.step ε k ((Threads.start [uv] o).run ε k (List.replicate (c + 1) 0)) 0 = _
        rw [ih (by omega) s1 e1]
        change (⟨[((⟨uv, .side c s1.1⟩ : Thread K).step ε k s1.2).1], ((⟨uv, .side c s1.1⟩ : Thread K).step ε k s1.2).2⟩ : Threads K) = _
        unfold Thread.step
        dsimp only
        rw [domk c s1 e1, if_pos (show c < _ from hc), e2]
    have h3 := loop _ (le_refl _) st h2
    have hst := domk _ st h2
    rw [show o.dom.vertices.length + 3 = o.dom.vertices.length + 1 + 1 + 1 from rfl, List.replicate_succ', List.replicate_succ', Threads.run, List.foldl_append, List.foldl_append]
    change Threads.step ε k (Threads.step ε k ((Threads.start [uv] o).run ε k (List.replicate (o.dom.vertices.length + 1) 0)) 0) 0 = _
    rw [h3]
    have s1 : Threads.step ε k (⟨[⟨uv, .side o.dom.vertices.length st.1⟩], st.2⟩ : Threads K) 0 = ⟨[⟨uv, .store st.1⟩], st.2⟩ := by
      change (⟨[((⟨uv, .side o.dom.vertices.length st.1⟩ : Thread K).step ε k st.2).1], ((⟨uv, .side o.dom.vertices.length st.1⟩ : Thread K).step ε k st.2).2⟩ : Threads K) = _
      unfold Thread.step
      dsimp only
      rw [hst, if_neg (lt_irrefl _)]
    rw [s1, ← he]
    exact congrArg (fun x => (⟨[⟨uv, .done x⟩], { st.2 with cache := (uv, st.1) :: st.2.cache }⟩ : Threads K)) hf

section
attribute [local instance] libmQ

private def sqT : Domain ℚ := ⟨4, 0, [⟨1, 1⟩, ⟨-1, 1⟩, ⟨-1, -1⟩, ⟨1, -1⟩], [⟨1/2, 0⟩, ⟨0, 1/2⟩, ⟨1/2, 0⟩, ⟨0, 1/2⟩], [⟨0, 1/2⟩, ⟨1/2, 0⟩, ⟨0, 1/2⟩, ⟨1/2, 0⟩]⟩

/-- Two threads for two points of a square: the points are not in the cache, and `mapToRibbons` is defined for both. -/
example : (do
    let o ← update (.bary .wachspress) sqT
    let r ← mapToRibbons (1/1000) (.bary .wachspress) ⟨1/2, 0⟩ o
    let s ← mapToRibbons (1/1000) (.bary .wachspress) ⟨1/4, 0⟩ o
    .ok (o.cache.length, r.1.length, s.1.length)) = (.ok (0, 4, 4) : M (ℕ × ℕ × ℕ)) := by decide +kernel

/-- The same points, called before in one thread. -/
example : (do
    let o ← update (.bary .wachspress) sqT
    let o ← run (1/1000) (.bary .wachspress) o [.maps ⟨1/2, 0⟩, .maps ⟨1/4, 0⟩]
    .ok o.cache.length) = (.ok 2 : M ℕ) := by decide +kernel

end

end Param

namespace RMF

variable {K : Type} [Field K] [LinearOrder K] [Libm K]

/-- A data race on the static matrix. -/
def Rots.Race (S : Rots K) : Prop :=
  ∃ (i j : ℕ) (t u : Rot K), i ≠ j ∧ S.threads[i]? = some t ∧ S.threads[j]? = some u ∧ Conflict t.accesses u.accesses

/-- A thread running alone. -/
def Rot.alone (t : Rot K) (m : ℕ × ℕ → K) : ℕ → Rot K × (ℕ × ℕ → K)
  | 0 => (t, m)
  | c + 1 => (Rot.alone t m c).1.step (Rot.alone t m c).2

theorem rots_run {S : Rots K} {j : ℕ} {t : Rot K} (h : S.threads[j]? = some t) (c : ℕ) :
    S.run (List.replicate c j) = ⟨S.threads.set j (t.alone S.matrix c).1, (t.alone S.matrix c).2⟩ := by
  have hlt := (List.getElem?_eq_some_iff.mp h).1
  induction c with
  | zero =>
    change S = ⟨S.threads.set j t, S.matrix⟩
    rw [show t = S.threads[j] from (List.getElem?_eq_some_iff.mp h).2.symm, List.set_getElem_self]
  | succ c ih =>
    rw [List.replicate_succ', Rots.run, List.foldl_append]
    change Rots.step (S.run (List.replicate c j)) j = _
    rw [ih]
    unfold Rots.step
    dsimp only
    rw [List.getElem?_set_self hlt]
    dsimp only
    rw [List.set_set]
    rfl

theorem alone_write (a : P3 K) (θ : K) (v s : P3 K) (m : ℕ × ℕ → K) : ((⟨a, θ, v, 0, s⟩ : Rot K).alone m 9).1 = ⟨a, θ, v, 9, s⟩ ∧
    ∀ i < 3, ∀ j < 3, ((⟨a, θ, v, 0, s⟩ : Rot K).alone m 9).2 (i, j) = entry a θ i j := by
  have key : ∀ c ≤ 9, ∃ m', (⟨a, θ, v, 0, s⟩ : Rot K).alone m c = (⟨a, θ, v, c, s⟩, m') ∧ ∀ c' < c, m' (place c') = entry a θ (place c').1 (place c').2 := by
    intro c
    induction c with
    | zero => intro _; exact ⟨m, rfl, fun c' h => absurd h (Nat.not_lt_zero _)⟩
    | succ c ih =>
      intro hc
      obtain ⟨m', e, h⟩ := ih (by omega)
      refine ⟨fun q => if q = place c then entry a θ (place c).1 (place c).2 else m' q, ?_, fun c' h' => ?_⟩
      · unfold Rot.alone
        rw [e]
        unfold Rot.step
        dsimp only
        rw [if_pos (show c < 9 from hc)]
      · dsimp only
        split_ifs with q
        · rw [q]
        · refine h c' (lt_of_le_of_ne (Nat.le_of_lt_succ h') fun w => q (by rw [w]))
  obtain ⟨m', e, h⟩ := key 9 (le_refl _)
  rw [e]
  refine ⟨rfl, fun i hi j hj => ?_⟩
  have := h (i + 3 * j) (by omega)
  have pl : place (i + 3 * j) = (i, j) := by
    unfold place
    rw [if_pos (by omega), show (i + 3 * j) % 3 = i by omega, show (i + 3 * j) / 3 = j by omega]
  rw [pl] at this
  exact this

/-- The sum after `c` readings. -/
def readSum (v : P3 K) (m : ℕ × ℕ → K) : ℕ → P3 K
  | 0 => ⟨0, 0, 0⟩
  | c + 1 => addTo (readSum v m c) (place (9 + c)).1 (m (place (9 + c)) * coord v (place (9 + c)).2)

theorem readSum_nine (v : P3 K) (m : ℕ × ℕ → K) : readSum v m 9 = ⟨0 + m (0, 0) * v.x + m (0, 1) * v.y + m (0, 2) * v.z,
    0 + m (1, 0) * v.x + m (1, 1) * v.y + m (1, 2) * v.z, 0 + m (2, 0) * v.x + m (2, 1) * v.y + m (2, 2) * v.z⟩ := by
  have e3 : readSum v m 3 = ⟨0 + m (0, 0) * v.x + m (0, 1) * v.y + m (0, 2) * v.z, 0, 0⟩ := rfl
  have e6 : readSum v m 6 = addTo (addTo (addTo (readSum v m 3) 1 (m (1, 0) * v.x)) 1 (m (1, 1) * v.y)) 1 (m (1, 2) * v.z) := rfl
  have e9 : readSum v m 9 = addTo (addTo (addTo (readSum v m 6) 2 (m (2, 0) * v.x)) 2 (m (2, 1) * v.y)) 2 (m (2, 2) * v.z) := rfl
  rw [e9, e6, e3]
  rfl

theorem alone_read (a a' : P3 K) (θ θ' : K) (v : P3 K) (m : ℕ × ℕ → K) (h : ∀ i < 3, ∀ j < 3, m (i, j) = entry a' θ' i j) :
    (⟨a, θ, v, 9, ⟨0, 0, 0⟩⟩ : Rot K).alone m 9 = (⟨a, θ, v, 18, rotate a' θ' v⟩, m) := by
  have key : ∀ c ≤ 9, (⟨a, θ, v, 9, ⟨0, 0, 0⟩⟩ : Rot K).alone m c = (⟨a, θ, v, 9 + c, readSum v m c⟩, m) := by
    intro c
    induction c with
    | zero => intro _; rfl
    | succ c ih =>
      intro hc
      unfold Rot.alone
      rw [ih (by omega)]
      unfold Rot.step
      dsimp only
      rw [if_neg (by omega), if_pos (by omega)]
      rfl
  rw [key 9 (le_refl _), readSum_nine, h 0 (by norm_num) 0 (by norm_num), h 0 (by norm_num) 1 (by norm_num), h 0 (by norm_num) 2 (by norm_num),
    h 1 (by norm_num) 0 (by norm_num), h 1 (by norm_num) 1 (by norm_num), h 1 (by norm_num) 2 (by norm_num), h 2 (by norm_num) 0 (by norm_num),
    h 2 (by norm_num) 1 (by norm_num), h 2 (by norm_num) 2 (by norm_num)]
  simp only [zero_add]
  rfl

theorem alone_add (t : Rot K) (m : ℕ × ℕ → K) (c c' : ℕ) : t.alone m (c + c') = (t.alone m c).1.alone (t.alone m c).2 c' := by
  induction c' with
  | zero => rfl
  | succ c' ih =>
    change ((t.alone m (c + c')).1.step (t.alone m (c + c')).2) = _
    rw [ih]
    rfl

theorem alone_all (a : P3 K) (θ : K) (v : P3 K) (m : ℕ × ℕ → K) : ∃ m', (⟨a, θ, v, 0, ⟨0, 0, 0⟩⟩ : Rot K).alone m 18 = (⟨a, θ, v, 18, rotate a θ v⟩, m') := by
  obtain ⟨e1, e2⟩ := alone_write a θ v ⟨0, 0, 0⟩ m
  refine ⟨((⟨a, θ, v, 0, ⟨0, 0, 0⟩⟩ : Rot K).alone m 9).2, ?_⟩
  rw [show 18 = 9 + 9 from rfl, alone_add, e1, alone_read a a θ θ v _ e2]

theorem done_keeps {j : ℕ} {t : Rot K} (ht : t.pc = 18) (schedule : List ℕ) : ∀ {S : Rots K}, S.threads[j]? = some t → (S.run schedule).threads[j]? = some t := by
  induction schedule with
  | nil => intro S h; exact h
  | cons c cs ih =>
    intro S h
    change ((S.step c).run cs).threads[j]? = some t
    apply ih
    unfold Rots.step
    split
    · exact h
    · rename_i u e
      dsimp only
      by_cases hc : c = j
      · subst hc
        rw [h] at e
        cases e
        rw [List.getElem?_set_self (List.getElem?_eq_some_iff.mp h).1]
        congr 1
        unfold Rot.step
        dsimp only
        rw [if_neg (by omega), if_neg (by omega)]
      · rw [List.getElem?_set_ne hc, h]

/-- C107: a call of `rotateFrame` that is not interrupted by other threads (for example because it is protected by a lock) gives the rotated vector, whatever the static matrix
contained before, and whatever happens after. -/
theorem C107_lock {S : Rots K} {j : ℕ} {a : P3 K} {θ : K} {v : P3 K} (h : S.threads[j]? = some ⟨a, θ, v, 0, ⟨0, 0, 0⟩⟩) (rest : List ℕ) :
    (S.run (List.replicate 18 j ++ rest)).threads[j]? = some ⟨a, θ, v, 18, rotate a θ v⟩ := by
  rw [Rots.run, List.foldl_append]
  change (Rots.run (S.run (List.replicate 18 j)) rest).threads[j]? = _
  apply done_keeps rfl
  obtain ⟨m', e⟩ := alone_all a θ v S.matrix
  rw [rots_run h, e]
  dsimp only
  rw [List.getElem?_set_self (List.getElem?_eq_some_iff.mp h).1]

/-- C107: `RMF::eval` is such a call of `rotateFrame`: when this is not interrupted, the sum computed by the thread is the value of `eval`. -/
theorem C107_eval (ε : K) (r : Rmf K) (u : K) : (∀ e, eval ε r u = .error e → evalThread ε r u = .error e) ∧ ∀ v, eval ε r u = .ok v →
    ∃ t, evalThread ε r u = .ok t ∧ ∀ (S : Rots K) j rest, S.threads[j]? = some t → (S.run (List.replicate 18 j ++ rest)).threads[j]?.map Rot.sum = some v := by
  unfold eval evalThread
  dsimp only
  split_ifs
  · exact ⟨fun _ h => by cases h; rfl, fun _ h => by cases h⟩
  · cases vget r.frames (r.frames.findIdx (fun f => decide (u < f.u)) - 1) with
    | error e => exact ⟨fun _ h => by cases h; rfl, fun _ h => by cases h⟩
    | ok g =>
      simp only [M_bind_ok]
      cases nextFrame ε r.curve g u with
      | error e => exact ⟨fun _ h => by cases h; rfl, fun _ h => by cases h⟩
      | ok f =>
        simp only [M_bind_ok]
        refine ⟨fun _ h => (by cases h), fun v h => ⟨_, rfl, fun S j rest hj => ?_⟩⟩
        rw [C107_lock hj rest]
        cases h
        rfl

/-- C107: without a lock: of any two threads that call `rotateFrame` (for any two ribbons, also of different surfaces), there is an execution where the first one
gets its vector rotated by the matrix of the second one; and the first two accesses are a data race. -/
theorem C107_static {S : Rots K} {i j : ℕ} (hij : i ≠ j) {a b : P3 K} {θ φ : K} {v w : P3 K} (hi : S.threads[i]? = some ⟨a, θ, v, 0, ⟨0, 0, 0⟩⟩)
    (hj : S.threads[j]? = some ⟨b, φ, w, 0, ⟨0, 0, 0⟩⟩) :
    S.Race ∧ (S.run (List.replicate 9 i ++ List.replicate 9 j ++ List.replicate 9 i)).threads[i]? = some ⟨a, θ, v, 18, rotate b φ v⟩ := by
  refine ⟨⟨i, j, _, _, hij, hi, hj, (⟨(0, 0), true⟩ : Access (ℕ × ℕ)), ?_, (⟨(0, 0), true⟩ : Access (ℕ × ℕ)), ?_, rfl, Or.inl rfl⟩, ?_⟩
  · simp [Rot.accesses, place]
  · simp [Rot.accesses, place]
  have li := (List.getElem?_eq_some_iff.mp hi).1
  obtain ⟨e1, _⟩ := alone_write a θ v ⟨0, 0, 0⟩ S.matrix
  rw [Rots.run, List.foldl_append, List.foldl_append]
  change (Rots.run (Rots.run (S.run (List.replicate 9 i)) (List.replicate 9 j)) (List.replicate 9 i)).threads[i]? = _
  rw [rots_run hi, e1]
  generalize ((⟨a, θ, v, 0, ⟨0, 0, 0⟩⟩ : Rot K).alone S.matrix 9).2 = m1
  have q0 : (S.threads.set i (⟨a, θ, v, 9, ⟨0, 0, 0⟩⟩ : Rot K))[j]? = some ⟨b, φ, w, 0, ⟨0, 0, 0⟩⟩ := by rw [List.getElem?_set_ne hij, hj]
  rw [rots_run (S := ⟨S.threads.set i ⟨a, θ, v, 9, ⟨0, 0, 0⟩⟩, m1⟩) q0]
  dsimp only
  obtain ⟨f1, f2⟩ := alone_write b φ w ⟨0, 0, 0⟩ m1
  rw [f1]
  have q : ((S.threads.set i ⟨a, θ, v, 9, ⟨0, 0, 0⟩⟩).set j (⟨b, φ, w, 9, ⟨0, 0, 0⟩⟩ : Rot K))[i]? = some ⟨a, θ, v, 9, ⟨0, 0, 0⟩⟩ := by
    rw [List.getElem?_set_ne hij.symm, List.getElem?_set_self li]
  rw [rots_run (S := ⟨_, _⟩) q]
  dsimp only
  rw [alone_read a b θ φ v _ f2, List.getElem?_set_self (by simpa using li)]

end RMF

/-- C107: so the normal vector of a fence may be in the direction of the curve: rotated about its own tangent `z` the vector `x` stays perpendicular to it; with the matrix of a
thread that turns about `y` by a right angle it becomes `-z`. -/
theorem C107_wrong : ∃ (S : RMF.Rots ℝ) (schedule : List ℕ) (t : RMF.Rot ℝ), S.threads.length = 2 ∧
    (∀ t ∈ S.threads, t.pc = 0 ∧ P3.norm t.axis = 1 ∧ P3.norm t.vec = 1 ∧ P3.dot t.axis t.vec = 0) ∧
    (S.run schedule).threads[0]? = some t ∧ t.pc = 18 ∧ |P3.dot t.axis t.sum| = 1 := by
  refine ⟨⟨[⟨⟨0, 0, 1⟩, 0, ⟨1, 0, 0⟩, 0, ⟨0, 0, 0⟩⟩, ⟨⟨0, 1, 0⟩, Real.pi / 2, ⟨1, 0, 0⟩, 0, ⟨0, 0, 0⟩⟩], fun _ => 0⟩, _, _, rfl, ?_,
    (RMF.C107_static (i := 0) (j := 1) (by norm_num) rfl rfl).2, rfl, ?_⟩
  · intro t ht
    simp only [List.mem_cons, List.not_mem_nil, or_false] at ht
    have nz : ∀ v : P3 ℝ, v.x * v.x + v.y * v.y + v.z * v.z = 1 → P3.norm v = 1 := fun v hv => by
      change √(v.x * v.x + v.y * v.y + v.z * v.z) = 1
      rw [hv, Real.sqrt_one]
    rcases ht with rfl | rfl
    · exact ⟨rfl, nz _ (by norm_num), nz _ (by norm_num), by simp [P3.dot]⟩
    · exact ⟨rfl, nz _ (by norm_num), nz _ (by norm_num), by simp [P3.dot]⟩
  · have hs : (Libm.sin (Real.pi / 2) : ℝ) = 1 := Real.sin_pi_div_two
    have hc : (Libm.cos (Real.pi / 2) : ℝ) = 0 := Real.cos_pi_div_two
    simp [P3.dot, RMF.rotate, hs, hc]

end Transfinite
