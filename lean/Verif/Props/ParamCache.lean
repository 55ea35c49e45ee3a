import Verif.Model.ParamCache
import Verif.Lemmas.Lists
import Verif.Props.Barycentric

/-! # C19: the caches of the parameterizations are transparent -/

namespace Transfinite

namespace Param

variable {K : Type} [Field K] [LinearOrder K] [Libm K]

/-- The value of `mapToRibbon(i, uv)` by the formulas, without any cache. -/
def mapRaw (ε : K) (k : Kind K) (d : Domain K) (mult : List K) (i : ℕ) (uv : P2 K) : M (P2 K) :=
  match k with
  | .bary t => baryMap ε t d i uv
  | .constrained => constrainedMap ε d i uv
  | .overlap => overlapMap ε .wachspress d i uv
  | .polar => polarMap ε d i uv
  | .bilinear => bilinearMap ε d i uv
  | .parallel => parallelMap ε mult d i uv
  | .superD => parallelMap ε mult d i uv
  | .interconnected => interconnectedMap ε d i uv
  | .perpPolar => perpPolarMap d i uv
  | .circular fmod => circularMap ε fmod d.vertices.length i uv

/-- The kind of coordinates used by a class, if it has any. -/
def coordinates : Kind K → Option BaryType
  | .bary t => some t
  | .constrained => some .wachspress
  | .overlap => some .wachspress
  | .polar => some .meanValue
  | _ => none

/-- The domain given to the last `update()` of a history. -/
def lastDomain (d : Domain K) : List (Call K) → Domain K
  | [] => d
  | .update d' :: cs => lastDomain d' cs
  | _ :: cs => lastDomain d cs

end Param

open Param

variable {K : Type} [Field K] [LinearOrder K] [Libm K]

private theorem ptLess_eq (p q : P2 K) : (!ptLess p q && !ptLess q p) = true ↔ p = q := by
  unfold ptLess
  constructor
  · intro h
    simp only [Bool.and_eq_true, Bool.not_eq_true', Bool.or_eq_false_iff, Bool.and_eq_false_iff, decide_eq_false_iff_not,
      not_lt, beq_eq_false_iff_ne, ne_eq] at h
    obtain ⟨⟨a, b⟩, c, d⟩ := h
    have hx : p.x = q.x := le_antisymm c a
    refine P2.ext hx (le_antisymm ?_ ?_)
    · rcases d with d | d
      · exact absurd hx.symm d
      · exact d
    · rcases b with b | b
      · exact absurd hx b
      · exact b
  · rintro rfl; simp

theorem Param.mapFind_some {β : Type} {m : List (P2 K × β)} {uv : P2 K} {b : β} (h : mapFind m uv = some b) : (uv, b) ∈ m := by
  unfold mapFind at h
  rw [Option.map_eq_some_iff] at h
  obtain ⟨e, he, rfl⟩ := h
  have h1 := List.mem_of_find?_eq_some he
  have h2 := List.find?_some he
  rw [ptLess_eq] at h2
  rw [← h2]; exact h1

/-- All cached values are right for the current domain. -/
structure Param.CachesRight (ε : K) (k : Kind K) (d : Domain K) (mult : List K) (o : Obj K) : Prop where
  dom : o.dom = d
  mults : o.mult = mult
  cache : ∀ uv r, (uv, r) ∈ o.cache → (List.range d.vertices.length).mapM (fun i => mapRaw ε k d mult i uv) = .ok r
  bary : ∀ uv l t, (uv, l) ∈ o.bary → coordinates k = some t → barycentric ε t d uv = .ok l

/-- `m`, run on a good state, gives the same value (or fault) as `r`, and keeps the state good. -/
def Param.Simulates {α : Type} (P : Obj K → Prop) (m : Obj K → M (α × Obj K)) (r : M α) : Prop :=
  ∀ o, P o → (∃ a o', m o = .ok (a, o') ∧ r = .ok a ∧ P o') ∨ (∃ e, m o = .error e ∧ r = .error e)

private theorem sim_bary {ε : K} {k : Kind K} {d : Domain K} {mult : List K} {t : BaryType} (hk : coordinates k = some t)
    (uv : P2 K) : Simulates (CachesRight ε k d mult) (baryCached ε t uv) (barycentric ε t d uv) := by
  intro o ho
  unfold baryCached
  split
  · rename_i l hl
    exact Or.inl ⟨l, o, rfl, ho.bary uv l t (mapFind_some hl) hk, ho⟩
  · rw [ho.dom]
    cases e : barycentric ε t d uv with
    | error f => right; exact ⟨f, rfl, rfl⟩
    | ok l =>
      left
      refine ⟨l, _, rfl, rfl, rfl, ho.mults, ho.cache, ?_⟩
      intro uv' l' t' hm ht
      rcases List.mem_cons.mp hm with q | q
      · obtain ⟨rfl, rfl⟩ := Prod.mk.inj q
        rw [hk] at ht; cases ht; exact e
      · exact ho.bary uv' l' t' q ht

private theorem sim_baryMap {ε : K} {k : Kind K} {d : Domain K} {mult : List K} {t : BaryType} (hk : coordinates k = some t)
    (i : ℕ) (uv : P2 K) : Simulates (CachesRight ε k d mult) (baryMapC ε t i uv) (baryMap ε t d i uv) := by
  intro o ho
  unfold baryMapC baryMap
  rcases sim_bary hk uv o ho with ⟨a, o', e1, e2, h⟩ | ⟨f, e1, e2⟩
  · rw [e1, e2]
    simp only [M_bind_ok, h.dom]
    cases baryMapWith ε d a i uv with
    | error f => right; exact ⟨f, rfl, rfl⟩
    | ok l => left; exact ⟨l, o', rfl, rfl, h⟩
  · rw [e1, e2]; right; exact ⟨f, rfl, rfl⟩

private theorem sim_constrained {ε : K} {d : Domain K} {mult : List K} (i : ℕ) (uv : P2 K) :
    Simulates (CachesRight ε .constrained d mult) (constrainedMapC ε i uv) (constrainedMap ε d i uv) := by
  intro o ho
  unfold constrainedMapC constrainedMap constrainedMapWith
  rw [ho.dom]
  dsimp only
  rcases sim_baryMap (k := .constrained) rfl i uv o ho with ⟨a, o1, e1, e2, h1⟩ | ⟨f, e1, e2⟩
  · rw [e1, e2]; simp only [M_bind_ok]
    rcases sim_baryMap (k := .constrained) rfl (prevIx d.vertices.length i) uv o1 h1 with ⟨b, o2, e1, e2, h2⟩ | ⟨f, e1, e2⟩
    · rw [e1, e2]; simp only [M_bind_ok]
      rcases sim_baryMap (k := .constrained) rfl (nextIx d.vertices.length i) uv o2 h2 with ⟨c, o3, e1, e2, h3⟩ | ⟨f, e1, e2⟩
      · rw [e1, e2]; simp only [M_bind_ok]
        cases constrainedBlend ε a b.x c.x with
        | error f => right; exact ⟨f, rfl, rfl⟩
        | ok l => left; exact ⟨l, o3, rfl, rfl, h3⟩
      · rw [e1, e2]; right; exact ⟨f, rfl, rfl⟩
    · rw [e1, e2]; right; exact ⟨f, rfl, rfl⟩
  · rw [e1, e2]; right; exact ⟨f, rfl, rfl⟩

private theorem sim_overlap {ε : K} {d : Domain K} {mult : List K} (i : ℕ) (uv : P2 K) :
    Simulates (CachesRight ε .overlap d mult) (overlapMapC ε i uv) (overlapMap ε .wachspress d i uv) := by
  intro o ho
  unfold overlapMapC overlapMap
  rw [ho.dom]
  dsimp only
  by_cases hn : d.vertices.length % 2 ≠ 0
  · rw [if_pos hn, if_pos hn]; right; exact ⟨_, rfl, rfl⟩
  · rw [if_neg hn, if_neg hn]
    rcases sim_bary (k := .overlap) rfl uv o ho with ⟨a, o1, e1, e2, h1⟩ | ⟨f, e1, e2⟩
    · rw [e1, e2]; simp only [M_bind_ok]
      generalize (forLoop _ _ _ : M K) = x
      cases x with
      | error f => right; exact ⟨f, rfl, rfl⟩
      | ok l => left; exact ⟨_, o1, rfl, rfl, h1⟩
    · rw [e1, e2]; right; exact ⟨f, rfl, rfl⟩

private theorem sim_polar {ε : K} {d : Domain K} {mult : List K} (i : ℕ) (uv : P2 K) :
    Simulates (CachesRight ε .polar d mult) (polarMapC ε i uv) (polarMap ε d i uv) := by
  intro o ho
  unfold polarMapC polarMap
  rw [ho.dom]
  dsimp only
  generalize (vget d.vertices (prevIx d.vertices.length i)) = x
  cases x with
  | error f => right; exact ⟨f, rfl, rfl⟩
  | ok vp =>
  simp only [M_bind_ok]
  generalize (vget d.vertices i) = x
  cases x with
  | error f => right; exact ⟨f, rfl, rfl⟩
  | ok vi =>
  simp only [M_bind_ok]
  by_cases hc : (uv - vi).norm < ε
  · rw [if_pos hc, if_pos hc]; left; exact ⟨_, o, rfl, rfl, ho⟩
  · rw [if_neg hc, if_neg hc]
    generalize ((vp - vi).normalize) = x
    cases x with
    | error f => right; exact ⟨f, rfl, rfl⟩
    | ok w1 =>
    simp only [M_bind_ok]
    generalize ((uv - vi).normalize) = x
    cases x with
    | error f => right; exact ⟨f, rfl, rfl⟩
    | ok w2 =>
    simp only [M_bind_ok]
    generalize (d.angle i) = x
    cases x with
    | error f => right; exact ⟨f, rfl, rfl⟩
    | ok a =>
    simp only [M_bind_ok]
    generalize (fdiv (Libm.acos (Domain.clamp (P2.dot w1 w2) (-1) 1)) a) = x
    cases x with
    | error f => right; exact ⟨f, rfl, rfl⟩
    | ok s =>
    simp only [M_bind_ok]
    rcases sim_bary (k := .polar) rfl uv o ho with ⟨l, o1, e1, e2, h1⟩ | ⟨f, e1, e2⟩
    · rw [e1, e2]; simp only [M_bind_ok]
      cases vget l i with
      | error f => right; exact ⟨f, rfl, rfl⟩
      | ok l => left; exact ⟨_, o1, rfl, rfl, h1⟩
    · rw [e1, e2]; right; exact ⟨f, rfl, rfl⟩

private theorem sim_pure {P : Obj K → Prop} {m : M (P2 K)} {m' : Obj K → M (P2 K)} (h : ∀ o, P o → m' o = m) :
    Simulates P (fun o => pureC (m' o) o) m := by
  intro o ho
  unfold pureC
  dsimp only
  rw [h o ho]
  cases m with
  | error f => right; exact ⟨f, rfl, rfl⟩
  | ok l => left; exact ⟨l, o, rfl, rfl, ho⟩

theorem Param.sim_map (ε : K) (k : Kind K) (d : Domain K) (mult : List K) (i : ℕ) (uv : P2 K) :
    Simulates (CachesRight ε k d mult) (mapToRibbon ε k i uv) (mapRaw ε k d mult i uv) := by
  cases k with
  | bary t => exact sim_baryMap rfl i uv
  | constrained => exact sim_constrained i uv
  | overlap => exact sim_overlap i uv
  | polar => exact sim_polar i uv
  | bilinear => exact sim_pure fun o ho => by rw [ho.dom]; rfl
  | parallel => exact sim_pure fun o ho => by rw [ho.dom, ho.mults]; rfl
  | superD => exact sim_pure fun o ho => by rw [ho.dom, ho.mults]; rfl
  | interconnected => exact sim_pure fun o ho => by rw [ho.dom]; rfl
  | perpPolar => exact sim_pure fun o ho => by rw [ho.dom]; rfl
  | circular f => exact sim_pure fun o ho => by rw [ho.dom]; rfl

private theorem sim_loop {P : Obj K → Prop} {f : ℕ → Obj K → M (P2 K × Obj K)} {g : ℕ → M (P2 K)} (h : ∀ i, Simulates P (f i) (g i)) (n : ℕ) :
    Simulates P (fun o => forLoop n (fun i (st : List (P2 K) × Obj K) => do
      let sd ← f i st.2
      .ok (st.1 ++ [sd.1], sd.2)) ([], o)) ((List.range n).mapM g) := by
  induction n with
  | zero => intro o ho; left; exact ⟨[], o, rfl, rfl, ho⟩
  | succ n ih =>
    intro o ho
    dsimp only
    rw [forLoop_succ, List.range_succ, List.mapM_append]
    rcases ih o ho with ⟨l, o1, e1, e2, h1⟩ | ⟨e, e1, e2⟩
    · dsimp only at e1
      rw [e1, e2]
      simp only [M_bind_ok, List.mapM_cons, List.mapM_nil]
      rcases h n o1 h1 with ⟨a, o2, e1, e2, h2⟩ | ⟨e, e1, e2⟩
      · rw [e1, e2]; left; exact ⟨_, o2, rfl, rfl, h2⟩
      · rw [e1, e2]; right; exact ⟨e, rfl, rfl⟩
    · dsimp only at e1
      rw [e1, e2]; right; exact ⟨e, rfl, rfl⟩

private theorem sim_mapsBase (ε : K) (k : Kind K) (d : Domain K) (mult : List K) (uv : P2 K) :
    Simulates (CachesRight ε k d mult) (mapToRibbonsBase ε k uv) ((List.range d.vertices.length).mapM fun i => mapRaw ε k d mult i uv) := by
  intro o ho
  unfold mapToRibbonsBase
  split
  · rename_i r hr
    left; exact ⟨r, o, rfl, ho.cache uv r (mapFind_some hr), ho⟩
  · rw [ho.dom]
    rcases sim_loop (fun i => sim_map ε k d mult i uv) d.vertices.length o ho with ⟨l, o1, e1, e2, h1⟩ | ⟨e, e1, e2⟩
    · dsimp only at e1
      rw [e1, e2]
      left
      refine ⟨l, _, rfl, rfl, h1.dom, h1.mults, ?_, h1.bary⟩
      intro uv' r hm
      rcases List.mem_cons.mp hm with q | q
      · obtain ⟨rfl, rfl⟩ := Prod.mk.inj q
        exact e2
      · exact h1.cache uv' r q
    · dsimp only at e1
      rw [e1, e2]; right; exact ⟨e, rfl, rfl⟩

theorem mapM_range_ok {α : Type} {g : ℕ → M α} : ∀ {n : ℕ} {l : List α}, (List.range n).mapM g = .ok l →
    l.length = n ∧ ∀ i < n, ∃ a, g i = .ok a ∧ l[i]? = some a := by
  intro n
  induction n with
  | zero => intro l h; cases h; exact ⟨rfl, fun i hi => absurd hi (by omega)⟩
  | succ n ih =>
    intro l h
    rw [List.range_succ, List.mapM_append] at h
    cases e : (List.range n).mapM g with
    | error f => rw [e] at h; cases h
    | ok l' =>
      rw [e] at h
      simp only [M_bind_ok, List.mapM_cons, List.mapM_nil] at h
      cases e2 : g n with
      | error f => rw [e2] at h; cases h
      | ok a =>
        rw [e2] at h
        cases h
        obtain ⟨h1, h2⟩ := ih e
        refine ⟨by simp [h1], ?_⟩
        intro i hi
        rcases Nat.lt_succ_iff_lt_or_eq.mp hi with hi | rfl
        · obtain ⟨b, q1, q2⟩ := h2 i hi
          exact ⟨b, q1, by rw [List.getElem?_append_left (by omega)]; exact q2⟩
        · exact ⟨a, e2, by rw [List.getElem?_append_right (by omega), h1]; simp⟩

/-- The second pass of `ParameterizationInterconnected::mapToRibbons` does not change the values,
as `mapToRibbon` was already the overridden one. -/
theorem Param.fix_id {ε : K} {d : Domain K} {uv : P2 K} {l : List (P2 K)}
    (h : (List.range d.vertices.length).mapM (fun i => interconnectedMap ε d i uv) = .ok l) :
    interconnectedFix d.vertices.length l = .ok l := by
  obtain ⟨h1, h2⟩ := mapM_range_ok h
  unfold interconnectedFix
  have hx : ∀ i < d.vertices.length, ∀ a, interconnectedMap ε d i uv = .ok a → ∃ b, bilinearMap ε d i uv = .ok b ∧ a.x = b.x := by
    intro i hi a ha
    unfold interconnectedMap at ha
    dsimp only at ha
    cases e1 : bilinearMap ε d (prevIx d.vertices.length i) uv with
    | error f => rw [e1] at ha; cases ha
    | ok b1 =>
      cases e2 : bilinearMap ε d (nextIx d.vertices.length i) uv with
      | error f => rw [e1, e2] at ha; cases ha
      | ok b2 =>
        cases e3 : bilinearMap ε d i uv with
        | error f => rw [e1, e2, e3] at ha; cases ha
        | ok b3 => rw [e1, e2, e3] at ha; cases ha; exact ⟨b3, rfl, rfl⟩
  apply forLoop_eq (fun _ => l) rfl
  intro i hi
  have hp : prevIx d.vertices.length i < d.vertices.length := prevIx_lt (by omega)
  have hn : nextIx d.vertices.length i < d.vertices.length := nextIx_lt (by omega)
  obtain ⟨a, q1, q2⟩ := h2 i hi
  obtain ⟨ap, p1, p2⟩ := h2 _ hp
  obtain ⟨an, n1, n2⟩ := h2 _ hn
  obtain ⟨b, r1, r2⟩ := hx i hi a q1
  obtain ⟨bp, s1, s2⟩ := hx _ hp ap p1
  obtain ⟨bn, t1, t2⟩ := hx _ hn an n1
  rw [vget_eq_ok.mpr q2, vget_eq_ok.mpr p2, vget_eq_ok.mpr n2]
  simp only [M_bind_ok]
  rw [vset_of_lt (by omega)]
  have : (⟨a.x, (1 - ap.x) * hermite 0 a.x + an.x * (1 - hermite 0 a.x)⟩ : P2 K) = a := by
    unfold interconnectedMap at q1
    dsimp only at q1
    rw [r1, s1, t1] at q1
    simp only [M_bind_ok] at q1
    rw [s2, t2, r2, Except.ok.inj q1]
  rw [this]
  congr 1
  obtain ⟨_, rfl⟩ := List.getElem?_eq_some_iff.mp q2
  exact List.set_getElem_self _

theorem Param.sim_maps (ε : K) (k : Kind K) (d : Domain K) (mult : List K) (uv : P2 K) :
    Simulates (CachesRight ε k d mult) (mapToRibbons ε k uv) ((List.range d.vertices.length).mapM fun i => mapRaw ε k d mult i uv) := by
  intro o ho
  unfold mapToRibbons
  rcases sim_mapsBase ε k d mult uv o ho with ⟨l, o1, e1, e2, h1⟩ | ⟨e, e1, e2⟩
  · rw [e1, e2]
    cases k with
    | interconnected =>
      simp only [M_bind_ok]
      rw [h1.dom, fix_id e2]
      left; exact ⟨l, o1, rfl, rfl, h1⟩
    | _ => left; exact ⟨l, o1, rfl, rfl, h1⟩
  · rw [e1, e2]; right; exact ⟨e, rfl, rfl⟩

theorem Param.update_good {ε : K} {k : Kind K} {d : Domain K} {o : Obj K} (h : update k d = .ok o) :
    ∃ mult, o = ⟨d, mult, [], []⟩ ∧ CachesRight ε k d mult o := by
  have : ∃ mult, o = ⟨d, mult, [], []⟩ := by
    unfold update at h
    cases k with
    | parallel =>
      simp only at h
      cases e : parallelMultipliers d with
      | error f => rw [e] at h; cases h
      | ok m => rw [e] at h; cases h; exact ⟨m, rfl⟩
    | superD =>
      simp only at h
      cases e : superDMultipliers d with
      | error f => rw [e] at h; cases h
      | ok m => rw [e] at h; cases h; exact ⟨m, rfl⟩
    | _ => cases h; exact ⟨[], rfl⟩
  obtain ⟨m, rfl⟩ := this
  exact ⟨m, rfl, rfl, rfl, fun _ _ h => absurd h List.not_mem_nil, fun _ _ _ h => absurd h List.not_mem_nil⟩

private theorem sim_state {α : Type} {P : Obj K → Prop} {m : Obj K → M (α × Obj K)} {r : M α} (hs : Simulates P m r) {o o' : Obj K} (ho : P o)
    (h : (do let x ← m o; (.ok x.2 : M (Obj K))) = .ok o') : P o' := by
  rcases hs o ho with ⟨a, o1, e1, _, h1⟩ | ⟨e, e1, _⟩
  · rw [e1] at h; cases h; exact h1
  · rw [e1] at h; cases h

theorem Param.run_good {ε : K} {k : Kind K} (cs : List (Call K)) : ∀ {d : Domain K} {mult : List K} {o o' : Obj K},
    update k d = .ok ⟨d, mult, [], []⟩ → CachesRight ε k d mult o → run ε k o cs = .ok o' →
    ∃ mult', update k (lastDomain d cs) = .ok ⟨lastDomain d cs, mult', [], []⟩ ∧ CachesRight ε k (lastDomain d cs) mult' o' := by
  induction cs with
  | nil => intro d mult o o' hu hg h; cases h; exact ⟨mult, hu, hg⟩
  | cons c cs ih =>
    intro d mult o o' hu hg h
    unfold run at h
    cases e : step ε k o c with
    | error f => rw [e] at h; cases h
    | ok o1 =>
      rw [e] at h
      simp only [M_bind_ok] at h
      cases c with
      | update d' =>
        obtain ⟨m, rfl, hg'⟩ := update_good (ε := ε) e
        exact ih e hg' h
      | map i uv => exact ih hu (sim_state (sim_map ε k d mult i uv) hg e) h
      | maps uv => exact ih hu (sim_state (sim_maps ε k d mult uv) hg e) h
      | bary uv =>
        unfold step at e
        cases k with
        | bary t => exact ih hu (sim_state (sim_bary rfl uv) hg e) h
        | constrained => exact ih hu (sim_state (sim_bary rfl uv) hg e) h
        | overlap => exact ih hu (sim_state (sim_bary rfl uv) hg e) h
        | polar => exact ih hu (sim_state (sim_bary rfl uv) hg e) h
        | _ => cases e

theorem Param.sim_fst {α : Type} {P : Obj K → Prop} {m : Obj K → M (α × Obj K)} {r : M α} (hs : Simulates P m r) {o : Obj K} (ho : P o) :
    Prod.fst <$> m o = r := by
  rcases hs o ho with ⟨a, o1, e1, e2, _⟩ | ⟨e, e1, e2⟩
  · rw [e1, e2]; rfl
  · rw [e1, e2]; rfl

/-- C19: after any history, every query gives the same value, or the same failure, as a fresh object
over the current domain (the one of the last update), namely the value of the formulas without caches,
and `mapToRibbons` consists of the values of `mapToRibbon`. -/
theorem C19_transparent {ε : K} {k : Kind K} {d0 : Domain K} {o0 o : Obj K} {cs : List (Call K)}
    (h0 : update k d0 = .ok o0) (h : run ε k o0 cs = .ok o) :
    ∃ fresh, update k (lastDomain d0 cs) = .ok fresh ∧ fresh.dom = lastDomain d0 cs ∧ fresh.cache = [] ∧ fresh.bary = [] ∧
      (∀ i uv, Prod.fst <$> mapToRibbon ε k i uv o = Prod.fst <$> mapToRibbon ε k i uv fresh ∧
        Prod.fst <$> mapToRibbon ε k i uv o = mapRaw ε k fresh.dom fresh.mult i uv) ∧
      (∀ uv, Prod.fst <$> mapToRibbons ε k uv o = Prod.fst <$> mapToRibbons ε k uv fresh ∧
        Prod.fst <$> mapToRibbons ε k uv o = (List.range fresh.dom.vertices.length).mapM (fun i => mapRaw ε k fresh.dom fresh.mult i uv)) ∧
      (∀ uv t, coordinates k = some t → Prod.fst <$> baryCached ε t uv o = barycentric ε t fresh.dom uv) := by
  obtain ⟨m0, rfl, hg0⟩ := update_good (ε := ε) h0
  obtain ⟨m, hu, hg⟩ := run_good cs h0 hg0 h
  obtain ⟨m', e, hg'⟩ := update_good (ε := ε) hu
  obtain rfl : m = m' := congrArg Obj.mult e
  refine ⟨_, hu, rfl, rfl, rfl, ?_, ?_, ?_⟩
  · intro i uv
    rw [sim_fst (sim_map ε k _ m i uv) hg, sim_fst (sim_map ε k _ m i uv) hg']
    exact ⟨rfl, rfl⟩
  · intro uv
    rw [sim_fst (sim_maps ε k _ m uv) hg, sim_fst (sim_maps ε k _ m uv) hg']
    exact ⟨rfl, rfl⟩
  · intro uv t ht
    exact sim_fst (sim_bary ht uv) hg

/-- C19: in particular, element `i` of a successful `mapToRibbons(uv)` is what `mapToRibbon(i, uv)` returns,
also when the two are called one after the other. -/
theorem C19_elements {ε : K} {k : Kind K} {d0 : Domain K} {o0 o o1 : Obj K} {cs : List (Call K)} {uv : P2 K} {l : List (P2 K)}
    (h0 : update k d0 = .ok o0) (h : run ε k o0 cs = .ok o) (hl : mapToRibbons ε k uv o = .ok (l, o1)) :
    l.length = (lastDomain d0 cs).vertices.length ∧
    ∀ i < l.length, ∃ sd, l[i]? = some sd ∧ Prod.fst <$> mapToRibbon ε k i uv o = .ok sd ∧
      Prod.fst <$> mapToRibbon ε k i uv o1 = .ok sd := by
  obtain ⟨m0, rfl, hg0⟩ := update_good (ε := ε) h0
  obtain ⟨m, hu, hg⟩ := run_good cs h0 hg0 h
  rcases sim_maps ε k _ m uv o hg with ⟨a, o', e1, e2, h1⟩ | ⟨e, e1, _⟩
  · rw [hl] at e1
    cases e1
    obtain ⟨q1, q2⟩ := mapM_range_ok e2
    refine ⟨q1, fun i hi => ?_⟩
    obtain ⟨sd, r1, r2⟩ := q2 i (by omega)
    refine ⟨sd, r2, ?_, ?_⟩
    · rw [sim_fst (sim_map ε k _ m i uv) hg, r1]
    · rw [sim_fst (sim_map ε k _ m i uv) h1, r1]
  · rw [hl] at e1; cases e1

section
attribute [local instance] libmQ

private def sq : Domain ℚ := ⟨4, 0, [⟨1, 1⟩, ⟨-1, 1⟩, ⟨-1, -1⟩, ⟨1, -1⟩], [⟨1/2, 0⟩, ⟨0, 1/2⟩, ⟨1/2, 0⟩, ⟨0, 1/2⟩], [⟨0, 1/2⟩, ⟨1/2, 0⟩, ⟨0, 1/2⟩, ⟨1/2, 0⟩]⟩

/-- A history meeting the hypotheses, with a cache hit for both caches after two queries. -/
example : (do
    let o0 ← update (.bary .wachspress) sq
    let o ← run (1/1000) (.bary .wachspress) o0 [.maps ⟨1/2, 0⟩, .map 1 ⟨1/4, 0⟩, .update sq, .map 2 ⟨1/2, 0⟩,
      .maps ⟨1/2, 0⟩, .maps ⟨1/2, 0⟩]
    .ok (o.cache.length, o.bary.length)) = (.ok (1, 1) : M (ℕ × ℕ)) := by decide +kernel

end

end Transfinite
