import Verif.Lemmas.GenBezier

/-! # C41: control networks of Generalized Bézier patches -/

namespace Transfinite

open Spec

namespace GB

variable {K : Type} [Field K] [LinearOrder K] [Libm K]

/-- C41, names: having the same point is an equivalence relation of the names, and a name has at most one other name. -/
theorem C41_names (n d : ℕ) :
    (∀ a, SamePoint n d a a) ∧ (∀ a b, SamePoint n d a b → SamePoint n d b a) ∧
    (∀ a b c : Name, a.InRange n d → c.InRange n d → SamePoint n d a b → SamePoint n d b c → SamePoint n d a c) ∧
    (∀ a b c : Name, a.InRange n d → b.InRange n d → c.InRange n d → SamePoint n d a b → SamePoint n d a c → a = b ∨ a = c ∨ b = c) ∧
    (∀ a : Name, a.InRange n d → (∃ b : Name, b.InRange n d ∧ b ≠ a ∧ SamePoint n d a b) ∨ (d % 2 = 0 ∧ a.col = d / 2)) := by
  refine ⟨samePoint_refl n d, fun a b => samePoint_symm, fun a b c ha hc => samePoint_trans ha.1 hc.1, ?_, ?_⟩
  · intro a b c ha hb hc h1 h2
    rcases h1 with h1 | h1 | h1
    · exact Or.inl h1
    · rcases h2 with h2 | h2 | h2
      · exact Or.inr (Or.inl h2)
      · right; right
        rw [h1.2.2, h2.2.2]
      · exact absurd h1 (fun q => atCorner_comp h2 q)
    · rcases h2 with h2 | h2 | h2
      · exact Or.inr (Or.inl h2)
      · exact absurd h2 (fun q => atCorner_comp h1 q)
      · right; right
        exact atCorner_left hb.1 hc.1 h1 h2
  · rintro ⟨i, j, k⟩ ⟨hi, hj, hk⟩
    dsimp only at *
    by_cases c1 : j < (d + 1) / 2
    · left
      refine ⟨⟨(i + n - 1) % n, d - k, j⟩, ⟨Nat.mod_lt _ (by omega), by dsimp only; omega, c1⟩, ?_, Or.inr (Or.inl ⟨c1, hk, rfl⟩)⟩
      intro e
      simp only [Name.mk.injEq] at e
      omega
    · by_cases c2 : d - j < (d + 1) / 2
      · left
        refine ⟨⟨(i + 1) % n, k, d - j⟩, ⟨Nat.mod_lt _ (by omega), by dsimp only; omega, c2⟩, ?_, Or.inr (Or.inr ⟨hk, c2, ?_⟩)⟩
        · intro e
          simp only [Name.mk.injEq] at e
          omega
        · simp only [Name.mk.injEq]
          refine ⟨(prevIx_nextIx hi).symm, by omega, trivial⟩
      · right
        omega

/-! ### The network as a map -/

theorem writes_aux {ε : K} {arc : List (P3 K) → K → K → K} {n d : ℕ} {w : List (Name × P3 K)} (hw : ∀ x ∈ w, x.1.InRange n d)
    {G : GB K} {F : ℕ → ℕ → ℕ → P3 K} (h : HasNet G n d F) :
    ∃ G', G.run ε arc (w.map fun x => Call.set x.1.side x.1.col x.1.row x.2) = .ok G' ∧ G' = { G with nets := G'.nets } ∧
      HasNet G' n d (fun i j k => w.foldl (fun v x => if SamePoint n d ⟨i, j, k⟩ x.1 then x.2 else v) (F i j k)) := by
  induction w generalizing G F with
  | nil => exact ⟨G, rfl, rfl, h⟩
  | cons x w ih =>
    obtain ⟨G1, e1, q1, h1⟩ := setControlPoint_eq h (hw x (by simp)) x.2
    obtain ⟨G2, e2, q2, h2⟩ := ih (fun y hy => hw y (List.mem_cons_of_mem _ hy)) h1
    refine ⟨G2, ?_, ?_, h2⟩
    · rw [List.map_cons]
      unfold run
      rw [show G.step ε arc (.set x.1.side x.1.col x.1.row x.2) = .ok G1 from e1, M_bind_ok, e2]
    · rw [q2, q1]

/-- C41: after `initNetwork(n, d)` the network behaves as a map from the points (names up to `SamePoint`) to values: after any sequence of
assignments `setControlPoint`, which never fail, `controlPoint(i, j, k)` is the value of the last assignment to this point. -/
theorem C41_map {ε : K} {arc : List (P3 K) → K → K → K} {kind : GBKind K} {g l n d : ℕ} (hn : 1 ≤ n) (hk : kind = .side ∨ d % 2 = 1)
    {w : List (Name × P3 K)} (hw : ∀ x ∈ w, x.1.InRange n d) :
    ∃ G, (GB.new kind g l).run ε arc (.init n d :: w.map fun x => Call.set x.1.side x.1.col x.1.row x.2) = .ok G ∧
      ∀ a : Name, a.InRange n d → G.controlPoint a.side a.col a.row = .ok (netValue n d w a) := by
  have hne : ¬(n = (GB.new kind g l).n ∧ d = (GB.new kind g l).degree) := by
    rintro ⟨h, -⟩
    change n = 0 at h
    omega
  have e0 : (GB.new kind g l).initNetwork n d = .ok ((GB.new kind g l).initBase n d) := by
    unfold initNetwork
    change (match kind with | .side => _ | .corner _ => _) = _
    cases kind with
    | side => rfl
    | corner f => exact if_pos (hk.resolve_left (by simp))
  obtain ⟨G, e1, _, h⟩ := writes_aux (ε := ε) (arc := arc) hw (initBase_net hne)
  refine ⟨G, ?_, fun a ha => h.cpt ha.1 ha.2.1 ha.2.2⟩
  unfold run
  rw [show (GB.new kind g l).step ε arc (.init n d) = _ from e0, M_bind_ok, e1]

/-- A single write: it is visible under both names, and other points are unaffected. -/
theorem C41_write {n d : ℕ} {G : GB K} {F : ℕ → ℕ → ℕ → P3 K} (h : HasNet G n d F) {a : Name} (ha : a.InRange n d) (p : P3 K) :
    ∃ G', G.setControlPoint a.side a.col a.row p = .ok G' ∧ G' = { G with nets := G'.nets } ∧
      ∀ b : Name, b.InRange n d → (SamePoint n d b a → G'.controlPoint b.side b.col b.row = .ok p) ∧
        (¬SamePoint n d b a → G'.controlPoint b.side b.col b.row = G.controlPoint b.side b.col b.row) := by
  obtain ⟨G', e, q, h'⟩ := setControlPoint_eq h ha p
  refine ⟨G', e, q, fun b hb => ?_⟩
  have e1 : G'.controlPoint b.side b.col b.row = _ := h'.cpt hb.1 hb.2.1 hb.2.2
  have e2 : G.controlPoint b.side b.col b.row = _ := h.cpt hb.1 hb.2.1 hb.2.2
  rw [e1, e2]
  unfold write
  exact ⟨fun hs => by rw [if_pos hs], fun hs => by rw [if_neg hs]⟩

/-! ### Consistency in any history -/

/-- The two names of a point have the same value. -/
def Consistent (G : GB K) : Prop :=
  ∀ a b : Name, a.InRange G.n G.degree → b.InRange G.n G.degree → SamePoint G.n G.degree a b →
    ∃ p, G.controlPoint a.side a.col a.row = .ok p ∧ G.controlPoint b.side b.col b.row = .ok p

/-- Calls that do not set one of the two copies of a point, and do not change the number of curves. -/
def Call.regular : Call K → Bool
  | .setIndividual _ _ _ _ => false
  | .curves _ => false
  | _ => true

/-- The state of the network in a history of such calls. -/
def NetOk (G : GB K) : Prop :=
  (G.n = 0 ∧ G.nets = []) ∨ ∃ F, HasNet G G.n G.degree F ∧
    ∀ a b : Name, a.InRange G.n G.degree → b.InRange G.n G.degree → SamePoint G.n G.degree a b → F a.side a.col a.row = F b.side b.col b.row

theorem NetOk.congr {G G' : GB K} (hn : NetOk G) (h1 : G'.n = G.n) (h2 : G'.degree = G.degree) (h3 : G'.layers = G.layers) (h4 : G'.nets = G.nets) :
    NetOk G' := by
  unfold NetOk
  rw [h1, h2, h4]
  rcases hn with hn | ⟨F, q1, q2⟩
  · exact Or.inl hn
  · exact Or.inr ⟨F, ⟨h1.trans q1.n_eq, h2.trans q1.degree, h3.trans q1.layers, h4.trans q1.nets⟩, q2⟩

theorem SameNet.netOk {G G' : GB K} (h : SameNet G G') (hn : NetOk G) : NetOk G' := hn.congr h.n_eq h.degree h.layers h.nets

theorem vget_nil {α : Type} (i : ℕ) : vget ([] : List α) i = .error .oob := by simp [vget]

theorem controlPoint_inRange {G : GB K} {n d : ℕ} {F : ℕ → ℕ → ℕ → P3 K} (h : HasNet G n d F) {i j k : ℕ} {nets : List (List (List (P3 K)))} {p : P3 K}
    (e : cptSet G.nets i j k p = .ok nets) : (⟨i, j, k⟩ : Name).InRange n d := by
  unfold cptSet at e
  rw [h.nets] at e
  obtain ⟨a, e1, e⟩ := bind_ok e
  obtain ⟨b, e2, e⟩ := bind_ok e
  obtain ⟨b', e3, _⟩ := bind_ok e
  unfold net3 at e1
  have hi : i < n := by
    by_contra hc
    rw [vget_oob (by rw [length_tab]; omega)] at e1
    cases e1
  rw [vget_tab _ hi] at e1
  cases e1
  have hj : j < d + 1 := by
    by_contra hc
    rw [vget_oob (by rw [length_tab]; omega)] at e2
    cases e2
  rw [vget_tab _ hj] at e2
  cases e2
  refine ⟨hi, by dsimp only; omega, ?_⟩
  by_contra hc
  unfold vset at e3
  rw [if_neg (by rw [length_tab]; exact hc)] at e3
  cases e3

theorem step_netOk {ε : K} {arc : List (P3 K) → K → K → K} {G G' : GB K} {c : Call K} (hc : c.regular = true) (h : NetOk G) (e : G.step ε arc c = .ok G') :
    NetOk G' := by
  cases c with
  | init n d =>
    obtain ⟨rfl, _⟩ := initNetwork_eq (show G.initNetwork n d = .ok G' from e)
    by_cases hs : n = G.n ∧ d = G.degree
    · unfold initBase
      rw [if_pos hs]
      exact h
    · have hn := initBase_net hs
      refine Or.inr ⟨fun _ _ _ => 0, ?_, fun _ _ _ _ _ => rfl⟩
      rw [hn.n_eq, hn.degree]
      exact hn
  | set i j k p =>
    have e : G.setControlPoint i j k p = .ok G' := e
    rcases h with ⟨_, h⟩ | ⟨F, h1, h2⟩
    · unfold setControlPoint cptSet at e
      rw [h, vget_nil] at e
      cases e
    · have hr : (⟨i, j, k⟩ : Name).InRange G.n G.degree := by
        have e' := e
        unfold setControlPoint at e'
        obtain ⟨nets, q, _⟩ := bind_ok e'
        exact controlPoint_inRange h1 q
      obtain ⟨G1, e1, _, h3⟩ := setControlPoint_eq h1 hr p
      rw [e] at e1
      cases e1
      refine Or.inr ⟨write G.n G.degree F ⟨i, j, k⟩ p, by rw [h3.n_eq, h3.degree]; exact h3, ?_⟩
      rw [h3.n_eq, h3.degree]
      intro a b ha hb hab
      unfold write
      by_cases hs : SamePoint G.n G.degree ⟨a.side, a.col, a.row⟩ ⟨i, j, k⟩
      · rw [if_pos hs, if_pos (samePoint_trans hb.1 hr.1 (samePoint_symm hab) hs)]
      · rw [if_neg hs, if_neg (fun q => hs (samePoint_trans ha.1 hr.1 hab q))]
        exact h2 a b ha hb hab
  | setIndividual i j k p => cases hc
  | central p => cases e; exact h.congr rfl rfl rfl rfl
  | squared b => cases e; exact h.congr rfl rfl rfl rfl
  | curves cs => cases hc
  | loop => exact (setupLoop_keeps (show G.setupLoop arc = .ok G' from e)).netOk h
  | eval uv =>
    obtain ⟨r, e1, e⟩ := bind_ok (show (G.eval ε uv >>= fun r => .ok r.2) = .ok G' from e)
    cases e
    exact (eval_keeps e1).netOk h
  | weight i j k uv =>
    obtain ⟨r, e1, e⟩ := bind_ok (show (G.weight ε i j k uv >>= fun r => .ok r.2) = .ok G' from e)
    cases e
    exact (weight_keeps e1).netOk h

theorem run_netOk {ε : K} {arc : List (P3 K) → K → K → K} {G G' : GB K} {cs : List (Call K)} (hc : ∀ c ∈ cs, c.regular = true) (h : NetOk G)
    (e : G.run ε arc cs = .ok G') : NetOk G' := by
  induction cs generalizing G with
  | nil => cases e; exact h
  | cons c cs ih =>
    unfold run at e
    obtain ⟨G1, e1, e⟩ := bind_ok e
    exact ih (fun x hx => hc x (List.mem_cons_of_mem _ hx)) (step_netOk (hc c (by simp)) h e1) e

theorem new_netOk (kind : GBKind K) (g l : ℕ) : NetOk (GB.new kind g l) := Or.inl ⟨rfl, rfl⟩

/-- C41: the two names of a point have the same value in every history of calls without `setIndividualControlPoint` and `setCurves`. -/
theorem C41_consistent {ε : K} {arc : List (P3 K) → K → K → K} {kind : GBKind K} {g l : ℕ} {cs : List (Call K)} (hc : ∀ c ∈ cs, c.regular = true) {G : GB K}
    (h : (GB.new kind g l).run ε arc cs = .ok G) : G.Consistent := by
  intro a b ha hb hab
  rcases run_netOk hc (new_netOk kind g l) h with ⟨h0, _⟩ | ⟨F, h1, h2⟩
  · have := ha.1
    omega
  · refine ⟨F a.side a.col a.row, h1.cpt ha.1 ha.2.1 ha.2.2, ?_⟩
    rw [h2 a b ha hb hab]
    exact h1.cpt hb.1 hb.2.1 hb.2.2

/-- Without the restrictions of C41_consistent: `setCurves`, which is public, changes the number of sides only, and then `initNetwork` thinks that
there is nothing to do; the first access of the new sides is out of range. -/
theorem C41_stale_init {ε : K} {arc : List (P3 K) → K → K → K} {g l : ℕ} (c : Curve K) (p : P3 K) :
    (GB.new .side g l).run ε arc [.init 3 2, .curves [c, c, c, c, c], .init 5 2, .set 4 0 0 p] = .error .oob := by
  have e : (GB.new (K := K) .side g l).initNetwork 3 2 = .ok
      { GB.new (K := K) .side g l with n := 3, degree := 2, layers := 1, nets := List.replicate 3 (List.replicate 3 (List.replicate 1 0)) } := by
    unfold initNetwork initBase
    rw [if_neg (show ¬(3 = (GB.new (K := K) .side g l).n ∧ 2 = (GB.new (K := K) .side g l).degree) from fun h => absurd h.1 (show ¬(3 = 0) by norm_num))]
    rfl
  unfold run step
  dsimp only
  rw [e, M_bind_ok]
  rfl

/-! ### Examples -/

/-- C41_map in a hexagonal quintic patch: the second write is to the other name of the first point, the third to another point. -/
example : ∃ G, (GB.new (K := ℝ) .side 7 7).run (1 / 10000) (fun _ _ _ => 0)
    (.init 6 5 :: ([(⟨0, 1, 2⟩, ⟨1, 0, 0⟩), (⟨5, 3, 1⟩, ⟨2, 0, 0⟩), (⟨0, 3, 2⟩, ⟨3, 0, 0⟩)] : List (Name × P3 ℝ)).map
      fun x => Call.set x.1.side x.1.col x.1.row x.2) = .ok G ∧ G.controlPoint 0 1 2 = .ok ⟨2, 0, 0⟩ ∧ G.controlPoint 1 2 2 = .ok ⟨3, 0, 0⟩ := by
  obtain ⟨G, e, h⟩ := C41_map (K := ℝ) (ε := 1 / 10000) (arc := fun _ _ _ => 0) (kind := .side) (g := 7) (l := 7) (n := 6) (d := 5) (by norm_num) (Or.inl rfl)
    (w := [(⟨0, 1, 2⟩, ⟨1, 0, 0⟩), (⟨5, 3, 1⟩, ⟨2, 0, 0⟩), (⟨0, 3, 2⟩, ⟨3, 0, 0⟩)]) (by
      intro x hx
      simp only [List.mem_cons, List.not_mem_nil, or_false] at hx
      rcases hx with rfl | rfl | rfl <;> simp [Name.InRange])
  refine ⟨G, e, ?_, ?_⟩
  · refine (h ⟨0, 1, 2⟩ (by simp [Name.InRange])).trans ?_
    simp [netValue, SamePoint, AtCorner]
  · refine (h ⟨1, 2, 2⟩ (by simp [Name.InRange])).trans ?_
    simp [netValue, SamePoint, AtCorner]

/-- C41_write and C41_consistent have instances: the state after `initNetwork` and one assignment. -/
example : ∃ G : GB ℝ, (GB.new .side 0 0).run (1 / 10000) (fun _ _ _ => 0) [.init 3 3, .set 2 1 1 ⟨1, 2, 3⟩] = .ok G ∧ G.Consistent ∧ G.n = 3 ∧ G.degree = 3 := by
  have hne : ¬(3 = (GB.new (K := ℝ) .side 0 0).n ∧ 3 = (GB.new (K := ℝ) .side 0 0).degree) := by
    rintro ⟨h, -⟩
    change 3 = 0 at h
    omega
  have hn := initBase_net hne
  obtain ⟨G, e, _, h⟩ := setControlPoint_eq hn (a := ⟨2, 1, 1⟩) (by simp [Name.InRange]) ⟨1, 2, 3⟩
  have e' : (GB.new .side 0 0).run (1 / 10000) (fun _ _ _ => 0) [.init 3 3, .set 2 1 1 ⟨1, 2, 3⟩] = .ok G := by
    unfold run
    rw [show (GB.new .side 0 0).step (1 / 10000) (fun _ _ _ => 0) (.init 3 3) = .ok ((GB.new (K := ℝ) .side 0 0).initBase 3 3) from rfl, M_bind_ok]
    unfold run
    rw [show ((GB.new (K := ℝ) .side 0 0).initBase 3 3).step (1 / 10000) (fun _ _ _ => 0) (.set 2 1 1 ⟨1, 2, 3⟩) = .ok G from e, M_bind_ok]
    rfl
  refine ⟨G, e', C41_consistent ?_ e', h.n_eq, h.degree⟩
  intro c hc
  simp only [List.mem_cons, List.not_mem_nil, or_false] at hc
  rcases hc with rfl | rfl <;> rfl

end GB

end Transfinite
