import Verif.Props.GenBezier

/-! Building a Generalized Bézier patch succeeds. -/

namespace Transfinite

open Spec Param

namespace GB

variable {ε : ℝ} {arc : List (P3 ℝ) → ℝ → ℝ → ℝ} {n d : ℕ}

theorem setupLoop_total {G : GB ℝ} {F : ℕ → ℕ → ℕ → P3 ℝ} (h : HasNet G n d F) (hn : 3 ≤ n) (hd : 1 ≤ d) : ∃ G', G.setupLoop arc = .ok G' := by
  unfold setupLoop
  rw [h.n_eq, forLoop_push n _ (fun i => bezierCurve arc (tab (d + 1) fun j => F i j 0)) [] (fun i l hi => by rw [boundary_eq h hd hi, M_bind_ok]), M_bind_ok,
    List.nil_append]
  obtain ⟨cs, e, hl, _⟩ := C27_total ((List.range n).map fun i => bezierCurve arc (tab (d + 1) fun j => F i j 0))
  rw [e, M_bind_ok]
  have hlen : cs.length = n := by rw [hl]; simp
  unfold updateDomain
  cases hk : G.kind with
  | side =>
    dsimp only
    by_cases h0 : G.dom.dom.n = n
    · unfold Domain.regularUpdate
      rw [hlen, if_pos h0, M_bind_ok, if_neg (by simp)]
      exact ⟨_, rfl⟩
    · obtain ⟨d, r, φ, _, e, hd, _⟩ := regular_normal hn G.dom.dom h0
      rw [hlen, e, M_bind_ok, if_pos rfl]
      exact ⟨_, rfl⟩
  | corner f =>
    dsimp only
    exact ⟨_, rfl⟩

theorem writes_run {w : List (Name × P3 ℝ)} (hw : ∀ x ∈ w, x.1.InRange n d) {G : GB ℝ} {F : ℕ → ℕ → ℕ → P3 ℝ} (h : HasNet G n d F) :
    ∃ G', G.run ε arc (w.map fun x => Call.set x.1.side x.1.col x.1.row x.2) = .ok G' ∧ G' = { G with nets := G'.nets } ∧
      HasNet G' n d (fun i j k => w.foldl (fun v x => if SamePoint n d ⟨i, j, k⟩ x.1 then x.2 else v) (F i j k)) := by
  induction w generalizing G F with
  | nil => exact ⟨G, rfl, rfl, h⟩
  | cons x w ih =>
    obtain ⟨G1, e1, q1, h1⟩ := setControlPoint_eq h (hw x (by simp)) x.2
    obtain ⟨G2, e2, q2, h2⟩ := ih (fun y hy => hw y (List.mem_cons_of_mem _ hy)) h1
    refine ⟨G2, ?_, ?_, h2⟩
    · rw [List.map_cons]
      unfold run
      rw [show G.step ε arc (.set x.1.side x.1.col x.1.row x.2) = .ok G1 from e1, M_bind_ok, e2]
    · rw [q2, q1]

/-- The calls that build a patch with given points. -/
def buildCalls (n d : ℕ) (w : List (Name × P3 ℝ)) (c : P3 ℝ) (sq : Bool) : List (Call ℝ) :=
  (.init n d :: (w.map fun x => Call.set x.1.side x.1.col x.1.row x.2)) ++ .loop :: [.central c, .squared sq]

theorem built (kind : GBKind ℝ) (hn : 3 ≤ n) (hd : 1 ≤ d) (hk : kind = .side ∨ d % 2 = 1) {w : List (Name × P3 ℝ)} (hw : ∀ x ∈ w, x.1.InRange n d) (c : P3 ℝ)
    (sq : Bool) : ∃ G, Usable ε arc kind n d (buildCalls n d w c sq) G ∧ (∀ x ∈ buildCalls n d w c sq, x.regular = true) ∧ G.central = c ∧ G.squared = sq ∧
      ∀ a : Name, a.InRange n d → G.controlPoint a.side a.col a.row = .ok (netValue n d w a) := by
  have hne : ¬(n = (GB.new kind 0 0).n ∧ d = (GB.new kind 0 0).degree) := by
    rintro ⟨h, -⟩
    change n = 0 at h
    omega
  have e0 : (GB.new kind 0 0).initNetwork n d = .ok ((GB.new kind 0 0).initBase n d) := by
    cases kind with
    | side => rfl
    | corner f => exact if_pos (hk.resolve_left (by simp))
  obtain ⟨G1, e1, _, h1⟩ := writes_run (ε := ε) (arc := arc) hw (initBase_net hne)
  obtain ⟨G2, e2⟩ := setupLoop_total (arc := arc) h1 hn hd
  have k := setupLoop_keeps e2
  have h2 := k.hasNet h1
  have hbefore : (GB.new kind 0 0).run ε arc (.init n d :: (w.map fun x => Call.set x.1.side x.1.col x.1.row x.2)) = .ok G1 := by
    unfold run
    rw [show (GB.new kind 0 0).step ε arc (.init n d) = _ from e0, M_bind_ok, e1]
  refine ⟨{ G2 with central := c, squared := sq }, ⟨0, 0, _, [.central c, .squared sq], rfl, run_join hbefore ?_, ?_, ?_, h2.n_eq, h2.degree⟩, ?_, rfl, rfl, ?_⟩
  · unfold run
    rw [show G1.step ε arc .loop = .ok G2 from e2, M_bind_ok]
    rfl
  · intro x hx
    rcases List.mem_cons.mp hx with rfl | hx
    · rfl
    · obtain ⟨y, _, rfl⟩ := List.mem_map.mp hx
      rfl
  · intro x hx
    simp only [List.mem_cons, List.not_mem_nil, or_false] at hx
    rcases hx with rfl | rfl <;> rfl
  · intro x hx
    rcases List.mem_append.mp hx with hx | hx
    · rcases List.mem_cons.mp hx with rfl | hx
      · rfl
      · obtain ⟨y, _, rfl⟩ := List.mem_map.mp hx
        rfl
    · simp only [List.mem_cons, List.not_mem_nil, or_false] at hx
      rcases hx with rfl | rfl | rfl <;> rfl
  · intro a ha
    exact h2.cpt ha.1 ha.2.1 ha.2.2

end GB

end Transfinite
