import Verif.Lemmas.GenBezierBuilt

/-! Loops that set control points. -/

namespace Transfinite

open Spec

namespace GB

section

variable {K : Type} [Field K] [LinearOrder K] [Libm K]

/-- Setting control points in the given order. -/
def sets (w : List (Name × P3 K)) (G : GB K) : M (GB K) :=
  match w with
  | [] => .ok G
  | x :: w => G.setControlPoint x.1.side x.1.col x.1.row x.2 >>= fun G => sets w G

theorem sets_append (w w' : List (Name × P3 K)) (G : GB K) : sets (w ++ w') G = sets w G >>= sets w' := by
  induction w generalizing G with
  | nil => rfl
  | cons x w ih =>
    rw [List.cons_append]
    unfold sets
    cases G.setControlPoint x.1.side x.1.col x.1.row x.2 with
    | error e => rfl
    | ok G1 => rw [M_bind_ok, M_bind_ok]; exact ih G1

theorem sets_single (a : Name) (p : P3 K) (G : GB K) : sets [(a, p)] G = G.setControlPoint a.side a.col a.row p := by
  unfold sets sets
  dsimp only
  cases G.setControlPoint a.side a.col a.row p <;> rfl

theorem sets_run (ε : K) (arc : List (P3 K) → K → K → K) (w : List (Name × P3 K)) (G : GB K) :
    G.run ε arc (w.map fun x => Call.set x.1.side x.1.col x.1.row x.2) = sets w G := by
  induction w generalizing G with
  | nil => rfl
  | cons x w ih =>
    rw [List.map_cons]
    unfold run sets
    change G.setControlPoint _ _ _ _ >>= _ = _
    congr 1
    funext G1
    exact ih G1

theorem forLoop_sets {m : ℕ} {body : ℕ → GB K → M (GB K)} {w : ℕ → List (Name × P3 K)} (h : ∀ i < m, ∀ G, body i G = sets (w i) G) (G : GB K) :
    forLoop m body G = sets ((List.range m).flatMap w) G := by
  induction m with
  | zero => rfl
  | succ m ih =>
    rw [forLoop_succ, ih fun i hi => h i (by omega), List.range_succ, List.flatMap_append, List.flatMap_singleton, sets_append]
    congr 1
    funext G1
    exact h m (by omega) G1

variable {n d : ℕ}

theorem sets_eq {w : List (Name × P3 K)} (hw : ∀ x ∈ w, x.1.InRange n d) {G : GB K} {F : ℕ → ℕ → ℕ → P3 K} (h : HasNet G n d F) :
    ∃ G', sets w G = .ok G' ∧ G' = { G with nets := G'.nets } ∧
      HasNet G' n d (fun i j k => w.foldl (fun v x => if SamePoint n d ⟨i, j, k⟩ x.1 then x.2 else v) (F i j k)) := by
  induction w generalizing G F with
  | nil => exact ⟨G, rfl, rfl, h⟩
  | cons x w ih =>
    obtain ⟨G1, e1, q1, h1⟩ := setControlPoint_eq h (hw x (by simp)) x.2
    obtain ⟨G2, e2, q2, h2⟩ := ih (fun y hy => hw y (List.mem_cons_of_mem _ hy)) h1
    refine ⟨G2, ?_, ?_, h2⟩
    · unfold sets
      rw [e1, M_bind_ok, e2]
    · rw [q2, q1]

theorem foldl_const {a : Name} {y : P3 K} {w : List (Name × P3 K)} (h : ∀ x ∈ w, SamePoint n d a x.1 → x.2 = y) (v : P3 K)
    (hv : v = y ∨ ∃ x ∈ w, SamePoint n d a x.1) : w.foldl (fun v x => if SamePoint n d a x.1 then x.2 else v) v = y := by
  induction w generalizing v with
  | nil =>
    rcases hv with hv | ⟨x, hx, _⟩
    · exact hv
    · simp at hx
  | cons x w ih =>
    rw [List.foldl_cons]
    refine ih (fun z hz => h z (List.mem_cons_of_mem _ hz)) _ ?_
    split_ifs with hs
    · exact Or.inl (h x (by simp) hs)
    · rcases hv with hv | ⟨z, hz, q⟩
      · exact Or.inl hv
      · rcases List.mem_cons.mp hz with rfl | hz
        · exact absurd q hs
        · exact Or.inr ⟨z, hz, q⟩

theorem foldl_mem {a : Name} {C : Set (P3 K)} {w : List (Name × P3 K)} (hC : ∀ x ∈ w, x.2 ∈ C) (h : ∃ x ∈ w, SamePoint n d a x.1) (v : P3 K) :
    w.foldl (fun v x => if SamePoint n d a x.1 then x.2 else v) v ∈ C := by
  have key : ∀ (w : List (Name × P3 K)) v, (∀ x ∈ w, x.2 ∈ C) → v ∈ C → w.foldl (fun v x => if SamePoint n d a x.1 then x.2 else v) v ∈ C := by
    intro w
    induction w with
    | nil => exact fun v _ h => h
    | cons x w ih =>
      intro v h1 h2
      rw [List.foldl_cons]
      refine ih _ (fun z hz => h1 z (List.mem_cons_of_mem _ hz)) ?_
      split_ifs
      · exact h1 x (by simp)
      · exact h2
  induction w generalizing v with
  | nil => obtain ⟨x, hx, _⟩ := h; simp at hx
  | cons x w ih =>
    rw [List.foldl_cons]
    by_cases hs : SamePoint n d a x.1
    · rw [if_pos hs]
      exact key w _ (fun z hz => hC z (List.mem_cons_of_mem _ hz)) (hC x (by simp))
    · obtain ⟨z, hz, hzs⟩ := h
      rcases List.mem_cons.mp hz with rfl | hz
      · exact absurd hzs hs
      · exact ih (fun z hz => hC z (List.mem_cons_of_mem _ hz)) ⟨z, hz, hzs⟩ _

end

end GB

end Transfinite
