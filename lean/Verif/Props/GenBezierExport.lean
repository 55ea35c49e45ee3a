import Verif.Props.GenBezierIO

/-! # C47: exporting the control net of Generalized Bézier patches -/

namespace Transfinite

open Spec Param

namespace GB

variable {n d : ℕ}

theorem match_iff {q a : Name} (hq : q.InRange n d) (ha : Name.Main n d a) :
    ((q.side = a.side ∧ q.col = a.col ∧ q.row = a.row) ∨ (q.side = (a.side + n - 1) % n ∧ q.col = usub d a.row ∧ q.row = a.col) ∨
      (q.side = (a.side + 1) % n ∧ q.col = a.row ∧ q.row = usub d a.col)) ↔ SamePoint n d q a := by
  obtain ⟨i, j, k⟩ := q
  obtain ⟨i', j', k'⟩ := a
  obtain ⟨q1, q2, q3⟩ := hq
  obtain ⟨a1, a2, a3⟩ := ha
  dsimp only at *
  rw [usub_of_le (by omega), usub_of_le (by omega)]
  unfold SamePoint AtCorner
  simp only [Name.mk.injEq]
  constructor
  · rintro (⟨rfl, rfl, rfl⟩ | ⟨e1, e2, e3⟩ | ⟨e1, e2, e3⟩)
    · exact Or.inl ⟨rfl, rfl, rfl⟩
    · exact Or.inr (Or.inr ⟨by omega, by omega, e1, e2, e3⟩)
    · refine Or.inr (Or.inl ⟨by omega, by omega, ?_, by omega, by omega⟩)
      rw [e1]
      exact (prevIx_nextIx a1).symm
  · rintro (⟨rfl, rfl, rfl⟩ | ⟨h1, h2, e1, e2, e3⟩ | ⟨h1, h2, e1, e2, e3⟩)
    · exact Or.inl ⟨rfl, rfl, rfl⟩
    · refine Or.inr (Or.inr ⟨?_, by omega, by omega⟩)
      rw [e1]
      exact (nextIx_prevIx q1).symm
    · exact Or.inr (Or.inl ⟨e1, e2, e3⟩)

/-- `findControlPoint` finds the position of the point. -/
theorem find_eq {q : Name} (hq : q.InRange n d) (off : ℕ) : ∃ t < enumCount n d, SamePoint n d q (enumPos n d ⟨0, 0, 0⟩ t) ∧
    findControlPoint n d (enumCount n d) off q.side q.col q.row = .ok (1 + t + off) := by
  obtain ⟨b, hb, hqb⟩ := main_exists hq
  obtain ⟨t, ht, e, _⟩ := visited_mem hb.1 hb.2.1 hb.2.2
  refine ⟨t, ht, by rw [e]; exact hqb, ?_⟩
  unfold findControlPoint
  rw [enumLoop_eq, forLoop_eq (fun u => if u ≤ t then none else some (1 + t + off)) (by simp)]
  · rw [M_bind_ok, if_neg (by omega)]
    rfl
  · intro u hu
    have hm : Name.Main n d (enumPos n d ⟨0, 0, 0⟩ u) := visited_spec hu
    by_cases hut : u ≤ t
    · rw [if_pos hut]
      unfold findStep
      dsimp only
      rw [if_congr (match_iff hq hm) rfl rfl]
      by_cases heq : u = t
      · subst heq
        rw [if_pos (by rw [e]; exact hqb), if_neg (by omega)]
      · rw [if_neg, if_pos (by omega)]
        intro hs
        have h1 := main_unique hm hb (samePoint_trans hm.1 hb.1 (samePoint_symm hs) hqb)
        rw [← e] at h1
        exact heq (visited_inj hu ht h1)
    · rw [if_neg hut, if_neg (by omega)]
      rfl

/-- `x` is the 1-based number of the line of the point `q` in a file with lines for the central control point and then for the names `V`. -/
def LineOf (n d : ℕ) (V : List Name) (x : ℕ) (q : Option Name) : Prop :=
  ∃ y, (none :: V.map some)[x - 1]? = some y ∧ SameOpt n d q y ∧ 1 ≤ x

theorem find_line {q : Name} (hq : q.InRange n d) : ∃ x, findControlPoint n d (enumCount n d) 1 q.side q.col q.row = .ok x ∧ LineOf n d (visited n d) x (some q) := by
  obtain ⟨t, ht, hs, e⟩ := find_eq hq 1
  refine ⟨_, e, some (enumPos n d ⟨0, 0, 0⟩ t), ?_, hs, by omega⟩
  rw [show 1 + t + 1 - 1 = t + 1 by omega, List.getElem?_cons_succ]
  unfold visited tab
  rw [List.getElem?_map, List.getElem?_map, List.getElem?_range ht]
  rfl

theorem quad_lines {c : Name} (h1 : c.side < n) (h2 : c.col + 1 ≤ d) (h3 : c.row + 1 < (d + 1) / 2) :
    ∃ xs, quadLine n d (enumCount n d) c.side c.col c.row = .ok xs ∧ List.Forall₂ (LineOf n d (visited n d)) xs ((cell c).map some) := by
  obtain ⟨x1, e1, l1⟩ := find_line (n := n) (d := d) (q := c) ⟨h1, by omega, by omega⟩
  obtain ⟨x2, e2, l2⟩ := find_line (n := n) (d := d) (q := ⟨c.side, c.col + 1, c.row⟩) ⟨h1, h2, by dsimp only; omega⟩
  obtain ⟨x3, e3, l3⟩ := find_line (n := n) (d := d) (q := ⟨c.side, c.col + 1, c.row + 1⟩) ⟨h1, h2, h3⟩
  obtain ⟨x4, e4, l4⟩ := find_line (n := n) (d := d) (q := ⟨c.side, c.col, c.row + 1⟩) ⟨h1, by dsimp only; omega, h3⟩
  refine ⟨[x1, x2, x3, x4], ?_, .cons l1 (.cons l2 (.cons l3 (.cons l4 .nil)))⟩
  unfold quadLine
  dsimp only at e2 e3 e4
  rw [e1, M_bind_ok, e2, M_bind_ok, e3, M_bind_ok, e4, M_bind_ok]

theorem centre_line {V : List Name} : LineOf n d V 1 none := ⟨none, rfl, trivial, le_rfl⟩

theorem centre_lines {i : ℕ} (hi : i < n) (hd : 1 ≤ d) :
    ∃ xs, centreLine n d ((d + 1) / 2) (enumCount n d) i = .ok xs ∧ List.Forall₂ (LineOf n d (visited n d)) xs (centreFace n d i) := by
  have hl : usub ((d + 1) / 2) 1 = (d + 1) / 2 - 1 := usub_of_le (by omega)
  obtain ⟨x1, e1, l1⟩ := find_line (n := n) (d := d) (q := ⟨i, (d + 1) / 2 - 1, (d + 1) / 2 - 1⟩) ⟨hi, by dsimp only; omega, by dsimp only; omega⟩
  obtain ⟨x2, e2, l2⟩ := find_line (n := n) (d := d) (q := ⟨i, (d + 1) / 2, (d + 1) / 2 - 1⟩) ⟨hi, by dsimp only; omega, by dsimp only; omega⟩
  obtain ⟨x3, e3, l3⟩ := find_line (n := n) (d := d) (q := ⟨(i + n - 1) % n, (d + 1) / 2, (d + 1) / 2 - 1⟩) ⟨Nat.mod_lt _ (by omega), by dsimp only; omega, by dsimp only; omega⟩
  dsimp only at e1 e2 e3
  unfold centreLine centreFace
  rw [hl, e1, M_bind_ok, e2, M_bind_ok]
  dsimp only
  by_cases hp : d % 2 = 0
  · rw [if_pos hp, if_pos hp, e3, M_bind_ok]
    exact ⟨_, rfl, .cons l1 (.cons l2 (.cons centre_line (.cons l3 .nil)))⟩
  · rw [if_neg hp, if_neg hp]
    exact ⟨_, rfl, .cons l1 (.cons l2 (.cons centre_line .nil))⟩

/-- A loop that pushes elements related to a list of elements. -/
theorem forLoop_rel {α β γ : Type} {m : ℕ} {R : α → β → Prop} (wrap : α → γ) {body : ℕ → List γ → M (List γ)} {g : ℕ → List β}
    (h : ∀ i < m, ∃ xs, (∀ s, body i s = .ok (s ++ xs.map wrap)) ∧ List.Forall₂ R xs (g i)) :
    ∃ xs, (∀ s, forLoop m body s = .ok (s ++ xs.map wrap)) ∧ List.Forall₂ R xs ((List.range m).flatMap g) := by
  induction m with
  | zero => exact ⟨[], fun s => by simp, .nil⟩
  | succ m ih =>
    obtain ⟨xs, e1, r1⟩ := ih fun i hi => h i (by omega)
    obtain ⟨ys, e2, r2⟩ := h m (by omega)
    refine ⟨xs ++ ys, fun s => ?_, ?_⟩
    · rw [forLoop_succ, e1, M_bind_ok, e2, List.map_append, List.append_assoc]
    · rw [List.range_succ, List.flatMap_append, List.flatMap_singleton]
      exact List.rel_append r1 r2

section

variable {K : Type} [Field K] [LinearOrder K] [Libm K]

theorem export_eq {α : Type} (pr : P3 K → α) {G : GB K} {F : ℕ → ℕ → ℕ → P3 K} (h : HasNet G n d F) (hn : G.dom.dom.vertices.length = n) (hd : 1 ≤ d) :
    ∃ faces, G.writeControlPoints pr = .ok ((.v (pr G.central) :: (visited n d).map fun a => .v (pr (F a.side a.col a.row))) ++ faces.map .f) ∧
      List.Forall₂ (List.Forall₂ (LineOf n d (visited n d))) faces (netFaces n d) := by
  have hl : usub ((d + 1) / 2) 1 = (d + 1) / 2 - 1 := usub_of_le (by omega)
  obtain ⟨A, eA, rA⟩ := forLoop_rel (α := List ℕ) (m := n) (R := List.Forall₂ (LineOf n d (visited n d))) (ObjLine.f (α := α))
    (body := fun i f => forLoop (d / 2 + 1) (fun j f => forLoop ((d + 1) / 2 - 1) (fun k (f : List (ObjLine α)) => do
      let q ← quadLine n d (enumCount n d) i j k
      .ok (f ++ [.f q])) f) f)
    (g := fun i => (List.range (d / 2 + 1)).flatMap fun j => (List.range ((d + 1) / 2 - 1)).flatMap fun k => [(cell ⟨i, j, k⟩).map some])
    (fun i hi => forLoop_rel _ fun j hj => forLoop_rel _ fun k hk => by
      obtain ⟨xs, e, r⟩ := quad_lines (n := n) (d := d) (c := ⟨i, j, k⟩) hi (by dsimp only; omega) (by dsimp only; omega)
      refine ⟨[xs], fun s => ?_, .cons r .nil⟩
      dsimp only at e
      rw [e, M_bind_ok]
      rfl)
  obtain ⟨B, eB, rB⟩ := forLoop_rel (α := List ℕ) (m := n) (R := List.Forall₂ (LineOf n d (visited n d))) (ObjLine.f (α := α))
    (body := fun i (f : List (ObjLine α)) => do
      let q ← centreLine n d ((d + 1) / 2) (enumCount n d) i
      .ok (f ++ [.f q]))
    (g := fun i => [centreFace n d i])
    (fun i hi => by
      obtain ⟨xs, e, r⟩ := centre_lines (n := n) (d := d) hi hd
      refine ⟨[xs], fun s => ?_, .cons r .nil⟩
      rw [e, M_bind_ok]
      rfl)
  refine ⟨A ++ B, ?_, ?_⟩
  · unfold writeControlPoints
    dsimp only
    rw [hn, h.degree, h.layers, hl, show n * (1 + d / 2) * ((d + 1) / 2) = enumCount n d from rfl]
    rw [enumLoop_eq, forLoop_push _ _ (fun t => ObjLine.v (pr (F (enumPos n d ⟨0, 0, 0⟩ t).side (enumPos n d ⟨0, 0, 0⟩ t).col (enumPos n d ⟨0, 0, 0⟩ t).row))), M_bind_ok]
    · rw [eA, M_bind_ok, eB]
      unfold visited tab
      rw [List.map_map, List.map_append, List.append_assoc]
      rfl
    · intro t s ht
      obtain ⟨h1, h2, h3⟩ := visited_spec ht
      rw [show G.controlPoint _ _ _ = _ from h.cpt h1 (by omega) (by omega), M_bind_ok]
  · unfold netFaces cells
    refine List.rel_append ?_ ?_
    · simp only [List.map_flatMap, List.map_map]
      convert rA using 4
      funext j
      rw [← List.flatMap_pure_eq_map]
      rfl
    · rw [← List.flatMap_pure_eq_map]
      exact rB

end

/-- The value of a point of the net; `none` is the central control point. -/
def valueOf {K : Type} (G : GB K) : Option Name → M (P3 K)
  | none => .ok G.central
  | some a => G.controlPoint a.side a.col a.row

variable {ε : ℝ} {arc : List (P3 ℝ) → ℝ → ℝ → ℝ} {calls : List (Call ℝ)} {G : GB ℝ}

/-- C47: `writeBezierControlPoints` writes a file of vertices (first the central control point, then all points of the network in some order `V`, each of them exactly once),
and faces, whose corners are those of the cells of the network and the faces at the central control point. Each index in these faces is the 1-based number of the vertex line
for that control point: both as the name in `V`, and as the point written in that line. -/
theorem C47_export {α : Type} (pr : P3 ℝ → α) {kind : GBKind ℝ} (hn : 3 ≤ n) (hd : 1 ≤ d) (hG : Usable ε arc kind n d calls G) (hreg : ∀ c ∈ calls, c.regular = true) :
    ∃ V vals faces, G.writeControlPoints pr = .ok (((G.central :: vals).map fun p => .v (pr p)) ++ faces.map .f) ∧
      List.Forall₂ (fun (a : Name) p => G.controlPoint a.side a.col a.row = .ok p) V vals ∧
      V.length = n * (1 + d / 2) * ((d + 1) / 2) ∧ V.Nodup ∧ (∀ a ∈ V, a.InRange n d) ∧ (∀ a : Name, a.InRange n d → ∃! b, b ∈ V ∧ SamePoint n d a b) ∧
      List.Forall₂ (List.Forall₂ fun x q => LineOf n d V x q ∧ ∃ p, (G.central :: vals)[x - 1]? = some p ∧ G.valueOf q = .ok p) faces (netFaces n d) := by
  obtain ⟨hi, _, hdn, _, _⟩ := hG.state (by omega)
  obtain ⟨F, hF, hcons⟩ := hG.consistent hn hreg
  obtain ⟨faces, e, r⟩ := export_eq pr hF (by rw [hi.len, hdn]) hd
  have hV : ∀ a ∈ visited n d, a.InRange n d := fun a ha => (visited_main.mp ha).inRange
  refine ⟨visited n d, (visited n d).map fun a => F a.side a.col a.row, faces, ?_, ?_, length_tab _ _, ?_, hV, ?_, ?_⟩
  · rw [e, List.map_cons, List.map_map]
    rfl
  · rw [List.forall₂_map_right_iff, List.forall₂_same]
    intro a ha
    obtain ⟨h1, h2, h3⟩ := hV a ha
    exact hF.cpt h1 h2 h3
  · unfold visited tab
    exact List.Nodup.map_on (fun t ht u hu e => visited_inj (List.mem_range.mp ht) (List.mem_range.mp hu) e) List.nodup_range
  · intro a ha
    obtain ⟨b, hb, hab⟩ := main_exists ha
    refine ⟨b, ⟨visited_main.mpr hb, hab⟩, ?_⟩
    rintro c ⟨hc, hac⟩
    have hc' := visited_main.mp hc
    exact main_unique hc' hb (samePoint_trans hc'.1 hb.1 (samePoint_symm hac) hab)
  · have hin : ∀ fc ∈ netFaces n d, ∀ q ∈ fc, ∀ a, q = some a → a.InRange n d := by
      intro fc hfc q hq a hqa
      subst hqa
      unfold netFaces at hfc
      rcases List.mem_append.mp hfc with hfc | hfc
      · obtain ⟨c, hc, rfl⟩ := List.mem_map.mp hfc
        unfold cells at hc
        simp only [List.mem_flatMap, List.mem_map, List.mem_range] at hc
        obtain ⟨i, hi, j, hj, k, hk, rfl⟩ := hc
        simp only [cell, List.map_cons, List.map_nil, List.mem_cons, Option.some.injEq, List.not_mem_nil, or_false] at hq
        rcases hq with rfl | rfl | rfl | rfl <;> exact ⟨hi, by dsimp only; omega, by dsimp only; omega⟩
      · obtain ⟨i, hi, rfl⟩ := List.mem_map.mp hfc
        have hi := List.mem_range.mp hi
        unfold centreFace at hq
        dsimp only at hq
        split_ifs at hq <;> simp only [List.mem_cons, Option.some.injEq, List.not_mem_nil, or_false, reduceCtorEq, false_or] at hq
        · rcases hq with rfl | rfl | rfl
          · exact ⟨hi, by dsimp only; omega, by dsimp only; omega⟩
          · exact ⟨hi, by dsimp only; omega, by dsimp only; omega⟩
          · exact ⟨Nat.mod_lt _ (by omega), by dsimp only; omega, by dsimp only; omega⟩
        · rcases hq with rfl | rfl <;> exact ⟨hi, by dsimp only; omega, by dsimp only; omega⟩
    have key : ∀ x q, (∀ a, q = some a → a.InRange n d) → LineOf n d (visited n d) x q →
        ∃ p, (G.central :: (visited n d).map fun a => F a.side a.col a.row)[x - 1]? = some p ∧ G.valueOf q = .ok p := by
      rintro x q hq ⟨y, e1, e2, e3⟩
      obtain ⟨x, rfl⟩ := Nat.exists_eq_add_of_le e3
      rw [Nat.add_sub_cancel_left] at e1 ⊢
      cases x with
      | zero =>
        cases e1
        cases q with
        | none => exact ⟨_, rfl, rfl⟩
        | some a => exact absurd e2 id
      | succ x =>
        rw [List.getElem?_cons_succ, List.getElem?_map, Option.map_eq_some_iff] at e1
        obtain ⟨b, e1, rfl⟩ := e1
        cases q with
        | none => exact absurd e2 id
        | some a =>
          have ha := hq a rfl
          have hb := hV b (List.mem_of_getElem? e1)
          refine ⟨F b.side b.col b.row, ?_, ?_⟩
          · rw [List.getElem?_cons_succ, List.getElem?_map, e1]
            rfl
          · rw [← hcons a b ha hb e2]
            exact hF.cpt ha.1 ha.2.1 ha.2.2
    clear e
    generalize netFaces n d = L at hin r ⊢
    induction r with
    | nil => exact .nil
    | cons h1 h2 ih =>
      refine .cons ?_ (ih fun fc hfc => hin fc (List.mem_cons_of_mem _ hfc))
      have hin1 := hin _ List.mem_cons_self
      clear ih h2 hin
      induction h1 with
      | nil => exact .nil
      | cons g1 g2 ih' => exact .cons ⟨g1, key _ _ (hin1 _ (by simp)) g1⟩ (ih' fun q hq => hin1 q (List.mem_cons_of_mem _ hq))

/-! ### The faces cover the network -/

/-- Two names of the same cell. -/
def SameCell (n d : ℕ) (c c' : Name) : Prop := ∃ s, List.Forall₂ (SamePoint n d) (cell c) ((cell c').rotate s)

theorem mem_cells {c : Name} : c ∈ cells n d ↔ c.side < n ∧ c.col ≤ d / 2 ∧ c.row + 1 < (d + 1) / 2 := by
  unfold cells
  simp only [List.mem_flatMap, List.mem_map, List.mem_range]
  constructor
  · rintro ⟨i, hi, j, hj, k, hk, rfl⟩
    exact ⟨hi, by dsimp only; omega, by dsimp only; omega⟩
  · rintro ⟨h1, h2, h3⟩
    exact ⟨_, h1, _, by omega, _, by omega, rfl⟩

theorem samePoint_cols {a b : Name} (h : SamePoint n d a b) : a = b ∨ (a.col < (d + 1) / 2 ∧ a.row < (d + 1) / 2 ∧ b.col = d - a.row ∧ b.row = a.col) ∨
    (b.col < (d + 1) / 2 ∧ b.row < (d + 1) / 2 ∧ a.col = d - b.row ∧ a.row = b.col) := by
  rcases h with h | ⟨h1, h2, h3⟩ | ⟨h1, h2, h3⟩
  · exact Or.inl h
  · exact Or.inr (Or.inl ⟨h1, h2, by rw [h3], by rw [h3]⟩)
  · exact Or.inr (Or.inr ⟨h1, h2, by rw [h3], by rw [h3]⟩)

theorem samePoint_twin {i j k : ℕ} (hi : i < n) (hj : j ≤ d) (h1 : d - j < (d + 1) / 2) (h2 : k < (d + 1) / 2) : SamePoint n d ⟨i, j, k⟩ ⟨(i + 1) % n, k, d - j⟩ := by
  refine Or.inr (Or.inr ⟨h2, h1, ?_⟩)
  simp only [Name.mk.injEq]
  exact ⟨(prevIx_nextIx hi).symm, by omega, trivial⟩

/-- C47, the faces: every cell of the network (between neighbouring rows and columns of any side) is written as exactly one face, where the cells near the corners
have two names. -/
theorem C47_cells {c : Name} (h1 : c.side < n) (h2 : c.col + 1 ≤ d) (h3 : c.row + 1 < (d + 1) / 2) : ∃! c', c' ∈ cells n d ∧ SameCell n d c c' := by
  obtain ⟨i, j, k⟩ := c
  dsimp only at h1 h2 h3
  have key : ∀ c' ∈ cells n d, SameCell n d ⟨i, j, k⟩ c' → (c' = if j ≤ d / 2 then ⟨i, j, k⟩ else ⟨(i + 1) % n, k, d - j - 1⟩) := by
    rintro ⟨i', j', k'⟩ hc ⟨s, hs⟩
    obtain ⟨a1, a2, a3⟩ := mem_cells.mp hc
    dsimp only at a1 a2 a3
    have hnp : ∀ x < n, ∀ y, x = (y + n - 1) % n → y < n → y = (x + 1) % n := fun x _ y e hy => by rw [e]; exact (nextIx_prevIx hy).symm
    rw [← List.rotate_mod] at hs
    have hs4 : s % 4 < 4 := Nat.mod_lt _ (by norm_num)
    change List.Forall₂ _ _ ((cell ⟨i', j', k'⟩).rotate (s % 4)) at hs
    generalize s % 4 = r at hs hs4
    unfold cell at hs
    rcases (by omega : r = 0 ∨ r = 1 ∨ r = 2 ∨ r = 3) with rfl | rfl | rfl | rfl <;>
    · simp only [List.rotate_cons_succ, List.rotate_zero, List.cons_append, List.nil_append, List.forall₂_cons, SamePoint, AtCorner, Name.mk.injEq] at hs
      obtain ⟨hs1, hs2, hs3, -⟩ := hs
      split_ifs with hj
      · simp only [Name.mk.injEq]
        rcases hs1 with e | e | e <;> rcases hs3 with f | f | f <;> first | omega | (rcases hs2 with g | g | g <;> omega)
      · simp only [Name.mk.injEq]
        rcases hs1 with e | e | e <;> rcases hs3 with f | f | f <;> first | omega | (have := hnp i h1 i' e.2.2.1 a1; omega)
  by_cases hj : j ≤ d / 2
  · refine ⟨⟨i, j, k⟩, ⟨mem_cells.mpr ⟨h1, hj, h3⟩, 0, ?_⟩, fun c' hc => ?_⟩
    · rw [List.rotate_zero, List.forall₂_same]
      exact fun a _ => samePoint_refl n d a
    · have := key c' hc.1 hc.2
      rwa [if_pos hj] at this
  · refine ⟨⟨(i + 1) % n, k, d - j - 1⟩, ⟨mem_cells.mpr ⟨Nat.mod_lt _ (by omega), by dsimp only; omega, by dsimp only; omega⟩, 3, ?_⟩, fun c' hc => ?_⟩
    · change List.Forall₂ _ [_, _, _, _] [_, _, _, _]
      refine .cons ?_ (.cons ?_ (.cons ?_ (.cons ?_ .nil)))
      · dsimp only
        rw [show d - j - 1 + 1 = d - j by omega]
        exact samePoint_twin h1 (by omega) (by omega) (by omega)
      · dsimp only
        rw [show d - j - 1 = d - (j + 1) by omega]
        exact samePoint_twin h1 (by omega) (by omega) (by omega)
      · dsimp only
        rw [show d - j - 1 = d - (j + 1) by omega]
        exact samePoint_twin h1 (by omega) (by omega) (by omega)
      · dsimp only
        rw [show d - j - 1 + 1 = d - j by omega]
        exact samePoint_twin h1 (by omega) (by omega) (by omega)
    · have := key c' hc.1 hc.2
      rwa [if_neg hj] at this

/-- The faces of a triangular patch of degree 3: two quadrilaterals per side, and a triangle at the centre (lines 2-10 are the boundary points, 11-13 the inner ones). -/
example : (quadLine 3 3 (enumCount 3 3) 1 0 0).toOption = some [5, 6, 12, 4] ∧ (quadLine 3 3 (enumCount 3 3) 1 1 0).toOption = some [6, 7, 13, 12] ∧
    (centreLine 3 3 2 (enumCount 3 3) 1).toOption = some [12, 13, 1] := by decide +kernel

/-- The hypotheses are satisfiable. -/
example : ∃ (calls : List (Call ℝ)) (G : GB ℝ), Usable (1 / 10000) (fun _ _ _ => 0) .side 5 4 calls G ∧ (∀ c ∈ calls, c.regular = true) ∧
    G.controlPoint 1 2 1 = .ok ⟨1, 2, 3⟩ := by
  obtain ⟨G, hG, hr, _, _, hp⟩ := built (ε := 1 / 10000) (arc := fun _ _ _ => 0) .side (n := 5) (d := 4) (by omega) (by omega) (Or.inl rfl)
    (w := [(⟨1, 2, 1⟩, ⟨1, 2, 3⟩)]) (by intro x hx; simp only [List.mem_singleton] at hx; subst hx; exact ⟨by decide, by decide, by decide⟩) 0 false
  refine ⟨_, G, hG, hr, ?_⟩
  rw [hp ⟨1, 2, 1⟩ ⟨by decide, by decide, by decide⟩]
  rfl

end GB

end Transfinite
