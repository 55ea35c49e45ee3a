import Verif.Lemmas.TangentGB
import Verif.Lemmas.GenBezierBuilt
import Verif.Props.Fences

/-! # C95: tangent planes of Generalized Bézier patches -/

namespace Transfinite

open Spec Set Filter Topology

namespace GB

variable {ε : ℝ} {arc : List (P3 ℝ) → ℝ → ℝ → ℝ} {n d : ℕ} {calls : List (Call ℝ)} {G : GB ℝ}

/-! ### Specification -/

/-- Along every path of the polygon `v` that starts at the point `s` of side `i`, the patch starts at the point of the boundary curve, and
its derivative is a combination of the derivative of the boundary curve and the vector `T`. The factor of `T` is positive if the path leaves the side. -/
def DerivativeAt (ε : ℝ) (G : GB ℝ) (n d : ℕ) (v : ℕ → P2 ℝ) (cp : ℕ → P3 ℝ) (T : P3 ℝ) (i : ℕ) (s : ℝ) : Prop :=
  ∀ p w, DomainPath n v i s p w → ∃ (X : ℝ → P3 ℝ) (α β : ℝ),
    (∀ᶠ t in nhdsWithin 0 (Set.Ici 0), ∃ G', G.eval ε (p t) = .ok (X t, G')) ∧ X 0 = bezier d cp s ∧
      RightDer3 X (α • bezierDer d cp s + β • T) ∧ 0 ≤ β ∧ (0 < inward n v i w → 0 < β)

/-- The values of the control points. -/
def HasPoints (G : GB ℝ) (n d : ℕ) (cp : ℕ → ℕ → ℕ → P3 ℝ) : Prop :=
  ∀ i < n, ∀ j ≤ d, ∀ k < (d + 1) / 2, G.controlPoint i j k = .ok (cp i j k)

/-! ### Theorems -/

/-- C95: the derivative of a patch of degree at least 3 on its sides, for any control points. -/
theorem C95_derivative (hε : 0 < ε) (hn : 3 ≤ n) (hd : 3 ≤ d) (h : Usable ε arc .side n d calls G) {cp : ℕ → ℕ → ℕ → P3 ℝ} (hcp : HasPoints G n d cp) {i : ℕ}
    (hi : i < n) {s : ℝ} (s0 : ε < s) (s1 : ε < 1 - s) : ∃ v, ConvexDomain G.dom.dom n v ∧
      DerivativeAt ε G n d v (fun j => cp i j 0) (rowDer d (fun j => cp i j 0) (fun j => cp i j 1) s -
        if G.squared then 0 else copyError d s (fun k => cp i k 0) (fun k => cp ((i + n - 1) % n) d k) +
          copyError d (1 - s) (fun k => cp i (d - k) 0) (fun k => cp ((i + 1) % n) 0 k)) i s := by
  obtain ⟨v, hv⟩ := h.domain hn
  refine ⟨v, hv, fun p w hp => ?_⟩
  obtain ⟨_, hk, _, ⟨F0, hF0⟩, _⟩ := h.state (by omega)
  have hF : HasNet G n d cp := hF0.congr fun i hi j hj k hk => Except.ok.inj ((hF0.cpt hi hj hk).symm.trans (hcp i hi j hj k hk))
  obtain ⟨f1, x', y', hb⟩ := Surf.bary_path hv hε hi s0 s1 hp
  obtain ⟨m, rfl⟩ := Nat.exists_eq_add_of_le (show 1 ≤ d by omega)
  rw [add_comm 1 m] at *
  have t0 : 0 < s := hε.trans s0
  have t1 : s < 1 := by linarith
  have der := patch_der (m := m) (sq := G.squared) hn (by omega) hi t0 t1 hb cp G.central
  have hev : ∀ᶠ t in near0, ∃ G', G.eval ε (p t) = .ok ((∑ j ∈ Finset.range n, ∑ k ∈ Finset.range ((m + 1 + 1) / 2), ∑ c ∈ Finset.range (m + 1 + 1),
        wt G.squared n (m + 1) (Surf.baryF ε G.dom.dom (p t)) j c k • cp j c k) +
      (1 - ∑ j ∈ Finset.range n, ∑ k ∈ Finset.range ((m + 1 + 1) / 2), ∑ c ∈ Finset.range (m + 1 + 1),
        wt G.squared n (m + 1) (Surf.baryF ε G.dom.dom (p t)) j c k) • G.central, G') := by
    filter_upwards [f1, hb.path.far, hb.path.range] with t h1 h2 h3
    obtain ⟨o, ho⟩ := h.maps hn h1
    refine eval_side hk ho (sideEval_eq hε hF fun j hj => ?_)
    have hx : nextIx n j < n := nextIx_lt (by omega)
    by_cases a : j = i
    · have := h2 _ hx (by rw [a]; exact Param.next_ne (by omega) hi)
      have := (h3 j hj).2
      linarith
    · have := h2 j hj a
      have := (h3 _ hx).2
      linarith
  refine ⟨_, x' i, y' i, hev, ?_, der, hb.leaves.self, fun hl => (hb.leaves.strict hl).2.2⟩
  have hf0 : OnSide ε n i s (Surf.baryF ε G.dom.dom (p 0)) :=
    ⟨hb.path.self, hb.path.next, by rw [hb.path.prev], fun _ => by rw [hb.path.prev], hb.farY⟩
  have e := sideEval_side hε (by linarith) hn hF (by omega) hi hf0 s0.le s1.le
  have e' := sideEval_eq (f := Surf.baryF ε G.dom.dom (p 0)) hε hF fun j hj => by
    have h2 := hb.path.far.self_of_nhdsWithin (by simp)
    have h3 := hb.path.range.self_of_nhdsWithin (by simp)
    have hx : nextIx n j < n := nextIx_lt (by omega)
    by_cases a : j = i
    · have := h2 _ hx (by rw [a]; exact Param.next_ne (by omega) hi)
      have := (h3 j hj).2
      linarith
    · have := h2 j hj a
      have := (h3 _ hx).2
      linarith
  exact Except.ok.inj (e'.symm.trans e)

/-- C95: if the control points are set by `setControlPoint`, the derivatives are given by the first two rows of the side. -/
theorem C95_tangent (hε : 0 < ε) (hn : 3 ≤ n) (hd : 3 ≤ d) (h : Usable ε arc .side n d calls G) (hc : ∀ c ∈ calls, c.regular = true)
    {cp : ℕ → ℕ → ℕ → P3 ℝ} (hcp : HasPoints G n d cp) {i : ℕ} (hi : i < n) {s : ℝ} (s0 : ε < s) (s1 : ε < 1 - s) : ∃ v, ConvexDomain G.dom.dom n v ∧
      DerivativeAt ε G n d v (fun j => cp i j 0) (rowDer d (fun j => cp i j 0) (fun j => cp i j 1) s) i s := by
  obtain ⟨v, hv, hder⟩ := C95_derivative hε hn hd h hcp hi s0 s1
  refine ⟨v, hv, ?_⟩
  obtain ⟨F, hF, hcons⟩ := h.consistent hn hc
  have eF : ∀ i < n, ∀ j ≤ d, ∀ k < (d + 1) / 2, cp i j k = F i j k := fun i hi j hj k hk =>
    Except.ok.inj ((hcp i hi j hj k hk).symm.trans (hF.cpt hi hj hk))
  have hp : (i + n - 1) % n < n := Nat.mod_lt _ (by omega)
  have hx : (i + 1) % n < n := Nat.mod_lt _ (by omega)
  have c1 : ∀ k < 2, cp i k 0 = cp ((i + n - 1) % n) d k := by
    intro k hk
    rw [eF i hi k (by omega) 0 (by omega), eF _ hp d le_rfl k (by omega)]
    exact hcons ⟨i, k, 0⟩ ⟨(i + n - 1) % n, d, k⟩ ⟨hi, by dsimp only; omega, by dsimp only; omega⟩ ⟨hp, le_rfl, by dsimp only; omega⟩
      (Or.inr (Or.inl ⟨by dsimp only; omega, by dsimp only; omega, rfl⟩))
  have c2 : ∀ k < 2, cp i (d - k) 0 = cp ((i + 1) % n) 0 k := by
    intro k hk
    rw [eF i hi (d - k) (by omega) 0 (by omega), eF _ hx 0 (by omega) k (by omega)]
    refine hcons ⟨i, d - k, 0⟩ ⟨(i + 1) % n, 0, k⟩ ⟨hi, by dsimp only; omega, by dsimp only; omega⟩ ⟨hx, by dsimp only; omega, by dsimp only; omega⟩
      (Or.inr (Or.inr ⟨by dsimp only; omega, by dsimp only; omega, ?_⟩))
    dsimp only
    rw [Name.mk.injEq]
    exact ⟨(prevIx_nextIx hi).symm, rfl, rfl⟩
  have z : ∀ (u : ℝ) (a b : ℕ → P3 ℝ), (∀ k < 2, a k = b k) → copyError d u a b = 0 := by
    intro u a b hab
    unfold copyError
    exact Finset.sum_eq_zero fun k hk => by rw [hab k (Finset.mem_range.mp hk), sub_self, smul_zero]
  rw [z _ _ _ c1, z _ _ _ c2, add_zero, ite_self, sub_zero] at hder
  exact hder

/-- C95: with squared weights this holds for any points, even for copies of a point that are set individually. -/
theorem C95_squared (hε : 0 < ε) (hn : 3 ≤ n) (hd : 3 ≤ d) (h : Usable ε arc .side n d calls G) (hsq : G.squared = true) {cp : ℕ → ℕ → ℕ → P3 ℝ}
    (hcp : HasPoints G n d cp) {i : ℕ} (hi : i < n) {s : ℝ} (s0 : ε < s) (s1 : ε < 1 - s) : ∃ v, ConvexDomain G.dom.dom n v ∧
      DerivativeAt ε G n d v (fun j => cp i j 0) (rowDer d (fun j => cp i j 0) (fun j => cp i j 1) s) i s := by
  obtain ⟨v, hv, hder⟩ := C95_derivative hε hn hd h hcp hi s0 s1
  rw [hsq, if_pos rfl, sub_zero] at hder
  exact ⟨v, hv, hder⟩

/-- C95: the normal vector computed from the boundary curve and a derivative to the inside is a positive multiple of the one computed
from the boundary curve and the first two rows. -/
theorem C95_normal (hε : 0 < ε) (hn : 3 ≤ n) (hd : 3 ≤ d) (h : Usable ε arc .side n d calls G) (hc : G.squared = true ∨ ∀ c ∈ calls, c.regular = true)
    {cp : ℕ → ℕ → ℕ → P3 ℝ} (hcp : HasPoints G n d cp) {i : ℕ} (hi : i < n) {s : ℝ} (s0 : ε < s) (s1 : ε < 1 - s) : ∃ v, ConvexDomain G.dom.dom n v ∧
      ∀ p w, DomainPath n v i s p w → 0 < inward n v i w → ∃ (X : ℝ → P3 ℝ) (X' : P3 ℝ) (β : ℝ),
        (∀ᶠ t in nhdsWithin 0 (Set.Ici 0), ∃ G', G.eval ε (p t) = .ok (X t, G')) ∧ RightDer3 X X' ∧ 0 < β ∧
          P3.cross (bezierDer d (fun j => cp i j 0) s) X' =
            β • P3.cross (bezierDer d (fun j => cp i j 0) s) (bezier d (fun j => cp i j 1) s - bezier d (fun j => cp i j 0) s) := by
  have key : ∃ v, ConvexDomain G.dom.dom n v ∧ DerivativeAt ε G n d v (fun j => cp i j 0) (rowDer d (fun j => cp i j 0) (fun j => cp i j 1) s) i s := by
    rcases hc with hc | hc
    · exact C95_squared hε hn hd h hc hcp hi s0 s1
    · exact C95_tangent hε hn hd h hc hcp hi s0 s1
  obtain ⟨v, hv, hder⟩ := key
  refine ⟨v, hv, fun p w hp hw => ?_⟩
  obtain ⟨X, α, β, e1, _, e3, _, e5⟩ := hder p w hp
  have dpos : (0 : ℝ) < d := by exact_mod_cast (show 0 < d by omega)
  refine ⟨X, _, β * d, e1, e3, mul_pos (e5 hw) dpos, ?_⟩
  unfold rowDer
  ext <;> simp [P3.cross] <;> ring

/-! ### Points that are set individually -/

private theorem individual_net {F : ℕ → ℕ → ℕ → P3 ℝ} (h : HasNet G n d F) {a : Name} (ha : a.InRange n d) (q : P3 ℝ) :
    ∃ G', G.step ε arc (.setIndividual a.side a.col a.row q) = .ok G' ∧ G'.squared = G.squared ∧ G'.n = G.n ∧ G'.degree = G.degree ∧
      HasNet G' n d (upd F a.side a.col a.row q) := by
  obtain ⟨h1, h2, h3⟩ := ha
  refine ⟨{ G with nets := net3 n d ((d + 1) / 2) (upd F a.side a.col a.row q) }, ?_, rfl, rfl, rfl, h.n_eq, h.degree, h.layers, rfl⟩
  change G.setIndividualControlPoint _ _ _ _ = _
  unfold setIndividualControlPoint
  rw [h.nets, cptSet_net3 h1 h2 h3, M_bind_ok]

private theorem sum_z {m : ℕ} (a : ℕ → ℝ) (q : ℕ → P3 ℝ) : (∑ j ∈ Finset.range m, a j • q j).z = ∑ j ∈ Finset.range m, a j * (q j).z := by
  induction m with
  | zero => rfl
  | succ m ih => rw [Finset.sum_range_succ, Finset.sum_range_succ, ← ih]; rfl

private theorem bezier_z {m : ℕ} {q : ℕ → P3 ℝ} (h : ∀ j ≤ m, (q j).z = 0) (u : ℝ) : (bezier m q u).z = 0 := by
  unfold bezier
  rw [sum_z]
  exact Finset.sum_eq_zero fun j hj => by rw [h j (by have := Finset.mem_range.mp hj; omega), mul_zero]

private theorem netValue_z {w : List (Name × P3 ℝ)} (hw : ∀ x ∈ w, x.2.z = 0) (a : Name) : (netValue n d w a).z = 0 := by
  unfold netValue
  have : ∀ v : P3 ℝ, v.z = 0 → (w.foldl (fun v x => if SamePoint n d a x.1 then x.2 else v) v).z = 0 := by
    induction w with
    | nil => exact fun v hv => hv
    | cons x w ih =>
      intro v hv
      rw [List.foldl_cons]
      refine ih (fun y hy => hw y (List.mem_cons_of_mem _ hy)) _ ?_
      split_ifs
      · exact hw x (by simp)
      · exact hv
  exact this 0 rfl

/-- C95: with the other weights this is false. If all points are in the plane z = 0 and one copy of a corner point is moved individually out of it,
then the tangent plane of the patch in the middle of the next side is not z = 0, although all points of this side are in this plane. -/
theorem C95_individual (hε : 0 < ε) (hε1 : ε < 1 / 2) (hn : 3 ≤ n) (hd : 3 ≤ d) {w : List (Name × P3 ℝ)} (hw : ∀ x ∈ w, x.1.InRange n d ∧ x.2.z = 0)
    (c : P3 ℝ) {i : ℕ} (hi : i < n) : ∃ G cp, Usable ε arc .side n d (buildCalls n d w c false ++ [.setIndividual ((i + n - 1) % n) d 0 ⟨0, 0, 1⟩]) G ∧
      HasPoints G n d cp ∧ (∀ j ≤ d, ∀ k < (d + 1) / 2, (cp i j k).z = 0) ∧
      ∃ v p w, ConvexDomain G.dom.dom n v ∧ DomainPath n v i (1 / 2) p w ∧ 0 < inward n v i w ∧ ∃ (X : ℝ → P3 ℝ) (X' : P3 ℝ),
        (∀ᶠ t in nhdsWithin 0 (Set.Ici 0), ∃ G', G.eval ε (p t) = .ok (X t, G')) ∧ RightDer3 X X' ∧ X'.z ≠ 0 := by
  obtain ⟨G0, hu, _, _, hsq, hpts⟩ := built (ε := ε) (arc := arc) .side hn (by omega) (Or.inl rfl) (fun x hx => (hw x hx).1) c false
  obtain ⟨_, _, _, ⟨F0, hF0⟩, _⟩ := hu.state (by omega)
  have hF : HasNet G0 n d (fun i j k => netValue n d w ⟨i, j, k⟩) := hF0.congr fun i hi j hj k hk =>
    Except.ok.inj ((hF0.cpt hi hj hk).symm.trans (hpts ⟨i, j, k⟩ ⟨hi, hj, hk⟩))
  have hp : (i + n - 1) % n < n := Nat.mod_lt _ (by omega)
  have hpi : (i + n - 1) % n ≠ i := Param.prev_ne (n := n) (by omega) hi
  have hnp : (i + 1) % n ≠ (i + n - 1) % n := Param.next_ne_prev hn hi
  obtain ⟨G, e, q1, q2, q3, hG⟩ := individual_net (ε := ε) (arc := arc) hF (a := ⟨(i + n - 1) % n, d, 0⟩) ⟨hp, le_rfl, by dsimp only; omega⟩ ⟨0, 0, 1⟩
  set cp := upd (fun i j k => netValue n d w ⟨i, j, k⟩) ((i + n - 1) % n) d 0 ⟨0, 0, 1⟩ with hcp
  have hus : Usable ε arc .side n d (buildCalls n d w c false ++ [.setIndividual ((i + n - 1) % n) d 0 ⟨0, 0, 1⟩]) G := by
    obtain ⟨g, l, before, later, e0, e1, k1, k2, k3, k4⟩ := hu
    refine ⟨g, l, before, later ++ [.setIndividual ((i + n - 1) % n) d 0 ⟨0, 0, 1⟩], by rw [e0]; simp, run_join e1 ?_, k1, ?_, q2.trans k3, q3.trans k4⟩
    · unfold run
      rw [e, M_bind_ok]
      rfl
    · intro x hx
      rcases List.mem_append.mp hx with hx | hx
      · exact k2 x hx
      · rw [List.mem_singleton] at hx
        rw [hx]
        rfl
  have hz : ∀ i' j k, ¬(i' = (i + n - 1) % n ∧ j = d ∧ k = 0) → (cp i' j k).z = 0 := by
    intro i' j k hne
    rw [hcp]
    unfold upd
    rw [if_neg hne]
    exact netValue_z (fun x hx => (hw x hx).2) _
  have hside : ∀ j k, (cp i j k).z = 0 := fun j k => hz _ _ _ (fun q => hpi q.1.symm)
  have hpoints : HasPoints G n d cp := fun i hi j hj k hk => hG.cpt hi hj hk
  obtain ⟨v, hv, hder⟩ := C95_derivative hε hn hd hus hpoints hi (s := 1 / 2) hε1 (by linarith)
  obtain ⟨p1, p2⟩ := straight_path hv hi (s := 1 / 2) (by norm_num) (by norm_num)
  obtain ⟨X, α, β, e1, _, e3, _, e5⟩ := hder _ _ p1
  refine ⟨G, cp, hus, hpoints, fun j _ k _ => hside j k, v, _, _, hv, p1, p2, X, _, e1, e3, ?_⟩
  have hb := e5 p2
  rw [q1, hsq, if_neg (by simp)]
  have z1 : (bezierDer d (fun j => cp i j 0) (1 / 2)).z = 0 := bezier_z (fun j _ => by
    show (d : ℝ) * ((cp i (j + 1) 0).z - (cp i j 0).z) = 0
    rw [hside, hside, sub_self, mul_zero]) _
  have z2 : (rowDer d (fun j => cp i j 0) (fun j => cp i j 1) (1 / 2)).z = 0 := by
    show (d : ℝ) * ((bezier d _ _ : P3 ℝ).z - (bezier d _ _ : P3 ℝ).z) = 0
    rw [bezier_z (fun j _ => hside j 1), bezier_z (fun j _ => hside j 0), sub_self, mul_zero]
  have z3 : (copyError d (1 - 1 / 2) (fun k => cp i (d - k) 0) (fun k => cp ((i + 1) % n) 0 k)).z = 0 := by
    unfold copyError
    rw [sum_z]
    refine Finset.sum_eq_zero fun k _ => ?_
    show _ * ((cp i (d - k) 0).z - (cp ((i + 1) % n) 0 k).z) = 0
    rw [hside, hz _ _ _ (fun q => hnp q.1), sub_self, mul_zero]
  have z4 : (copyError d (1 / 2) (fun k => cp i k 0) (fun k => cp ((i + n - 1) % n) d k)).z = -(bern d 0 (1 / 2) / (1 / 2)) := by
    unfold copyError
    rw [sum_z, Finset.sum_range_succ, Finset.sum_range_one]
    show _ * ((cp i 0 0).z - (cp ((i + n - 1) % n) d 0).z) + _ * ((cp i 1 0).z - (cp ((i + n - 1) % n) d 1).z) = _
    have : (cp ((i + n - 1) % n) d 0).z = 1 := by
      rw [hcp]
      unfold upd
      rw [if_pos ⟨rfl, rfl, rfl⟩]
    rw [this, hside, hside, hz _ _ 1 (by omega)]
    ring
  show α * _ + β * (_ - (_ + _)) ≠ 0
  rw [z1, z2, z3, z4]
  have : 0 < bern d 0 (1 / 2 : ℝ) := by
    unfold bern
    rw [Nat.choose_zero_right]
    positivity
  have := mul_pos hb (div_pos this (show (0 : ℝ) < 1 / 2 by norm_num))
  intro h0
  apply this.ne'
  linarith

/-! ### Examples -/

/-- A five-sided patch of degree 3 with two points set, built by regular calls: in the middle of side 0 a path leads into the domain. -/
example (hε : 0 < ε) (hε1 : ε < 1 / 2) (sq : Bool) : ∃ G cp v, Usable ε arc .side 5 3 (buildCalls 5 3 [(⟨0, 1, 1⟩, ⟨1, 2, 3⟩), (⟨0, 3, 0⟩, ⟨3, 0, 1⟩)] ⟨0, 1, 2⟩ sq) G ∧
    HasPoints G 5 3 cp ∧ ConvexDomain G.dom.dom 5 v ∧ (∃ p w, DomainPath 5 v 0 (1 / 2) p w ∧ 0 < inward 5 v 0 w) ∧ cp 0 1 1 = ⟨1, 2, 3⟩ ∧
      DerivativeAt ε G 5 3 v (fun j => cp 0 j 0) (rowDer 3 (fun j => cp 0 j 0) (fun j => cp 0 j 1) (1 / 2)) 0 (1 / 2) := by
  have hr : ∀ x ∈ ([(⟨0, 1, 1⟩, ⟨1, 2, 3⟩), (⟨0, 3, 0⟩, ⟨3, 0, 1⟩)] : List (Name × P3 ℝ)), x.1.InRange 5 3 := by
    intro x hx
    simp only [List.mem_cons, List.not_mem_nil, or_false] at hx
    rcases hx with rfl | rfl <;> simp [Name.InRange]
  obtain ⟨G, hu, hc, _, _, hpts⟩ := built (ε := ε) (arc := arc) .side (n := 5) (d := 3) (by norm_num) (by norm_num) (Or.inl rfl) hr ⟨0, 1, 2⟩ sq
  obtain ⟨v, hv, hder⟩ := C95_tangent hε (by norm_num) le_rfl hu hc (cp := fun i j k => netValue 5 3 _ ⟨i, j, k⟩)
    (fun i hi j hj k hk => hpts ⟨i, j, k⟩ ⟨hi, hj, hk⟩) (i := 0) (by norm_num) (s := 1 / 2) hε1 (by linarith)
  obtain ⟨p1, p2⟩ := straight_path hv (i := 0) (by norm_num) (s := 1 / 2) (by norm_num) (by norm_num)
  exact ⟨G, _, v, hu, fun i hi j hj k hk => hpts ⟨i, j, k⟩ ⟨hi, hj, hk⟩, hv, ⟨_, _, p1, p2⟩, by simp [netValue, SamePoint, AtCorner], hder⟩

/-- The hypotheses of `C95_individual` hold for a triangular patch of degree 3 with two points in the plane. -/
example : ∀ x ∈ ([(⟨0, 0, 0⟩, ⟨1, 2, 0⟩), (⟨1, 3, 0⟩, ⟨3, 0, 0⟩)] : List (Name × P3 ℝ)), x.1.InRange 3 3 ∧ x.2.z = 0 := by
  intro x hx
  simp only [List.mem_cons, List.not_mem_nil, or_false] at hx
  rcases hx with rfl | rfl <;> simp [Name.InRange]

end GB

end Transfinite
