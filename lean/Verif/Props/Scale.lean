import Verif.Props.Total
import Verif.Lemmas.MotionSides
import Mathlib.Tactic.IntervalCases

/-! # C94: tiny curves -/

namespace Transfinite

open Spec

/-! ### Specification -/

/-- Some sample of the curve is not within the tolerance of its start. -/
def Reaches (ε : ℝ) (res : ℕ) (c : Curve ℝ) : Prop :=
  ∃ k ≤ res, ε ≤ P3.dot (c.pt ((k : ℕ) / res) - c.pt 0) (c.pt (k / res) - c.pt 0)

/-- The curve in another unit of length. -/
noncomputable def Curve.inUnit (lam : ℝ) (c : Curve ℝ) : Curve ℝ := ⟨fun u => lam • c.pt u, fun u => lam • c.der u, fun a b => lam * c.arc a b⟩

/-- What is assumed of the curve: nonzero derivatives at the samples, and proper arcs have a positive length. -/
structure Regular (res : ℕ) (c : Curve ℝ) : Prop where
  der : ∀ k ≤ res, c.der ((k : ℕ) / res) ≠ 0
  arc : ∀ a b, 0 ≤ a → a < b → b ≤ 1 → 0 < c.arc a b

/-! ### The frames -/

namespace RMF

theorem nextFrame_defined {ε : ℝ} (hε : 0 < ε) {c : Curve ℝ} (f : Frame ℝ) {u : ℝ} (hd : c.der u ≠ 0) : ∃ g, nextFrame ε c f u = .ok g := by
  unfold nextFrame
  rw [P3.normalize_ok hd, M_bind_ok]
  dsimp only
  split_ifs with h1
  · exact ⟨_, rfl⟩
  · rw [fdiv_of_ne (by linarith), M_bind_ok]
    split_ifs with h2
    · rw [M_bind_ok]; exact ⟨_, rfl⟩
    · rw [fdiv_of_ne (by linarith)]
      exact ⟨_, rfl⟩

/-- The frames, with the length of the arc at the last one. -/
theorem frames_reach {ε : ℝ} (hε : 0 < ε) {res : ℕ} (hres : 0 < res) {c : Curve ℝ} (h : Regular res c) (start : P3 ℝ) :
    ∃ x, computeFrames ε res c start = .ok x ∧ (x.2.s = 0 ↔ ¬ Reaches ε res c) := by
  have hr0 : (0 : ℝ) < res := by exact_mod_cast hres
  have hd0 : c.der 0 ≠ 0 := by simpa using h.der 0 (Nat.zero_le _)
  unfold computeFrames
  rw [P3.normalize_ok hd0, M_bind_ok]
  dsimp only
  set f0 : Frame ℝ := ⟨0, 0, c.pt 0, (c.der 0).norm⁻¹ • c.der 0, start⟩ with hf0
  obtain ⟨st, e, hI⟩ := forLoop_inv (n := res) (s := (([] : List (Frame ℝ)), f0))
    (body := fun i (st : List (Frame ℝ) × Frame ℝ) => do
      let u ← fdiv ((i + 1 : ℕ) : ℝ) (res : ℝ)
      let f ← nextFrame ε c st.2 u
      .ok (st.1 ++ [st.2], f))
    (fun k st => 0 ≤ st.2.u ∧ st.2.u ≤ k / res ∧
      ((st.2 = f0 ∧ ∀ j ≤ k, P3.dot (c.pt ((j : ℕ) / res) - c.pt 0) (c.pt (j / res) - c.pt 0) < ε) ∨
       (0 < st.2.s ∧ ∃ j ≤ k, ε ≤ P3.dot (c.pt ((j : ℕ) / res) - c.pt 0) (c.pt (j / res) - c.pt 0))))
    ⟨le_rfl, by simp [hf0], Or.inl ⟨rfl, by
      intro j hj
      have : j = 0 := by omega
      subst this
      simp [P3.dot_zero_left, hε]⟩⟩ (by
    rintro k ⟨fs, f⟩ hk ⟨i1, i2, i3⟩
    dsimp only at i1 i2 i3 ⊢
    rw [fdiv_of_ne hr0.ne', M_bind_ok]
    obtain ⟨g, hg⟩ := nextFrame_defined hε f (h.der (k + 1) (by omega))
    rw [hg, M_bind_ok]
    refine ⟨_, rfl, ?_⟩
    dsimp only
    have hlt : (k : ℝ) / res < ((k + 1 : ℕ) : ℝ) / res := by
      apply div_lt_div_of_pos_right _ hr0
      push_cast; linarith
    have hle1 : ((k + 1 : ℕ) : ℝ) / res ≤ 1 := by
      rw [div_le_one hr0]; exact_mod_cast hk
    rcases (nextFrame_cases hε hg).2 with ⟨q1, rfl⟩ | ⟨q1, q2, q3, _⟩
    · refine ⟨i1, i2.trans hlt.le, ?_⟩
      rcases i3 with ⟨rfl, hall⟩ | ⟨hs, j, hj, hjε⟩
      · left
        refine ⟨rfl, fun j hj => ?_⟩
        rcases Nat.lt_or_ge j (k + 1) with hj' | hj'
        · exact hall j (by omega)
        · have : j = k + 1 := by omega
          rw [this]; exact q1
      · exact Or.inr ⟨hs, j, by omega, hjε⟩
    · refine ⟨by rw [q2]; positivity, by rw [q2], Or.inr ⟨?_, ?_⟩⟩
      · rw [q3]
        have := h.arc f.u _ i1 (lt_of_le_of_lt i2 hlt) hle1
        rcases i3 with ⟨rfl, _⟩ | ⟨hs, _⟩
        · have : f0.s = 0 := rfl
          linarith
        · linarith
      · rcases i3 with ⟨rfl, _⟩ | ⟨_, j, hj, hjε⟩
        · exact ⟨k + 1, le_rfl, q1⟩
        · exact ⟨j, by omega, hjε⟩)
  rw [e, M_bind_ok]
  refine ⟨_, rfl, ?_⟩
  dsimp only
  rcases hI.2.2 with ⟨h1, h2⟩ | ⟨h1, j, h2, h3⟩
  · constructor
    · rintro _ ⟨k, hk, hkε⟩
      exact absurd (h2 k hk) (not_lt.mpr hkε)
    · intro _
      rw [h1]
  · constructor
    · intro h0; linarith
    · intro hn
      exact absurd ⟨j, h2, h3⟩ hn

/-- C94: exactly when the frame of a curve can be computed. -/
theorem C94_frame {ε : ℝ} (hε : 0 < ε) {res : ℕ} (hres : 0 < res) {c : Curve ℝ} (h : Regular res c) (start fin : P3 ℝ) :
    (∃ r, RMF.update ε res c start fin = .ok r) ↔ Reaches ε res c := by
  obtain ⟨x, e, hx⟩ := frames_reach hε hres h start
  unfold RMF.update
  rw [e, M_bind_ok]
  dsimp only
  by_cases hs : x.2.s = 0
  · rw [hs]
    unfold fdiv
    rw [if_pos rfl]
    constructor
    · rintro ⟨r, hr⟩; cases hr
    · intro hr; exact absurd hr (hx.mp hs)
  · rw [fdiv_of_ne hs]
    constructor
    · intro _
      by_contra hn
      exact hs (hx.mpr hn)
    · intro _; exact ⟨_, rfl⟩

/-- C94: it depends on the unit of length, with a threshold for every curve. -/
theorem C94_unit {ε : ℝ} (hε : 0 < ε) {res : ℕ} (hres : 0 < res) {c : Curve ℝ} (h : Regular res c)
    (hm : ∃ k ≤ res, c.pt ((k : ℕ) / res) ≠ c.pt 0) :
    ∃ t > 0, ∀ lam > 0, ∀ start fin, (∃ r, RMF.update ε res (c.inUnit lam) start fin = .ok r) ↔ t ≤ lam := by
  set d : ℕ → ℝ := fun k => P3.dot (c.pt ((k : ℕ) / res) - c.pt 0) (c.pt (k / res) - c.pt 0) with hd
  obtain ⟨m, hm1, hm2⟩ := Finset.exists_max_image (Finset.range (res + 1)) d ⟨0, by simp⟩
  have hm1' : m ≤ res := by have := Finset.mem_range.mp hm1; omega
  have hpos : 0 < d m := by
    obtain ⟨k, hk, hne⟩ := hm
    refine lt_of_lt_of_le ?_ (hm2 k (Finset.mem_range.mpr (by omega)))
    refine lt_of_le_of_ne (P3.dot_self_nonneg _) (fun h0 => hne ?_)
    exact sub_eq_zero.mp (P3.eq_zero_of_dot_self h0.symm)
  refine ⟨Real.sqrt (ε / d m), Real.sqrt_pos.mpr (div_pos hε hpos), ?_⟩
  intro lam hlam start fin
  have hreg : Regular res (c.inUnit lam) := by
    refine ⟨fun k hk h0 => h.der k hk ?_, fun a b ha hab hb => mul_pos hlam (h.arc a b ha hab hb)⟩
    have h0 : lam • c.der (k / res) = 0 := h0
    rcases smul_eq_zero.mp h0 with h0 | h0
    · linarith
    · exact h0
  have hdist : ∀ k, P3.dot ((c.inUnit lam).pt ((k : ℕ) / res) - (c.inUnit lam).pt 0) ((c.inUnit lam).pt (k / res) - (c.inUnit lam).pt 0) = lam ^ 2 * d k := by
    intro k
    have : (c.inUnit lam).pt ((k : ℕ) / res) - (c.inUnit lam).pt 0 = lam • (c.pt (k / res) - c.pt 0) := by
      unfold Curve.inUnit
      dsimp only
      rw [smul_sub]
    rw [this, P3.dot_smul_left, P3.dot_smul_right]
    ring
  rw [C94_frame hε hres hreg, Real.sqrt_le_left hlam.le, div_le_iff₀ hpos]
  unfold Reaches
  constructor
  · rintro ⟨k, hk, hkε⟩
    rw [hdist] at hkε
    have := hm2 k (Finset.mem_range.mpr (by omega))
    exact hkε.trans (mul_le_mul_of_nonneg_left this (by positivity))
  · intro hle
    exact ⟨m, hm1', by rw [hdist]; exact hle⟩

end RMF

/-! ### Surfaces -/

/-- C94: `update()` of a surface fails if all samples of one of its curves are within the tolerance of its start,
whatever the history of the object is. -/
theorem C94_tiny {ε : ℝ} (hε : 0 < ε) {kind : PatchKind} {cs : List (Patch.Call ℝ)} {P P' : Patch ℝ} (hP : (Patch.new kind).run ε cs = .ok P)
    {i : ℕ} {c : Curve ℝ} (hc : vget P.curves i = .ok c) (hreg : Regular RMF.resolution c) (ht : ¬ Reaches ε RMF.resolution c) :
    P.step ε .update ≠ .ok P' := by
  intro h
  have hinv := (Patch.run_inv (Patch.new_inv ε kind) hP).1
  change P.update ε = .ok P' at h
  unfold Patch.update at h
  obtain ⟨D, hD, h⟩ := bind_ok h
  split_ifs at h
  obtain ⟨S, hS, h⟩ := bind_ok h
  rw [Motion.updateDomain_surf hD] at hS
  haveI : Inhabited (Ribbon ℝ) := ⟨Ribbon.new .dummy ⟨fun _ => 0, fun _ => 0, fun _ _ => 0⟩⟩
  obtain ⟨r, hr⟩ := exists_tab P.surf.ribbons
  obtain ⟨r', k, h1, _, _⟩ := (Surf.updateAll_iff hr).mp hS
  unfold Patch.curves at hc
  have hi : i < P.surf.ribbons.length := by
    by_contra hi
    rw [vget_oob (by simpa using hi)] at hc
    cases hc
  have hc' : (r i).curve = c := by
    rw [hr] at hc
    rw [vget_map, vget_tab _ hi] at hc
    exact Except.ok.inj hc
  have hkind : (r i).kind ≠ .dummy := by
    have : r i ∈ P.surf.ribbons := by
      rw [hr]
      exact List.mem_map.mpr ⟨i, List.mem_range.mpr hi, rfl⟩
    rw [hinv.kinds _ this]
    cases P.kind <;> simp [PatchKind.ribbon]
  obtain ⟨a, b, _, _, e⟩ := (update_updated (h1 i hi) hkind).rmf
  rw [hc'] at e
  exact ht ((RMF.C94_frame hε (by simp [RMF.resolution]) hreg a b).mp ⟨_, e⟩)

/-- The polygon with vertices `q`, in the unit `lam`. -/
noncomputable def polygonLoop (n : ℕ) (q : ℕ → P3 ℝ) (lam : ℝ) (j : ℕ) : Curve ℝ := (segment (q j) (q ((j + 1) % n))).inUnit lam

/-- The calls that make a surface on a loop of curves with the given handlers. -/
noncomputable def makeSurface (n : ℕ) (c : ℕ → Curve ℝ) (h : ℕ → P3 ℝ) : List (Patch.Call ℝ) :=
  [.curves (tab n c), .loop] ++ tab n (fun j => .handler j (h j)) ++ [.update]

/-- The state before `update()`. -/
private theorem before_update {ε : ℝ} {n : ℕ} {c : ℕ → Curve ℝ} (hc : ∀ j < n, (c j).pt 1 = (c ((j + 1) % n)).pt 0) (kind : PatchKind)
    {h : ℕ → P3 ℝ} (hh : ∀ j < n, h j ≠ 0) :
    ∃ P, (Patch.new kind).run ε ([.curves (tab n c), .loop] ++ tab n (fun j => .handler j (h j))) = .ok P ∧ P.curves = tab n c := by
  set P0 : Patch ℝ := (Patch.new kind).setCurves (tab n c)
  have hr0 : P0.surf.ribbons = tab n (fun j => Ribbon.new kind.ribbon (c j)) := by
    change (tab n c).map (Ribbon.new kind.ribbon) = _
    unfold tab
    rw [List.map_map]
    rfl
  have hc0 : P0.curves = tab n c := Patch.curves_tab hr0 (fun j _ => rfl)
  set P1 : Patch ℝ := { P0 with linked := true }
  have e0 : (Patch.new kind).step ε (.curves (tab n c)) = .ok P0 := rfl
  have e1 : P0.step ε .loop = .ok P1 := by
    change P0.setupLoop = _
    unfold Patch.setupLoop
    rw [hc0, C26_oriented hc, M_bind_ok, hr0]
    have z : List.zipWith (fun (r : Ribbon ℝ) c => ({ r with curve := c } : Ribbon ℝ)) (tab n (fun j => Ribbon.new kind.ribbon (c j))) (tab n c) =
        tab n fun j => Ribbon.new kind.ribbon (c j) := by
      unfold tab
      rw [List.zipWith_map, List.zipWith_self]
      rfl
    rw [z, ← hr0]
  have hrun1 : (Patch.new kind).run ε [.curves (tab n c), .loop] = .ok P1 := calls_append (xs := [_]) (calls_one e0) (calls_one e1)
  have hi1 := (Patch.run_inv (Patch.new_inv ε kind) hrun1).1
  have hl1 : Loaded ε n c (tab n (fun j => .handler j (h j))) P1 (fun j => Ribbon.new kind.ribbon (c j)) := by
    refine ⟨hi1, rfl, hr0, fun j _ => ⟨rfl, rfl⟩, Or.inr fun j hj => Or.inr (Or.inr ⟨h j, ?_⟩)⟩
    exact List.mem_map.mpr ⟨j, List.mem_range.mpr hj, rfl⟩
  obtain ⟨P2, r, e2, h2⟩ := loaded_run (kind := kind) (v := fun _ => 0) rfl hl1 (by
    intro x hx
    obtain ⟨j, hj, rfl⟩ := List.mem_map.mp hx
    exact ⟨trivial, List.mem_range.mp hj, hh j (List.mem_range.mp hj)⟩)
  exact ⟨P2, calls_append hrun1 e2, Patch.curves_tab h2.ribbons (fun j hj => (h2.curve j hj).1)⟩

theorem calls_split {ε : ℝ} {P : Patch ℝ} {xs ys : List (Patch.Call ℝ)} :
    P.run ε (xs ++ ys) = (P.run ε xs >>= fun Q => Q.run ε ys) := by
  induction xs generalizing P with
  | nil => rfl
  | cons x xs ih =>
    show (P.step ε x >>= fun Q => Q.run ε (xs ++ ys)) = ((P.step ε x >>= fun Q => Q.run ε xs) >>= fun Q => Q.run ε ys)
    cases P.step ε x with
    | error e => rfl
    | ok Q => exact ih

/-- C94: no surface can be made on a closed loop with a tiny curve. -/
theorem C94_loop {ε : ℝ} (hε : 0 < ε) {n : ℕ} {c : ℕ → Curve ℝ} (hc : ∀ j < n, (c j).pt 1 = (c ((j + 1) % n)).pt 0) {i : ℕ} (hi : i < n)
    (hreg : Regular RMF.resolution (c i)) (ht : ¬ Reaches ε RMF.resolution (c i)) (kind : PatchKind) {h : ℕ → P3 ℝ} (hh : ∀ j < n, h j ≠ 0)
    (P : Patch ℝ) : (Patch.new kind).run ε (makeSurface n c h) ≠ .ok P := by
  obtain ⟨Q, e, hQ⟩ := before_update (ε := ε) hc kind hh
  unfold makeSurface
  rw [calls_split, e, M_bind_ok]
  intro h1
  obtain ⟨P', e1, _⟩ := bind_ok (f := fun Q' => Patch.run ε Q' []) (show (Q.step ε .update >>= fun Q' => Q'.run ε []) = .ok P from h1)
  exact C94_tiny hε e (by rw [hQ, vget_tab _ hi]) hreg ht e1

private theorem segment_regular {p q : P3 ℝ} (hne : q - p ≠ 0) {lam : ℝ} (hl : 0 < lam) (res : ℕ) : Regular res ((segment p q).inUnit lam) := by
  refine ⟨fun k _ h0 => ?_, fun a b _ hab _ => ?_⟩
  · have h0 : lam • (q - p) = 0 := h0
    rcases smul_eq_zero.mp h0 with h0 | h0
    · linarith
    · exact hne h0
  · show 0 < lam * ((b - a) * (q - p).norm)
    have := P3.norm_pos hne
    have : 0 < b - a := by linarith
    positivity

private theorem segment_unit (p q : P3 ℝ) {lam : ℝ} (hl : 0 ≤ lam) : (segment p q).inUnit lam = segment (lam • p) (lam • q) := by
  have hd : lam • q - lam • p = lam • (q - p) := (smul_sub lam q p).symm
  have hn : (lam • (q - p)).norm = lam * (q - p).norm := by
    show Real.sqrt _ = lam * Real.sqrt _
    rw [P3.dot_smul_left, P3.dot_smul_right, ← mul_assoc, Real.sqrt_mul (mul_self_nonneg lam), Real.sqrt_mul_self hl]
  unfold segment Curve.inUnit
  rw [hd]
  simp only [hn]
  congr 1
  · funext u
    rw [smul_add, smul_comm lam u]
  · funext a b
    ring

private theorem cross_smul_smul (lam : ℝ) (a b : P3 ℝ) : P3.cross (lam • a) (lam • b) = (lam * lam) • P3.cross a b := by
  ext <;> simp [P3.cross] <;> ring

/-- C94: every polygon without straight corners: a surface can be made on it in large units, and not in small ones. -/
theorem C94_polygon {ε : ℝ} (hε : 0 < ε) (hε1 : ε ≤ 1) {n : ℕ} (hn : 3 ≤ n) {q : ℕ → P3 ℝ}
    (hq : ∀ j < n, P3.cross (q ((j + 1) % n) - q j) (q (((j + 1) % n + 1) % n) - q ((j + 1) % n)) ≠ 0)
    {kind : PatchKind} (hk : kind ≠ .sideBased) {h : ℕ → P3 ℝ} (hh : ∀ j < n, h j ≠ 0) :
    ∃ t > 0, ∃ T > 0, (∀ lam > 0, lam < t → ∀ P, (Patch.new kind).run ε (makeSurface n (polygonLoop n q lam) h) ≠ .ok P) ∧
      ∀ lam ≥ T, ∃ P v, (Patch.new kind).run ε (makeSurface n (polygonLoop n q lam) h) = .ok P ∧ Usable ε kind n (polygonLoop n q lam) P ∧
        ConvexDomain P.dom.dom n v := by
  have hne : ∀ j < n, q ((j + 1) % n) - q j ≠ 0 := by
    intro j hj h0
    apply hq j hj
    rw [h0]
    ext <;> simp [P3.cross]
  set L : ℕ → ℝ := fun j => P3.dot (q ((j + 1) % n) - q j) (q ((j + 1) % n) - q j) with hL
  have hLp : ∀ j < n, 0 < L j := fun j hj =>
    lt_of_le_of_ne (P3.dot_self_nonneg _) fun h0 => hne j hj (P3.eq_zero_of_dot_self h0.symm)
  have hclosed : ∀ lam, ∀ j < n, (polygonLoop n q lam j).pt 1 = (polygonLoop n q lam ((j + 1) % n)).pt 0 := by
    intro lam j _
    show lam • (q j + (1 : ℝ) • (q ((j + 1) % n) - q j)) = lam • (q ((j + 1) % n) + (0 : ℝ) • _)
    rw [one_smul, zero_smul, add_zero, add_sub_cancel]
  have h0n : 0 < n := by omega
  refine ⟨Real.sqrt (ε / L 0), Real.sqrt_pos.mpr (div_pos hε (hLp 0 h0n)), 1 + ∑ j ∈ Finset.range n, 10000 * ε / L j, ?_, ?_, ?_⟩
  · have : 0 ≤ ∑ j ∈ Finset.range n, 10000 * ε / L j :=
      Finset.sum_nonneg fun j hj => (div_pos (by linarith) (hLp j (Finset.mem_range.mp hj))).le
    linarith
  · intro lam hl ht P
    refine C94_loop hε (hclosed lam) h0n (segment_regular (hne 0 h0n) hl _) ?_ kind hh P
    rintro ⟨k, hk, hk1⟩
    have e : (polygonLoop n q lam 0).pt ((k : ℕ) / (RMF.resolution : ℕ)) - (polygonLoop n q lam 0).pt 0 =
        (lam * ((k : ℝ) / RMF.resolution)) • (q ((0 + 1) % n) - q 0) := by
      show lam • (q 0 + ((k : ℝ) / RMF.resolution) • (q ((0 + 1) % n) - q 0)) - lam • (q 0 + (0 : ℝ) • (q ((0 + 1) % n) - q 0)) = _
      rw [zero_smul, add_zero, smul_add, add_sub_cancel_left, smul_smul]
    rw [e, P3.dot_smul_left, P3.dot_smul_right] at hk1
    have hr : (0 : ℝ) < RMF.resolution := by norm_num [RMF.resolution]
    have hx1 : (k : ℝ) / RMF.resolution ≤ 1 := by
      rw [div_le_one hr]
      exact_mod_cast hk
    have hx0 : 0 ≤ (k : ℝ) / RMF.resolution := by positivity
    have hl2 : lam * lam < ε / L 0 := by
      have := Real.lt_sqrt hl.le |>.mp ht
      nlinarith
    have hlL : lam * lam * L 0 < ε := by rwa [lt_div_iff₀ (hLp 0 h0n)] at hl2
    have h1 : lam * ((k : ℝ) / RMF.resolution) ≤ lam := by nlinarith
    have h2 : (lam * ((k : ℝ) / RMF.resolution)) * (lam * ((k : ℝ) / RMF.resolution)) ≤ lam * lam := mul_self_le_mul_self (by positivity) h1
    have h3 := mul_le_mul_of_nonneg_right h2 (hLp 0 h0n).le
    have h4 : ε ≤ (lam * ((k : ℝ) / RMF.resolution)) * (lam * ((k : ℝ) / RMF.resolution)) * L 0 := by
      rw [mul_assoc]
      exact hk1
    linarith
  · intro lam hT
    have hs : ∀ j < n, 10000 * ε / L j ≤ ∑ j ∈ Finset.range n, 10000 * ε / L j := fun j hj =>
      Finset.single_le_sum (f := fun j => 10000 * ε / L j) (fun i hi => (div_pos (by linarith) (hLp i (Finset.mem_range.mp hi))).le) (Finset.mem_range.mpr hj)
    have hs0 : ∀ j < n, 0 < 10000 * ε / L j := fun j hj => div_pos (by linarith) (hLp j hj)
    have hl1 : 1 ≤ lam := by
      have := hs 0 h0n
      have := hs0 0 h0n
      linarith
    have hgood : Patch.GoodLoop ε n (polygonLoop n q lam) := by
      refine ⟨hn, hclosed lam, ?_, ?_, ?_⟩
      · intro j hj s _ _ h0
        rcases smul_eq_zero.mp (show lam • (q ((j + 1) % n) - q j) = 0 from h0) with h0 | h0
        · linarith
        · exact hne j hj h0
      · intro j hj
        unfold polygonLoop
        rw [segment_unit _ _ (by linarith)]
        refine segment_exact hε (by linarith) ?_
        rw [← smul_sub, P3.dot_smul_left, P3.dot_smul_right]
        have h1 : 10000 * ε / L j ≤ lam := by
          have := hs j hj
          linarith
        rw [div_le_iff₀ (hLp j hj)] at h1
        have h2 : lam * L j ≤ lam * (lam * L j) := by
          have := mul_pos (show (0 : ℝ) < lam by linarith) (hLp j hj)
          nlinarith
        exact h1.trans h2
      · intro j hj h0
        have h0 : P3.cross (lam • (q ((j + 1) % n) - q j)) (lam • (q (((j + 1) % n + 1) % n) - q ((j + 1) % n))) = 0 := h0
        rw [cross_smul_smul] at h0
        rcases smul_eq_zero.mp h0 with h0 | h0
        · nlinarith
        · exact hq j hj h0
    exact C64_built (v := fun _ => 0) hε hε1 hgood kind (fun h => absurd h hk) (by
      intro x hx
      obtain ⟨j, hj, rfl⟩ := List.mem_map.mp hx
      exact ⟨trivial, List.mem_range.mp hj, hh j (List.mem_range.mp hj)⟩) (Or.inr fun j hj => Or.inr ⟨h j, List.mem_map.mpr ⟨j, List.mem_range.mpr hj, rfl⟩⟩)

/-! ### Examples -/

/-- Example: a surface of any kind can be made on a square of side 10, but not on a square of side 1/1000. -/
example : ∀ kind P, (Patch.new kind).run (1 / 10000) (makeSurface 4 (fun j => (squareLoop j).inUnit (1 / 10000)) (fun _ => ⟨1, 2, 3⟩)) ≠ .ok P := by
  intro kind P
  refine C94_loop (by norm_num) ?_ (show 0 < 4 by norm_num) ?_ ?_ kind ?_ P
  · intro j hj
    interval_cases j <;> (ext <;> norm_num [squareLoop, segment, Curve.inUnit])
  · refine segment_regular ?_ (by norm_num) _
    intro h
    have h1 := congrArg P3.x h
    norm_num at h1
  · rintro ⟨k, hk, h⟩
    have hk' : (k : ℝ) / RMF.resolution ≤ 1 := by
      rw [div_le_one (by norm_num [RMF.resolution])]
      exact_mod_cast hk
    have hk0 : 0 ≤ (k : ℝ) / RMF.resolution := by positivity
    generalize (k : ℝ) / RMF.resolution = x at h hk' hk0
    norm_num [squareLoop, segment, Curve.inUnit, P3.dot] at h
    nlinarith
  · intro j hj h
    have h1 := congrArg P3.z h
    norm_num at h1

/-- The vertices of the unit square. -/
def unitSquare : ℕ → P3 ℝ
  | 0 => ⟨0, 0, 0⟩
  | 1 => ⟨1, 0, 0⟩
  | 2 => ⟨1, 1, 0⟩
  | _ => ⟨0, 1, 0⟩

/-- Example: the hypotheses of `C94_polygon` are met by the unit square. -/
example : ∀ j < 4, P3.cross (unitSquare ((j + 1) % 4) - unitSquare j) (unitSquare (((j + 1) % 4 + 1) % 4) - unitSquare ((j + 1) % 4)) ≠ 0 := by
  intro j hj h
  have h1 := congrArg P3.z h
  interval_cases j <;> norm_num [unitSquare, P3.cross] at h1

/-- Example: the hypotheses of `C94_unit` and `C94_frame`. -/
example : Regular 100 (segment 0 ⟨1, 2, 3⟩) ∧ ∃ k ≤ 100, (segment 0 ⟨1, 2, 3⟩).pt ((k : ℕ) / (100 : ℕ)) ≠ (segment 0 ⟨1, 2, 3⟩).pt 0 := by
  have hne : (⟨1, 2, 3⟩ : P3 ℝ) - 0 ≠ 0 := fun h => by
    have h1 := congrArg P3.x h
    norm_num at h1
  refine ⟨⟨fun _ _ => hne, fun a b _ hab _ => ?_⟩, 100, le_rfl, fun h => ?_⟩
  · show 0 < (b - a) * _
    exact mul_pos (by linarith) (P3.norm_pos hne)
  · have h1 := congrArg P3.x h
    norm_num [segment] at h1

end Transfinite
