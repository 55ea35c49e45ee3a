import Verif.Lemmas.TangentGB
import Verif.Lemmas.TangentPatch
import Verif.Lemmas.Hybrid

/-! # Derivatives of hybrid patches along a path that starts at a side -/

namespace Transfinite

open Spec Set Filter Topology Param

namespace Surf

/-- What the tangents of hybrid patches depend on: smooth curves `c` and smooth cross derivatives `T` with the derivatives `T'`. -/
structure SmoothSides (ε : ℝ) (S : Surf ℝ) (n : ℕ) (c : ℕ → Curve ℝ) (T T' : ℕ → ℝ → P3 ℝ) : Prop where
  ribbon : ∀ j < n, ∃ r, vget S.ribbons j = .ok r ∧ r.curve = c j ∧ r.kind ≠ .coons ∧ r.kind ≠ .nsided ∧
    ∀ s, 0 ≤ s → s ≤ 1 → r.crossDerivative ε s = .ok (T j s)
  curveDer : ∀ j < n, ∀ s, 0 ≤ s → s ≤ 1 → UnitDer (c j).pt ((c j).der s) s
  crossDer : ∀ j < n, ∀ s, 0 ≤ s → s ≤ 1 → UnitDer (T j) (T' j s) s

namespace SmoothSides

variable {ε : ℝ} {S : Surf ℝ} {n : ℕ} {c : ℕ → Curve ℝ} {T T' : ℕ → ℝ → P3 ℝ}

theorem side_eq (h : SmoothSides ε S n c T T') {j : ℕ} (hj : j < n) {x d : ℝ} (x0 : 0 ≤ x) (x1 : x ≤ 1) (hd : 0 ≤ d) :
    S.sideInterpolant ε j x d = .ok (S.sideF c T j x d) := by
  obtain ⟨r, hr, hc, k1, k2, hx⟩ := h.ribbon j hj
  unfold sideInterpolant
  rw [gamma_ok S hd, M_bind_ok, hr, M_bind_ok, eval_base k1 k2, clamp_of_mem x0 x1]
  unfold Ribbon.baseEval
  rw [hx x x0 x1, M_bind_ok, max_eq_left (gam_nonneg S hd), hc]
  rfl

theorem side_der (h : SmoothSides ε S n c T T') {x d : ℝ → ℝ} {x' d' : ℝ} {j : ℕ} (hj : j < n) (hx : RightDer x x') (hd : RightDer d d')
    (hr : ∀ᶠ t in near0, 0 ≤ x t ∧ x t ≤ 1) (h0 : 0 ≤ d 0) :
    RightDer3 (fun t => S.sideF c T j (x t) (d t)) (x' • (c j).der (x 0) + ((S.gam' (d 0) * d') • T j (x 0) + S.gam (d 0) • x' • T' j (x 0))) := by
  obtain ⟨r0, r1⟩ := hr.self_of_nhdsWithin (by simp : (0 : ℝ) ∈ Ici 0)
  exact (RightDer3.unit (h.curveDer j hj _ r0 r1) hx hr).add (RightDer3.smul (S.gam_der hd h0) (RightDer3.unit (h.crossDer j hj _ r0 r1) hx hr))

theorem side_bd (h : SmoothSides ε S n c T T') {j : ℕ} (hj : j < n) : ∃ C, ∀ x d : ℝ, 0 ≤ x → x ≤ 1 → 0 ≤ d → d ≤ 1 → Bd C (S.sideF c T j x d) := by
  obtain ⟨C1, h1⟩ := unit_bd (h.curveDer j hj)
  obtain ⟨C2, h2⟩ := unit_bd (h.crossDer j hj)
  refine ⟨C1 + C2, fun x d x0 x1 d0 d1 => (h1 x x0 x1).add ((h2 x x0 x1).smul ?_)⟩
  rw [abs_of_nonneg (gam_nonneg S d0)]
  exact gam_le_one S d0 d1

end SmoothSides

end Surf

namespace Hybrid

section value

variable {K : Type} [Field K] [LinearOrder K] [Libm K]

/-- The value in general. -/
theorem eval_all {ε : K} {H : Hybrid K} {n d : ℕ} {F : ℕ → ℕ → ℕ → P3 K} {uv : P2 K} {f : ℕ → P2 K} {o : Obj K} {W : ℕ → ℕ → ℕ → K} {q : ℕ → P3 K}
    (hi : Inv ε H) (hF : GB.HasNet H.net n d F)
    (hf : Fresh ε H.patch.kind.param H.patch.dom.dom H.patch.param)
    (hm : mapToRibbons ε H.patch.kind.param uv H.patch.param = .ok (tab n f, o))
    (hW : ∀ p, Fresh ε H.asNet.kind.param H.patch.dom.dom p → ∀ i < n, ∀ j ≤ d, ∀ k < (d + 1) / 2,
      Prod.fst <$> ({ H.asNet with param := p } : GB K).weight ε i j k uv = .ok (W i j k))
    (hq : ∀ j < n, H.patch.surf.sideInterpolant ε j (f j).x (f j).y = .ok (q j)) :
    ∃ H', H.eval ε uv = .ok ((∑ i ∈ Finset.range n, ∑ k ∈ Finset.range ((d + 1) / 2), ∑ j ∈ Finset.range (d + 1), W i j k • (if 2 ≤ k then F i j k else q i)) +
      (1 - ∑ i ∈ Finset.range n, ∑ k ∈ Finset.range ((d + 1) / 2), ∑ j ∈ Finset.range (d + 1), W i j k) • H.net.central, H') := by
  have hk : H.asNet.kind.param = H.patch.kind.param := by
    rw [hi.kind]
    change H.net.kind.param = _
    rw [hi.net]
    rfl
  have hF' : GB.HasNet H.asNet n d F := ⟨hF.n_eq, hF.degree, hF.layers, hF.nets⟩
  have hf' : Fresh ε H.asNet.kind.param H.patch.dom.dom o := by
    rw [hk]; exact hf.maps hm
  obtain ⟨o', _, e⟩ := evalNet_eq hF' hW (0 : P3 K × (ℕ → K) × K) hf'
  rw [zero_add] at e
  unfold eval
  rw [hm, M_bind_ok]
  dsimp only
  have ea : (⟨0, List.replicate H.net.n 0, 0, o⟩ : Acc K) = acc n 0 o := by
    unfold acc
    rw [hF.n_eq, replicate_eq_tab]
    rfl
  rw [ea, e, M_bind_ok]
  unfold acc
  dsimp only
  rw [hF.n_eq, evalRibbons_eq hq, M_bind_ok]
  refine ⟨_, congrArg Except.ok (Prod.ext ?_ rfl)⟩
  dsimp only
  simp only [Prod.fst_sum, Prod.snd_sum, Finset.sum_apply]
  have e1 : ∀ a ∈ Finset.range n, (∑ i ∈ Finset.range n, ∑ k ∈ Finset.range ((d + 1) / 2), ∑ j ∈ Finset.range (d + 1), (delta W F i k j).2.1 a) • q a =
      ∑ k ∈ Finset.range ((d + 1) / 2), ∑ j ∈ Finset.range (d + 1), (if 2 ≤ k then (0 : K) else W a j k) • q a := by
    intro a ha
    rw [Finset.sum_eq_single a]
    · rw [Finset.sum_smul]
      refine Finset.sum_congr rfl fun k _ => ?_
      rw [Finset.sum_smul]
      refine Finset.sum_congr rfl fun j _ => ?_
      unfold delta
      split_ifs <;> simp
    · intro b _ hb
      refine Finset.sum_eq_zero fun k _ => Finset.sum_eq_zero fun j _ => ?_
      unfold delta
      split_ifs
      · rfl
      · simp [Pi.single_eq_of_ne (Ne.symm hb)]
    · intro q; exact absurd ha q
  rw [Finset.sum_congr rfl e1, add_right_comm, ← Finset.sum_add_distrib]
  congr 1
  · refine Finset.sum_congr rfl fun a _ => ?_
    rw [← Finset.sum_add_distrib]
    refine Finset.sum_congr rfl fun k _ => ?_
    rw [← Finset.sum_add_distrib]
    refine Finset.sum_congr rfl fun j _ => ?_
    unfold delta
    split_ifs <;> simp
  · congr 2
    refine Finset.sum_congr rfl fun a _ => Finset.sum_congr rfl fun k _ => Finset.sum_congr rfl fun j _ => ?_
    unfold delta
    split_ifs <;> rfl

end value

section der

variable {ε s l : ℝ} {n m i : ℕ} {f : ℝ → ℕ → P2 ℝ} {x' y' : ℕ → ℝ} {sq : Bool} {S : Surf ℝ} {c : ℕ → Curve ℝ} {T T' : ℕ → ℝ → P3 ℝ}

theorem onSide_path (hb : Surf.BaryPath ε n i s f x' y' l) : GB.OnSide ε n i s (f 0) :=
  ⟨hb.path.self, hb.path.next, by rw [hb.path.prev], fun _ => by rw [hb.path.prev], hb.farY⟩

/-- The derivative of one term. -/
theorem term_der (hε : 0 < ε) (hn : 3 ≤ n) (hm : 2 ≤ m) (hi : i < n) (s0 : ε < s) (s1 : ε < 1 - s) (hb : Surf.BaryPath ε n i s f x' y' l)
    (hS : S.SmoothSides ε n c T T') (F : ℕ → ℕ → ℕ → P3 ℝ) (q : P3 ℝ) {j k a : ℕ} (hj : j < n) (ha : a ≤ m + 1) (hk : k < (m + 1 + 1) / 2) :
    RightDer3 (fun t => GB.wt sq n (m + 1) (f t) j a k • ((if 2 ≤ k then F j a k else S.sideF c T j (f t j).x (f t j).y) - q))
      (GB.wtDer sq n m i s x' y' j a k • ((if 2 ≤ k then F j a k else S.sideF c T j (f 0 j).x (f 0 j).y) - q) +
        if j = i ∧ k = 0 then bern (m + 1) a s • (x' i • (c i).der s + y' i • T i s) else 0) := by
  have t0 : 0 < s := hε.trans s0
  have t1 : s < 1 := by linarith
  have hw := GB.wt_der (sq := sq) hn hm hi t0 t1 hb hj ha hk
  have hw0 : GB.wt sq n (m + 1) (f 0) j a k = if j = i then (if k = 0 then bern (m + 1) a s else 0) else 0 :=
    GB.wt_side hε hn (by omega) hi (onSide_path hb) s0.le s1.le sq hj ha hk
  have hP := hb.path
  by_cases k2 : 2 ≤ k
  · simp only [if_pos k2]
    rw [if_neg (by omega), add_zero]
    exact RightDer3.smul_const hw _
  · simp only [if_neg k2]
    by_cases near : j = i ∨ j = nextIx n i ∨ j = prevIx n i
    · have hd := hS.side_der hj (hP.dx j near) (hP.dy j near) (hP.range.mono fun t h => (h j hj).1)
        (hP.range.self_of_nhdsWithin (by simp) j hj).2
      refine ((RightDer3.smul hw (hd.sub (RightDer3.const q)))).congr_der ?_
      rw [hw0]
      congr 1
      by_cases e : j = i
      · subst e
        by_cases e0 : k = 0
        · rw [if_pos rfl, if_pos e0, if_pos ⟨rfl, e0⟩, hP.self]
          dsimp only
          rw [Surf.gam'_zero, Surf.gam_zero, one_mul, zero_smul, add_zero, sub_zero]
        · rw [if_pos rfl, if_neg e0, if_neg (fun h => e0 h.2), zero_smul]
      · rw [if_neg e, if_neg (fun h => e h.1), zero_smul]
    · push Not at near
      obtain ⟨n1, n2, n3⟩ := near
      have hz : GB.wtDer sq n m i s x' y' j a k = 0 := by
        unfold GB.wtDer
        dsimp only
        rw [if_neg n1, if_neg n3, if_neg n2]
      rw [hz, zero_smul, if_neg (fun h => n1 h.1), add_zero]
      have far := hb.farY j hj n1 n2 n3
      have hr : ∀ᶠ t in near0, ∀ j < n, ((0 ≤ (f t j).x ∧ (f t j).x ≤ 1) ∧ 0 ≤ (f t j).y) ∧ (f t j).y ≤ 1 := by
        filter_upwards [hP.range, hb.le_one] with t h1 h2 j hj
        exact ⟨h1 j hj, h2 j hj⟩
      have hsm : Surf.Small fun t => GB.wt sq n (m + 1) (f t) j a k := by
        have h1 : Surf.Small fun t => (1 - (f t j).y) ^ 2 * ((m + 1).choose k : ℝ) :=
          (Surf.Small.sq ((RightDer.const 1).sub (hb.dy j hj)) (by rw [far, sub_self])).mul (C := |((m + 1).choose k : ℝ)|) (Eventually.of_forall fun _ => le_rfl)
        refine h1.mono ?_ (by rw [hw0, if_neg n1])
        filter_upwards [hr] with t ht
        obtain ⟨⟨⟨x0, x1⟩, y0⟩, y1⟩ := ht j hj
        refine (GB.wt_bound ht hj a k).trans ?_
        rw [abs_of_nonneg (mul_nonneg (sq_nonneg _) (Nat.cast_nonneg _)), mul_comm ((1 - (f t j).y) ^ 2)]
        exact (mul_le_of_le_one_left (bern_nonneg _ _ y0 y1) (GB.bern_le_one _ _ x0 x1)).trans (GB.bern_le_sq' (by omega) y0 y1)
      obtain ⟨C, hC⟩ := hS.side_bd hj
      refine hsm.smul (C := C + (|q.x| + |q.y| + |q.z|)) (hr.mono fun t ht => ?_)
      obtain ⟨⟨⟨x0, x1⟩, y0⟩, y1⟩ := ht j hj
      exact (hC _ _ x0 x1 y0 y1).sub (Surf.Bd.self q)

/-- The derivative of a hybrid patch along a path that starts at side `i`. -/
theorem patch_der (hε : 0 < ε) (hn : 3 ≤ n) (hm : 2 ≤ m) (hi : i < n) (s0 : ε < s) (s1 : ε < 1 - s) (hb : Surf.BaryPath ε n i s f x' y' l)
    (hS : S.SmoothSides ε n c T T') (F : ℕ → ℕ → ℕ → P3 ℝ) (q : P3 ℝ) :
    RightDer3 (fun t => (∑ j ∈ Finset.range n, ∑ k ∈ Finset.range ((m + 1 + 1) / 2), ∑ a ∈ Finset.range (m + 1 + 1),
        GB.wt sq n (m + 1) (f t) j a k • (if 2 ≤ k then F j a k else S.sideF c T j (f t j).x (f t j).y)) +
      (1 - ∑ j ∈ Finset.range n, ∑ k ∈ Finset.range ((m + 1 + 1) / 2), ∑ a ∈ Finset.range (m + 1 + 1), GB.wt sq n (m + 1) (f t) j a k) • q)
      (x' i • (c i).der s + y' i • (T i s - if sq then 0 else copyError (m + 1) s (fun _ => (c i).pt s) (fun _ => S.sideF c T (prevIx n i) 1 s) +
        copyError (m + 1) (1 - s) (fun _ => (c i).pt s) (fun _ => S.sideF c T (nextIx n i) 0 (1 - s)))) := by
  have t0 : 0 < s := hε.trans s0
  have t1 : s < 1 := by linarith
  have hder : RightDer3 (fun t => q + ∑ j ∈ Finset.range n, ∑ k ∈ Finset.range ((m + 1 + 1) / 2), ∑ a ∈ Finset.range (m + 1 + 1),
      GB.wt sq n (m + 1) (f t) j a k • ((if 2 ≤ k then F j a k else S.sideF c T j (f t j).x (f t j).y) - q)) (0 + ∑ j ∈ Finset.range n,
        ∑ k ∈ Finset.range ((m + 1 + 1) / 2), ∑ a ∈ Finset.range (m + 1 + 1), (GB.wtDer sq n m i s x' y' j a k • ((if 2 ≤ k then F j a k else S.sideF c T j (f 0 j).x (f 0 j).y) - q) +
          if j = i ∧ k = 0 then bern (m + 1) a s • (x' i • (c i).der s + y' i • T i s) else 0)) :=
    (RightDer3.const q).add (RightDer3.sum fun j hj => RightDer3.sum fun k hk => RightDer3.sum fun a ha => term_der hε hn hm hi s0 s1 hb hS F q hj (by omega) hk)
  refine (hder.congr (Eventually.of_forall fun t => ?_)).congr_der ?_
  · simp only [smul_sub, Finset.sum_sub_distrib, sub_smul, one_smul, Finset.sum_smul]
    abel
  · rw [zero_add]
    simp only [Finset.sum_add_distrib]
    rw [GB.wtDer_sum hn hm hi t0 t1 (fun j a k => (if 2 ≤ k then F j a k else S.sideF c T j (f 0 j).x (f 0 j).y) - q)]
    have e1 : ∑ j ∈ Finset.range n, ∑ k ∈ Finset.range ((m + 1 + 1) / 2), ∑ a ∈ Finset.range (m + 1 + 1),
        (if j = i ∧ k = 0 then bern (m + 1) a s • (x' i • (c i).der s + y' i • T i s) else 0) = x' i • (c i).der s + y' i • T i s := by
      rw [Finset.sum_eq_single i, Finset.sum_eq_single 0]
      · simp only [and_self, if_true]
        rw [← Finset.sum_smul, bern_sum, one_smul]
      · intro k _ hk
        simp [hk]
      · intro h; exact absurd (Finset.mem_range.mpr (by omega)) h
      · intro j _ hj
        simp [hj]
      · intro h; exact absurd (Finset.mem_range.mpr hi) h
    have hc : ∀ (d : ℕ) (p : P3 ℝ), bezier d (fun _ => p) s = p := by
      intro d p
      unfold bezier
      rw [← Finset.sum_smul, bern_sum, one_smul]
    have k0 : ¬(2 ≤ 0) := by omega
    have k1 : ¬(2 ≤ 1) := by omega
    simp only [if_neg k0, if_neg k1]
    rw [e1, hc, hc, sub_self, smul_zero, smul_zero, zero_add, zero_sub]
    have ce : ∀ (u : ℝ) (a : P3 ℝ) (b : ℕ → P3 ℝ) (p : P3 ℝ), (∀ k < 2, b k = p - q) → copyError (m + 1) u (fun _ => a - q) b = copyError (m + 1) u (fun _ => a) (fun _ => p) := by
      intro u a b p h
      unfold copyError
      exact Finset.sum_congr rfl fun k hk => by rw [h k (Finset.mem_range.mp hk), sub_sub_sub_cancel_right]
    have z : S.sideF c T i s 0 = (c i).pt s := by
      unfold Surf.sideF
      rw [Surf.gam_zero, zero_smul, add_zero]
    rw [hb.path.self, hb.path.next, hb.path.prev]
    dsimp only
    rw [z, ce s _ _ (S.sideF c T (prevIx n i) 1 s) (fun k hk => by rw [if_neg (by omega)]), ce (1 - s) _ _ (S.sideF c T (nextIx n i) 0 (1 - s)) (fun k hk => by rw [if_neg (by omega)])]
    rw [smul_sub, smul_neg]
    abel

end der

end Hybrid

end Transfinite
