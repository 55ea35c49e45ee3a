import Verif.Model.Hybrid
import Verif.Lemmas.GenBezierState
import Verif.Lemmas.PatchSide
import Verif.Props.GenBezier

/-! Hybrid patches. -/

namespace Transfinite

open Spec Param

namespace Hybrid

section field

variable {K : Type} [Field K] [LinearOrder K] [Libm K]

/-- A weight call changes only the caches. -/
theorem weight_state {ε : K} {G : GB K} {i j k : ℕ} {uv : P2 K} {r : K × GB K} (h : G.weight ε i j k uv = .ok r) :
    r.2 = { G with param := r.2.param } ∧ ∀ d, Fresh ε G.kind.param d G.param → Fresh ε G.kind.param d r.2.param := by
  unfold GB.weight at h
  split at h
  · split_ifs at h
    · cases h; exact ⟨rfl, fun _ q => q⟩
    · obtain ⟨x, e, h⟩ := bind_ok h
      obtain ⟨p, _, h⟩ := bind_ok h
      cases h
      exact ⟨rfl, fun _ q => q.maps e⟩
  · obtain ⟨x, e, h⟩ := bind_ok h
    obtain ⟨p, _, h⟩ := bind_ok h
    cases h
    exact ⟨rfl, fun _ q => q.maps e⟩

/-- The values in the loops. -/
def acc (n : ℕ) (v : P3 K × (ℕ → K) × K) (o : Obj K) : Acc K := ⟨v.1, tab n v.2.1, v.2.2, o⟩

/-- What one step adds. -/
def delta (W : ℕ → ℕ → ℕ → K) (F : ℕ → ℕ → ℕ → P3 K) (i k j : ℕ) : P3 K × (ℕ → K) × K :=
  if 2 ≤ k then (W i j k • F i j k, 0, W i j k) else (0, Pi.single i (W i j k), W i j k)

theorem loop_acc {n m : ℕ} {p : Obj K → Prop} {body : ℕ → Acc K → M (Acc K)} {δ : ℕ → P3 K × (ℕ → K) × K}
    (h : ∀ k < m, ∀ v o, p o → ∃ o', p o' ∧ body k (acc n v o) = .ok (acc n (v + δ k) o')) (v : P3 K × (ℕ → K) × K) {o : Obj K} (ho : p o) :
    ∃ o', p o' ∧ forLoop m body (acc n v o) = .ok (acc n (v + ∑ k ∈ Finset.range m, δ k) o') := by
  induction m with
  | zero => exact ⟨o, ho, by simp [forLoop]⟩
  | succ m ih =>
    obtain ⟨o1, h1, e1⟩ := ih (fun k hk => h k (by omega))
    obtain ⟨o2, h2, e2⟩ := h m (by omega) (v + ∑ k ∈ Finset.range m, δ k) o1 h1
    refine ⟨o2, h2, ?_⟩
    rw [forLoop_succ, e1, M_bind_ok, e2, Finset.sum_range_succ, add_assoc]

theorem evalNet_eq {ε : K} {G : GB K} {n d : ℕ} {F : ℕ → ℕ → ℕ → P3 K} (hF : GB.HasNet G n d F) {uv : P2 K} {W : ℕ → ℕ → ℕ → K} {D : Domain K}
    (hW : ∀ o, Fresh ε G.kind.param D o → ∀ i < n, ∀ j ≤ d, ∀ k < (d + 1) / 2,
      Prod.fst <$> ({ G with param := o } : GB K).weight ε i j k uv = .ok (W i j k))
    (v : P3 K × (ℕ → K) × K) {o : Obj K} (ho : Fresh ε G.kind.param D o) :
    ∃ o', Fresh ε G.kind.param D o' ∧ evalNet ε G uv (acc n v o) =
      .ok (acc n (v + ∑ i ∈ Finset.range n, ∑ k ∈ Finset.range ((d + 1) / 2), ∑ j ∈ Finset.range (d + 1), delta W F i k j) o') := by
  unfold evalNet
  rw [hF.n_eq, hF.layers, hF.degree]
  refine loop_acc (p := Fresh ε G.kind.param D) (fun i hi v o ho => ?_) v ho
  refine loop_acc (p := Fresh ε G.kind.param D) (fun k hk v o ho => ?_) v ho
  refine loop_acc (p := Fresh ε G.kind.param D) (fun j hj v o ho => ?_) v ho
  have hw := hW o ho i hi j (by omega) k hk
  unfold evalStep
  cases e : ({ G with param := (acc n v o).param } : GB K).weight ε i j k uv with
  | error x =>
    have e : ({ G with param := o } : GB K).weight ε i j k uv = .error x := e
    rw [e] at hw; cases hw
  | ok r =>
    have e : ({ G with param := o } : GB K).weight ε i j k uv = .ok r := e
    rw [e] at hw
    have hr : r.1 = W i j k := Except.ok.inj hw
    refine ⟨r.2.param, (weight_state e).2 D ho, ?_⟩
    rw [M_bind_ok]
    unfold addBlend delta acc
    dsimp only
    split_ifs with h2
    · rw [hF.cpt hi (by omega) hk, M_bind_ok, hr]
      simp
    · rw [vget_tab _ hi, M_bind_ok, vset_tab _ _ hi, M_bind_ok, hr]
      congr 2
      · simp
      · refine tab_congr fun a ha => ?_
        by_cases q : a = i
        · subst q; simp
        · simp [Function.update_of_ne q, Pi.single_eq_of_ne q]

theorem evalRibbons_eq {ε : K} {S : Surf K} {n : ℕ} {f : ℕ → P2 K} {b : ℕ → K} {q : ℕ → P3 K}
    (hq : ∀ j < n, S.sideInterpolant ε j (f j).x (f j).y = .ok (q j)) (p : P3 K) :
    evalRibbons ε S n (tab n f) (tab n b) p = .ok (p + ∑ j ∈ Finset.range n, b j • q j) := by
  unfold evalRibbons
  refine forLoop_eq (fun m => p + ∑ j ∈ Finset.range m, b j • q j) ?_ fun i hi => ?_
  · simp
  · rw [vget_tab _ hi, M_bind_ok, hq i hi, M_bind_ok, vget_tab _ hi, M_bind_ok, Finset.sum_range_succ, add_assoc]

/-- What always holds for an object. -/
structure Inv (ε : K) (H : Hybrid K) : Prop where
  patch : Patch.Inv ε H.patch
  kind : H.patch.kind = .compositeRibbon
  net : H.net.kind = .side
  shape : GB.NetShape H.net

theorem new_inv (ε : K) (g l : ℕ) : Inv ε (Hybrid.new g l : Hybrid K) :=
  ⟨Patch.new_inv ε _, rfl, rfl, Or.inl ⟨rfl, rfl⟩⟩

theorem Inv.gb {ε : K} {H : Hybrid K} (h : Inv ε H) : GB.Inv ε H.asNet := by
  refine ⟨h.patch.param.imp id fun q => ?_, fun _ => h.patch.regular (by rw [h.kind]; rfl), h.patch.len⟩
  have hp : H.asNet.kind.param = H.patch.kind.param := by
    rw [h.kind]
    change H.net.kind.param = _
    rw [h.net]
    rfl
  rw [hp]
  exact q

theorem asNet_step_dom {ε : K} {arc : List (P3 K) → K → K → K} {G G' : GB K} {c : GB.Call K} (hc : isNet c = true) (hk : G.kind = .side) (e : G.step ε arc c = .ok G') :
    G'.dom = G.dom := by
  cases c with
  | init n d =>
    obtain ⟨rfl, _⟩ := GB.initNetwork_eq (show G.initNetwork n d = .ok G' from e)
    unfold GB.initBase
    split_ifs <;> rfl
  | set i j k p => rw [GB.setControlPoint_keeps (show G.setControlPoint i j k p = .ok G' from e)]
  | setIndividual i j k p => rw [GB.setIndividual_keeps (show G.setIndividualControlPoint i j k p = .ok G' from e)]
  | central p => cases e; rfl
  | squared p => cases e; rfl
  | weight i j k uv =>
    obtain ⟨r, e1, e⟩ := bind_ok (show (G.weight ε i j k uv >>= fun r => .ok r.2) = .ok G' from e)
    cases e
    rw [(weight_state e1).1]
  | _ => cases hc

theorem step_net_inv {ε : K} {arc : List (P3 K) → K → K → K} {H H' : Hybrid K} (h : Inv ε H) {c : GB.Call K} (e : H.step ε arc (.net c) = .ok H') : Inv ε H' ∧
    H'.patch.surf = H.patch.surf ∧ H'.patch.dom = H.patch.dom ∧ H'.patch.linked = H.patch.linked := by
  unfold step at e
  dsimp only at e
  split_ifs at e with hc
  obtain ⟨G, e1, e⟩ := bind_ok e
  cases e
  obtain ⟨i1, i2, _⟩ := GB.step_inv h.gb e1
  have hd : G.dom = H.patch.dom := asNet_step_dom (G := H.asNet) hc h.net e1
  have hk : G.kind = .side := by rw [i2]; exact h.net
  refine ⟨⟨⟨h.patch.kinds, ?_, h.patch.regular, h.patch.cache, h.patch.len⟩, h.kind, hk, ?_⟩, rfl, rfl, rfl⟩
  · have := i1.param
    rw [hd] at this
    refine this.imp id fun q => ?_
    have hp : G.kind.param = H.patch.kind.param := by
      rw [h.kind, hk]
      rfl
    rw [hp] at q
    exact q
  · refine GB.step_shape (G := H.asNet) (arc := arc) (ε := ε) (c := c) ?_ (h.shape.congr rfl rfl rfl rfl) e1
    cases c <;> first | rfl | cases hc

theorem eval_state {ε : K} {H : Hybrid K} {uv : P2 K} {r : P3 K × Hybrid K} (h : H.eval ε uv = .ok r) :
    r.2 = { H with patch := { H.patch with param := r.2.patch.param } } := by
  unfold eval at h
  obtain ⟨x, _, h⟩ := bind_ok h
  obtain ⟨a, _, h⟩ := bind_ok h
  obtain ⟨p, _, h⟩ := bind_ok h
  cases h
  rfl

theorem addBlend_param {nets : List (List (List (P3 K)))} {i j k : ℕ} {b : K} {a a' : Acc K} (h : addBlend nets i j k b a = .ok a') : a'.param = a.param := by
  unfold addBlend at h
  split_ifs at h
  · obtain ⟨_, _, h⟩ := bind_ok h
    cases h; rfl
  · obtain ⟨_, _, h⟩ := bind_ok h
    obtain ⟨_, _, h⟩ := bind_ok h
    cases h; rfl

theorem eval_fresh {ε : K} {H : Hybrid K} {uv : P2 K} {r : P3 K × Hybrid K} (hi : Inv ε H) (h : H.eval ε uv = .ok r) {D : Domain K}
    (hf : Fresh ε H.patch.kind.param D H.patch.param) : Fresh ε H.patch.kind.param D r.2.patch.param := by
  unfold eval at h
  obtain ⟨x, e1, h⟩ := bind_ok h
  obtain ⟨a, e2, h⟩ := bind_ok h
  obtain ⟨p, _, h⟩ := bind_ok h
  cases h
  have hk : H.asNet.kind.param = H.patch.kind.param := by
    rw [hi.kind]
    change H.net.kind.param = _
    rw [hi.net]
    rfl
  change Fresh ε H.patch.kind.param D a.param
  unfold evalNet at e2
  refine Patch.forLoop_inv' (fun a : Acc K => Fresh ε H.patch.kind.param D a.param) (hf.maps e1) (fun i x y hx e => ?_) e2
  refine Patch.forLoop_inv' (fun a : Acc K => Fresh ε H.patch.kind.param D a.param) hx (fun k x y hx e => ?_) e
  refine Patch.forLoop_inv' (fun a : Acc K => Fresh ε H.patch.kind.param D a.param) hx (fun j x y hx e => ?_) e
  unfold evalStep at e
  obtain ⟨w, e3, e⟩ := bind_ok e
  rw [addBlend_param e]
  rw [← hk] at hx ⊢
  exact (weight_state e3).2 D hx

theorem step_eval_inv {ε : K} {arc : List (P3 K) → K → K → K} {H H' : Hybrid K} (h : Inv ε H) {uv : P2 K} (e : H.step ε arc (.eval uv) = .ok H') : Inv ε H' ∧
    H'.patch.surf = H.patch.surf ∧ H'.patch.dom = H.patch.dom ∧ H'.patch.linked = H.patch.linked ∧ H'.net = H.net := by
  unfold step at e
  dsimp only at e
  obtain ⟨r, e1, e⟩ := bind_ok e
  cases e
  have hs := eval_state e1
  have hf := fun D q => eval_fresh h e1 (D := D) q
  rw [hs]
  refine ⟨⟨⟨h.patch.kinds, h.patch.param.imp id fun q => ?_, h.patch.regular, h.patch.cache, h.patch.len⟩, h.kind, h.net, h.shape⟩, rfl, rfl, rfl, rfl⟩
  exact hf _ q

theorem setupLoop_inv {ε : K} {arc : List (P3 K) → K → K → K} {H H' : Hybrid K} (h : Inv ε H) (e : H.setupLoop arc = .ok H') : Inv ε H' := by
  unfold setupLoop at e
  obtain ⟨curves, e1, e⟩ := bind_ok e
  obtain ⟨P, e2, e⟩ := bind_ok e
  obtain ⟨P', e3, e⟩ := bind_ok e
  cases e
  have el := GB.pushLoop_length e1
  obtain ⟨a1, a2⟩ := Patch.step_inv (c := .curves curves) h.patch (show _ = Except.ok (H.patch.setCurves curves) from rfl)
  obtain ⟨b1, b2⟩ := Patch.step_inv (c := .loop) a1 e2
  obtain ⟨c1, c2, _⟩ := Patch.updateDomain_inv b1 e3
  exact ⟨c1, by rw [c2, b2, a2, h.kind], h.net, h.shape.congr el rfl rfl rfl⟩

theorem step_surf_inv {ε : K} {arc : List (P3 K) → K → K → K} {H H' : Hybrid K} (h : Inv ε H) {c : Patch.Call K} (e : H.step ε arc (.surf c) = .ok H') : Inv ε H' ∧
    isSurf c = true ∧ H.net.n = H.patch.surf.n ∧ H.patch.step ε c = .ok H'.patch ∧ H'.net = H.net := by
  unfold step at e
  dsimp only at e
  split_ifs at e with hc
  obtain ⟨P, e1, e⟩ := bind_ok e
  cases e
  obtain ⟨a1, a2⟩ := Patch.step_inv h.patch e1
  exact ⟨⟨a1, a2.trans h.kind, h.net, h.shape⟩, hc.1, hc.2, e1, rfl⟩

theorem step_inv {ε : K} {arc : List (P3 K) → K → K → K} {H H' : Hybrid K} (h : Inv ε H) {c : Call K} (e : H.step ε arc c = .ok H') : Inv ε H' := by
  cases c with
  | net c => exact (step_net_inv h e).1
  | surf c => exact (step_surf_inv h e).1
  | loop => exact setupLoop_inv h e
  | eval uv => exact (step_eval_inv h e).1

theorem run_inv {ε : K} {arc : List (P3 K) → K → K → K} {H H' : Hybrid K} {cs : List (Call K)} (h : Inv ε H) (e : H.run ε arc cs = .ok H') : Inv ε H' := by
  induction cs generalizing H with
  | nil => cases e; exact h
  | cons c cs ih =>
    unfold run at e
    obtain ⟨H1, e1, e⟩ := bind_ok e
    exact ih (step_inv h e1) e

theorem run_split {ε : K} {arc : List (P3 K) → K → K → K} {H H' : Hybrid K} {xs ys : List (Call K)} (e : H.run ε arc (xs ++ ys) = .ok H') :
    ∃ H1, H.run ε arc xs = .ok H1 ∧ H1.run ε arc ys = .ok H' := by
  induction xs generalizing H with
  | nil => exact ⟨H, rfl, e⟩
  | cons c cs ih =>
    rw [List.cons_append] at e
    unfold run at e
    obtain ⟨H1, e1, e⟩ := bind_ok e
    obtain ⟨H2, e2, e3⟩ := ih e
    refine ⟨H2, ?_, e3⟩
    unfold run
    rw [e1, M_bind_ok, e2]

theorem run_join {ε : K} {arc : List (P3 K) → K → K → K} {H H1 H' : Hybrid K} {xs ys : List (Call K)} (e1 : H.run ε arc xs = .ok H1) (e2 : H1.run ε arc ys = .ok H') :
    H.run ε arc (xs ++ ys) = .ok H' := by
  induction xs generalizing H with
  | nil => cases e1; exact e2
  | cons c cs ih =>
    unfold run at e1
    obtain ⟨H2, e3, e1⟩ := bind_ok e1
    rw [List.cons_append]
    unfold run
    rw [e3, M_bind_ok, ih e1]

/-- Calls that change neither the boundary, nor the size of the network, nor the fences. -/
def Call.keeps : Call K → Bool
  | .net (.init _ _) => false
  | .net _ => true
  | .surf c => Patch.Call.keepsLoop c
  | .loop => false
  | .eval _ => true

theorem step_keeps {ε : K} {arc : List (P3 K) → K → K → K} {H H' : Hybrid K} (h : Inv ε H) {n : ℕ} {c : ℕ → Curve K} (hr : Patch.Ready ε H.patch n c) (hn : n ≠ 0)
    {x : Call K} (hx : x.keeps = true) (e : H.step ε arc x = .ok H') : Patch.Ready ε H'.patch n c ∧ H'.net.n = H.net.n ∧ H'.net.degree = H.net.degree := by
  cases x with
  | net x =>
    obtain ⟨i1, s1, s2, s3⟩ := step_net_inv h e
    refine ⟨hr.congr i1.patch (i1.kind.trans h.kind.symm) (by rw [s2]) s1 s3, ?_⟩
    unfold step at e
    dsimp only at e
    split_ifs at e with hc
    obtain ⟨G, e1, e⟩ := bind_ok e
    cases e
    have hre : x.reshapes = false := by cases x <;> first | rfl | (cases hx; done) | (cases hc; done)
    obtain ⟨k1, k2, _⟩ := (GB.step_inv h.gb e1).2.2 hre
    exact ⟨k1, k2⟩
  | surf x =>
    obtain ⟨i1, s1, s2, s3, s4⟩ := step_surf_inv h e
    exact ⟨Patch.step_ready hn hr hx s3, by rw [s4], by rw [s4]⟩
  | loop => cases hx
  | eval uv =>
    obtain ⟨i1, s1, s2, s3, s4⟩ := step_eval_inv h e
    exact ⟨hr.congr i1.patch (i1.kind.trans h.kind.symm) (by rw [s2]) s1 s3, by rw [s4], by rw [s4]⟩

theorem run_keeps {ε : K} {arc : List (P3 K) → K → K → K} {H H' : Hybrid K} (h : Inv ε H) {n : ℕ} {c : ℕ → Curve K} (hr : Patch.Ready ε H.patch n c) (hn : n ≠ 0)
    {xs : List (Call K)} (hx : ∀ x ∈ xs, x.keeps = true) (e : H.run ε arc xs = .ok H') :
    Inv ε H' ∧ Patch.Ready ε H'.patch n c ∧ H'.net.n = H.net.n ∧ H'.net.degree = H.net.degree := by
  induction xs generalizing H with
  | nil => cases e; exact ⟨h, hr, rfl, rfl⟩
  | cons c cs ih =>
    unfold run at e
    obtain ⟨H1, e1, e⟩ := bind_ok e
    obtain ⟨r1, n1, d1⟩ := step_keeps h hr hn (hx c (by simp)) e1
    obtain ⟨i2, r2, n2, d2⟩ := ih (step_inv h e1) r1 (fun y hy => hx y (List.mem_cons_of_mem _ hy)) e
    exact ⟨i2, r2, n2.trans n1, d2.trans d1⟩

end field

end Hybrid

end Transfinite

namespace Transfinite

open Spec Param

namespace Hybrid

section value

variable {K : Type} [Field K] [LinearOrder K] [Libm K]

/-- The value where only the first layer has nonzero weights. -/
theorem eval_first {ε : K} {H : Hybrid K} {n d : ℕ} {F : ℕ → ℕ → ℕ → P3 K} {uv : P2 K} {f : ℕ → P2 K} {o : Obj K} {W : ℕ → ℕ → ℕ → K} {q : ℕ → P3 K}
    (hi : Inv ε H) (hl : 0 < (d + 1) / 2) (hF : GB.HasNet H.net n d F)
    (hf : Fresh ε H.patch.kind.param H.patch.dom.dom H.patch.param)
    (hm : mapToRibbons ε H.patch.kind.param uv H.patch.param = .ok (tab n f, o))
    (hW : ∀ p, Fresh ε H.asNet.kind.param H.patch.dom.dom p → ∀ i < n, ∀ j ≤ d, ∀ k < (d + 1) / 2,
      Prod.fst <$> ({ H.asNet with param := p } : GB K).weight ε i j k uv = .ok (W i j k))
    (h0 : ∀ i < n, ∀ j ≤ d, ∀ k < (d + 1) / 2, k ≠ 0 → W i j k = 0)
    (hq : ∀ j < n, H.patch.surf.sideInterpolant ε j (f j).x (f j).y = .ok (q j)) :
    ∃ H', H.eval ε uv = .ok ((1 - ∑ i ∈ Finset.range n, ∑ j ∈ Finset.range (d + 1), W i j 0) • H.net.central +
      ∑ i ∈ Finset.range n, (∑ j ∈ Finset.range (d + 1), W i j 0) • q i, H') := by
  have hk : H.asNet.kind.param = H.patch.kind.param := by
    rw [hi.kind]
    change H.net.kind.param = _
    rw [hi.net]
    rfl
  have hF' : GB.HasNet H.asNet n d F := ⟨hF.n_eq, hF.degree, hF.layers, hF.nets⟩
  have hf' : Fresh ε H.asNet.kind.param H.patch.dom.dom o := by
    rw [hk]; exact hf.maps hm
  obtain ⟨o', _, e⟩ := evalNet_eq hF' hW (0 : P3 K × (ℕ → K) × K) hf'
  set B : ℕ → K := fun i => ∑ j ∈ Finset.range (d + 1), W i j 0 with hB
  have es : ∀ i ∈ Finset.range n, (∑ k ∈ Finset.range ((d + 1) / 2), ∑ j ∈ Finset.range (d + 1), delta W F i k j) = (0, Pi.single i (B i), B i) := by
    intro i hi
    rw [Finset.sum_eq_single 0]
    · unfold delta
      simp only [show ¬(2 ≤ 0) by omega, if_false]
      refine Prod.ext ?_ (Prod.ext ?_ ?_)
      · rw [Prod.fst_sum]; simp
      · rw [Prod.snd_sum, Prod.fst_sum]
        dsimp only
        funext a
        rw [Finset.sum_apply]
        by_cases q : a = i
        · subst q; simp [hB]
        · simp [Pi.single_eq_of_ne q]
      · rw [Prod.snd_sum, Prod.snd_sum]
    · intro k hk k0
      refine Finset.sum_eq_zero fun j hj => ?_
      unfold delta
      rw [h0 i (Finset.mem_range.mp hi) j (by have := Finset.mem_range.mp hj; omega) k (Finset.mem_range.mp hk) k0]
      split_ifs <;> simp
    · intro q
      exact absurd (Finset.mem_range.mpr hl) q
  rw [Finset.sum_congr rfl es, zero_add] at e
  unfold eval
  rw [hm, M_bind_ok]
  dsimp only
  have ea : (⟨0, List.replicate H.net.n 0, 0, o⟩ : Acc K) = acc n 0 o := by
    unfold acc
    rw [hF.n_eq, replicate_eq_tab]
    rfl
  rw [ea, e, M_bind_ok]
  unfold acc
  dsimp only
  rw [hF.n_eq, evalRibbons_eq hq, M_bind_ok]
  refine ⟨_, congrArg Except.ok (Prod.ext ?_ rfl)⟩
  dsimp only
  rw [Prod.fst_sum, Prod.snd_sum, Prod.snd_sum, Prod.fst_sum]
  dsimp only
  rw [Finset.sum_const_zero, zero_add]
  congr 1
  refine Finset.sum_congr rfl fun a ha => ?_
  rw [Finset.sum_apply, Finset.sum_eq_single a]
  · rw [Pi.single_eq_same]
  · intro b _ hb
    rw [Pi.single_eq_of_ne (Ne.symm hb)]
  · intro q; exact absurd ha q

end value

section real

variable {ε : ℝ} {n d : ℕ} {c : ℕ → Curve ℝ}

/-- What the evaluation uses of the ribbons. -/
theorem sides_of_ready (hε : 0 < ε) {S : Surf ℝ} (h : S.Ready ε .handler n c) (hd : ∀ j < n, ∀ s, 0 ≤ s → s ≤ 1 → (c j).der s ≠ 0) {j : ℕ} (hj : j < n) :
    (∀ x d, 0 ≤ d → ∃ q, S.sideInterpolant ε j x d = .ok q) ∧ ∀ x, 0 ≤ x → x ≤ 1 → S.sideInterpolant ε j x 0 = .ok ((c j).pt x) := by
  obtain ⟨r, h1, h2⟩ := h.ribs
  obtain ⟨r0, r1, k1, k2, k3, k4, k5⟩ := h2 j hj
  have hb := (h2 j hj).basic
  have hr : vget S.ribbons j = .ok (r j) := by rw [h1, vget_tab _ hj]
  have b1 : (r j).kind ≠ .coons := by rw [hb.1]; simp
  have b2 : (r j).kind ≠ .nsided := by rw [hb.1]; simp
  have hx : ∀ s, 0 ≤ s → s ≤ 1 → ∃ x, (r j).crossDerivative ε s = .ok x := by
    intro s s0 s1
    have e : Ribbon.crossDerivative ε (r j) s = Ribbon.crossDerivative ε r1 s := by
      rw [k5]
      exact (Ribbon.controls_irrelevant ε r1 _ _ _).1 s
    rw [e]
    exact C22_defined hε (Or.inr k1) k4 s0 (by rw [k2]; exact hd j hj s s0 s1)
  constructor
  · intro x d h0
    obtain ⟨y, hy⟩ := hx _ (Surf.clamp_range x).1 (Surf.clamp_range x).2
    unfold Surf.sideInterpolant
    rw [Surf.gamma_ok S h0, M_bind_ok, hr, M_bind_ok, Surf.eval_base b1 b2]
    unfold Ribbon.baseEval
    dsimp only
    rw [hy]
    exact ⟨_, rfl⟩
  · intro x h0 h1
    obtain ⟨y, hy⟩ := hx _ h0 h1
    unfold Surf.sideInterpolant
    rw [Surf.gamma_ok S le_rfl, M_bind_ok, hr, M_bind_ok, Surf.eval_base b1 b2, Surf.clamp_of_mem h0 h1]
    unfold Ribbon.baseEval
    dsimp only
    rw [hy, Surf.gam_zero, M_bind_ok, max_self, zero_smul, add_zero, hb.2.1]

/-- The weights in the first corner of side `i`. -/
noncomputable def cornerW (n d i : ℕ) (i' j k : ℕ) : ℝ :=
  if i' = i ∧ j = 0 ∧ k = 0 then 1 / 2 else if i' = prevIx n i ∧ j = d ∧ k = 0 then 1 / 2 else 0

theorem weight_corner (hε : 0 < ε) (hε1 : ε ≤ 1 / 2) (hn : 3 ≤ n) (hd : 1 ≤ d) {G : GB ℝ} (hk : G.kind = .side) {F : ℕ → ℕ → ℕ → P3 ℝ} (hF : GB.HasNet G n d F)
    {uv : P2 ℝ} {f : ℕ → P2 ℝ} {o : Obj ℝ} (e2 : mapToRibbons ε G.kind.param uv G.param = .ok (tab n f, o)) {i : ℕ} (hi : i < n)
    (hs : GB.OnSide ε n i 0 f) {i' j k : ℕ} (hi' : i' < n) (hj : j ≤ d) (hk' : k < (d + 1) / 2) :
    Prod.fst <$> G.weight ε i' j k uv = .ok (cornerW n d i i' j k) := by
  have hp : prevIx n i < n := prevIx_lt (by omega)
  have hpi : prevIx n i ≠ i := by
    rw [prevIx_eq hi]; split_ifs <;> omega
  have hy : ∀ j < n, j ≠ i → j ≠ prevIx n i → (f j).y = 1 := by
    intro j hj h1 h2
    rcases GB.onSide_y hs hj with ⟨_, q⟩ | ⟨q, _⟩ | ⟨_, q⟩ | ⟨q, _⟩
    · exact absurd q h1
    · rw [q, sub_zero]
    · exact absurd q h2
    · exact q
  have hy0 : ∀ j < n, 0 ≤ (f j).y := by
    intro j hj
    rcases GB.onSide_y hs hj with ⟨q, _⟩ | ⟨q, _⟩ | ⟨q, _⟩ | ⟨q, _⟩ <;> rw [q] <;> norm_num
  have guard : G.sideWeight ε i' j k (tab n f) = .ok (cornerW n d i i' j k) → (k ≠ 0 → cornerW n d i i' j k = 0) →
      Prod.fst <$> G.weight ε i' j k uv = .ok (cornerW n d i i' j k) := by
    intro q1 q2
    unfold GB.weight
    rw [hk] at e2 ⊢
    dsimp only
    split_ifs with hz
    · rw [q2 (by omega)]; rfl
    · rw [e2, M_bind_ok, q1]; rfl
  refine guard ?_ ?_
  · by_cases a1 : i' = i
    · subst a1
      unfold GB.sideWeight
      rw [hF.n_eq, hF.degree, vget_tab _ hi', M_bind_ok, vget_tab _ hp, M_bind_ok, vget_tab _ (nextIx_lt (by omega)), M_bind_ok, hs.self, hs.next, hs.prevY,
        if_neg (by dsimp only; linarith), if_pos (by dsimp only; linarith)]
      simp only [cornerW, true_and]
      congr 1
      by_cases q : j = 0 ∧ k = 0
      · rw [if_pos q, if_pos q]
      · rw [if_neg q, if_neg q, if_neg (fun w => hpi w.1.symm)]
    · by_cases a2 : i' = prevIx n i
      · subst a2
        unfold GB.sideWeight
        rw [hF.n_eq, hF.degree, vget_tab _ hp, M_bind_ok, vget_tab _ (prevIx_lt (by omega)), M_bind_ok, vget_tab _ (nextIx_lt (by omega)), M_bind_ok,
          nextIx_prevIx hi, hs.self, hs.prevY, if_pos (by dsimp only; linarith)]
        simp only [cornerW, true_and]
        congr 1
        rw [if_neg (fun w : prevIx n i = i ∧ _ => hpi w.1)]
      · have y1 := hy i' hi' a1 a2
        unfold cornerW
        rw [if_neg (fun w => a1 w.1), if_neg (fun w => a2 w.1)]
        have b0 : bern d k (1 : ℝ) = 0 := by rw [bern_at_one (by omega), if_neg (by omega)]
        unfold GB.sideWeight
        have yn := hy0 (nextIx n i') (nextIx_lt (by omega))
        have yp := hy0 (prevIx n i') (prevIx_lt (by omega))
        rw [hF.n_eq, hF.degree, vget_tab _ hi', M_bind_ok, vget_tab _ (prevIx_lt (by omega)), M_bind_ok, vget_tab _ (nextIx_lt (by omega)), M_bind_ok, y1,
          if_neg (by linarith), if_neg (by linarith), bernsteinOne_eq hj, M_bind_ok, bernsteinOne_eq (by omega), M_bind_ok, b0, mul_zero]
        dsimp only
        rw [GB.rationalWeight_eq hε (by linarith), GB.rationalWeight_eq hε (by linarith)]
        simp
  · intro k0
    unfold cornerW
    rw [if_neg (fun w => k0 w.2.2), if_neg (fun w => k0 w.2.2)]

end real

end Hybrid

end Transfinite
