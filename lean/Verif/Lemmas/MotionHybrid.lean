import Verif.Lemmas.MotionPatch
import Verif.Lemmas.Bernstein
import Verif.Lemmas.Hybrid
import Verif.Spec.MotionHybrid

/-! Rigid motions of hybrid patches: any call on moved objects. -/

namespace Transfinite

open Spec

namespace Motion

variable {K : Type} [Field K] [LinearOrder K] [Libm K] [IsStrictOrderedRing K] {g : Motion K} {full cen : Prop} {H H' : Hybrid K}

/-! ### Networks -/

/-- Control points, related when `full` holds. -/
def Pt (g : Motion K) (full : Prop) (a b : P3 K) : Prop := full → b = g.pt a

/-- Networks of the same shape with related control points. -/
def Nets (g : Motion K) (full : Prop) : List (List (List (P3 K))) → List (List (List (P3 K))) → Prop := List.Forall₂ (List.Forall₂ (List.Forall₂ (Pt g full)))

omit [LinearOrder K] [Libm K] [IsStrictOrderedRing K] in
theorem cpt {N N' : List (List (List (P3 K)))} (h : Nets g full N N') (i j k : ℕ) : Agree (Pt g full) (GB.cpt N i j k) (GB.cpt N' i j k) := by
  unfold GB.cpt
  exact (Agree.vget h i).bind fun a b _ _ h => (Agree.vget h j).bind fun a b _ _ h => Agree.vget h k

omit [LinearOrder K] [Libm K] [IsStrictOrderedRing K] in
theorem cptSet {N N' : List (List (List (P3 K)))} (h : Nets g full N N') (i j k : ℕ) (p : P3 K) : Agree (Nets g full) (GB.cptSet N i j k p) (GB.cptSet N' i j k (g.pt p)) := by
  unfold GB.cptSet
  refine (Agree.vget h i).bind fun a b _ _ ha => (Agree.vget ha j).bind fun c d _ _ hc => ?_
  refine (Agree.vset hc k (show Pt g full p (g.pt p) from fun _ => rfl)).bind fun x y _ _ hx => ?_
  exact (Agree.vset ha j hx).bind fun x y _ _ hx => Agree.vset h i hx

theorem forall_replicate {α β : Type} {r : α → β → Prop} {a : α} {b : β} (h : r a b) (n : ℕ) : List.Forall₂ r (List.replicate n a) (List.replicate n b) := by
  induction n with
  | zero => exact List.Forall₂.nil
  | succ n ih => exact List.Forall₂.cons h ih

/-- Networks that look the same, with related control points. -/
structure Nt (g : Motion K) (full cen : Prop) (G G' : GB K) : Prop where
  kind : G'.kind = G.kind
  n : G'.n = G.n
  degree : G'.degree = G.degree
  layers : G'.layers = G.layers
  squared : G'.squared = G.squared
  nets : Nets g full G.nets G'.nets
  central : cen → G'.central = g.pt G.central

variable {G G' : GB K}

theorem setControlPoint (h : Nt g full cen G G') (i j k : ℕ) (p : P3 K) : Agree (fun a b => Nt g full cen a b ∧ a.param = G.param ∧ b.param = G'.param)
    (G.setControlPoint i j k p) (G'.setControlPoint i j k (g.pt p)) := by
  unfold GB.setControlPoint
  refine (cptSet h.nets i j k p).bind fun N N' _ _ hN => ?_
  rw [h.layers, h.degree, h.n]
  split_ifs
  · exact (cptSet hN _ _ _ p).bind fun N N' _ _ hN => ⟨⟨h.kind, rfl, rfl, rfl, h.squared, hN, h.central⟩, rfl, rfl⟩
  · exact (cptSet hN _ _ _ p).bind fun N N' _ _ hN => ⟨⟨h.kind, rfl, rfl, rfl, h.squared, hN, h.central⟩, rfl, rfl⟩
  · exact ⟨⟨h.kind, rfl, rfl, rfl, h.squared, hN, h.central⟩, rfl, rfl⟩

omit [LinearOrder K] [Libm K] [IsStrictOrderedRing K] in
theorem initBase (h : Nt g full cen G G') (h0 : full → g.shift = 0) (n d : ℕ) : Nt g full cen (G.initBase n d) (G'.initBase n d) := by
  unfold GB.initBase
  rw [h.n, h.degree]
  split_ifs
  · exact h
  · refine ⟨h.kind, rfl, rfl, rfl, h.squared, ?_, h.central⟩
    refine forall_replicate (forall_replicate (forall_replicate ?_ _) _) _
    intro hf
    unfold Motion.pt
    rw [h0 hf, map_zero, add_zero]

theorem initNetwork (h : Nt g full cen G G') (h0 : full → g.shift = 0) (n d : ℕ) : Agree (fun a b => Nt g full cen a b ∧ a.param = G.param ∧ b.param = G'.param) (G.initNetwork n d) (G'.initNetwork n d) := by
  have hb := initBase h h0 n d
  have hp : ∀ G : GB K, (G.initBase n d).param = G.param := fun G => by unfold GB.initBase; split_ifs <;> rfl
  unfold GB.initNetwork
  rw [h.kind]
  split
  · exact ⟨hb, hp G, hp G'⟩
  · split_ifs
    · exact ⟨hb, hp G, hp G'⟩
    · rfl

theorem weightOf (ε : K) (h : Nt g full cen G G') (hp : G'.param = G.param) (i j k : ℕ) (uv : P2 K) :
    Agree (fun a b => a.1 = b.1 ∧ a.2 = { G with param := a.2.param } ∧ b.2 = { G' with param := a.2.param }) (G.weight ε i j k uv) (G'.weight ε i j k uv) := by
  have hs : ∀ sds, G'.sideWeight ε i j k sds = G.sideWeight ε i j k sds := fun sds => by
    unfold GB.sideWeight
    rw [h.n, h.degree, h.squared]
  have hc : ∀ sds, G'.cornerWeightOf i j k sds = G.cornerWeightOf i j k sds := fun sds => by
    unfold GB.cornerWeightOf GB.cornerWeight
    rw [h.n, h.degree, h.layers]
  unfold GB.weight
  rw [h.kind, h.degree, hp]
  split
  · split_ifs
    · exact ⟨rfl, rfl, by rw [← hp, ← h.kind, ← h.degree]⟩
    · refine Agree.same fun r _ => ?_
      rw [hs]
      exact Agree.same fun w _ => ⟨rfl, rfl, rfl⟩
  · refine Agree.same fun r _ => ?_
    rw [hc]
    exact Agree.same fun w _ => ⟨rfl, rfl, rfl⟩

/-! ### Boundary curves -/

omit [LinearOrder K] [Libm K] [IsStrictOrderedRing K] in
theorem getD_map {l : List (P3 K)} {f : P3 K → P3 K} {j : ℕ} (hj : j < l.length) : (l.map f).getD j 0 = f (l.getD j 0) := by
  rw [List.getD_eq_getElem?_getD, List.getD_eq_getElem?_getD, List.getElem?_map, List.getElem?_eq_getElem hj]
  rfl

theorem bezierCurve (arc : List (P3 K) → K → K → K) {l : List (P3 K)} (hl : l ≠ []) (ha : arc (l.map g.pt) = arc l) :
    Transfinite.bezierCurve arc (l.map g.pt) = g.curve (Transfinite.bezierCurve arc l) := by
  have hpos : 0 < l.length := List.length_pos_of_ne_nil hl
  unfold Transfinite.bezierCurve Motion.curve
  rw [ha, List.length_map]
  congr 1
  · funext u
    dsimp only
    unfold bezier Motion.pt
    have : ∀ j ∈ Finset.range (l.length - 1 + 1), bern (l.length - 1) j u • (l.map fun p => g.lin p + g.shift).getD j 0 =
        g.lin (bern (l.length - 1) j u • l.getD j 0) + bern (l.length - 1) j u • g.shift := fun j hj => by
      rw [getD_map (by have := Finset.mem_range.mp hj; omega), smul_add, map_smul]
    change ∑ j ∈ Finset.range (l.length - 1 + 1), bern (l.length - 1) j u • (l.map fun p => g.lin p + g.shift).getD j 0 = _
    rw [Finset.sum_congr rfl this, Finset.sum_add_distrib, ← Finset.sum_smul, bern_sum, one_smul, map_sum]
  · funext u
    dsimp only
    by_cases h1 : l.length = 1
    · rw [h1]; simp
    · rw [map_smul]
      congr 1
      unfold bezier
      rw [map_sum]
      refine Finset.sum_congr rfl fun j hj => ?_
      have := Finset.mem_range.mp hj
      dsimp only
      rw [getD_map (by omega), getD_map (by omega), map_smul, pt_sub]

theorem boundary (h : Nt g full cen G G') (hf : full) (i : ℕ) : Agree (fun l l' => l' = l.map g.pt ∧ l ≠ []) (G.boundary i) (G'.boundary i) := by
  unfold GB.boundary
  rw [h.degree]
  refine Agree.mono (Agree.loop (fun m (l l' : List (P3 K)) => l' = l.map g.pt ∧ l.length = m) ⟨rfl, rfl⟩ fun j _ l l' hl => ?_) fun l l' hl => ⟨hl.1, fun q => by rw [q] at hl; simp at hl⟩
  refine (cpt h.nets i j 0).bind fun p p' _ _ hp => ?_
  rw [hp hf, hl.1]
  exact ⟨by rw [List.map_append]; rfl, by rw [List.length_append, hl.2]; rfl⟩

/-! ### Hybrid patches -/

/-- The second object is the image of the first one; the control points are related when `full` holds, the central one when `cen` holds. -/
structure Hyb (g : Motion K) (full cen : Prop) (H H' : Hybrid K) : Prop where
  net : Nt g full cen H.net H'.net
  patch : Moved g False H.patch H'.patch

omit [LinearOrder K] [Libm K] [IsStrictOrderedRing K] in
theorem Hyb.asNet (h : Hyb g full cen H H') : Nt g full cen H.asNet H'.asNet := ⟨h.net.kind, h.net.n, h.net.degree, h.net.layers, h.net.squared, h.net.nets, h.net.central⟩

theorem hybrid_setupLoop {arc : List (P3 K) → K → K → K} (h : Hyb g full cen H H') (hf : full) (ha : ∀ l, l ≠ [] → arc (l.map g.pt) = arc l) :
    Agree (Hyb g full cen) (H.setupLoop arc) (H'.setupLoop arc) := by
  unfold Hybrid.setupLoop
  rw [h.net.n]
  refine (Agree.loop (fun _ (l l' : List (Curve K)) => l' = l.map g.curve) rfl fun i _ l l' hl => ?_).bind fun cs cs' _ _ hcs => ?_
  · refine (boundary h.net hf i).bind fun a b _ _ hab => ?_
    rw [hl, hab.1, bezierCurve arc hab.2 (ha a hab.2)]
    change _ = _
    rw [List.map_append]
    rfl
  · subst hcs
    have h1 : Moved g False (H.patch.setCurves cs) (H'.patch.setCurves (cs.map g.curve)) := step (0 : K) h.patch (.curves cs) fun h => h.elim
    refine (setupLoop h1).bind fun P P' _ _ hP => ?_
    refine (updateDomain hP).bind fun Q Q' _ _ hQ => ?_
    exact ⟨⟨h.net.kind, by dsimp only; rw [List.length_map], h.net.degree, h.net.layers, h.net.squared, h.net.nets, h.net.central⟩, hQ.1⟩

/-! ### Evaluation -/

/-- The values in the loops of `eval`. -/
structure Ac (g : Motion K) (full : Prop) (n : ℕ) (a b : Hybrid.Acc K) : Prop where
  blends : b.blends = a.blends
  sum : b.sum = a.sum
  param : b.param = a.param
  length : a.blends.length = n
  pt : full → W g (a.sum - a.blends.sum) a.pt b.pt

theorem sum_set {l l' : List K} {i : ℕ} {b x : K} (h : Transfinite.vget l i = .ok b) (h' : Transfinite.vset l i (b + x) = .ok l') : l'.sum = l.sum + x ∧ l'.length = l.length := by
  unfold Transfinite.vset at h'
  split_ifs at h' with hlt
  cases h'
  refine ⟨?_, List.length_set⟩
  induction l generalizing i with
  | nil => cases h
  | cons y l ih =>
    cases i with
    | zero =>
      cases h
      rw [List.set_cons_zero, List.sum_cons, List.sum_cons]
      ring
    | succ i =>
      rw [List.set_cons_succ, List.sum_cons, List.sum_cons, ih h (by rw [List.length_cons] at hlt; omega)]
      ring

theorem addBlend {N N' : List (List (List (P3 K)))} (h : Nets g full N N') {n : ℕ} {a b : Hybrid.Acc K} (hab : Ac g full n a b) (i j k : ℕ) (x : K) :
    Agree (Ac g full n) (Hybrid.addBlend N i j k x a) (Hybrid.addBlend N' i j k x b) := by
  unfold Hybrid.addBlend
  split_ifs
  · refine (cpt h i j k).bind fun p p' _ _ hp => ⟨hab.blends, by dsimp only; rw [hab.sum], hab.param, hab.length, fun hf => ?_⟩
    dsimp only
    rw [hp hf]
    refine ((hab.pt hf).add ((W_pt p).smul x)).eq ?_
    ring
  · rw [hab.blends]
    refine Agree.same fun y hy => Agree.same fun l hl => ?_
    obtain ⟨s1, s2⟩ := sum_set hy hl
    refine ⟨rfl, by dsimp only; rw [hab.sum], hab.param, s2.trans hab.length, fun hf => ?_⟩
    dsimp only
    refine (hab.pt hf).eq ?_
    rw [s1]
    ring

theorem evalNet (ε : K) (h : Nt g full cen G G') (uv : P2 K) {a b : Hybrid.Acc K} (hab : Ac g full G.n a b) :
    Agree (Ac g full G.n) (Hybrid.evalNet ε G uv a) (Hybrid.evalNet ε G' uv b) := by
  unfold Hybrid.evalNet
  rw [h.n, h.layers, h.degree]
  refine Agree.loop (fun _ => Ac g full G.n) hab fun i _ a b hab => ?_
  refine Agree.loop (fun _ => Ac g full G.n) hab fun k _ a b hab => ?_
  refine Agree.loop (fun _ => Ac g full G.n) hab fun j _ a b hab => ?_
  unfold Hybrid.evalStep
  have hN : Nt g full cen { G with param := a.param } { G' with param := b.param } := ⟨h.kind, h.n, h.degree, h.layers, h.squared, h.nets, h.central⟩
  refine (weightOf ε hN hab.param i j k uv).bind fun x y _ _ hxy => ?_
  obtain ⟨h1, _, h3⟩ := hxy
  rw [h3, ← h1]
  change Agree _ (Hybrid.addBlend G.nets i j k x.1 { a with param := x.2.param }) (Hybrid.addBlend G'.nets i j k x.1 { b with param := x.2.param })
  have hac : Ac g full G.n { a with param := x.2.param } { b with param := x.2.param } := ⟨hab.blends, hab.sum, rfl, hab.length, hab.pt⟩
  exact addBlend h.nets hac i j k x.1

theorem evalRibbons (ε : K) {S S' : Surf K} (h : Sf g .handler S S') (n : ℕ) (sds : List (P2 K)) {bs : List K} (hb : bs.length = n) {w : K} {p p' : P3 K} (hp : full → W g w p p') :
    Agree (fun q q' => full → W g (w + bs.sum) q q') (Hybrid.evalRibbons ε S n sds bs p) (Hybrid.evalRibbons ε S' n sds bs p') := by
  unfold Hybrid.evalRibbons
  refine Agree.mono (Agree.loop (fun i q q' => full → W g (w + ∑ j ∈ Finset.range i, bs.getD j 0) q q') (fun hf => (hp hf).eq (by simp)) fun i _ q q' hq => ?_) fun q q' hq hf => (hq hf).eq ?_
  · refine Agree.same fun sd _ => ?_
    refine (sideInterpolant ε (Or.inl rfl) h i sd.x sd.y).bind fun c c' _ _ hc => ?_
    refine Agree.same fun x hx hf => ?_
    refine ((hq hf).add ((hc fun q => by cases q).smul x)).eq ?_
    rw [Finset.sum_range_succ, getD_of_vget hx]
    ring
  · rw [sum_getD hb]

theorem hybrid_eval (ε : K) (h : Hyb g full cen H H') (hk : H.patch.kind = .compositeRibbon) (uv : P2 K) :
    Agree (fun x y => Hyb g full cen x.2 y.2 ∧ (full → cen → y.1 = g.pt x.1)) (H.eval ε uv) (H'.eval ε uv) := by
  unfold Hybrid.eval
  rw [h.patch.kind, h.patch.param, h.net.n]
  refine Agree.same fun r _ => ?_
  refine (evalNet ε h.asNet uv (a := ⟨0, List.replicate H.net.n 0, 0, r.2⟩) (b := ⟨0, List.replicate H.net.n 0, 0, r.2⟩)
    ⟨rfl, rfl, rfl, List.length_replicate, fun _ => by unfold W; simp⟩).bind fun a b _ _ hab => ?_
  have hlen : a.blends.length = H.net.n := hab.length
  have hs : Sf g .handler H.patch.surf H'.patch.surf := by
    have := h.patch.surf
    rw [hk] at this
    exact this
  rw [hab.blends, hab.sum]
  refine (evalRibbons (full := full ∧ cen) (w := a.sum - a.blends.sum + (1 - a.sum)) ε hs H.net.n r.1 hlen fun hf => ?_).bind fun p p' _ _ hp => ?_
  · rw [h.net.central hf.2]
    refine ((hab.pt hf.1).add ((W_pt _).smul (1 - a.sum))).eq ?_
    ring
  · refine ⟨⟨h.net, ?_⟩, fun hf hc => ?_⟩
    · rw [hab.param]
      exact h.patch.param_set a.param
    · exact ((hp ⟨hf, hc⟩).eq (by ring)).pt

/-! ### The weight of the central control point -/

omit [IsStrictOrderedRing K] in
theorem evalNet_central (ε : K) (G : GB K) (c : P3 K) (uv : P2 K) (a : Hybrid.Acc K) : Hybrid.evalNet ε (G.setCentral c) uv a = Hybrid.evalNet ε G uv a := by
  have hs : ∀ i k j a, Hybrid.evalStep ε (G.setCentral c) uv i k j a = Hybrid.evalStep ε G uv i k j a := by
    intro i k j a
    obtain ⟨kind, n, degree, layers, central, nets, squared, dom, param, curves⟩ := G
    unfold Hybrid.evalStep
    cases kind with
    | side =>
      change (if 2 ≤ k ∧ (j < k ∨ usub degree k < j) then _ else _) >>= _ = (if 2 ≤ k ∧ (j < k ∨ usub degree k < j) then _ else _) >>= _
      by_cases h : 2 ≤ k ∧ (j < k ∨ usub degree k < j)
      · rw [if_pos h, if_pos h]; rfl
      · rw [if_neg h, if_neg h, bind_assoc, bind_assoc]
        congr 1
        funext r
        rw [bind_assoc, bind_assoc]
        rfl
    | corner _ =>
      unfold GB.weight
      dsimp only [GB.setCentral]
      rw [bind_assoc, bind_assoc]
      congr 1
      funext r
      rw [bind_assoc, bind_assoc]
      rfl
  have hs' : Hybrid.evalStep ε (G.setCentral c) uv = Hybrid.evalStep ε G uv := by
    funext i k j a
    exact hs i k j a
  unfold Hybrid.evalNet
  rw [hs']
  rfl

omit [IsStrictOrderedRing K] in
theorem evalRibbons_add (ε : K) (S : Surf K) (n : ℕ) (sds : List (P2 K)) (bs : List K) (p x : P3 K) :
    Agree (fun q q' => q' = q + x) (Hybrid.evalRibbons ε S n sds bs p) (Hybrid.evalRibbons ε S n sds bs (p + x)) := by
  unfold Hybrid.evalRibbons
  refine Agree.loop (fun _ q q' => q' = q + x) rfl fun i _ q q' hq => ?_
  refine Agree.same fun sd _ => Agree.same fun c _ => Agree.same fun b _ => ?_
  change _ = _
  rw [hq]
  abel

omit [IsStrictOrderedRing K] in
theorem eval_central_sum {ε : K} {H : Hybrid K} {uv : P2 K} {r : List (P2 K) × Param.Obj K} {a : Hybrid.Acc K} (hr : Param.mapToRibbons ε H.patch.kind.param uv H.patch.param = .ok r)
    (ha : Hybrid.evalNet ε H.asNet uv ⟨0, List.replicate H.net.n 0, 0, r.2⟩ = .ok a) (c : P3 K) :
    Agree (fun x y => y.1 = x.1 + (1 - a.sum) • (c - H.net.central)) (H.eval ε uv) (Hybrid.eval ε uv ⟨H.asNet.setCentral c, H.patch⟩) := by
  have hc : ∀ a, Hybrid.evalNet ε (Hybrid.asNet ⟨H.asNet.setCentral c, H.patch⟩) uv a = Hybrid.evalNet ε H.asNet uv a := fun a => evalNet_central ε H.asNet c uv a
  unfold Hybrid.eval
  dsimp only
  rw [hr, M_bind_ok, M_bind_ok, hc, ha]
  change Agree _ _ (Hybrid.evalNet ε H.asNet uv ⟨0, List.replicate H.net.n 0, 0, r.2⟩ >>= _)
  rw [ha, M_bind_ok, M_bind_ok]
  change Agree _ _ (Hybrid.evalRibbons ε H.patch.surf H.net.n r.1 a.blends (a.pt + (1 - a.sum) • c) >>= _)
  rw [show a.pt + (1 - a.sum) • c = a.pt + (1 - a.sum) • H.net.central + (1 - a.sum) • (c - H.net.central) by rw [smul_sub]; abel]
  exact (evalRibbons_add ε _ _ _ _ _ _).bind fun p p' _ _ hp => hp

omit [IsStrictOrderedRing K] in
theorem eval_central (ε : K) (H : Hybrid K) (uv : P2 K) :
    ∃ w : K, ∀ c, Agree (fun x y => y.1 = x.1 + w • (c - H.net.central)) (H.eval ε uv) (Hybrid.eval ε uv ⟨H.asNet.setCentral c, H.patch⟩) := by
  cases hr : Param.mapToRibbons ε H.patch.kind.param uv H.patch.param with
  | error e =>
    refine ⟨0, fun c => ?_⟩
    unfold Hybrid.eval
    dsimp only
    rw [hr]
    rfl
  | ok r =>
    cases ha : Hybrid.evalNet ε H.asNet uv ⟨0, List.replicate H.net.n 0, 0, r.2⟩ with
    | error e =>
      refine ⟨0, fun c => ?_⟩
      have hc : ∀ a, Hybrid.evalNet ε (Hybrid.asNet ⟨H.asNet.setCentral c, H.patch⟩) uv a = Hybrid.evalNet ε H.asNet uv a := fun a => evalNet_central ε H.asNet c uv a
      unfold Hybrid.eval
      dsimp only
      rw [hr, M_bind_ok, M_bind_ok, hc, ha]
      change Agree _ _ (Hybrid.evalNet ε H.asNet uv ⟨0, List.replicate H.net.n 0, 0, r.2⟩ >>= _)
      rw [ha]
      rfl
    | ok a => exact ⟨1 - a.sum, eval_central_sum hr ha⟩

/-! ### Calls -/

omit [LinearOrder K] [Libm K] [IsStrictOrderedRing K] in
theorem isSurf_call (c : Patch.Call K) : Hybrid.isSurf (g.call c) = Hybrid.isSurf c := by cases c <;> rfl
omit [LinearOrder K] [Libm K] [IsStrictOrderedRing K] in
theorem isNet_call (c : GB.Call K) : Hybrid.isNet (g.netCall c) = Hybrid.isNet c := by cases c <;> rfl

theorem hybrid_step (ε : K) {arc : List (P3 K) → K → K → K} (h : Hyb g full cen H H') (inv : Hybrid.Inv ε H) (ha : ∀ l, l ≠ [] → arc (l.map g.pt) = arc l) (c : Hybrid.Call K)
    (hi : full → keepsNet c = true ∨ g.shift = 0) (hl : ¬ full → ∃ x, c = .net x) : Agree (Hyb g full cen) (H.step ε arc c) (H'.step ε arc (g.hybridCall c)) := by
  cases c with
  | net c =>
    unfold Hybrid.step Motion.hybridCall
    dsimp only
    rw [isNet_call]
    split_ifs with hc
    · have key : Agree (fun a b => Nt g full cen a b ∧ b.param = a.param) (H.asNet.step ε arc c) (H'.asNet.step ε arc (g.netCall c)) := by
        have hn := h.asNet
        have hp : H'.asNet.param = H.asNet.param := h.patch.param
        cases c with
        | init n d =>
          by_cases hs : g.shift = 0
          · exact (initNetwork hn (fun _ => hs) n d).mono fun a b q => ⟨q.1, q.2.2.trans (hp.trans q.2.1.symm)⟩
          · exact (initNetwork hn (fun hf => absurd ((hi hf).resolve_right hs) (by simp [keepsNet])) n d).mono fun a b q => ⟨q.1, q.2.2.trans (hp.trans q.2.1.symm)⟩
        | set i j k p => exact (setControlPoint hn i j k p).mono fun a b q => ⟨q.1, q.2.2.trans (hp.trans q.2.1.symm)⟩
        | setIndividual i j k p =>
          exact (cptSet hn.nets i j k p).bind fun N N' _ _ hN => ⟨⟨hn.kind, hn.n, hn.degree, hn.layers, hn.squared, hN, hn.central⟩, hp⟩
        | central p => exact ⟨⟨hn.kind, hn.n, hn.degree, hn.layers, hn.squared, hn.nets, fun _ => rfl⟩, hp⟩
        | squared b => exact ⟨⟨hn.kind, hn.n, hn.degree, hn.layers, rfl, hn.nets, hn.central⟩, hp⟩
        | weight i j k uv =>
          refine (weightOf ε hn hp i j k uv).bind fun x y _ _ hxy => ?_
          obtain ⟨_, h2, h3⟩ := hxy
          rw [h2, h3]
          exact ⟨⟨hn.kind, hn.n, hn.degree, hn.layers, hn.squared, hn.nets, hn.central⟩, rfl⟩
        | curves _ => cases hc
        | loop => cases hc
        | eval _ => cases hc
      refine key.bind fun a b _ _ hab => ⟨hab.1, ?_⟩
      dsimp only
      rw [hab.2]
      exact h.patch.param_set a.param
    · rfl
  | surf c =>
    unfold Hybrid.step Motion.hybridCall
    dsimp only
    rw [isSurf_call, h.net.n, h.patch.surf.n]
    split_ifs with hc
    · exact (step ε h.patch c fun h => h.elim).bind fun P P' _ _ hP => ⟨h.net, hP⟩
    · rfl
  | loop =>
    by_cases hf : full
    · exact hybrid_setupLoop h hf ha
    · obtain ⟨x, hx⟩ := hl hf
      cases hx
  | eval uv => exact (hybrid_eval ε h inv.kind uv).bind fun x y _ _ hxy => hxy.1

theorem hybrid_run (ε : K) {arc : List (P3 K) → K → K → K} (h : Hyb g full cen H H') (inv : Hybrid.Inv ε H) (ha : ∀ l, l ≠ [] → arc (l.map g.pt) = arc l) (cs : List (Hybrid.Call K))
    (hi : full → ∀ c ∈ cs, keepsNet c = true ∨ g.shift = 0) (hl : ¬ full → ∀ c ∈ cs, ∃ x, c = .net x) : Agree (Hyb g full cen) (H.run ε arc cs) (H'.run ε arc (cs.map g.hybridCall)) := by
  induction cs generalizing H H' with
  | nil => exact h
  | cons c cs ih =>
    rw [List.map_cons]
    unfold Hybrid.run
    refine (hybrid_step ε h inv ha c (fun hf => hi hf c (by simp)) fun hf => hl hf c (by simp)).bind fun a b e _ hab => ?_
    exact ih hab (Hybrid.step_inv inv e) (fun hf x hx => hi hf x (List.mem_cons_of_mem _ hx)) fun hf x hx => hl hf x (List.mem_cons_of_mem _ hx)

theorem hybrid_new (g : Motion K) (d l : ℕ) (full : Prop) : Hyb g full False (Hybrid.new d l) (Hybrid.new d l) :=
  ⟨⟨rfl, rfl, rfl, rfl, rfl, List.Forall₂.nil, fun h => h.elim⟩, new_moved g _⟩

end Motion

end Transfinite
