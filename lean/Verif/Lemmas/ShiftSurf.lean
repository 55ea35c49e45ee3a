import Verif.Lemmas.Shift
import Verif.Model.Patch
import Verif.Lemmas.Loop
import Verif.Lemmas.Sync
import Verif.Lemmas.PatchRun

/-! Surfaces with cyclically shifted sides: evaluation. -/

namespace Transfinite

variable {K : Type} [Field K] [LinearOrder K] [Libm K] {n k i : ℕ} {ε : K}

/-- Loops that add up, in any form. -/
theorem Alike.sum' {α : Type} [AddCommMonoid α] {F F' : ℕ → α → M α} (f f' : ℕ → M α) (hF : ∀ i p, F i p = (do let q ← f i; .ok (p + q)))
    (hF' : ∀ i p, F' i p = (do let q ← f' i; .ok (p + q))) (h : ∀ i < n, Alike (· = ·) (f (sh n k i)) (f' i)) : Alike (· = ·) (forLoop n F 0) (forLoop n F' 0) := by
  have e : F = fun i p => (do let q ← f i; .ok (p + q)) := by funext i p; exact hF i p
  have e' : F' = fun i p => (do let q ← f' i; .ok (p + q)) := by funext i p; exact hF' i p
  rw [e, e']
  exact Alike.sum h

/-- Loops that append, in any form. -/
theorem Alike.push' {α : Type} {F F' : ℕ → List α → M (List α)} (f f' : ℕ → M α) (hF : ∀ i p, F i p = (do let q ← f i; .ok (p ++ [q])))
    (hF' : ∀ i p, F' i p = (do let q ← f' i; .ok (p ++ [q]))) (h : ∀ i < n, Alike (· = ·) (f (sh n k i)) (f' i)) : Alike (Rot n k) (forLoop n F []) (forLoop n F' []) := by
  have e : F = fun i p => (do let q ← f i; .ok (p ++ [q])) := by funext i p; exact hF i p
  have e' : F' = fun i p => (do let q ← f' i; .ok (p ++ [q])) := by funext i p; exact hF' i p
  rw [e, e']
  exact Alike.push h

/-- The second surface is the first one, starting `k` sides later. -/
structure ShiftedSurf (n k : ℕ) (S S' : Surf K) : Prop where
  gamma : S'.useGamma = S.useGamma
  ribbons : Rot n k S.ribbons S'.ribbons
  len : S.ribbons.length = n
  corners : Rot n k S.corners S'.corners

namespace ShiftedSurf

variable {S S' : Surf K} {sds sds' : List (P2 K)}

theorem n1 (h : ShiftedSurf n k S S') : S.n = n := h.len

theorem n2 (h : ShiftedSurf n k S S') : S'.n = n := h.ribbons.length.trans h.len

theorem gamma_eq (h : ShiftedSurf n k S S') (d : K) : S.gamma d = S'.gamma d := by
  unfold Surf.gamma
  rw [h.gamma]

theorem cornerCorrection (h : ShiftedSurf n k S S') (hi : i < n) (s1 s2 : K) : S.cornerCorrection ε (sh n k i) s1 s2 = S'.cornerCorrection ε i s1 s2 := by
  unfold Surf.cornerCorrection
  rw [h.gamma_eq, h.gamma_eq, h.corners.vget hi]

theorem sideInterpolant (h : ShiftedSurf n k S S') (hi : i < n) (s d : K) : S.sideInterpolant ε (sh n k i) s d = S'.sideInterpolant ε i s d := by
  unfold Surf.sideInterpolant
  rw [h.gamma_eq, h.ribbons.vget hi]

theorem cornerInterpolant (h : ShiftedSurf n k S S') (hs : Rot n k sds sds') (hi : i < n) : S.cornerInterpolant ε (sh n k i) sds = S'.cornerInterpolant ε i sds' := by
  have h0 : 0 < n := by omega
  unfold Surf.cornerInterpolant
  rw [h.n1, h.n2, next_sh, hs.vget hi, hs.vget (nextIx_lt h0)]
  simp only [h.sideInterpolant hi, h.sideInterpolant (nextIx_lt h0), h.cornerCorrection hi]

theorem compositeRibbon (h : ShiftedSurf n k S S') (hi : i < n) (sd : P2 K) : S.compositeRibbon ε (sh n k i) sd = S'.compositeRibbon ε i sd := by
  have h0 : 0 < n := by omega
  unfold Surf.compositeRibbon
  dsimp only
  rw [h.n1, h.n2, next_sh, prev_sh (show 1 ≤ n by omega), h.sideInterpolant hi, h.sideInterpolant (nextIx_lt h0), h.sideInterpolant (prevIx_lt h0),
    h.cornerCorrection (prevIx_lt h0), h.cornerCorrection hi]

/-! ### Blending functions -/

theorem closeBlend (hs : Rot n k sds sds') (hi : i < n) (c : ℕ) : Surf.closeBlend ε n c sds (sh n k i) = Surf.closeBlend ε n c sds' i := by
  have h0 : 0 < n := by omega
  unfold Surf.closeBlend
  rw [next_sh, next_sh, prev_sh (show 1 ≤ n by omega), hs.vget hi, hs.vget (nextIx_lt h0), hs.vget (nextIx_lt h0), hs.vget (prevIx_lt h0)]

theorem blendCorner (hs : Rot n k sds sds') : Alike (Rot n k) (Surf.blendCorner ε n sds) (Surf.blendCorner ε n sds') := by
  unfold Surf.blendCorner
  dsimp only
  rw [hs.countP]
  split_ifs
  · exact Alike.push fun i hi => Alike.of_eq (closeBlend hs hi _)
  · refine Alike.bind (Alike.push' (k := k) (fun i => do let sd ← vget sds i; let sp ← vget sds (nextIx n i); Surf.invSq (sd.y * sp.y))
      (fun i => do let sd ← vget sds' i; let sp ← vget sds' (nextIx n i); Surf.invSq (sd.y * sp.y)) (fun i p => by simp only [bind_assoc]) (fun i p => by simp only [bind_assoc])
      fun i hi => ?_) fun b b' _ _ hb => ?_
    · rw [next_sh, hs.vget hi, hs.vget (nextIx_lt (by omega))]
      exact Alike.refl _
    · rw [hb.sum]
      exact Alike.mapM hb fun x => Alike.refl _

theorem blendSideSingular (hs : Rot n k sds sds') : Alike (Rot n k) (Surf.blendSideSingular ε sds) (Surf.blendSideSingular ε sds') := by
  unfold Surf.blendSideSingular
  dsimp only
  rw [hs.countP]
  split_ifs
  · refine Alike.same fun x _ => ?_
    exact hs.map _
  · refine Alike.bind (Alike.mapM hs fun x => Alike.refl _) fun b b' _ _ hb => ?_
    rw [hb.sum]
    exact Alike.mapM hb fun x => Alike.refl _

theorem blendCornerDeficient (hs : Rot n k sds sds') : Alike (Rot n k) (Surf.blendCornerDeficient ε n sds) (Surf.blendCornerDeficient ε n sds') := by
  unfold Surf.blendCornerDeficient
  refine Alike.push' (k := k) (fun i => do let sd ← vget sds i; let sp ← vget sds (nextIx n i); Surf.deficientBlend ε sd sp)
    (fun i => do let sd ← vget sds' i; let sp ← vget sds' (nextIx n i); Surf.deficientBlend ε sd sp) (fun i p => by simp only [bind_assoc]) (fun i p => by simp only [bind_assoc])
    fun i hi => ?_
  rw [next_sh, hs.vget hi, hs.vget (nextIx_lt (by omega))]
  exact Alike.refl _

/-! ### Evaluation -/

theorem sideBased (h : ShiftedSurf n k S S') (hs : Rot n k sds sds') : Alike (· = ·) (S.sideBased ε sds) (S'.sideBased ε sds') := by
  unfold Surf.sideBased
  rw [h.n1, h.n2]
  refine (blendSideSingular hs).bind fun b b' _ _ hb => ?_
  refine Alike.sum' (k := k) (fun i => do let sd ← vget sds i; let q ← S.sideInterpolant ε i sd.x sd.y; let x ← vget b i; .ok (x • q))
    (fun i => do let sd ← vget sds' i; let q ← S'.sideInterpolant ε i sd.x sd.y; let x ← vget b' i; .ok (x • q))
    (fun i p => by simp only [bind_assoc, M_bind_ok]) (fun i p => by simp only [bind_assoc, M_bind_ok]) fun i hi => Alike.of_eq ?_
  simp only [hs.vget hi, hb.vget hi, h.sideInterpolant hi]

theorem cornerSum (h : ShiftedSurf n k S S') (hs : Rot n k sds sds') {b b' : List K} (hb : Rot n k b b') :
    Alike (· = ·) (forLoop n (fun i p => do let q ← S.cornerInterpolant ε i sds; let x ← vget b i; .ok (p + x • q)) 0)
      (forLoop n (fun i p => do let q ← S'.cornerInterpolant ε i sds'; let x ← vget b' i; .ok (p + x • q)) 0) := by
  refine Alike.sum' (k := k) (fun i => do let q ← S.cornerInterpolant ε i sds; let x ← vget b i; .ok (x • q))
    (fun i => do let q ← S'.cornerInterpolant ε i sds'; let x ← vget b' i; .ok (x • q))
    (fun i p => by simp only [bind_assoc, M_bind_ok]) (fun i p => by simp only [bind_assoc, M_bind_ok]) fun i hi => Alike.of_eq ?_
  simp only [hb.vget hi, h.cornerInterpolant hs hi]

theorem cornerBased (h : ShiftedSurf n k S S') (hs : Rot n k sds sds') : Alike (· = ·) (S.cornerBased ε sds) (S'.cornerBased ε sds') := by
  unfold Surf.cornerBased
  rw [h.n1, h.n2]
  exact (blendCorner hs).bind fun b b' _ _ hb => h.cornerSum hs hb

theorem coonsSum (h : ShiftedSurf n k S S') (hs : Rot n k sds sds') {b b' : List K} (hb : Rot n k b b') : Alike (· = ·) (S.coonsSum ε sds b) (S'.coonsSum ε sds' b') := by
  unfold Surf.coonsSum
  rw [h.n1, h.n2]
  refine Alike.sum' (k := k) (fun i => do
      let sd ← vget sds i
      let sd1 ← vget sds (nextIx n i)
      let x ← vget b i
      let y ← vget b (prevIx n i)
      let q ← S.sideInterpolant ε i sd.x sd.y
      let c ← S.cornerCorrection ε i (1 - sd.x) sd1.x
      .ok ((x + y) • q - x • c))
    (fun i => do
      let sd ← vget sds' i
      let sd1 ← vget sds' (nextIx n i)
      let x ← vget b' i
      let y ← vget b' (prevIx n i)
      let q ← S'.sideInterpolant ε i sd.x sd.y
      let c ← S'.cornerCorrection ε i (1 - sd.x) sd1.x
      .ok ((x + y) • q - x • c))
    (fun i p => by simp only [bind_assoc, M_bind_ok, add_sub_assoc]) (fun i p => by simp only [bind_assoc, M_bind_ok, add_sub_assoc]) fun i hi => Alike.of_eq ?_
  have h0 : 0 < n := by omega
  simp only [next_sh, prev_sh (show 1 ≤ n by omega), hs.vget hi, hb.vget hi, hs.vget (nextIx_lt h0), hb.vget (prevIx_lt h0), h.sideInterpolant hi, h.cornerCorrection hi]

theorem generalizedCoons (h : ShiftedSurf n k S S') (hs : Rot n k sds sds') : Alike (· = ·) (S.generalizedCoons ε sds) (S'.generalizedCoons ε sds') := by
  unfold Surf.generalizedCoons
  rw [h.n1, h.n2]
  exact (blendCorner hs).bind fun b b' _ _ hb => h.coonsSum hs hb

theorem composite (h : ShiftedSurf n k S S') (hs : Rot n k sds sds') : Alike (· = ·) (S.composite ε sds) (S'.composite ε sds') := by
  unfold Surf.composite
  rw [h.n1, h.n2]
  refine (blendCorner hs).bind fun b b' _ _ hb => ?_
  refine Alike.bindEq (Alike.sum' (k := k) (fun i => do
      let sd ← vget sds i
      let q ← S.compositeRibbon ε i sd
      let x ← vget b i
      let y ← vget b (prevIx n i)
      .ok ((x + y) • q))
    (fun i => do
      let sd ← vget sds' i
      let q ← S'.compositeRibbon ε i sd
      let x ← vget b' i
      let y ← vget b' (prevIx n i)
      .ok ((x + y) • q))
    (fun i p => by simp only [bind_assoc, M_bind_ok]) (fun i p => by simp only [bind_assoc, M_bind_ok]) fun i hi => Alike.of_eq ?_) fun p _ _ => rfl
  have h0 : 0 < n := by omega
  simp only [prev_sh (show 1 ≤ n by omega), hs.vget hi, hb.vget hi, hb.vget (prevIx_lt h0), h.compositeRibbon hi]

theorem midpoint (h : ShiftedSurf n k S S') (hs : Rot n k sds sds') (c : P3 K) : Alike (· = ·) (S.midpoint ε c sds) (S'.midpoint ε c sds') := by
  unfold Surf.midpoint
  rw [h.n1, h.n2]
  refine (blendCornerDeficient hs).bind fun b b' _ _ hb => ?_
  rw [hb.sum]
  exact (h.cornerSum hs hb).bindEq fun p _ _ => rfl

theorem midpointCoons (h : ShiftedSurf n k S S') (hs : Rot n k sds sds') (c : P3 K) : Alike (· = ·) (S.midpointCoons ε c sds) (S'.midpointCoons ε c sds') := by
  unfold Surf.midpointCoons
  rw [h.n1, h.n2]
  refine (blendCornerDeficient hs).bind fun b b' _ _ hb => ?_
  rw [hb.sum]
  exact (h.coonsSum hs hb).bindEq fun p _ _ => rfl

theorem c0Coons (h : ShiftedSurf n k S S') (hs : Rot n k sds sds') : Alike (· = ·) (S.c0Coons ε sds) (S'.c0Coons ε sds') := by
  unfold Surf.c0Coons
  rw [h.n1, h.n2]
  refine Alike.sum' (k := k) (fun i => do let sd ← vget sds i; let r ← vget S.ribbons i; let q ← r.eval ε sd; .ok (((1 - sd.y) / 2) • q))
    (fun i => do let sd ← vget sds' i; let r ← vget S'.ribbons i; let q ← r.eval ε sd; .ok (((1 - sd.y) / 2) • q))
    (fun i p => by simp only [bind_assoc, M_bind_ok]) (fun i p => by simp only [bind_assoc, M_bind_ok]) fun i hi => Alike.of_eq ?_
  simp only [hs.vget hi, h.ribbons.vget hi]

theorem defaultMidpoint (h : ShiftedSurf n k S S') : Alike (· = ·) (Patch.defaultMidpoint ε S) (Patch.defaultMidpoint ε S') := by
  unfold Patch.defaultMidpoint
  rw [h.n1, h.n2]
  refine Alike.bindEq (Alike.sum (k := k) fun i hi => Alike.of_eq ?_) fun p _ _ => Alike.refl _
  rw [h.sideInterpolant hi]

/-! ### Updates -/

theorem cornerOf {rs rs' : List (Ribbon K)} (h : Rot n k rs rs') (hl : rs.length = n) (hi : i < n) : Surf.cornerOf ε rs (sh n k i) = Surf.cornerOf ε rs' i := by
  have h0 : 0 < n := by omega
  unfold Surf.cornerOf
  rw [h.length, hl, next_sh, h.vget hi, h.vget (nextIx_lt h0)]

theorem updateCorner (h : ShiftedSurf n k S S') (hi : i < n) : Alike (ShiftedSurf n k) (S.updateCorner ε (sh n k i)) (S'.updateCorner ε i) := by
  unfold Surf.updateCorner
  rw [cornerOf h.ribbons h.len hi]
  refine Alike.same fun c _ => ?_
  exact (Alike.vset h.corners hi c).bind fun l l' _ _ hl => ⟨h.gamma, h.ribbons, h.len, hl⟩

theorem neighbors {rs rs' : List (Ribbon K)} (h : Rot n k rs rs') (hl : rs.length = n) (hi : i < n) : Surf.neighbors rs (sh n k i) = Surf.neighbors rs' i := by
  have h0 : 0 < n := by omega
  unfold Surf.neighbors
  dsimp only
  rw [h.length, hl, next_sh, next_sh, prev_sh (show 1 ≤ n by omega), prev_sh (show 1 ≤ n by omega), h.vget (prevIx_lt h0), h.vget (prevIx_lt h0), h.vget (nextIx_lt h0),
    h.vget (nextIx_lt h0)]

theorem updateRibbon {rs rs' : List (Ribbon K)} (h : Rot n k rs rs') (hl : rs.length = n) (hi : i < n) :
    Alike (fun a b => Rot n k a b ∧ a.length = n) (Surf.updateRibbon ε rs (sh n k i)) (Surf.updateRibbon ε rs' i) := by
  unfold Surf.updateRibbon
  rw [neighbors h hl hi, h.vget hi]
  refine Alike.same fun nb _ => Alike.same fun r _ => Alike.same fun r' _ => ?_
  have := Alike.vset h hi r'
  unfold vset at this ⊢
  split_ifs at this ⊢
  · exact ⟨this, by rw [List.length_set, hl]⟩
  · exact this.elim
  · exact this.elim
  · trivial

theorem updateOne (h : ShiftedSurf n k S S') (hi : i < n) : Alike (ShiftedSurf n k) (S.updateOne ε (sh n k i)) (S'.updateOne ε i) := by
  have h0 : 0 < n := by omega
  unfold Surf.updateOne
  refine (updateRibbon h.ribbons h.len hi).bind fun rs rs' _ _ hr => ?_
  rw [h.n1, h.n2, prev_sh (show 1 ≤ n by omega)]
  have h1 : ShiftedSurf n k { S with ribbons := rs } { S' with ribbons := rs' } := ⟨h.gamma, hr.1, hr.2, h.corners⟩
  exact (h1.updateCorner (prevIx_lt h0)).bind fun T T' _ _ hT => hT.updateCorner hi

theorem nb (hi : i < n) (c : ℕ → Curve K) : Surf.nbOf n (fun j => c (sh n k j)) i = Surf.nbOf n c (sh n k i) := by
  have h1 : 1 ≤ n := by omega
  unfold Surf.nbOf
  rw [prev_sh h1, next_sh, prev_sh h1, next_sh]

theorem updateAll (h : ShiftedSurf n k S S') (h0 : 0 < n) : Alike (ShiftedSurf n k) (S.updateAll ε) (S'.updateAll ε) := by
  obtain ⟨r, hr⟩ := exists_tab' (l := S.ribbons) (by rw [h.len]; exact h0)
  rw [h.len] at hr
  have hr' : S'.ribbons = tab n fun i => r (sh n k i) := by
    have := (Rot.of_tab (f := r) (f' := fun i => r (sh n k i)) (n := n) (k := k) fun i _ => rfl).eq
    rw [this, ← hr]
    exact h.ribbons.eq
  have ex : ∀ {A : Surf K}, Surf.updateAll ε S = .ok A → ∃ A', Surf.updateAll ε S' = .ok A' ∧ ShiftedSurf n k A A' := by
    intro A e
    obtain ⟨r1, q, e1, e2, rfl⟩ := (Surf.updateAll_iff hr).mp e
    have hrot : Rot n k (tab n r1) (tab n fun i => r1 (sh n k i)) := Rot.of_tab fun i _ => rfl
    refine ⟨_, (Surf.updateAll_iff hr').mpr ⟨fun i => r1 (sh n k i), fun i => q (sh n k i), fun j hj => ?_, fun j hj => ?_, rfl⟩, h.gamma, hrot, length_tab _ _, Rot.of_tab fun i _ => rfl⟩
    · rw [nb hj fun j => (r j).curve]
      exact e1 _ (sh_lt h0)
    · rw [← cornerOf hrot (length_tab _ _) hj]
      exact e2 _ (sh_lt h0)
  have ex' : ∀ {A' : Surf K}, Surf.updateAll ε S' = .ok A' → ∃ A, Surf.updateAll ε S = .ok A := by
    intro A' e
    obtain ⟨r1, q, e1, e2, rfl⟩ := (Surf.updateAll_iff hr').mp e
    have hrot : Rot n k (tab n fun i => r1 (unsh n k i)) (tab n r1) := Rot.of_tab fun i hi => by rw [unsh_sh h0 hi]
    refine ⟨_, (Surf.updateAll_iff hr).mpr ⟨fun i => r1 (unsh n k i), fun i => q (unsh n k i), fun j hj => ?_, fun j hj => ?_, rfl⟩⟩
    · have := e1 (unsh n k j) (unsh_lt h0)
      rw [nb (unsh_lt h0) fun j => (r j).curve, sh_unsh h0 hj] at this
      exact this
    · have := e2 (unsh n k j) (unsh_lt h0)
      rw [← cornerOf hrot (length_tab _ _) (unsh_lt h0), sh_unsh h0 hj] at this
      exact this
  cases e : Surf.updateAll ε S with
  | ok A =>
    obtain ⟨A', e', hA⟩ := ex e
    rw [e']
    exact hA
  | error x =>
    cases e' : Surf.updateAll ε S' with
    | error x' => trivial
    | ok A' =>
      obtain ⟨A, e2⟩ := ex' e'
      rw [e] at e2
      cases e2

end ShiftedSurf

/-! ### The curves -/

namespace Surf

theorem map_set_same {α β : Type} {f : α → β} {l : List α} {a b : α} (h : vget l i = .ok a) (hb : f b = f a) : (l.set i b).map f = l.map f := by
  rw [List.map_set, hb]
  refine List.ext_getElem? fun j => ?_
  rw [List.getElem?_set]
  split_ifs with h1 h2
  · subst h1
    rw [List.getElem?_map, vget_eq_ok.mp h]
    rfl
  · subst h1
    rw [List.getElem?_eq_none (by omega)]
  · rfl

theorem vset_curves {rs rs' : List (Ribbon K)} {a b : Ribbon K} (h : vget rs i = .ok a) (hb : b.curve = a.curve) (e : vset rs i b = .ok rs') : rs'.map (·.curve) = rs.map (·.curve) := by
  unfold vset at e
  split_ifs at e
  cases e
  exact map_set_same (f := fun r : Ribbon K => r.curve) h hb

theorem updateRibbon_curves {rs rs' : List (Ribbon K)} (h : updateRibbon ε rs i = .ok rs') : rs'.map (·.curve) = rs.map (·.curve) := by
  unfold updateRibbon at h
  obtain ⟨nb, _, h⟩ := bind_ok h
  obtain ⟨r, e1, h⟩ := bind_ok h
  obtain ⟨r', e2, h⟩ := bind_ok h
  exact vset_curves e1 (Ribbon.update_keeps e2).2.1 h

theorem updateOne_curves {S S' : Surf K} (h : S.updateOne ε i = .ok S') : S'.ribbons.map (·.curve) = S.ribbons.map (·.curve) := by
  unfold updateOne at h
  obtain ⟨rs, e, h⟩ := bind_ok h
  obtain ⟨S1, e1, h⟩ := bind_ok h
  rw [(Patch.updateCorner_ribbons h).1, (Patch.updateCorner_ribbons e1).1]
  exact updateRibbon_curves e

theorem updateAll_curves {S S' : Surf K} (h : S.updateAll ε = .ok S') : S'.ribbons.map (·.curve) = S.ribbons.map (·.curve) := by
  unfold updateAll at h
  obtain ⟨rs, e, h⟩ := bind_ok h
  have h1 := Patch.forLoop_inv' (fun rs : List (Ribbon K) => rs.map (·.curve) = S.ribbons.map (·.curve)) rfl (fun _ _ _ a b => (updateRibbon_curves b).trans a) e
  unfold updateCorners at h
  exact Patch.forLoop_inv' (fun T : Surf K => T.ribbons.map (·.curve) = S.ribbons.map (·.curve)) h1 (fun _ _ _ a b => by rw [(Patch.updateCorner_ribbons b).1]; exact a) h

end Surf

end Transfinite
