import Verif.Lemmas.AffineNets
import Verif.Props.SuperD

/-! # Affine maps of the control points of SuperD patches -/

namespace Transfinite

open Spec

/-- Affine maps preserve combinations with weights whose sum is 1. -/
theorem affine_sum {K : Type} [Field K] (φ : P3 K →ᵃ[K] P3 K) {ι : Type} (s : Finset ι) (w : ι → K) (p : ι → P3 K) (h : ∑ i ∈ s, w i = 1) : ∑ i ∈ s, w i • φ (p i) = φ (∑ i ∈ s, w i • p i) := by
  have e : ∀ q : P3 K, φ q = φ.linear q + φ 0 := fun q => congrFun φ.decomp q
  rw [e (∑ i ∈ s, w i • p i), map_sum]
  calc ∑ i ∈ s, w i • φ (p i) = ∑ i ∈ s, (w i • φ.linear (p i) + w i • φ 0) := Finset.sum_congr rfl fun i _ => by rw [e (p i), smul_add]
    _ = _ := by rw [Finset.sum_add_distrib, ← Finset.sum_smul, h, one_smul]; congr 1; exact Finset.sum_congr rfl fun i _ => (map_smul _ _ _).symm

theorem affine_bezier {K : Type} [Field K] (φ : P3 K →ᵃ[K] P3 K) (d : ℕ) (p : ℕ → P3 K) (u : K) : bezier d (fun j => φ (p j)) u = φ (bezier d p u) :=
  affine_sum φ _ (fun j => bern d j u) p (bern_sum d u)

theorem Param.Fresh.bary_same {K : Type} [Field K] [LinearOrder K] [Libm K] {ε : K} {t : Param.BaryType} {d : Domain K} {o : Param.Obj K} (h : Param.Fresh ε (.bary t) d o) (uv : P2 K) :
    Prod.fst <$> Param.baryCached ε t uv o = Param.barycentric ε t d uv := by
  obtain ⟨o0, cs, e1, hcs, e2⟩ := h
  obtain ⟨fr, h1, h2, _, _, _, _, h3⟩ := C19_transparent e1 e2
  rw [Patch.lastDomain_queries hcs] at h1 h2
  rw [h3 uv t rfl, h2]

theorem map_error {α β : Type} {f : α → β} {x : M α} {e : Fault} (h : f <$> x = .error e) : x = .error e := by
  cases x with
  | error y => exact congrArg Except.error (Except.error.inj h)
  | ok a => cases h

namespace SuperD

variable {K : Type} [Field K] [LinearOrder K] [Libm K] {S S' : SuperD K} {φ : P3 K →ᵃ[K] P3 K}

theorem combine_image (a b : P3 K) (x : K) : affineCombine3 (φ a) x (φ b) = φ (affineCombine3 a x b) := by
  unfold affineCombine3
  rw [affine_eq φ a, affine_eq φ b, affine_eq φ (_ + _), map_add, map_smul, map_smul]
  module

theorem quartic_image (f : K) (a b c : P3 K) : generateQuartic f (φ a) (φ b) (φ c) = (generateQuartic f a b c).map φ := by
  unfold generateQuartic
  dsimp only
  simp only [combine_image, List.map_cons, List.map_nil]

/-- The control points of `S'` are the images of those of `S`. -/
structure Moved (φ : P3 K →ᵃ[K] P3 K) (S S' : SuperD K) : Prop where
  n_eq : S'.n = S.n
  fullness : S'.fullness = S.fullness
  cpV : S'.cpV = φ S.cpV
  cpF : S'.cpF = S.cpF.map φ
  cpE : S'.cpE = S.cpE.map φ

/-- The image of a list of points. -/
def MapsTo (φ : P3 K →ᵃ[K] P3 K) (l l' : List (P3 K)) : Prop := l' = l.map φ

theorem vget_image {l l' : List (P3 K)} (h : MapsTo φ l l') (i : ℕ) : Agree (fun a b => b = φ a) (vget l i) (vget l' i) := by
  refine Agree.vget ?_ i
  rw [h]
  clear h
  induction l with
  | nil => exact List.Forall₂.nil
  | cons a l ih => exact List.Forall₂.cons rfl ih

theorem base_image (h : Moved φ S S') (i : ℕ) : Agree (MapsTo φ) (S.generateBase i) (S'.generateBase i) := by
  unfold generateBase
  rw [h.n_eq, h.fullness]
  refine (vget_image h.cpF _).bind fun a a' _ _ ha => (vget_image h.cpE _).bind fun b b' _ _ hb => (vget_image h.cpF _).bind fun c c' _ _ hc => ?_
  rw [ha, hb, hc, quartic_image]
  exact rfl

theorem mid_image (h : Moved φ S S') (i : ℕ) : Agree (MapsTo φ) (S.generateMid i) (S'.generateMid i) := by
  unfold generateMid
  rw [h.n_eq, h.fullness]
  refine (vget_image h.cpE _).bind fun a a' _ _ ha => (vget_image h.cpE _).bind fun b b' _ _ hb => ?_
  rw [ha, hb, h.cpV, quartic_image]
  exact rfl

theorem opp_image (h : Moved φ S S') (i : ℕ) : Agree (MapsTo φ) (S.generateOpp i) (S'.generateOpp i) := by
  unfold generateOpp
  rw [h.n_eq]
  split_ifs
  · refine (vget_image h.cpF _).bind fun a a' _ _ ha => ?_
    change _ = _
    rw [ha, List.map_replicate]
  · refine (base_image h _).bind fun a a' _ _ ha => ?_
    change _ = _
    rw [show a' = a.map φ from ha, List.map_reverse]
  · exact rfl

/-- The image of a list of lists of points. -/
def MapsTo2 (φ : P3 K →ᵃ[K] P3 K) (l l' : List (List (P3 K))) : Prop := l' = l.map fun x => x.map φ

theorem many_image {b b' l l' r r' : List (P3 K)} (hb : MapsTo φ b b') (hl : MapsTo φ l l') (hr : MapsTo φ r r') : Agree (MapsTo2 φ) (ribbonMany b l r) (ribbonMany b' l' r') := by
  unfold ribbonMany
  refine Agree.loop (fun _ => MapsTo2 φ) rfl fun j _ s s' hs => ?_
  refine (Agree.loop (fun _ => MapsTo φ) rfl fun k _ t t' ht => ?_).bind fun t t' _ _ ht => ?_
  · refine (vget_image hb _).bind fun x0 y0 _ _ h0 => (vget_image hl _).bind fun x1 y1 _ _ h1 => (vget_image hl _).bind fun x2 y2 _ _ h2 => (vget_image hr _).bind fun x3 y3 _ _ h3 =>
      (vget_image hr _).bind fun x4 y4 _ _ h4 => ?_
    change _ = _
    rw [show t' = t.map φ from ht, List.map_append, List.map_cons, List.map_nil, h0, h1, h2, h3, h4, affine_eq φ x0, affine_eq φ x1, affine_eq φ x2, affine_eq φ x3, affine_eq φ x4,
      affine_eq φ (_ + _), map_add, map_add, map_smul, map_smul, map_sub, map_sub]
    congr 2
    module
  · change _ = _
    rw [show t' = t.map φ from ht, show s' = s.map (fun x => x.map φ) from hs, List.map_append]
    rfl

theorem few_image (f : K) {b b' l l' r r' : List (P3 K)} (hb : MapsTo φ b b') (hl : MapsTo φ l l') (hr : MapsTo φ r r') : Agree (MapsTo2 φ) (ribbonFew f b l r) (ribbonFew f b' l' r') := by
  unfold ribbonFew
  refine Agree.loop (fun _ => MapsTo2 φ) rfl fun j _ s s' hs => ?_
  refine (vget_image hb _).bind fun x0 y0 _ _ h0 => (vget_image hl _).bind fun x1 y1 _ _ h1 => (vget_image hr _).bind fun x2 y2 _ _ h2 => ?_
  change _ = _
  rw [show s' = s.map (fun x => x.map φ) from hs, h0, h1, h2, quartic_image, List.map_append]
  rfl

theorem ribbon_image (h : Moved φ S S') (i : ℕ) : Agree (MapsTo2 φ) (S.generateRibbon i) (S'.generateRibbon i) := by
  unfold generateRibbon
  refine (base_image h i).bind fun b b' _ _ hb => ?_
  rw [h.n_eq, h.fullness]
  split_ifs
  · exact (base_image h _).bind fun l l' _ _ hl => (base_image h _).bind fun r r' _ _ hr => many_image hb hl hr
  · exact (mid_image h _).bind fun l l' _ _ hl => (opp_image h _).bind fun r r' _ _ hr => few_image _ hb hl hr

end SuperD

end Transfinite
