import Verif.Lemmas.Sharing
import Verif.Lemmas.Agree
import Verif.Lemmas.GenBezierEval
import Mathlib.LinearAlgebra.AffineSpace.AffineMap

/-! # Affine maps of the control points of Generalized Bézier patches -/

namespace Transfinite

variable {K : Type} [Field K] [LinearOrder K] [Libm K]

theorem affine_eq (φ : P3 K →ᵃ[K] P3 K) (p : P3 K) : φ p = φ.linear p + φ 0 := congrFun φ.decomp p

namespace GB

variable {n d : ℕ} {F : ℕ → ℕ → ℕ → P3 K} {G G' : GB K} {ε : K} (φ : P3 K →ᵃ[K] P3 K)

/-- Sums of weighted points and of weights. -/
def Sums (a b : P3 K × K) : Prop := b = (φ.linear a.1 + a.2 • φ 0, a.2)

variable {φ}

theorem Sums.add {a b : P3 K × K} (h : Sums φ a b) (w : K) (p : P3 K) : Sums φ (a.1 + w • p, a.2 + w) (b.1 + w • φ p, b.2 + w) := by
  unfold Sums at h ⊢
  rw [h, affine_eq φ p]
  dsimp only
  rw [map_add, map_smul]
  congr 1
  module

theorem Sums.close {a b : P3 K × K} (h : Sums φ a b) (c : P3 K) : b.1 + (1 - b.2) • φ c = φ (a.1 + (1 - a.2) • c) := by
  unfold Sums at h
  rw [h, affine_eq φ c, affine_eq φ (_ + _), map_add, map_smul]
  module

/-- The network of `G'` is the image of the network of `G`. -/
structure Image (φ : P3 K →ᵃ[K] P3 K) (n d : ℕ) (F : ℕ → ℕ → ℕ → P3 K) (G G' : GB K) : Prop where
  net : HasNet G n d F
  net' : HasNet G' n d fun i j k => φ (F i j k)
  central : G'.central = φ G.central
  squared : G'.squared = G.squared
  kind : G'.kind = G.kind

theorem sideSum_image (h : Image φ n d F G G') {i : ℕ} (hi : i < n) (a b : K) (bs bd : List K) {st st' : P3 K × K} (hs : Sums φ st st') :
    Agree (Sums φ) (G.sideSum i a b bs bd st) (G'.sideSum i a b bs bd st') := by
  unfold sideSum
  rw [h.net.layers, h.net'.layers, h.net.degree, h.net'.degree]
  refine Agree.loop (fun _ => Sums φ) hs fun k hk st st' hs => ?_
  refine Agree.loop (fun _ => Sums φ) hs fun j hj st st' hs => ?_
  refine Agree.same fun x _ => Agree.same fun y _ => ?_
  rw [h.net.cpt hi (by omega) hk, h.net'.cpt hi (by omega) hk, M_bind_ok, M_bind_ok]
  exact hs.add _ _

/-- The states of the loop over the sides. -/
def Loops (φ : P3 K →ᵃ[K] P3 K) : P3 K ⊕ P3 K × K → P3 K ⊕ P3 K × K → Prop
  | .inl a, .inl b => b = φ a
  | .inr a, .inr b => Sums φ a b
  | _, _ => False

theorem evalSide_image (hd : 1 ≤ d) (h : Image φ n d F G G') (sds : List (P2 K)) {i : ℕ} (hi : i < n) {st st' : P3 K ⊕ P3 K × K} (hs : Loops φ st st') :
    Agree (Loops φ) (G.evalSide ε sds i st) (G'.evalSide ε sds i st') := by
  unfold evalSide
  cases st <;> cases st'
  · exact hs
  · exact hs.elim
  · exact hs.elim
  · dsimp only
    rw [h.net.n_eq, h.net'.n_eq, h.net.degree, h.net'.degree, h.squared]
    refine Agree.same fun sd _ => Agree.same fun sp _ => Agree.same fun sn _ => ?_
    split_ifs
    · rw [h.net.cpt hi le_rfl (by omega), h.net'.cpt hi le_rfl (by omega), M_bind_ok, M_bind_ok]
      exact rfl
    · rw [h.net.cpt hi (by omega) (by omega), h.net'.cpt hi (by omega) (by omega), M_bind_ok, M_bind_ok]
      exact rfl
    · refine Agree.same fun a _ => Agree.same fun b _ => Agree.same fun bs _ => Agree.same fun bd _ => ?_
      exact (sideSum_image h hi a b bs bd hs).bind fun x y _ _ hxy => hxy

theorem sideEval_image (hd : 1 ≤ d) (h : Image φ n d F G G') (sds : List (P2 K)) : Agree (fun a b => b = φ a) (G.sideEval ε sds) (G'.sideEval ε sds) := by
  unfold sideEval
  rw [h.net.n_eq, h.net'.n_eq]
  refine (Agree.loop (fun _ => Loops φ) (by unfold Loops Sums; simp) fun i hi st st' hs => evalSide_image hd h sds hi hs).bind fun a b _ _ hs => ?_
  cases a <;> cases b
  · exact hs
  · exact hs.elim
  · exact hs.elim
  · unfold evalEnd
    dsimp only
    rw [h.central]
    exact Sums.close hs _

theorem cornerEval_image (h : Image φ n d F G G') (sds : List (P2 K)) : Agree (fun a b => b = φ a) (G.cornerEval sds) (G'.cornerEval sds) := by
  unfold cornerEval
  rw [h.net.n_eq, h.net'.n_eq]
  refine (Agree.loop (fun _ => Sums φ) (by unfold Sums; simp) fun i hi st st' hs => ?_).bind fun a b _ _ hs => by rw [h.central]; exact Sums.close hs _
  unfold cornerStep
  rw [h.net.n_eq, h.net'.n_eq, h.net.degree, h.net'.degree, h.net.layers, h.net'.layers]
  refine Agree.same fun sd _ => Agree.same fun sn _ => Agree.same fun bd _ => Agree.same fun bn _ => ?_
  refine Agree.loop (fun _ => Sums φ) hs fun j hj st st' hs => ?_
  refine Agree.loop (fun _ => Sums φ) hs fun k hk st st' hs => ?_
  refine Agree.same fun x _ => Agree.same fun y _ => ?_
  have e : usub d j = d - j := by unfold usub; rw [if_pos (by omega)]
  rw [e, h.net.cpt hi (by omega) hk, h.net'.cpt hi (by omega) hk, M_bind_ok, M_bind_ok]
  exact hs.add _ _

theorem evalWith_image (hd : 1 ≤ d) (h : Image φ n d F G G') (sds : List (P2 K)) : Agree (fun a b => b = φ a) (G.evalWith ε sds) (G'.evalWith ε sds) := by
  unfold evalWith
  rw [h.kind]
  split
  · exact sideEval_image hd h sds
  · exact cornerEval_image h sds

end GB

end Transfinite
