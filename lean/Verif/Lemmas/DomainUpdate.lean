import Verif.Lemmas.Polygon
import Mathlib.Tactic.Positivity

namespace Transfinite

open Spec

variable {K : Type*} [Field K] [LinearOrder K]

/-- `du_[i]` -/
def duOf (n : ℕ) (v : ℕ → P2 K) (i : ℕ) : P2 K := v i - v (prevIx n i)

/-- `dv_[i]` -/
def dvOf (n : ℕ) (v : ℕ → P2 K) (c : P2 K) (i : ℕ) : P2 K :=
  let du := duOf n v i
  let dv : P2 K := ⟨du.y, -du.x⟩
  if P2.dot (c - v i) dv < 0 then -dv else dv

theorem updateFrom_eq (n : ℕ) (v : ℕ → P2 K) (c : P2 K) :
    Domain.updateFrom (tab n v) c = .ok ⟨n, c, tab n v, tab n (duOf n v), tab n (dvOf n v c)⟩ := by
  unfold Domain.updateFrom
  simp only [length_tab]
  rw [forLoop_push n _ (fun i => (duOf n v i, dvOf n v c i))]
  · simp [tab]
  · intro k s hk
    unfold Domain.localFrame
    rw [vget_tab v hk, vget_tab v (prevIx_lt (by omega))]
    simp only [M_bind_ok]
    change (do
      let f ← (if P2.dot (c - v k) ⟨(duOf n v k).y, -(duOf n v k).x⟩ < 0
        then .ok (duOf n v k, -(⟨(duOf n v k).y, -(duOf n v k).x⟩ : P2 K))
        else .ok (duOf n v k, ⟨(duOf n v k).y, -(duOf n v k).x⟩) : M (P2 K × P2 K))
      Except.ok (s ++ [f])) = _
    unfold dvOf
    by_cases h : P2.dot (c - v k) ⟨(duOf n v k).y, -(duOf n v k).x⟩ < 0
    · simp only [if_pos h, M_bind_ok]
    · simp only [if_neg h, M_bind_ok]

theorem dvOf_dot [IsStrictOrderedRing K] {n : ℕ} {v : ℕ → P2 K} {c : P2 K} {i : ℕ} (h : 0 < leftOf n v i c) (p : P2 K) :
    P2.dot (p - v (prevIx n i)) (dvOf n v c i) = leftOf n v i p := by
  have hlt : P2.dot (c - v i) ⟨(duOf n v i).y, -(duOf n v i).x⟩ < 0 := by
    simp only [leftOf, area2] at h
    simp only [P2.dot, duOf, prevIx, P2.sub_x, P2.sub_y]
    linarith
  unfold dvOf
  simp only [if_pos hlt]
  simp only [leftOf, area2, P2.dot, duOf, prevIx, P2.sub_x, P2.sub_y, P2.neg_x, P2.neg_y]; ring

theorem dvOf_eq [IsStrictOrderedRing K] {n : ℕ} {v : ℕ → P2 K} {c : P2 K} {i : ℕ} (h : 0 < leftOf n v i c) :
    dvOf n v c i = ⟨-(duOf n v i).y, (duOf n v i).x⟩ := by
  have hlt : P2.dot (c - v i) ⟨(duOf n v i).y, -(duOf n v i).x⟩ < 0 := by
    simp only [leftOf, area2] at h
    simp only [P2.dot, duOf, prevIx, P2.sub_x, P2.sub_y]
    linarith
  unfold dvOf
  simp only [if_pos hlt]
  ext <;> simp

end Transfinite
