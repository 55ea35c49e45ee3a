import Verif.Model.Ribbon
import Verif.Lemmas.RMF
import Verif.Lemmas.Bernstein

/-! # Lemmas on ribbons -/

namespace Transfinite

theorem bind_ok {α β : Type} {x : M α} {f : α → M β} {b : β} (h : (x >>= f) = .ok b) : ∃ a, x = .ok a ∧ f a = .ok b := by
  cases x with
  | error e => cases h
  | ok a => exact ⟨a, rfl, h⟩

namespace Ribbon

variable {K : Type} [Field K]

theorem project_perp {n : P3 K} (hn : P3.dot n n = 1) (v : P3 K) : P3.dot (project n v) n = 0 := by
  unfold project
  rw [P3.dot_sub_left, P3.dot_smul_left, hn, mul_one, sub_self]

theorem project_of_perp {n v : P3 K} (h : P3.dot v n = 0) : project n v = v := by
  unfold project
  rw [h, zero_smul, sub_zero]

theorem bezierPt_eq (n : ℕ) (p : ℕ → P3 K) (u : K) :
    bezierPt (tab (n + 1) p) u = .ok (Spec.bezier n p u) := by
  unfold bezierPt
  rw [length_tab, Nat.add_sub_cancel, bernsteinAll_eq, M_bind_ok]
  rw [forLoop_sum (n + 1) _ (fun j => Spec.bern n j u • p j), zero_add]
  · rfl
  · intro k s hk
    rw [vget_tab _ hk, vget_tab _ hk]
    rfl

theorem bezier_zero (n : ℕ) (p : ℕ → P3 K) : Spec.bezier n p (0 : K) = p 0 := by
  unfold Spec.bezier
  rw [Finset.sum_eq_single 0]
  · rw [bern_at_zero, if_pos rfl, one_smul]
  · intro j _ hj
    rw [bern_at_zero, if_neg hj, zero_smul]
  · simp

theorem bezier_one (n : ℕ) (p : ℕ → P3 K) : Spec.bezier n p (1 : K) = p n := by
  unfold Spec.bezier
  rw [Finset.sum_eq_single n]
  · rw [bern_at_one le_rfl, if_pos rfl, one_smul]
  · intro j hj hjn
    rw [Finset.mem_range] at hj
    rw [bern_at_one (by omega), if_neg hjn, zero_smul]
  · simp

end Ribbon

open Ribbon

variable {ε : ℝ} {nb : Neighbors ℝ}

/-- What `Ribbon::update` leaves unchanged, and what it computes. -/
theorem baseUpdate_parts {r r' : Ribbon ℝ} (h : baseUpdate ε nb r = .ok r') :
    ∃ start fin rmf, (P3.cross (nb.prev.der 1) (r.curve.der 0)).normalize = .ok start ∧
      (P3.cross (r.curve.der 1) (nb.next.der 0)).normalize = .ok fin ∧
      RMF.update ε RMF.resolution r.curve start fin = .ok rmf ∧ r' = { r with rmf := rmf } := by
  unfold baseUpdate at h
  obtain ⟨start, h1, h⟩ := bind_ok h
  obtain ⟨fin, h2, h⟩ := bind_ok h
  obtain ⟨rmf, h3, h⟩ := bind_ok h
  cases h
  exact ⟨start, fin, rmf, h1, h2, h3, rfl⟩

/-- The common part of the `update` of all ribbons except the dummy one. -/
structure Updated (ε : ℝ) (nb : Neighbors ℝ) (r r' : Ribbon ℝ) : Prop where
  kind : r'.kind = r.kind
  curve : r'.curve = r.curve
  fence : r'.fence = r.fence
  mult : r'.mult = r.mult
  init : r'.handlerInit = r.handlerInit
  rmf : ∃ start fin, (P3.cross (nb.prev.der 1) (r.curve.der 0)).normalize = .ok start ∧
      (P3.cross (r.curve.der 1) (nb.next.der 0)).normalize = .ok fin ∧
      RMF.update ε RMF.resolution r.curve start fin = .ok r'.rmf

theorem baseUpdate_updated {r r' : Ribbon ℝ} (h : baseUpdate ε nb r = .ok r') : Updated ε nb r r' := by
  obtain ⟨a, b, c, h1, h2, h3, rfl⟩ := baseUpdate_parts h
  exact ⟨rfl, rfl, rfl, rfl, rfl, a, b, h1, h2, h3⟩

theorem handlerUpdate_parts {r r' : Ribbon ℝ} (h : handlerUpdate ε nb r = .ok r') :
    Updated ε nb r r' ∧ r'.prevT = -nb.prev.der 1 ∧ r'.nextT = nb.next.der 0 ∧
      (r.handlerInit = true → r'.handlerV = r.handlerV) ∧
      (r.handlerInit = false → ∃ n a b, normal ε r' (1 / 2) = .ok n ∧ vdiv r'.prevT r'.prevT.norm = .ok a ∧
        vdiv r'.nextT r'.nextT.norm = .ok b ∧ (project n (a + b)).normalize = .ok r'.handlerV) ∧
      r'.central = ((r'.prevT.norm + r'.nextT.norm) / 2 * r.mult) • r'.handlerV := by
  unfold handlerUpdate at h
  obtain ⟨r1, h1, h⟩ := bind_ok h
  have hu := baseUpdate_updated h1
  obtain ⟨_, _, _, _, _, _, e⟩ := baseUpdate_parts h1
  obtain ⟨n, hn, h⟩ := bind_ok h
  obtain ⟨hh, hhh, h⟩ := bind_ok h
  cases h
  unfold effectiveHandler at hhh
  have hnorm : normal ε { r1 with handlerV := hh, central := ((r1.prevT.norm + r1.nextT.norm) / 2 * r1.mult) • hh } (1 / 2) = .ok n := hn
  refine ⟨⟨hu.kind, hu.curve, hu.fence, hu.mult, hu.init, hu.rmf⟩, by rw [e], by rw [e], ?_, ?_, ?_⟩
  · intro hi
    rw [hu.init, hi, if_pos rfl] at hhh
    cases hhh
    rw [e]
  · intro hi
    rw [hu.init, hi] at hhh
    simp only [Bool.false_eq_true, if_false] at hhh
    obtain ⟨a, ha, hhh⟩ := bind_ok hhh
    obtain ⟨b, hb, hhh⟩ := bind_ok hhh
    exact ⟨n, a, b, hnorm, ha, hb, hhh⟩
  · dsimp only
    rw [hu.mult]

theorem update_updated {r r' : Ribbon ℝ} (h : Ribbon.update ε nb r = .ok r') (hd : r.kind ≠ .dummy) : Updated ε nb r r' := by
  unfold Ribbon.update at h
  split at h
  · obtain ⟨a, b, c, h1, h2, h3, rfl⟩ := baseUpdate_parts h
    exact ⟨rfl, rfl, rfl, rfl, rfl, a, b, h1, h2, h3⟩
  · exact (handlerUpdate_parts h).1
  · obtain ⟨a, b, c, h1, h2, h3, rfl⟩ := baseUpdate_parts h
    exact ⟨rfl, rfl, rfl, rfl, rfl, a, b, h1, h2, h3⟩
  · unfold perpUpdate at h
    obtain ⟨r1, h1, h⟩ := bind_ok h
    have hu := baseUpdate_updated h1
    obtain ⟨_, _, h⟩ := bind_ok h
    obtain ⟨_, _, h⟩ := bind_ok h
    obtain ⟨_, _, h⟩ := bind_ok h
    obtain ⟨_, _, h⟩ := bind_ok h
    obtain ⟨_, _, h⟩ := bind_ok h
    obtain ⟨_, _, h⟩ := bind_ok h
    cases h
    exact ⟨hu.kind, hu.curve, hu.fence, hu.mult, hu.init, hu.rmf⟩
  · obtain ⟨a, b, c, h1, h2, h3, rfl⟩ := baseUpdate_parts h
    exact ⟨rfl, rfl, rfl, rfl, rfl, a, b, h1, h2, h3⟩
  · rename_i hk
    exact absurd hk hd

end Transfinite
