import Verif.Model.Enumeration
import Verif.Lemmas.Net

/-! The points visited by the loop over all control points. -/

namespace Transfinite

open Spec

theorem forLoop_front {σ : Type} (m : ℕ) (body : ℕ → σ → M σ) (s : σ) :
    forLoop (m + 1) body s = body 0 s >>= fun s' => forLoop m (fun i => body (i + 1)) s' := by
  induction m with
  | zero => rw [forLoop_succ]; change body 0 s = body 0 s >>= fun s' => .ok s'; cases body 0 s <;> rfl
  | succ m ih =>
    rw [forLoop_succ, ih]
    cases body 0 s with
    | error e => rfl
    | ok s' => rw [M_bind_ok, M_bind_ok, forLoop_succ]

theorem enumLoop_eq {σ : Type} (n d : ℕ) (body : ℕ → Name → σ → M σ) (i m : ℕ) (a : Name) (s : σ) :
    enumLoop n d body i m a s = forLoop m (fun t s => body (i + t) (enumPos n d a t) s) s := by
  induction m generalizing i a s with
  | zero => rfl
  | succ m ih =>
    rw [forLoop_front]
    unfold enumLoop
    dsimp only
    change (body i (enumHead n d a) s >>= _) = (body i (enumHead n d a) s >>= _)
    congr 1
    funext s'
    rw [ih]
    congr 1
    funext t s
    rw [show i + 1 + t = i + (t + 1) by omega]
    rfl

variable {n d : ℕ}

theorem enumHead_of_lt {a : Name} (h : a.row + a.col < d) : enumHead n d a = a := by
  unfold enumHead
  rw [usub_of_le (by omega), if_neg (by omega)]

theorem pos_block {i r c t : ℕ} (h : c + t + 2 * r < d) : enumPos n d ⟨i, r + c, r⟩ t = ⟨i, r + c + t, r⟩ := by
  induction t generalizing c with
  | zero => exact enumHead_of_lt (by dsimp only; omega)
  | succ t ih =>
    unfold enumPos
    rw [enumHead_of_lt (by dsimp only; omega)]
    dsimp only
    rw [show r + c + 1 = r + (c + 1) by omega, ih (by omega), show r + (c + 1) + t = r + c + (t + 1) by omega]

theorem pos_skip {i r c t u : ℕ} (h : c + t + 2 * r = d) (hr : 2 * r < d) : enumPos n d ⟨i, r + c, r⟩ (t + u) = enumPos n d ⟨i, d - r, r⟩ u := by
  induction t generalizing c with
  | zero => rw [show r + c = d - r by omega, Nat.zero_add]
  | succ t ih =>
    rw [show t + 1 + u = (t + u) + 1 by omega]
    conv_lhs => unfold enumPos
    rw [enumHead_of_lt (by dsimp only; omega)]
    dsimp only
    rw [show r + c + 1 = r + (c + 1) by omega, ih (by omega)]

theorem pos_of_head {a b : Name} (h : enumHead n d a = enumHead n d b) (u : ℕ) : enumPos n d a u = enumPos n d b u := by
  cases u with
  | zero => exact h
  | succ u => unfold enumPos; rw [h]

theorem pos_next_side {i r u : ℕ} (hi : i + 1 < n) (hr : 2 * r < d) : enumPos n d ⟨i, d - r, r⟩ u = enumPos n d ⟨i + 1, r, r⟩ u := by
  apply pos_of_head
  rw [enumHead_of_lt (a := ⟨i + 1, r, r⟩) (by dsimp only; omega)]
  unfold enumHead
  dsimp only
  rw [usub_of_le (by omega), if_pos le_rfl, if_neg (by omega)]

theorem pos_next_row {i r u : ℕ} (hi : i + 1 = n) (hr : 2 * (r + 1) < d) : enumPos n d ⟨i, d - r, r⟩ u = enumPos n d ⟨0, r + 1, r + 1⟩ u := by
  apply pos_of_head
  rw [enumHead_of_lt (a := ⟨0, r + 1, r + 1⟩) (by dsimp only; omega)]
  unfold enumHead
  dsimp only
  rw [usub_of_le (by omega), if_pos le_rfl, if_pos (by omega)]

theorem pos_side {r i u : ℕ} (hi : i < n) (hr : 2 * r < d) : enumPos n d ⟨0, r, r⟩ (i * (d - 2 * r) + u) = enumPos n d ⟨i, r, r⟩ u := by
  induction i generalizing u with
  | zero => rw [Nat.zero_mul, Nat.zero_add]
  | succ i ih =>
    rw [Nat.succ_mul, Nat.add_assoc, ih (by omega), ← pos_next_side hi hr]
    exact pos_skip (c := 0) (by omega) hr

theorem pos_row {r u : ℕ} (hn : 0 < n) (hr : 2 * (r + 1) < d) :
    enumPos n d ⟨0, r, r⟩ (n * (d - 2 * r) + u) = enumPos n d ⟨0, r + 1, r + 1⟩ u := by
  obtain ⟨m, rfl⟩ : ∃ m, n = m + 1 := ⟨n - 1, by omega⟩
  rw [Nat.succ_mul, Nat.add_assoc, pos_side (by omega) (by omega), ← pos_next_row rfl hr]
  exact pos_skip (c := 0) (by omega) (by omega)

/-- The number of points visited before row `r`. -/
def rowStart (n d r : ℕ) : ℕ := n * (r * (d + 1 - r))

theorem rowStart_succ {r : ℕ} (hr : 2 * r ≤ d) : rowStart n d (r + 1) = rowStart n d r + n * (d - 2 * r) := by
  unfold rowStart
  rw [← Nat.mul_add]
  congr 1
  obtain ⟨e, rfl⟩ := Nat.exists_eq_add_of_le hr
  rw [show 2 * r + e + 1 - (r + 1) = r + e by omega, show 2 * r + e + 1 - r = r + e + 1 by omega, show 2 * r + e - 2 * r = e by omega]
  ring

theorem rowStart_mono {r q : ℕ} (h : r ≤ q) (hq : 2 * q ≤ d + 1) : rowStart n d r ≤ rowStart n d q := by
  induction q, h using Nat.le_induction with
  | base => exact le_rfl
  | succ q h ih => rw [rowStart_succ (by omega)]; have := ih (by omega); omega

theorem pos_rows {f r u : ℕ} (hn : 0 < n) (hf : f ≤ r) (hr : 2 * r < d) :
    enumPos n d ⟨0, f, f⟩ (rowStart n d r - rowStart n d f + u) = enumPos n d ⟨0, r, r⟩ u := by
  induction r, hf using Nat.le_induction generalizing u with
  | base => rw [Nat.sub_self, Nat.zero_add]
  | succ r h ih =>
    have hm : rowStart n d f ≤ rowStart n d r := rowStart_mono h (by omega)
    rw [rowStart_succ (by omega), show rowStart n d r + n * (d - 2 * r) - rowStart n d f + u = rowStart n d r - rowStart n d f + (n * (d - 2 * r) + u) by omega,
      ih (by omega), pos_row hn hr]

/-- The loop that starts in row `f` visits `(i, r + c, r)` at this place. -/
theorem pos_eq {f r i c : ℕ} (hf : f ≤ r) (hi : i < n) (hc : c + 2 * r < d) :
    enumPos n d ⟨0, f, f⟩ (rowStart n d r - rowStart n d f + i * (d - 2 * r) + c) = ⟨i, r + c, r⟩ := by
  rw [Nat.add_assoc, pos_rows (by omega) hf (by omega), pos_side hi (by omega)]
  exact (pos_block (c := 0) (by omega)).trans (by simp)

/-- Every place of the loop is one of these. -/
theorem place {f m t : ℕ} (hf : f ≤ m) (hm : 2 * m ≤ d + 1) (ht : t < rowStart n d m - rowStart n d f) :
    ∃ r i c, f ≤ r ∧ r < m ∧ i < n ∧ c + 2 * r < d ∧ t = rowStart n d r - rowStart n d f + i * (d - 2 * r) + c := by
  induction m, hf using Nat.le_induction with
  | base => omega
  | succ m h ih =>
    by_cases q : t < rowStart n d m - rowStart n d f
    · obtain ⟨r, i, c, h1, h2, h3⟩ := ih (by omega) q
      exact ⟨r, i, c, h1, by omega, h3⟩
    · have hm' : rowStart n d f ≤ rowStart n d m := rowStart_mono h (by omega)
      rw [rowStart_succ (by omega)] at ht
      set u := t - (rowStart n d m - rowStart n d f) with hu
      have hu1 : u < n * (d - 2 * m) := by omega
      have hw : 0 < d - 2 * m := Nat.pos_of_ne_zero fun w => by rw [w] at hu1; omega
      refine ⟨m, u / (d - 2 * m), u % (d - 2 * m), h, by omega, ?_, ?_, ?_⟩
      · exact (Nat.div_lt_iff_lt_mul hw).mpr hu1
      · have := Nat.mod_lt u hw; omega
      · have := Nat.div_add_mod u (d - 2 * m)
        rw [Nat.mul_comm] at this
        omega

theorem enumCount_eq (n d : ℕ) : enumCount n d = rowStart n d ((d + 1) / 2) := by
  unfold enumCount rowStart
  rw [Nat.mul_assoc, show d + 1 - (d + 1) / 2 = 1 + d / 2 by omega, Nat.mul_comm (1 + d / 2)]

end Transfinite
