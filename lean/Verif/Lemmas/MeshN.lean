import Verif.Lemmas.MeshBase

/-! The general (concentric) mesh. -/

namespace Transfinite

open Spec Domain

/-- first index of ring `L` -/
def ringStart (n : ℕ) : ℕ → ℕ
  | 0 => 0
  | L + 1 => 1 + n * triNum L

/-- index of the vertex at position `p` (cyclically) of ring `L` -/
def encN (n L p : ℕ) : ℕ := ringStart n L + p % (n * L)

theorem ringStart_succ (n L : ℕ) : ringStart n (L + 2) = ringStart n (L + 1) + n * (L + 1) := by
  simp only [ringStart, triNum_succ]; ring

theorem ringStart_succ' (n : ℕ) {L : ℕ} (h : 1 ≤ L) : ringStart n (L + 1) = ringStart n L + n * L := by
  obtain ⟨k, rfl⟩ : ∃ k, L = k + 1 := ⟨L - 1, by omega⟩
  exact ringStart_succ n k

theorem ringStart_mono (n : ℕ) {L L' : ℕ} (h : L ≤ L') : ringStart n L ≤ ringStart n L' := by
  cases L with
  | zero => exact Nat.zero_le _
  | succ L =>
    cases L' with
    | zero => omega
    | succ L' =>
      have := Nat.mul_le_mul_left n (triNum_mono (show L ≤ L' by omega))
      simp only [ringStart]; omega

theorem encN_lt {n : ℕ} (hn : 0 < n) {L p : ℕ} (h0 : L = 0 → p = 0) :
    encN n L p < ringStart n (L + 1) := by
  unfold encN
  rcases Nat.eq_zero_or_pos L with h | h
  · subst h; simp [h0, ringStart]
  · have := Nat.mod_lt p (Nat.mul_pos hn h)
    rw [ringStart_succ' n h]; omega

theorem le_encN (n L p : ℕ) : ringStart n L ≤ encN n L p := Nat.le_add_right _ _

theorem encN_inj {n : ℕ} (hn : 0 < n) {L p L' p' : ℕ} (h0 : L = 0 → p = 0) (h0' : L' = 0 → p' = 0)
    (h : encN n L p = encN n L' p') : L = L' ∧ p ≡ p' [MOD n * L] := by
  have : L = L' := by
    rcases Nat.lt_trichotomy L L' with h1 | h1 | h1
    · have a := encN_lt hn h0
      have b := le_encN n L' p'
      have c := ringStart_mono n (show L + 1 ≤ L' from h1)
      omega
    · exact h1
    · have a := encN_lt hn h0'
      have b := le_encN n L p
      have c := ringStart_mono n (show L' + 1 ≤ L from h1)
      omega
  subst this
  refine ⟨rfl, ?_⟩
  unfold encN at h
  exact Nat.add_left_cancel h

theorem encN_congr {n L p p' : ℕ} (h : p ≡ p' [MOD n * L]) : encN n L p = encN n L p' := by
  unfold encN; rw [h]

/-- triangles in layer `l → l+1`, side `k`, position `v` -/
def trisN (n l k v : ℕ) : List Tri :=
  if v < l then
    [(encN n l (k * l + v), encN n (l + 1) (k * (l + 1) + v), encN n (l + 1) (k * (l + 1) + v + 1)),
     (encN n l (k * l + v), encN n (l + 1) (k * (l + 1) + v + 1), encN n l (k * l + v + 1))]
  else
    [(encN n l (k * l + v), encN n (l + 1) (k * (l + 1) + v), encN n (l + 1) (k * (l + 1) + v + 1))]

theorem pos_lt {n k m v : ℕ} (hk : k < n) (hv : v < m) : k * m + v < n * m := by
  have : (k + 1) * m ≤ n * m := Nat.mul_le_mul_right m hk
  have e : (k + 1) * m = k * m + m := by ring
  omega

theorem pos_succ_eq {n k m v : ℕ} (hk : k < n) (hv : v < m) :
    k * m + v + 1 = n * m ↔ k = n - 1 ∧ v = m - 1 := by
  constructor
  · intro h
    have hk' : k = n - 1 := by
      by_contra hne
      have : (k + 2) * m ≤ n * m := Nat.mul_le_mul_right m (by omega)
      have e : (k + 2) * m = k * m + m + m := by ring
      omega
    refine ⟨hk', ?_⟩
    obtain ⟨q, rfl⟩ : ∃ q, n = q + 1 := ⟨n - 1, by omega⟩
    simp only [Nat.add_sub_cancel] at hk'
    subst hk'
    have e : (k + 1) * m = k * m + m := by ring
    omega
  · rintro ⟨h1, h2⟩
    obtain ⟨q, rfl⟩ : ∃ q, n = q + 1 := ⟨n - 1, by omega⟩
    simp only [Nat.add_sub_cancel] at h1
    subst h1
    have e : (k + 1) * m = k * m + m := by ring
    omega

theorem mod_succ {n k m v : ℕ} (hk : k < n) (hv : v < m) :
    (k * m + v + 1) % (n * m) = if k = n - 1 ∧ v = m - 1 then 0 else k * m + v + 1 := by
  split
  · rename_i h; rw [(pos_succ_eq hk hv).mpr h, Nat.mod_self]
  · rename_i h
    have a := pos_lt hk hv
    have b := mt (pos_succ_eq hk hv).mp h
    exact Nat.mod_eq_of_lt (by omega)

theorem ringLoop_eq {n k : ℕ} (l : ℕ) (hk : k < n) : ∀ f v, f + v = l + 1 → 0 < f → ∀ m,
    ringLoop (k == n - 1) (l + 1) (ringStart n l) (ringStart n (l + 1)) f v
      (m, encN n l (k * l + v), encN n (l + 1) (k * (l + 1) + v)) =
    .ok (m ++ (List.range f).flatMap (fun t => trisN n l k (v + t)),
      encN n l ((k + 1) * l), ringStart n (l + 1) + (k + 1) * (l + 1)) := by
  intro f
  induction f with
  | zero => intro v _ h; omega
  | succ f ih =>
    intro v hv _ m
    have hvl : v < l + 1 := by omega
    have hout : encN n (l + 1) (k * (l + 1) + v) = ringStart n (l + 1) + (k * (l + 1) + v) := by
      unfold encN; rw [Nat.mod_eq_of_lt (pos_lt hk hvl)]
    have hnext : (if (k == n - 1 && v == l + 1 - 1) = true then ringStart n (l + 1)
        else encN n (l + 1) (k * (l + 1) + v) + 1) = encN n (l + 1) (k * (l + 1) + v + 1) := by
      conv_rhs => unfold encN; rw [mod_succ hk hvl]
      rw [hout]
      by_cases c : k = n - 1 ∧ v = l
      · simp [c.1, c.2]
      · have c' : ¬ ((k == n - 1 && v == l + 1 - 1) = true) := by simpa using c
        rw [if_neg c', if_neg (by simpa using c)]; ring
    rw [ringLoop]
    dsimp only
    rw [hnext]
    by_cases hl : v + 1 = l + 1
    · rw [if_pos hl]
      have hvl' : v = l := by omega
      have hf : f = 0 := by omega
      subst hf; subst hvl'
      have e1 : (k + 1) * v = k * v + v := by ring
      have e2 : ringStart n (v + 1) + (k + 1) * (v + 1) = ringStart n (v + 1) + (k * (v + 1) + v) + 1 := by ring
      rw [e1, e2, hout]
      simp [trisN, hout]
    · rw [if_neg hl]
      have hvl' : v < l := by omega
      have hin : encN n l (k * l + v) = ringStart n l + (k * l + v) := by
        unfold encN; rw [Nat.mod_eq_of_lt (pos_lt hk hvl')]
      have hinner : (if (k == n - 1 && v + 1 == l + 1 - 1) = true then ringStart n l
          else encN n l (k * l + v) + 1) = encN n l (k * l + v + 1) := by
        conv_rhs => unfold encN; rw [mod_succ hk hvl']
        rw [hin]
        by_cases c : k = n - 1 ∧ v = l - 1
        · have : v + 1 = l := by omega
          simp [c.1, this]; omega
        · have c' : ¬ ((k == n - 1 && v + 1 == l + 1 - 1) = true) := by
            simp only [Nat.add_sub_cancel, Bool.and_eq_true, beq_iff_eq, not_and]
            intro h1 h2; exact c ⟨h1, by omega⟩
          rw [if_neg c', if_neg c]; ring
      rw [hinner]
      have hout' : encN n (l + 1) (k * (l + 1) + v) + 1 = encN n (l + 1) (k * (l + 1) + (v + 1)) := by
        rw [hout]
        unfold encN; rw [Nat.mod_eq_of_lt (pos_lt hk (by omega))]; ring
      rw [hout']
      have := ih (v + 1) (by omega) (by omega)
        (m ++ [(encN n l (k * l + v), encN n (l + 1) (k * (l + 1) + v), encN n (l + 1) (k * (l + 1) + v + 1))] ++
          [(encN n l (k * l + v), encN n (l + 1) (k * (l + 1) + v + 1), encN n l (k * l + v + 1))])
      rw [show k * l + v + 1 = k * l + (v + 1) from rfl] at *
      rw [this]
      congr 2
      rw [List.range_succ_eq_map, List.flatMap_cons, List.flatMap_map]
      have e1 : (fun a => trisN n l k (v + a + 1)) = fun t => trisN n l k (v + 1 + t) := by
        funext t; congr 1; omega
      have e2 : trisN n l k (v + 0) = _ := if_pos hvl'
      rw [Nat.add_zero] at e2
      simp only [Nat.succ_eq_add_one, e1, Nat.add_zero, e2, List.append_assoc, List.cons_append,
        List.nil_append, ← Nat.add_assoc]

def sideN (n l k : ℕ) : List Tri := (List.range (l + 1)).flatMap fun v => trisN n l k v

def allN (n R : ℕ) : List Tri :=
  (List.range R).flatMap fun l => (List.range n).flatMap fun k => sideN n l k

theorem topologyN_eq {n : ℕ} (R : ℕ) : topologyN n R = .ok (allN n R) := by
  unfold topologyN
  rw [forLoop_eq (fun l => (allN n l, ringStart n l, ringStart n (l + 1)))]
  · rfl
  · simp [allN, ringStart]
  · intro l _
    dsimp only
    rw [forLoop_eq (fun k => (allN n l ++ (List.range k).flatMap (fun k => sideN n l k),
      encN n l (k * l), ringStart n (l + 1) + k * (l + 1)))]
    · simp only [M_bind_ok, Except.ok.injEq, Prod.mk.injEq, true_and]
      constructor
      · simp [allN, List.range_succ]
      · rw [ringStart_succ]
    · simp [encN]
    · intro k hk
      have hout : ringStart n (l + 1) + k * (l + 1) = encN n (l + 1) (k * (l + 1) + 0) := by
        unfold encN; rw [Nat.mod_eq_of_lt (pos_lt hk (by omega))]; rfl
      rw [hout]
      have := ringLoop_eq l hk (l + 1) 0 (by omega) (by omega)
        (allN n l ++ (List.range k).flatMap (fun k => sideN n l k))
      rw [show k * l + 0 = k * l from rfl] at this
      rw [this]
      simp [List.range_succ, sideN]

/-! ### Edges -/

theorem mem_trisN {n l k v : ℕ} {e : ℕ × ℕ} : e ∈ meshEdges (trisN n l k v) ↔
    (e = (encN n l (k * l + v), encN n (l + 1) (k * (l + 1) + v)) ∨
     e = (encN n (l + 1) (k * (l + 1) + v), encN n (l + 1) (k * (l + 1) + v + 1)) ∨
     e = (encN n (l + 1) (k * (l + 1) + v + 1), encN n l (k * l + v))) ∨
    (v < l ∧ (e = (encN n l (k * l + v), encN n (l + 1) (k * (l + 1) + v + 1)) ∨
     e = (encN n (l + 1) (k * (l + 1) + v + 1), encN n l (k * l + v + 1)) ∨
     e = (encN n l (k * l + v + 1), encN n l (k * l + v)))) := by
  by_cases h : v < l <;> simp [meshEdges, trisN, dirEdges, h, or_assoc]

theorem mem_allN {n R : ℕ} {e : ℕ × ℕ} : e ∈ meshEdges (allN n R) ↔
    ∃ l < R, ∃ k < n, ∃ v ≤ l, e ∈ meshEdges (trisN n l k v) := by
  simp [allN, sideN, meshEdges_flatMap, Nat.lt_succ_iff]

/-- Positions on a ring are uniquely decoded. -/
theorem pos_decode {n m k v k' v' : ℕ} (hk : k < n) (hk' : k' < n) (hv : v < m) (hv' : v' < m)
    (h : k * m + v ≡ k' * m + v' [MOD n * m]) : k = k' ∧ v = v' := by
  have h1 : k * m + v = k' * m + v' := h.eq_of_lt_of_lt (pos_lt hk hv) (pos_lt hk' hv')
  have a : (k * m + v) / m = k := by
    rw [mul_comm, Nat.mul_add_div (by omega), Nat.div_eq_of_lt hv, add_zero]
  have b : (k' * m + v') / m = k' := by
    rw [mul_comm, Nat.mul_add_div (by omega), Nat.div_eq_of_lt hv', add_zero]
  have : k = k' := by rw [← a, ← b, h1]
  subst this; exact ⟨rfl, by omega⟩

theorem not_modEq_add {m a b : ℕ} (hb : 0 < b) (hm : b < m) : ¬ (a ≡ a + b [MOD m]) := by
  intro h
  have : (0 : ℕ) ≡ b [MOD m] := Nat.ModEq.add_left_cancel' a (by simpa using h)
  rw [Nat.ModEq, Nat.zero_mod, Nat.mod_eq_of_lt hm] at this
  omega

/-- Two uses of a directed edge have the same label (layer, side, position). -/
theorem edgesN_label {n : ℕ} (hn : 3 ≤ n) {l k v l' k' v' : ℕ} (hk : k < n) (hk' : k' < n) (hv : v ≤ l)
    (hv' : v' ≤ l') {e : ℕ × ℕ} (h : e ∈ meshEdges (trisN n l k v))
    (h' : e ∈ meshEdges (trisN n l' k' v')) : l = l' ∧ k = k' ∧ v = v' := by
  have n0 : 0 < n := by omega
  have z : ∀ l k v, v ≤ l → (l = 0 → k * l + v = 0) := by
    intro l k v hv h; subst h; simp; omega
  have z' : ∀ l k v, v < l → (l = 0 → k * l + v + 1 = 0) := by intro l k v hv h; omega
  have s : ∀ l p, (l + 1 = 0 → p = 0) := by intro l p h; omega
  have big : ∀ l, 0 < l → 2 < n * l := by
    intro l hl
    have : n * 1 ≤ n * l := Nat.mul_le_mul_left n hl
    omega
  rw [mem_trisN] at h h'
  rcases h with (rfl | rfl | rfl) | ⟨hl, (rfl | rfl | rfl)⟩ <;>
  rcases h' with (h' | h' | h') | ⟨hl', (h' | h' | h')⟩ <;>
  obtain ⟨h1, h2⟩ := Prod.mk.inj h'
  -- A1
  · obtain ⟨rfl, _⟩ := encN_inj n0 (z _ _ _ hv) (z _ _ _ hv') h1
    obtain ⟨_, c⟩ := encN_inj n0 (s _ _) (s _ _) h2
    exact ⟨rfl, pos_decode hk hk' (by omega) (by omega) c⟩
  · have a := (encN_inj n0 (z _ _ _ hv) (s _ _) h1).1
    have b := (encN_inj n0 (s _ _) (s _ _) h2).1
    omega
  · have a := (encN_inj n0 (z _ _ _ hv) (s _ _) h1).1
    have b := (encN_inj n0 (s _ _) (z _ _ _ hv') h2).1
    omega
  · obtain ⟨rfl, c1⟩ := encN_inj n0 (z _ _ _ hv) (z _ _ _ hv') h1
    obtain ⟨_, c⟩ := encN_inj n0 (s _ _) (s _ _) h2
    obtain ⟨rfl, rfl⟩ := pos_decode (v' := v' + 1) hk hk' (by omega) (by omega) c
    exact absurd c1.symm (not_modEq_add (b := 1) (by omega) (by have := big l (by omega); omega))
  · have a := (encN_inj n0 (z _ _ _ hv) (s _ _) h1).1
    have b := (encN_inj n0 (s _ _) (z' _ _ _ hl') h2).1
    omega
  · have a := (encN_inj n0 (z _ _ _ hv) (z' _ _ _ hl') h1).1
    have b := (encN_inj n0 (s _ _) (z _ _ _ hv') h2).1
    omega
  -- A2
  · have a := (encN_inj n0 (s _ _) (z _ _ _ hv') h1).1
    have b := (encN_inj n0 (s _ _) (s _ _) h2).1
    omega
  · obtain ⟨a, c⟩ := encN_inj n0 (s _ _) (s _ _) h1
    have a : l = l' := by omega
    subst a
    exact ⟨rfl, pos_decode hk hk' (by omega) (by omega) c⟩
  · have a := (encN_inj n0 (s _ _) (s _ _) h1).1
    have b := (encN_inj n0 (s _ _) (z _ _ _ hv') h2).1
    omega
  · have a := (encN_inj n0 (s _ _) (z _ _ _ hv') h1).1
    have b := (encN_inj n0 (s _ _) (s _ _) h2).1
    omega
  · have a := (encN_inj n0 (s _ _) (s _ _) h1).1
    have b := (encN_inj n0 (s _ _) (z' _ _ _ hl') h2).1
    omega
  · obtain ⟨a, c1⟩ := encN_inj n0 (s _ _) (z' _ _ _ hl') h1
    obtain ⟨_, c2⟩ := encN_inj n0 (s _ _) (z _ _ _ hv') h2
    exfalso
    -- p ≡ q + 1, p + 1 ≡ q
    have c3 := c1.add_right 1
    have c4 := c3.symm.trans c2
    exact not_modEq_add (b := 2) (by omega) (by have := big (l + 1) (by omega); omega) c4.symm
  -- A3
  · have a := (encN_inj n0 (s _ _) (z _ _ _ hv') h1).1
    have b := (encN_inj n0 (z _ _ _ hv) (s _ _) h2).1
    omega
  · have a := (encN_inj n0 (s _ _) (s _ _) h1).1
    have b := (encN_inj n0 (z _ _ _ hv) (s _ _) h2).1
    omega
  · obtain ⟨_, c⟩ := encN_inj n0 (s _ _) (s _ _) h1
    obtain ⟨rfl, _⟩ := encN_inj n0 (z _ _ _ hv) (z _ _ _ hv') h2
    exact ⟨rfl, pos_decode hk hk' (by omega) (by omega) (Nat.ModEq.add_right_cancel' 1 c)⟩
  · have a := (encN_inj n0 (s _ _) (z _ _ _ hv') h1).1
    have b := (encN_inj n0 (z _ _ _ hv) (s _ _) h2).1
    omega
  · obtain ⟨_, c⟩ := encN_inj n0 (s _ _) (s _ _) h1
    obtain ⟨rfl, c2⟩ := encN_inj n0 (z _ _ _ hv) (z' _ _ _ hl') h2
    obtain ⟨rfl, rfl⟩ := pos_decode hk hk' (by omega) (by omega) (Nat.ModEq.add_right_cancel' 1 c)
    exact absurd c2 (not_modEq_add (b := 1) (by omega) (by have := big l (by omega); omega))
  · have a := (encN_inj n0 (s _ _) (z' _ _ _ hl') h1).1
    have b := (encN_inj n0 (z _ _ _ hv) (z _ _ _ hv') h2).1
    omega
  -- B1
  · obtain ⟨rfl, c1⟩ := encN_inj n0 (z _ _ _ hv) (z _ _ _ hv') h1
    obtain ⟨_, c⟩ := encN_inj n0 (s _ _) (s _ _) h2
    obtain ⟨rfl, rfl⟩ := pos_decode (v := v + 1) hk hk' (by omega) (by omega) c
    exact absurd c1 (not_modEq_add (b := 1) (by omega) (by have := big l (by omega); omega))
  · have a := (encN_inj n0 (z _ _ _ hv) (s _ _) h1).1
    have b := (encN_inj n0 (s _ _) (s _ _) h2).1
    omega
  · have a := (encN_inj n0 (z _ _ _ hv) (s _ _) h1).1
    have b := (encN_inj n0 (s _ _) (z _ _ _ hv') h2).1
    omega
  · obtain ⟨rfl, _⟩ := encN_inj n0 (z _ _ _ hv) (z _ _ _ hv') h1
    obtain ⟨_, c⟩ := encN_inj n0 (s _ _) (s _ _) h2
    exact ⟨rfl, pos_decode hk hk' (by omega) (by omega) (Nat.ModEq.add_right_cancel' 1 c)⟩
  · have a := (encN_inj n0 (z _ _ _ hv) (s _ _) h1).1
    have b := (encN_inj n0 (s _ _) (z' _ _ _ hl') h2).1
    omega
  · have a := (encN_inj n0 (z _ _ _ hv) (z' _ _ _ hl') h1).1
    have b := (encN_inj n0 (s _ _) (z _ _ _ hv') h2).1
    omega
  -- B2
  · have a := (encN_inj n0 (s _ _) (z _ _ _ hv') h1).1
    have b := (encN_inj n0 (z' _ _ _ hl) (s _ _) h2).1
    omega
  · have a := (encN_inj n0 (s _ _) (s _ _) h1).1
    have b := (encN_inj n0 (z' _ _ _ hl) (s _ _) h2).1
    omega
  · obtain ⟨_, c⟩ := encN_inj n0 (s _ _) (s _ _) h1
    obtain ⟨rfl, c2⟩ := encN_inj n0 (z' _ _ _ hl) (z _ _ _ hv') h2
    obtain ⟨rfl, rfl⟩ := pos_decode hk hk' (by omega) (by omega) (Nat.ModEq.add_right_cancel' 1 c)
    exact absurd c2.symm (not_modEq_add (b := 1) (by omega) (by have := big l (by omega); omega))
  · have a := (encN_inj n0 (s _ _) (z _ _ _ hv') h1).1
    have b := (encN_inj n0 (z' _ _ _ hl) (s _ _) h2).1
    omega
  · obtain ⟨_, c⟩ := encN_inj n0 (s _ _) (s _ _) h1
    obtain ⟨rfl, c2⟩ := encN_inj n0 (z' _ _ _ hl) (z' _ _ _ hl') h2
    exact ⟨rfl, pos_decode hk hk' (by omega) (by omega) (Nat.ModEq.add_right_cancel' 1 c)⟩
  · have a := (encN_inj n0 (s _ _) (z' _ _ _ hl') h1).1
    have b := (encN_inj n0 (z' _ _ _ hl) (z _ _ _ hv') h2).1
    omega
  -- B3
  · have a := (encN_inj n0 (z' _ _ _ hl) (z _ _ _ hv') h1).1
    have b := (encN_inj n0 (z _ _ _ hv) (s _ _) h2).1
    omega
  · obtain ⟨a, c1⟩ := encN_inj n0 (z' _ _ _ hl) (s _ _) h1
    obtain ⟨_, c2⟩ := encN_inj n0 (z _ _ _ hv) (s _ _) h2
    exfalso
    have c3 := c2.add_right 1
    have c4 := c3.symm.trans c1
    exact not_modEq_add (b := 2) (by omega) (by have := big l (by omega); omega) c4.symm
  · have a := (encN_inj n0 (z' _ _ _ hl) (s _ _) h1).1
    have b := (encN_inj n0 (z _ _ _ hv) (z _ _ _ hv') h2).1
    omega
  · have a := (encN_inj n0 (z' _ _ _ hl) (z _ _ _ hv') h1).1
    have b := (encN_inj n0 (z _ _ _ hv) (s _ _) h2).1
    omega
  · have a := (encN_inj n0 (z' _ _ _ hl) (s _ _) h1).1
    have b := (encN_inj n0 (z _ _ _ hv) (z' _ _ _ hl') h2).1
    omega
  · obtain ⟨rfl, c2⟩ := encN_inj n0 (z _ _ _ hv) (z _ _ _ hv') h2
    exact ⟨rfl, pos_decode hk hk' (by omega) (by omega) c2⟩

end Transfinite
