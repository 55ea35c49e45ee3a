import Verif.Lemmas.GBFitSystem

/-! # C49, C66: fitting a Generalized Bézier patch -/

namespace Transfinite

open Spec Param

namespace GB

theorem forLoop_keeps {α : Type} {m : ℕ} {f : ℕ → α → M α} {a b : α} (p : α → Prop) (h0 : p a) (hs : ∀ k x y, k < m → p x → f k x = .ok y → p y) (h : forLoop m f a = .ok b) : p b := by
  induction m generalizing b with
  | zero => cases h; exact h0
  | succ m ih =>
    rw [forLoop_succ] at h
    obtain ⟨x, e, h⟩ := bind_ok h
    exact hs m x b (Nat.lt_succ_self m) (ih (fun k x y hk => hs k x y (by omega)) e) h

variable {ε : ℝ} {arc : List (P3 ℝ) → ℝ → ℝ → ℝ} {n d : ℕ} {calls : List (Call ℝ)} {S : GB ℝ}

/-- The points set by `fitBase`. -/
noncomputable def wBase (n d : ℕ) (s : ℕ → ℕ → ℕ → P3 ℝ) : List (Name × P3 ℝ) :=
  (List.range n).flatMap fun i => (List.range (d - 1)).flatMap fun j => (List.range 2).flatMap fun k => [(⟨i, j, k⟩, s i j k)]

theorem mem_wBase {s : ℕ → ℕ → ℕ → P3 ℝ} {x : Name × P3 ℝ} : x ∈ wBase n d s ↔ x.1.side < n ∧ x.1.col < d - 1 ∧ x.1.row < 2 ∧ x.2 = s x.1.side x.1.col x.1.row := by
  simp only [wBase, List.mem_flatMap, List.mem_range, List.mem_singleton]
  constructor
  · rintro ⟨i, hi, j, hj, k, hk, rfl⟩
    exact ⟨hi, hj, hk, rfl⟩
  · rintro ⟨h1, h2, h3, h4⟩
    exact ⟨_, h1, _, h2, _, h3, Prod.ext rfl h4⟩

/-- The patch at the beginning of the fit. -/
theorem fitBase_eq (hn : 3 ≤ n) (hd : 3 ≤ d) {kind : GBKind ℝ} (hS : Usable ε arc kind n d calls S) (hreg : ∀ c ∈ calls, c.regular = true) (g0 l0 : ℕ) :
    ∃ R0 s F, S.fitBase arc g0 l0 n d = .ok R0 ∧ FitOk ε arc n d R0 R0 ∧ R0.squared = false ∧ HasNet S n d s ∧ HasNet R0 n d F ∧
      (∀ a b : Name, a.InRange n d → b.InRange n d → SamePoint n d a b → F a.side a.col a.row = F b.side b.col b.row) ∧
      (∀ a : Name, a.InRange n d → a.row < 2 → F a.side a.col a.row = s a.side a.col a.row) ∧
      ∀ a : Name, a.InRange n d → 2 ≤ a.row → a.row ≤ a.col → a.col + a.row < d → F a.side a.col a.row = 0 := by
  obtain ⟨s, hs, hcons⟩ := hS.consistent hn hreg
  have hWr : ∀ x ∈ wBase n d s, x.1.InRange n d := by
    intro x hx
    obtain ⟨h1, h2, h3, _⟩ := mem_wBase.mp hx
    exact ⟨h1, by omega, by omega⟩
  have hne : ¬(n = (GB.new .side g0 l0 : GB ℝ).n ∧ d = (GB.new .side g0 l0 : GB ℝ).degree) := by
    rintro ⟨h, -⟩
    change n = 0 at h
    omega
  set R00 := (GB.new .side g0 l0 : GB ℝ).initBase n d with hR00
  have hN0 : HasNet R00 n d (fun _ _ _ => 0) := initBase_net hne
  obtain ⟨R1, e1, q1, hN1⟩ := sets_eq hWr hN0
  obtain ⟨R0, e3⟩ := setupLoop_total (arc := arc) hN1 hn (by omega)
  have k3 := setupLoop_keeps e3
  have hN3 := k3.hasNet hN1
  have hU : Usable ε arc .side n d ((.init n d :: ((wBase n d s).map fun x => Call.set x.1.side x.1.col x.1.row x.2)) ++ [.loop]) R0 := by
    refine ⟨g0, l0, _, [], rfl, run_join (G1 := R1) ?_ ?_, ?_, by simp, hN3.n_eq, hN3.degree⟩
    · unfold run
      rw [show (GB.new .side g0 l0 : GB ℝ).step ε arc (.init n d) = .ok R00 from rfl, M_bind_ok, sets_run, e1]
    · unfold run
      rw [show R1.step ε arc .loop = .ok R0 from e3, M_bind_ok]
      rfl
    · intro x hx
      simp only [List.mem_cons, List.mem_map] at hx
      rcases hx with rfl | ⟨_, _, rfl⟩ <;> rfl
  have hR : ∀ x ∈ (.init n d :: ((wBase n d s).map fun x => Call.set x.1.side x.1.col x.1.row x.2)) ++ [.loop], x.regular = true := by
    intro x hx
    simp only [List.cons_append, List.mem_cons, List.mem_append, List.mem_map, List.not_mem_nil, or_false] at hx
    rcases hx with rfl | ⟨_, _, rfl⟩ | rfl <;> rfl
  refine ⟨R0, s, _, ?_, ⟨⟨_, hU, hR⟩, SameNet.refl _, rfl⟩, ?_, hs, hN3, ?_, ?_, ?_⟩
  · unfold fitBase
    rw [show (GB.new .side g0 l0 : GB ℝ).initNetwork n d = .ok R00 from rfl, M_bind_ok, usub_of_le (show 1 ≤ d by omega)]
    rw [forLoop_sets (w := fun i => (List.range (d - 1)).flatMap fun j => (List.range 2).flatMap fun k => [(⟨i, j, k⟩, s i j k)]) (fun i hi R =>
      forLoop_sets (fun j hj R => forLoop_sets (fun k hk R => by
        rw [show S.controlPoint i j k = _ from hs.cpt hi (by omega) (by omega), M_bind_ok, sets_single]) R) R)]
    rw [show sets ((List.range n).flatMap fun i => (List.range (d - 1)).flatMap fun j => (List.range 2).flatMap fun k => [(⟨i, j, k⟩, s i j k)]) R00 = .ok R1 from e1, M_bind_ok, e3]
  · rw [k3.squared, q1]
    change R00.squared = false
    rw [hR00]
    unfold initBase
    rw [if_neg hne]
    rfl
  · obtain ⟨F', hF', hc'⟩ := hU.consistent hn hR
    intro a b ha hb hab
    have h1 := Except.ok.inj ((hF'.cpt ha.1 ha.2.1 ha.2.2).symm.trans (hN3.cpt ha.1 ha.2.1 ha.2.2))
    have h2 := Except.ok.inj ((hF'.cpt hb.1 hb.2.1 hb.2.2).symm.trans (hN3.cpt hb.1 hb.2.1 hb.2.2))
    rw [← h1, ← h2]
    exact hc' a b ha hb hab
  · intro a ha h2
    refine foldl_const (a := a) ?_ _ (Or.inr ?_)
    · intro x hx hsx
      obtain ⟨h4, h5, h6, h7⟩ := mem_wBase.mp hx
      rw [h7]
      exact (hcons a x.1 ha (hWr x hx) hsx).symm
    · obtain ⟨i, j, k⟩ := a
      obtain ⟨a1, a2, a3⟩ := ha
      dsimp only at *
      by_cases c : j < d - 1
      · exact ⟨(⟨i, j, k⟩, s i j k), mem_wBase.mpr ⟨a1, c, h2, rfl⟩, Or.inl rfl⟩
      · have hnx : (i + 1) % n < n := Nat.mod_lt _ (by omega)
        refine ⟨(⟨(i + 1) % n, k, d - j⟩, s ((i + 1) % n) k (d - j)), mem_wBase.mpr ⟨hnx, by dsimp only; omega, by dsimp only; omega, rfl⟩, Or.inr (Or.inr ⟨by dsimp only; omega, by dsimp only; omega, ?_⟩)⟩
        simp only [Name.mk.injEq]
        exact ⟨(prevIx_nextIx a1).symm, by omega, trivial⟩
  · intro a ha h2 h3 h4
    refine foldl_const (a := a) ?_ _ (Or.inl rfl)
    intro x hx hsx
    exfalso
    obtain ⟨h5, h6, h7, _⟩ := mem_wBase.mp hx
    rcases hsx with w | ⟨_, _, w⟩ | ⟨_, _, w⟩
    · rw [w] at h2; omega
    · rw [w] at h6 h7
      dsimp only at h6 h7
      omega
    · rw [w] at h2 h3 h4
      dsimp only at h2 h3 h4
      omega

theorem weight_ok_fit {R0 G : GB ℝ} (hn : 3 ≤ n) (h : FitOk ε arc n d R0 G) {i j k : ℕ} {uv : P2 ℝ} {r : ℝ × GB ℝ} (e : G.weight ε i j k uv = .ok r) : FitOk ε arc n d R0 r.2 := by
  obtain ⟨calls, hu, hr⟩ := h.usable
  obtain ⟨hi', _⟩ := hu.state (by omega)
  have k1 := weight_keeps e
  obtain ⟨i2, d2⟩ := weight_inv e hi'
  refine ⟨⟨calls ++ [.weight i j k uv], hu.snoc rfl ?_ k1.n_eq k1.degree, ?_⟩, ⟨k1.kind.trans h.same.kind, k1.n_eq.trans h.same.n_eq, k1.degree.trans h.same.degree,
    k1.layers.trans h.same.layers, k1.central.trans h.same.central, k1.nets.trans h.same.nets, k1.squared.trans h.same.squared⟩, d2.trans h.dom⟩
  · change (G.weight ε i j k uv >>= fun r => .ok r.2) = _
    rw [e, M_bind_ok]
  · intro x hx
    rcases List.mem_append.mp hx with q | q
    · exact hr x q
    · rw [List.mem_singleton.mp q]; rfl

theorem fillStep_ok_fit {R0 : GB ℝ} (hn : 3 ≤ n) {st st' : FitState ℝ} (h : FitOk ε arc n d R0 st.surf) {l bcp j i : ℕ} {uv : P2 ℝ} {a : Name}
    (e : fillStep ε n d l bcp j uv i a st = .ok st') : FitOk ε arc n d R0 st'.surf := by
  have hadd : ∀ {c : Bool} {i j k : ℕ} {w w' : ℝ × GB ℝ}, FitOk ε arc n d R0 w.2 → addWhen c (GB.weight ε i j k uv) w = .ok w' → FitOk ε arc n d R0 w'.2 := by
    intro c i j k w w' hw e
    unfold addWhen at e
    split_ifs at e
    · obtain ⟨r, e1, e⟩ := bind_ok e
      cases e
      have := weight_ok_fit hn hw e1
      exact this
    · cases e; exact hw
  unfold fillStep at e
  obtain ⟨r, e1, e⟩ := bind_ok e
  have hr : FitOk ε arc n d R0 r.2 := by
    unfold blendOf at e1
    obtain ⟨w, e2, e1⟩ := bind_ok e1
    obtain ⟨w', e3, e1⟩ := bind_ok e1
    exact hadd (hadd (weight_ok_fit hn h e2) e3) e1
  split_ifs at e
  · obtain ⟨A, _, e⟩ := bind_ok e
    cases e; exact hr
  · obtain ⟨p, _, e⟩ := bind_ok e
    obtain ⟨b, _, e⟩ := bind_ok e
    cases e; exact hr

theorem fitSystem_ok_fit {R0 : GB ℝ} (hn : 3 ≤ n) (h : FitOk ε arc n d R0 R0) {l bcp cp1 fixed : ℕ} {points : List (P3 ℝ)} {params : List (P2 ℝ)} {s : ℝ}
    {r : GB ℝ × List (List ℝ) × List (P3 ℝ)} (e : fitSystem ε n d l bcp cp1 fixed points params s R0 = .ok r) : FitOk ε arc n d R0 r.1 := by
  unfold fitSystem at e
  obtain ⟨st, e1, e⟩ := bind_ok e
  obtain ⟨Ab, _, e⟩ := bind_ok e
  cases e
  refine forLoop_keeps (fun st : FitState ℝ => FitOk ε arc n d R0 st.surf) h ?_ e1
  intro k x y _ hx e2
  unfold fillRow at e2
  obtain ⟨uv, _, e2⟩ := bind_ok e2
  obtain ⟨st', e3, e2⟩ := bind_ok e2
  obtain ⟨A, _, e2⟩ := bind_ok e2
  obtain ⟨p, _, e2⟩ := bind_ok e2
  obtain ⟨b, _, e2⟩ := bind_ok e2
  cases e2
  rw [enumLoop_eq] at e3
  have hx' : FitOk ε arc n d R0 (⟨x.surf, x.A, x.b, 0⟩ : FitState ℝ).surf := hx
  have := forLoop_keeps (fun st : FitState ℝ => FitOk ε arc n d R0 st.surf) hx' (fun _ _ _ _ h e => fillStep_ok_fit hn h e) e3
  exact this

theorem bcp_eq {fixed : ℕ} (h : fixed ≤ d + 1) : n * usub (d + 1) fixed * fixed = rowStart n d fixed := by
  rw [usub_of_le h]
  unfold rowStart
  ring

theorem fitResult_ok {R0 G R : GB ℝ} {F : ℕ → ℕ → ℕ → P3 ℝ} (hn : 3 ≤ n) (hF : HasNet R0 n d F) (h : FitOk ε arc n d R0 G) {fixed : ℕ} (hf : fixed ≤ (d + 1) / 2) {x : List (P3 ℝ)}
    (e : fitResult n d (rowStart n d fixed) (enumCount n d) fixed x G = .ok R) :
    (∃ calls, Usable ε arc .side n d calls R ∧ ∀ c ∈ calls, c.regular = true) ∧ R.squared = R0.squared ∧
      ∀ a : Name, a.InRange n d → a.row < fixed → R.controlPoint a.side a.col a.row = .ok (F a.side a.col a.row) := by
  have hle : rowStart n d fixed ≤ enumCount n d := by rw [enumCount_eq]; exact rowStart_mono hf (by omega)
  unfold fitResult at e
  obtain ⟨c, _, e⟩ := bind_ok e
  rw [enumRest hn hf] at e
  obtain ⟨calls, hu, hr⟩ := h.usable
  have hG := h.same.hasNet hF
  have hUc : Usable ε arc .side n d (calls ++ [.central c]) (G.setCentral c) := hu.snoc rfl rfl rfl rfl
  have hRc : ∀ x ∈ calls ++ [.central c], x.regular = true := by
    intro x hx
    rcases List.mem_append.mp hx with q | q
    · exact hr x q
    · rw [List.mem_singleton.mp q]; rfl
  have := forLoop_keeps (fun R : GB ℝ => (∃ calls, Usable ε arc .side n d calls R ∧ ∀ c ∈ calls, c.regular = true) ∧ R.squared = R0.squared ∧
      ∃ F', HasNet R n d F' ∧ ∀ a : Name, a.InRange n d → a.row < fixed → F' a.side a.col a.row = F a.side a.col a.row)
    ⟨⟨_, hUc, hRc⟩, h.same.squared, F, ⟨hG.n_eq, hG.degree, hG.layers, hG.nets⟩, fun _ _ _ => rfl⟩ ?_ e
  · obtain ⟨h1, h2, F', h3, h4⟩ := this
    refine ⟨h1, h2, fun a ha hk => ?_⟩
    rw [show R.controlPoint a.side a.col a.row = _ from h3.cpt ha.1 ha.2.1 ha.2.2, h4 a ha hk]
  · rintro u X Y hu ⟨⟨cs, i1, i2⟩, i3, F', i4, i5⟩ e2
    obtain ⟨p, _, e2⟩ := bind_ok e2
    have hm := vis_main (n := n) (d := d) (t := rowStart n d fixed + u) (by omega)
    have hrow : fixed ≤ (vis n d (rowStart n d fixed + u)).row := by
      by_contra w
      have := (vis_row (n := n) (d := d) (t := rowStart n d fixed + u) (f := fixed) (by omega) hf).mpr (by omega)
      omega
    obtain ⟨G1, e3, q3, h3⟩ := setControlPoint_eq i4 hm.inRange p
    rw [e3] at e2
    cases e2
    refine ⟨⟨cs ++ [.set (vis n d (rowStart n d fixed + u)).side (vis n d (rowStart n d fixed + u)).col (vis n d (rowStart n d fixed + u)).row p], i1.snoc (c := .set (vis n d (rowStart n d fixed + u)).side (vis n d (rowStart n d fixed + u)).col (vis n d (rowStart n d fixed + u)).row p) rfl e3 (by rw [q3]) (by rw [q3]), ?_⟩, by rw [q3]; exact i3, _, h3, ?_⟩
    · intro x hx
      rcases List.mem_append.mp hx with q | q
      · exact i2 x q
      · rw [List.mem_singleton.mp q]; rfl
    · intro a ha hk
      rw [← i5 a ha hk]
      unfold write
      refine if_neg ?_
      obtain ⟨m1, m2, m3⟩ := hm
      generalize vis n d (rowStart n d fixed + u) = b at *
      rintro (w | ⟨_, _, w⟩ | ⟨_, _, w⟩)
      · subst w; dsimp only at hrow; omega
      · subst w; dsimp only at *; omega
      · simp only [Name.mk.injEq] at w; omega

/-- C49: whatever the samples, their parameters, the smoothing and the solution of the system are, when `fitWithOriginal` with at most 2 fixed rows returns, the result is a usable side-based patch
with the degree of the original, and its control points in the fixed rows are those of the original. The original has any degree of at least 3 and may be of either kind. -/
theorem C49_rows (hn : 3 ≤ n) (hd : 3 ≤ d) {kind : GBKind ℝ} (hS : Usable ε arc kind n d calls S) (hreg : ∀ c ∈ calls, c.regular = true) {g0 l0 : ℕ}
    {solve : List (List ℝ) → List (P3 ℝ) → List (P3 ℝ)} {points : List (P3 ℝ)} {params : List (P2 ℝ)} {smoothing : ℝ} {fixed : ℕ} (hf : fixed ≤ 2) {R : GB ℝ}
    (h : S.fitWithOriginal ε arc solve g0 l0 points params smoothing fixed = .ok R) :
    (∃ calls', Usable ε arc .side n d calls' R ∧ ∀ c ∈ calls', c.regular = true) ∧
      ∀ i < n, ∀ j ≤ d, ∀ k < fixed, ∃ p, S.controlPoint i j k = .ok p ∧ R.controlPoint i j k = .ok p := by
  obtain ⟨hi, _, hdn, _, _⟩ := hS.state (by omega)
  obtain ⟨R0, s, F, e0, h0, _, hs, hF, _, hrows, _⟩ := fitBase_eq hn hd hS hreg g0 l0
  unfold fitWithOriginal at h
  dsimp only at h
  rw [hi.len, hdn, hs.degree, hs.layers, e0, M_bind_ok, bcp_eq (by omega)] at h
  obtain ⟨r, e1, h⟩ := bind_ok h
  obtain ⟨h1, _, h2⟩ := fitResult_ok hn hF (fitSystem_ok_fit hn h0 e1) (by omega) h
  refine ⟨h1, fun i hi j hj k hk => ⟨s i j k, hs.cpt hi hj (by omega), ?_⟩⟩
  rw [← hrows ⟨i, j, k⟩ ⟨hi, hj, by dsimp only; omega⟩ (by dsimp only; omega)]
  exact h2 ⟨i, j, k⟩ ⟨hi, hj, by dsimp only; omega⟩ hk

/-- C49, disagreement: with 3 fixed rows, the control points of the third row are not kept: they are the origin, whatever the original patch is. -/
theorem C49_third_row (hn : 3 ≤ n) (hd : 5 ≤ d) {kind : GBKind ℝ} (hS : Usable ε arc kind n d calls S) (hreg : ∀ c ∈ calls, c.regular = true) {g0 l0 : ℕ}
    {solve : List (List ℝ) → List (P3 ℝ) → List (P3 ℝ)} {points : List (P3 ℝ)} {params : List (P2 ℝ)} {smoothing : ℝ} {R : GB ℝ}
    (h : S.fitWithOriginal ε arc solve g0 l0 points params smoothing 3 = .ok R) : ∀ i < n, ∀ j, 2 ≤ j → j + 2 < d → R.controlPoint i j 2 = .ok 0 := by
  obtain ⟨hi, _, hdn, _, _⟩ := hS.state (by omega)
  obtain ⟨R0, s, F, e0, h0, _, hs, hF, _, _, hzero⟩ := fitBase_eq hn (by omega) hS hreg g0 l0
  unfold fitWithOriginal at h
  dsimp only at h
  rw [hi.len, hdn, hs.degree, hs.layers, e0, M_bind_ok, bcp_eq (by omega)] at h
  obtain ⟨r, e1, h⟩ := bind_ok h
  obtain ⟨_, _, h2⟩ := fitResult_ok hn hF (fitSystem_ok_fit hn h0 e1) (by omega) h
  intro i hi j hj hjd
  rw [← hzero ⟨i, j, 2⟩ ⟨hi, by dsimp only; omega, by dsimp only; omega⟩ le_rfl hj (by dsimp only; omega)]
  exact h2 ⟨i, j, 2⟩ ⟨hi, by dsimp only; omega, by dsimp only; omega⟩ (by dsimp only; omega)

/-- C49, disagreement: a patch of degree 2 cannot be fitted, the second row of the original is read although it has only one. -/
theorem C49_degree_two (hn : 3 ≤ n) {kind : GBKind ℝ} (hS : Usable ε arc kind n 2 calls S) (g0 l0 : ℕ)
    (solve : List (List ℝ) → List (P3 ℝ) → List (P3 ℝ)) (points : List (P3 ℝ)) (params : List (P2 ℝ)) (smoothing : ℝ) (fixed : ℕ) :
    S.fitWithOriginal ε arc solve g0 l0 points params smoothing fixed = .error .oob := by
  obtain ⟨hi, _, hdn, ⟨s, hs⟩, _⟩ := hS.state (by omega)
  have hne : ¬(n = (GB.new .side g0 l0 : GB ℝ).n ∧ 2 = (GB.new .side g0 l0 : GB ℝ).degree) := by
    rintro ⟨h, -⟩
    change n = 0 at h
    omega
  have hN0 : HasNet ((GB.new .side g0 l0 : GB ℝ).initBase n 2) n 2 (fun _ _ _ => 0) := initBase_net hne
  obtain ⟨R1, e1, _, _⟩ := setControlPoint_eq hN0 (a := ⟨0, 0, 0⟩) ⟨by dsimp only; omega, by dsimp only; omega, by dsimp only; omega⟩ (s 0 0 0)
  have hoob : S.controlPoint 0 0 1 = .error .oob := by
    unfold controlPoint cpt
    rw [hs.nets]
    unfold net3
    rw [vget_tab _ (by omega), M_bind_ok, vget_tab _ (by omega), M_bind_ok]
    exact vget_oob (by simp)
  obtain ⟨m, rfl⟩ : ∃ m, n = m + 1 := ⟨n - 1, by omega⟩
  unfold fitWithOriginal
  dsimp only
  rw [hi.len, hdn, hs.degree, hs.layers]
  unfold fitBase
  rw [show (GB.new .side g0 l0 : GB ℝ).initNetwork (m + 1) 2 = .ok ((GB.new .side g0 l0 : GB ℝ).initBase (m + 1) 2) from rfl, M_bind_ok, forLoop_front, usub_of_le (by omega),
    show 2 - 1 = 0 + 1 from rfl, forLoop_front, show 2 = 1 + 1 from rfl, forLoop_front,
    show S.controlPoint 0 0 0 = _ from hs.cpt (i := 0) (j := 0) (k := 0) (by omega) (by omega) (by omega), M_bind_ok]
  rw [show setControlPoint ((GB.new .side g0 l0 : GB ℝ).initBase (m + 1) (1 + 1)) 0 0 0 (s 0 0 0) = .ok R1 from e1, M_bind_ok, show 1 = 0 + 1 from rfl, forLoop_front, hoob]
  rfl

theorem residual_mat {R C r : ℕ} (hr : r < R) (fg : (ℕ → ℕ → ℝ) × (ℕ → P3 ℝ)) (X : ℕ → P3 ℝ) : Residual (mat R C fg.1) (tab R fg.2) (tab C X) r (res C X fg r) := by
  refine ⟨tab C (fg.1 r), fg.2 r, vget_eq_ok.mp (vget_tab _ hr), vget_eq_ok.mp (vget_tab _ hr), ?_⟩
  unfold res
  rw [← sum_tab]
  congr 2
  unfold tab
  rw [List.zipWith_map, List.zipWith_self]

theorem Usable.sameDomain {n d d' : ℕ} {calls calls' : List (Call ℝ)} {G H : GB ℝ} (h : Usable ε arc .side n d calls G) (h' : Usable ε arc .side n d' calls' H) (hn : 3 ≤ n) : H.dom.dom = G.dom.dom := by
  obtain ⟨i1, k1, n1, _, _⟩ := h.state (by omega)
  obtain ⟨i2, k2, n2, _, _⟩ := h'.state (by omega)
  obtain ⟨vs, x1, x2⟩ := (i1.regular k1).resolve_left (by omega)
  obtain ⟨vs', y1, y2⟩ := (i2.regular k2).resolve_left (by omega)
  rw [n1] at x1
  rw [n2, x1] at y1
  cases y1
  rw [x2] at y2
  exact (Except.ok.inj y2).symm

/-- The sum of the weights does not depend on the grouping of the names. -/
theorem sum_weights (w : ℕ → ℕ → ℕ → ℝ) :
    (∑ i ∈ Finset.range n, ∑ k ∈ Finset.range ((d + 1) / 2), ∑ j ∈ Finset.range (d + 1), w i j k) = ∑ t ∈ Finset.range (enumCount n d), perPoint n d w (vis n d t) := by
  have := sum_points (n := n) (d := d) (W := ℝ) w (p := fun _ _ _ => 1) (fun _ _ _ _ _ => rfl)
  simpa using this

/-- C66: the equations solved by `fitWithOriginal`. There are `points.length` plus the number of movable control points equations. Whatever solution `x` the solver returns, the fit succeeds, and
for the resulting patch: the residual of equation `j < points.length` is the difference of the patch at `params[j]` and `points[j]`; the residual of the next equation is the difference of the
central control point and the mean of the points around it, multiplied by the smoothing; and the other equations correspond to the movable control points, with a residual of the smoothing times
the difference of the point and the mean of its four neighbours. -/
theorem C66_equations (hε : 0 < ε) (hε1 : ε ≤ 1 / 2) (hn : 3 ≤ n) (hd : 3 ≤ d) (hS : Usable ε arc .side n d calls S) (hreg : ∀ c ∈ calls, c.regular = true) (g0 l0 : ℕ)
    {v : ℕ → P2 ℝ} (hv : S.dom.dom.vertices = tab n v) {points : List (P3 ℝ)} {params : List (P2 ℝ)}
    (hin : ∀ j < points.length, ∃ uv, vget params j = .ok uv ∧ InsideClosed n v uv ∧
      ((∃ i < n, S.dom.dom.edgePoint i 0 = .ok uv) ∨ ∀ f o, mapToRibbons ε S.kind.param uv S.param = .ok (tab n f, o) → ∀ i < n, ε ≤ (f i).y + (f ((i + 1) % n)).y))
    (smoothing : ℝ) {fixed : ℕ} (hf1 : 1 ≤ fixed) (hf2 : fixed ≤ (d + 1) / 2) :
    ∃ (A : List (List ℝ)) (b : List (P3 ℝ)), A.length = points.length + (n * (1 + d / 2) * ((d + 1) / 2) + 1 - n * (d + 1 - fixed) * fixed) ∧ b.length = A.length ∧
      (∀ row ∈ A, row.length = n * (1 + d / 2) * ((d + 1) / 2) + 1 - n * (d + 1 - fixed) * fixed) ∧
      ∀ (solve : List (List ℝ) → List (P3 ℝ) → List (P3 ℝ)), (solve A b).length = n * (1 + d / 2) * ((d + 1) / 2) + 1 - n * (d + 1 - fixed) * fixed →
        ∃ R calls' P, S.fitWithOriginal ε arc solve g0 l0 points params smoothing fixed = .ok R ∧ Usable ε arc .side n d calls' R ∧ (∀ c ∈ calls', c.regular = true) ∧
          (∀ a : Name, a.InRange n d → R.controlPoint a.side a.col a.row = .ok (P a)) ∧
          (∀ j < points.length, ∃ p uv q R', vget points j = .ok p ∧ vget params j = .ok uv ∧ R.eval ε uv = .ok (q, R') ∧ Residual A b (solve A b) j (q - p)) ∧
          Residual A b (solve A b) points.length
            (smoothing • (R.central - (1 / n : ℝ) • ∑ j ∈ Finset.range n, P ⟨j, (d + 1) / 2, (d + 1) / 2 - 1⟩)) ∧
          (∀ a : Name, a.side < n → fixed ≤ a.row → a.row ≤ a.col → a.col + a.row < d → ∃ r, points.length < r ∧
            Residual A b (solve A b) r (smoothing • (P a - (1 / 4 : ℝ) • ((neighbours n d a).map (optPoint P R.central)).sum))) ∧
          ∀ r, points.length < r → r < A.length → ∃ a : Name, a.side < n ∧ fixed ≤ a.row ∧ a.row ≤ a.col ∧ a.col + a.row < d ∧
            Residual A b (solve A b) r (smoothing • (P a - (1 / 4 : ℝ) • ((neighbours n d a).map (optPoint P R.central)).sum)) := by
  obtain ⟨hi, _, hdn, _, _⟩ := hS.state (by omega)
  obtain ⟨R0, s, F, e0, h0, hsq, hs, hF, hcons, _, _⟩ := fitBase_eq hn hd hS hreg g0 l0
  obtain ⟨calls0, hU0, _⟩ := h0.usable
  have hdom := hS.sameDomain hU0 hn
  obtain ⟨w, hcd⟩ := hS.domain hn
  have hw : ∀ i < n, v i = w i := fun i hi => tab_inj (hv.symm.trans hcd.vertices_eq) hi
  have hin' : ∀ uv, InsideClosed n v uv → InsideClosed n w uv := by
    intro uv h i hi
    have := h i hi
    unfold leftOf at this ⊢
    rw [← hw i hi, ← hw _ (Nat.mod_lt _ (by omega))]
    exact this
  set m := points.length with hm
  have hN : n * (1 + d / 2) * ((d + 1) / 2) = enumCount n d := rfl
  have hbc : n * (d + 1 - fixed) * fixed = rowStart n d fixed := by unfold rowStart; ring
  rw [hN, hbc]
  set bcp := rowStart n d fixed with hbcp
  have hle : bcp ≤ enumCount n d := by rw [enumCount_eq]; exact rowStart_mono hf2 (by omega)
  set C := enumCount n d + 1 - bcp with hC
  -- the samples
  have hch : ∀ j, ∃ (uv : P2 ℝ) (f : ℕ → P2 ℝ), j < m → vget params j = .ok uv ∧ (∀ i < n, baryMap ε .wachspress S.dom.dom i uv = .ok (f i)) ∧
      ((∃ i < n, S.dom.dom.edgePoint i 0 = .ok uv) ∨ ∀ i < n, ε ≤ (f i).y + (f ((i + 1) % n)).y) := by
    intro j
    by_cases hj : j < m
    · obtain ⟨uv, q1, q2, q3⟩ := hin j hj
      obtain ⟨f, hf, _⟩ := bary_total hcd hε (by linarith) (hin' uv q2)
      refine ⟨uv, f, fun _ => ⟨q1, hf, q3.imp id fun q3 => ?_⟩⟩
      obtain ⟨o, ho⟩ := hS.maps hn hf
      exact q3 f o ho
    · exact ⟨0, fun _ => 0, fun h => absurd h hj⟩
  choose uv f hch using hch
  haveI : Inhabited (P3 ℝ) := ⟨0⟩
  obtain ⟨p, hp⟩ := exists_tab points
  rw [← hm] at hp
  obtain ⟨G', sm, e1, h1⟩ := fillAll_eq hε hn hF h0 hle (m := m) (params := params) (uv := uv) (fun j hj => (hch j hj).1) p (f := f) (fun r hr i hi => by rw [hdom]; exact (hch r hr).2.1 i hi)
  rw [← hC] at e1
  obtain ⟨fg, e2, hkeep, hsm⟩ := smooth_eq hn (h1.same.hasNet hF) hcons hf1 hf2 (bcp := bcp) rfl m smoothing (sampleRows ε R0.squared n d bcp m F f p)
    (fun r hr => ⟨fun c => if_neg (by omega), if_neg (by omega)⟩)
  rw [← hC] at e2 hsm
  refine ⟨mat (m + C) C fg.1, tab (m + C) fg.2, by simp [mat], by simp [mat], ?_, ?_⟩
  · intro row hrow
    simp only [mat, tab, List.mem_map, List.mem_range] at hrow
    obtain ⟨r, _, rfl⟩ := hrow
    simp
  intro solve hlen
  set x := solve (mat (m + C) C fg.1) (tab (m + C) fg.2) with hx
  obtain ⟨X, hX⟩ := exists_tab x
  rw [hlen] at hX
  obtain ⟨R, e3, ⟨calls', hU, hR⟩, hcen, hRsq, hRd, F', hF', hpt⟩ := fitResult_eq hn hF h1 hcons hf2 (bcp := bcp) rfl (x := x) (X := X)
    (fun c hc => by rw [hX]; exact vget_tab _ hc)
  obtain ⟨F2, hF2, hc2⟩ := hU.consistent hn hR
  have hFF : ∀ a : Name, a.InRange n d → F2 a.side a.col a.row = F' a.side a.col a.row := fun a ha =>
    Except.ok.inj ((hF2.cpt ha.1 ha.2.1 ha.2.2).symm.trans (hF'.cpt ha.1 ha.2.1 ha.2.2))
  have hc' : ∀ a b : Name, a.InRange n d → b.InRange n d → SamePoint n d a b → F' a.side a.col a.row = F' b.side b.col b.row := fun a b ha hb hab => by
    rw [← hFF a ha, ← hFF b hb]; exact hc2 a b ha hb hab
  have hresid : ∀ r < m + C, Residual (mat (m + C) C fg.1) (tab (m + C) fg.2) x r (res C X fg r) := fun r hr => by rw [hX]; exact residual_mat hr fg X
  obtain ⟨hs1, hs2⟩ := hsm X (fun a => F' a.side a.col a.row) (fun q idx hq hqi => hpt q idx hq hqi)
  have hrow : ∀ t < enumCount n d, bcp ≤ t → Residual (mat (m + C) C fg.1) (tab (m + C) fg.2) x (m + (t + 1 - bcp))
      (smoothing • ((fun a : Name => F' a.side a.col a.row) (vis n d t) - (1 / 4 : ℝ) • ((neighbours n d (vis n d t)).map (optPoint (fun a => F' a.side a.col a.row) R.central)).sum)) := by
    intro t ht hbt
    have := hresid (m + (t + 1 - bcp)) (by omega)
    rw [hs2 t ht hbt] at this
    rw [hcen, smul_sub, smul_smul, mul_one_div]
    exact this
  refine ⟨R, calls', fun a => F' a.side a.col a.row, ?_, hU, hR, fun a ha => hF'.cpt ha.1 ha.2.1 ha.2.2, ?_, ?_, ?_, ?_⟩
  · unfold fitWithOriginal
    dsimp only
    rw [hi.len, hdn, hs.degree, hs.layers, e0, M_bind_ok, bcp_eq (by omega), ← hbcp, hN]
    unfold fitSystem
    dsimp only
    rw [usub_of_le (by omega), ← hm, ← hC]
    conv_lhs => rw [hp]
    rw [e1, M_bind_ok]
    dsimp only
    rw [e2, M_bind_ok, M_bind_ok]
    exact e3
  · intro j hj
    obtain ⟨c1, c2, c3⟩ := hch j hj
    have hfR : ∀ i < n, baryMap ε .wachspress R.dom.dom i (uv j) = .ok (f j i) := fun i hi => by rw [hRd, hdom]; exact c2 i hi
    have hRok : FitOk ε arc n d R R := ⟨⟨calls', hU, hR⟩, SameNet.refl _, rfl⟩
    have heval : ∃ W cp q R', R.eval ε (uv j) = .ok (q, R') ∧
        (∀ i < n, ∀ k ≤ d, ∀ l < (d + 1) / 2, Prod.fst <$> R.weight ε i k l (uv j) = .ok (W i k l) ∧ R.controlPoint i k l = .ok (cp i k l) ∧ 0 ≤ W i k l) ∧
        q = weightedSum n d W cp R.central := by
      rcases c3 with ⟨i, hi, c3⟩ | c3
      · obtain ⟨uv', W, cp, q, R', a1, a2, a3, a4⟩ := C43_corner hε hε1 hn (by omega) hU hR hi
        rw [hRd, hdom, c3] at a1
        cases a1
        exact ⟨W, cp, q, R', a2, a3, a4⟩
      · obtain ⟨uv', hq1, hq2, _⟩ := hin j hj
        rw [c1] at hq1
        cases hq1
        obtain ⟨f', o, a1, a2⟩ := C43_sum hε (by linarith) hn hU (v := v) (by rw [hRd, hdom]; exact hv) hq2
        obtain ⟨o', ho'⟩ := hU.maps hn hfR
        rw [ho'] at a1
        have hff := (Prod.mk.inj (Except.ok.inj a1)).1
        obtain ⟨W, cp, q, R', a3, a4, a5⟩ := a2 fun i hi => by
          rw [← tab_inj hff hi, ← tab_inj hff (Nat.mod_lt _ (by omega))]
          exact c3 i hi
        exact ⟨W, cp, q, R', a3, a4, a5⟩
    obtain ⟨W, cp, q, R', a1, a2, a3⟩ := heval
    refine ⟨p j, uv j, q, R', by rw [hp]; exact vget_tab _ hj, c1, a1, ?_⟩
    have := hresid j (by omega)
    rw [show res C X fg j = q - p j from ?_] at this
    · exact this
    · rw [res_congr (fg' := sampleRows ε R0.squared n d bcp m F f p) (hkeep j hj).1 (hkeep j hj).2, hC, res_sample hle hj, a3]
      congr 1
      unfold weightedSum
      rw [hcen]
      have hW : ∀ i < n, ∀ k ≤ d, ∀ l < (d + 1) / 2, W i k l = wv ε R0.squared n d (f j) i k l ∧ cp i k l = F' i k l := by
        intro i hi k hk l hl
        obtain ⟨b1, b2, _⟩ := a2 i hi k hk l hl
        obtain ⟨_, b3, _⟩ := weight_fit hε hn hRok hfR hi hk hl
        rw [b3, hRsq] at b1
        exact ⟨(Except.ok.inj b1).symm, Except.ok.inj (b2.symm.trans (hF'.cpt hi hk hl))⟩
      have t1 : (∑ i ∈ Finset.range n, ∑ k ∈ Finset.range ((d + 1) / 2), ∑ l ∈ Finset.range (d + 1), W i l k • cp i l k) =
          ∑ i ∈ Finset.range n, ∑ k ∈ Finset.range ((d + 1) / 2), ∑ l ∈ Finset.range (d + 1), wv ε R0.squared n d (f j) i l k • F' i l k :=
        Finset.sum_congr rfl fun i hi => Finset.sum_congr rfl fun k hk => Finset.sum_congr rfl fun l hl => by
          have hi := Finset.mem_range.mp hi
          have hk := Finset.mem_range.mp hk
          have hl := Finset.mem_range.mp hl
          rw [(hW i hi l (by omega) k hk).1, (hW i hi l (by omega) k hk).2]
      have t2 : (∑ i ∈ Finset.range n, ∑ k ∈ Finset.range ((d + 1) / 2), ∑ l ∈ Finset.range (d + 1), W i l k) =
          ∑ i ∈ Finset.range n, ∑ k ∈ Finset.range ((d + 1) / 2), ∑ l ∈ Finset.range (d + 1), wv ε R0.squared n d (f j) i l k :=
        Finset.sum_congr rfl fun i hi => Finset.sum_congr rfl fun k hk => Finset.sum_congr rfl fun l hl => by
          have hi := Finset.mem_range.mp hi
          have hk := Finset.mem_range.mp hk
          have hl := Finset.mem_range.mp hl
          rw [(hW i hi l (by omega) k hk).1]
      rw [t1, t2, sum_weights, sum_points _ hc']
      congr 1
      refine Finset.sum_congr rfl fun t ht => ?_
      have ht := Finset.mem_range.mp ht
      congr 1
      exact (hpt (vis n d t) (t + 1) (vis_main ht).inRange ⟨t, ht, rfl, Or.inl rfl⟩).symm
  · have := hresid m (by omega)
    rw [hs1] at this
    rw [hcen, smul_sub, smul_smul, mul_one_div]
    exact this
  · intro a h1 h2 h3 h4
    obtain ⟨t, ht, hta, _⟩ := visited_mem h1 h3 h4
    have hbt : bcp ≤ t := by
      by_contra q
      have := (vis_row ht hf2).mp (show t < rowStart n d fixed by omega)
      rw [show vis n d t = a from hta] at this
      omega
    refine ⟨m + (t + 1 - bcp), by omega, ?_⟩
    have := hrow t ht hbt
    rw [show vis n d t = a from hta] at this
    exact this
  · intro r hr1 hr2
    rw [show (mat (m + C) C fg.1).length = m + C by simp [mat]] at hr2
    have ht : bcp + (r - m - 1) < enumCount n d := by omega
    have hmn := vis_main (n := n) (d := d) ht
    refine ⟨vis n d (bcp + (r - m - 1)), hmn.1, ?_, hmn.2.1, hmn.2.2, ?_⟩
    · by_contra q
      have := (vis_row ht hf2).mpr (by omega)
      omega
    · have := hrow _ ht (by omega)
      rw [show m + (bcp + (r - m - 1) + 1 - bcp) = r by omega] at this
      exact this

/-- The hypotheses of C49 and C66 are satisfiable: a patch with 5 sides and degree 4, sampled in a corner. -/
example : ∃ (calls : List (Call ℝ)) (G : GB ℝ) (v : ℕ → P2 ℝ) (uv : P2 ℝ), Usable (1 / 10000) (fun _ _ _ => 0) .side 5 4 calls G ∧ (∀ c ∈ calls, c.regular = true) ∧
    G.controlPoint 1 2 0 = .ok ⟨1, 2, 3⟩ ∧ G.dom.dom.vertices = tab 5 v ∧
    ∀ j < [(⟨1, 1, 1⟩ : P3 ℝ)].length, ∃ uv', vget [uv] j = .ok uv' ∧ InsideClosed 5 v uv' ∧
      ((∃ i < 5, G.dom.dom.edgePoint i 0 = .ok uv') ∨
        ∀ f o, mapToRibbons (1 / 10000) G.kind.param uv' G.param = .ok (tab 5 f, o) → ∀ i < 5, (1 / 10000 : ℝ) ≤ (f i).y + (f ((i + 1) % 5)).y) := by
  obtain ⟨G, hG, hr, _, _, hp⟩ := built (ε := 1 / 10000) (arc := fun _ _ _ => 0) .side (n := 5) (d := 4) (by omega) (by omega) (Or.inl rfl)
    (w := [(⟨1, 2, 0⟩, ⟨1, 2, 3⟩)]) (by intro x hx; simp only [List.mem_singleton] at hx; subst hx; exact ⟨by decide, by decide, by decide⟩) 0 false
  obtain ⟨v, hd⟩ := hG.domain (by omega)
  refine ⟨_, G, v, sidePoint 5 v 1 0, hG, hr, ?_, hd.vertices_eq, ?_⟩
  · rw [hp ⟨1, 2, 0⟩ ⟨by decide, by decide, by decide⟩]
    rfl
  · intro j hj
    obtain rfl : j = 0 := by simpa using hj
    refine ⟨_, rfl, ?_, Or.inl ⟨1, by omega, hd.edgePoint (by omega) 0⟩⟩
    have : sidePoint 5 v 1 0 = v (prevIx 5 1) := by unfold sidePoint; simp; rfl
    rw [this]
    exact fun i hi => hd.convex.nonneg hi (by decide)

end GB

end Transfinite
