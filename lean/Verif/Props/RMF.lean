import Verif.Lemmas.RMF

/-! # C20, C21: the rotation minimizing normal fence -/

namespace Transfinite

open RMF

/-- Unit tangent of a curve. -/
noncomputable def unitTangent (c : Curve ℝ) (u : ℝ) : P3 ℝ := (c.der u).norm⁻¹ • c.der u

/-- The step from parameter `a` to `b` is outside of the tolerances of the frame computation: the
points are distinct, and the reflected tangent is either exactly the next one, or far enough from it. -/
def ExactStep (ε : ℝ) (c : Curve ℝ) (a b : ℝ) : Prop :=
  ε ≤ P3.dot (c.pt b - c.pt a) (c.pt b - c.pt a) ∧
  (unitTangent c b = reflect (c.pt b - c.pt a) (unitTangent c a) ∨
   ε ≤ P3.dot (unitTangent c b - reflect (c.pt b - c.pt a) (unitTangent c a))
     (unitTangent c b - reflect (c.pt b - c.pt a) (unitTangent c a)))

section inv

variable {ε : ℝ} {c : Curve ℝ} {start : P3 ℝ} {res : ℕ}

private structure Inv (ε : ℝ) (c : Curve ℝ) (f0 : Frame ℝ) (res k : ℕ) (f : Frame ℝ) : Prop where
  unit : IsUnit f
  dev : |P3.dot f.n f.d - P3.dot f0.n f0.d| ≤ k * Real.sqrt ε
  nonneg : 0 ≤ f.u
  le : f.u ≤ k / res
  p : f.p = c.pt f.u
  d : (c.der f.u).normalize = .ok f.d
  zero : f.u = 0 → f = f0

private theorem Inv.mono {f0 f : Frame ℝ} {j k : ℕ} (h : Inv ε c f0 res j f) (hjk : j ≤ k) : Inv ε c f0 res k f := by
  have hjk' : (j : ℝ) ≤ k := by exact_mod_cast hjk
  refine ⟨h.unit, h.dev.trans ?_, h.nonneg, h.le.trans ?_, h.p, h.d, h.zero⟩
  · exact mul_le_mul_of_nonneg_right hjk' (Real.sqrt_nonneg _)
  · exact div_le_div_of_nonneg_right hjk' (by positivity)

private theorem frames_inv (hε : 0 < ε) (hres : 0 < res) (hs : P3.dot start start = 1) {fs : List (Frame ℝ) × Frame ℝ}
    (h : computeFrames ε res c start = .ok fs) :
    ∃ f0 : Frame ℝ, f0.u = 0 ∧ f0.s = 0 ∧ f0.n = start ∧ (c.der 0).normalize = .ok f0.d ∧
      fs.1.length = res + 1 ∧ fs.1[0]? = some f0 ∧ fs.1[res]? = some fs.2 ∧
      (∀ f ∈ fs.1, Inv ε c f0 res res f) ∧ fs.1.Pairwise (fun f g => f.u ≤ g.u) ∧
      P3.dot (c.pt 1 - fs.2.p) (c.pt 1 - fs.2.p) < ε := by
  unfold computeFrames at h
  cases e0 : (c.der 0).normalize with
  | error x => rw [e0] at h; cases h
  | ok d0 =>
    rw [e0] at h
    simp only [M_bind_ok] at h
    set f0 : Frame ℝ := ⟨0, 0, c.pt 0, d0, start⟩ with hf0
    have key : ∀ k ≤ res, ∀ st, forLoop k (fun i (st : List (Frame ℝ) × Frame ℝ) => do
        let u ← fdiv ((i + 1 : ℕ) : ℝ) (res : ℝ)
        let f ← nextFrame ε c st.2 u
        .ok (st.1 ++ [st.2], f)) ([], f0) = .ok st →
        st.1.length = k ∧ (st.1 ++ [st.2])[0]? = some f0 ∧ (∀ f ∈ st.1, Inv ε c f0 res k f) ∧ Inv ε c f0 res k st.2 ∧
        (st.1 ++ [st.2]).Pairwise (fun f g => f.u ≤ g.u) ∧
        (0 < k → P3.dot (c.pt (k / res) - st.2.p) (c.pt (k / res) - st.2.p) < ε) := by
      intro k
      induction k with
      | zero =>
        intro _ st hst
        cases hst
        refine ⟨rfl, rfl, by simp, ⟨⟨hs, (P3.normalize_unit e0).2.2⟩, by simp, le_rfl, by simp [hf0], rfl, e0, fun _ => rfl⟩, by simp, by simp⟩
      | succ k ih =>
        intro hk st hst
        rw [forLoop_succ] at hst
        cases e1 : forLoop k (fun i (st : List (Frame ℝ) × Frame ℝ) => do
          let u ← fdiv ((i + 1 : ℕ) : ℝ) (res : ℝ)
          let f ← nextFrame ε c st.2 u
          .ok (st.1 ++ [st.2], f)) ([], f0) with
        | error x => rw [e1] at hst; cases hst
        | ok s =>
          rw [e1] at hst
          obtain ⟨a1, a2, a3, a4, a5, _⟩ := ih (by omega) s e1
          have hr : (res : ℝ) ≠ 0 := by positivity
          simp only [M_bind_ok] at hst
          rw [fdiv_of_ne hr, M_bind_ok] at hst
          cases e2 : nextFrame ε c s.2 (((k + 1 : ℕ) : ℝ) / res) with
          | error x => rw [e2] at hst; cases hst
          | ok g =>
            rw [e2] at hst
            cases hst
            have hu := nextFrame_unit hε e2 a4.unit
            have hc := nextFrame_cases hε e2
            have hpos : (0 : ℝ) < ((k + 1 : ℕ) : ℝ) / res := by positivity
            have hle : (k : ℝ) / res ≤ ((k + 1 : ℕ) : ℝ) / res :=
              div_le_div_of_nonneg_right (by push_cast; linarith) (by positivity)
            have hg : Inv ε c f0 res (k + 1) g ∧ s.2.u ≤ g.u ∧
                P3.dot (c.pt (((k + 1 : ℕ) : ℝ) / res) - g.p) (c.pt (((k + 1 : ℕ) : ℝ) / res) - g.p) < ε := by
              have hdev : |P3.dot g.n g.d - P3.dot f0.n f0.d| ≤ ((k + 1 : ℕ) : ℝ) * Real.sqrt ε := by
                have := abs_sub_le (P3.dot g.n g.d) (P3.dot s.2.n s.2.d) (P3.dot f0.n f0.d)
                have := hu.2
                have := a4.dev
                push_cast
                linarith
              rcases hc.2 with ⟨q1, q2⟩ | ⟨_, q2, _, q4, q5, _⟩
              · subst q2
                exact ⟨a4.mono (Nat.le_succ k), le_rfl, q1⟩
              · refine ⟨⟨hu.1, hdev, by rw [q2]; exact hpos.le, by rw [q2], by rw [q4, q2], by rw [q2]; exact q5, ?_⟩, ?_, ?_⟩
                · intro h0; rw [q2] at h0; exact absurd h0 hpos.ne'
                · rw [q2]; exact a4.le.trans hle
                · rw [q4, sub_self, P3.dot_zero_left]; exact hε
            refine ⟨by simp [a1], ?_, ?_, hg.1, ?_, fun _ => hg.2.2⟩
            · rw [List.getElem?_append_left (by simp)]; exact a2
            · intro f hf
              rcases List.mem_append.mp hf with q | q
              · exact (a3 f q).mono (Nat.le_succ k)
              · rw [List.mem_singleton.mp q]; exact a4.mono (Nat.le_succ k)
            · rw [List.pairwise_append]
              refine ⟨a5, by simp, ?_⟩
              intro f hf g' hg'
              rw [List.mem_singleton.mp hg']
              rcases List.mem_append.mp hf with q | q
              · rw [List.pairwise_append] at a5
                exact (a5.2.2 f q s.2 (by simp)).trans hg.2.1
              · rw [List.mem_singleton.mp q]; exact hg.2.1
    cases e1 : forLoop res (fun i (st : List (Frame ℝ) × Frame ℝ) => do
        let u ← fdiv ((i + 1 : ℕ) : ℝ) (res : ℝ)
        let f ← nextFrame ε c st.2 u
        .ok (st.1 ++ [st.2], f)) ([], f0) with
    | error x => rw [e1] at h; cases h
    | ok st =>
      rw [e1] at h
      cases h
      obtain ⟨a1, a2, a3, a4, a5, a6⟩ := key res le_rfl st e1
      refine ⟨f0, rfl, rfl, rfl, rfl, by simp [a1], a2, ?_, ?_, a5, ?_⟩
      · rw [List.getElem?_append_right (by omega), a1]; simp
      · intro f hf
        rcases List.mem_append.mp hf with q | q
        · exact a3 f q
        · rw [List.mem_singleton.mp q]; exact a4
      · have := a6 hres
        rwa [div_self (by positivity)] at this

theorem rmf_update_parts {fin : P3 ℝ} {r : Rmf ℝ} (h : RMF.update ε res c start fin = .ok r) :
    ∃ fs, computeFrames ε res c start = .ok fs ∧ r.frames = fs.1 ∧ r.curve = c ∧ fs.2.s ≠ 0 ∧
      r.angleCorrection = (if P3.dot (P3.cross (fs.2.n - fin) fin) fs.2.d < 0 then -Real.arccos (Domain.clamp (P3.dot fin fs.2.n) (-1) 1)
        else Real.arccos (Domain.clamp (P3.dot fin fs.2.n) (-1) 1)) / fs.2.s := by
  unfold RMF.update at h
  cases e : computeFrames ε res c start with
  | error x => rw [e] at h; cases h
  | ok fs =>
    rw [e] at h
    simp only [M_bind_ok] at h
    by_cases hs : fs.2.s = 0
    · rw [hs, fdiv_zero] at h; cases h
    · rw [fdiv_of_ne hs] at h
      cases h
      exact ⟨fs, rfl, rfl, rfl, hs, rfl⟩

private theorem eval_split {r : Rmf ℝ} {u : ℝ} {n : P3 ℝ} (h : RMF.eval ε r u = .ok n) :
    ∃ g f, g ∈ r.frames ∧ g.u ≤ u ∧ nextFrame ε r.curve g u = .ok f ∧ n = rotate f.d (f.s * r.angleCorrection) f.n := by
  unfold RMF.eval at h
  dsimp only at h
  split at h
  · cases h
  · rename_i hi
    cases e : vget r.frames (List.findIdx (fun f => decide (u < f.u)) r.frames - 1) with
    | error x => rw [e] at h; cases h
    | ok g =>
      rw [e] at h
      simp only [M_bind_ok] at h
      cases e2 : nextFrame ε r.curve g u with
      | error x => rw [e2] at h; cases h
      | ok f =>
        rw [e2] at h
        cases h
        obtain ⟨hlt, hget⟩ := List.getElem?_eq_some_iff.mp (vget_eq_ok.mp e)
        refine ⟨g, f, hget ▸ List.getElem_mem hlt, ?_, e2, rfl⟩
        have := List.not_of_lt_findIdx (xs := r.frames) (p := fun f => decide (u < f.u))
          (i := List.findIdx (fun f => decide (u < f.u)) r.frames - 1) (by omega)
        rw [hget] at this
        simpa using this

end inv

/-- C20: the fence at parameter 0 is the prescribed start normal. -/
theorem C20_start {ε : ℝ} (hε : 0 < ε) {res : ℕ} (hres : 0 < res) {c : Curve ℝ} {start fin : P3 ℝ} (hs : P3.dot start start = 1)
    {r : Rmf ℝ} (h : RMF.update ε res c start fin = .ok r) : RMF.eval ε r 0 = .ok start := by
  obtain ⟨fs, e, e1, e2, _, _⟩ := rmf_update_parts h
  obtain ⟨f0, hu, hs0, hn, hd, hl, hg0, _, hinv, _, _⟩ := frames_inv hε hres hs e
  unfold RMF.eval
  dsimp only
  rw [e1, e2]
  have hi : List.findIdx (fun f : Frame ℝ => decide (0 < f.u)) fs.1 ≠ 0 := by
    intro h0
    have hlt : List.findIdx (fun f : Frame ℝ => decide (0 < f.u)) fs.1 < fs.1.length := by rw [h0]; omega
    have := List.findIdx_getElem (w := hlt)
    obtain ⟨_, q⟩ := List.getElem?_eq_some_iff.mp hg0
    simp only [h0, q, hu] at this
    simp at this
  rw [if_neg hi]
  have hlt : List.findIdx (fun f : Frame ℝ => decide (0 < f.u)) fs.1 - 1 < fs.1.length := by
    have := List.findIdx_le_length (xs := fs.1) (p := fun f : Frame ℝ => decide (0 < f.u))
    omega
  rw [vget_of_lt hlt, M_bind_ok]
  have hnot := List.not_of_lt_findIdx (xs := fs.1) (p := fun f : Frame ℝ => decide (0 < f.u))
    (i := List.findIdx (fun f : Frame ℝ => decide (0 < f.u)) fs.1 - 1) (by omega)
  have hin := hinv _ (List.getElem_mem hlt)
  have hzero : (fs.1[List.findIdx (fun f : Frame ℝ => decide (0 < f.u)) fs.1 - 1]).u = 0 :=
    le_antisymm (by simpa using hnot) hin.nonneg
  rw [hin.zero hzero]
  have hstep : nextFrame ε c f0 0 = .ok f0 := by
    unfold nextFrame
    rw [hd, M_bind_ok]
    have hp0 : f0.p = c.pt 0 := by
      have := hin.p
      rw [hin.zero hzero, hu] at this
      exact this
    rw [if_pos (by unfold P3.normSqr; rw [hp0, sub_self, P3.dot_zero_left]; exact hε)]
  rw [hstep, M_bind_ok, hs0, zero_mul, hn]
  congr 1
  rw [rotate_eq, Real.cos_zero, Real.sin_zero]
  simp

/-- C21: the normal is always of unit length. -/
theorem C21_unit {ε : ℝ} (hε : 0 < ε) {res : ℕ} (hres : 0 < res) {c : Curve ℝ} {start fin : P3 ℝ} (hs : P3.dot start start = 1)
    {r : Rmf ℝ} (h : RMF.update ε res c start fin = .ok r) {u : ℝ} {n : P3 ℝ} (hn : RMF.eval ε r u = .ok n) :
    P3.dot n n = 1 := by
  obtain ⟨fs, e, e1, e2, _, _⟩ := rmf_update_parts h
  obtain ⟨f0, _, _, _, _, _, _, _, hinv, _, _⟩ := frames_inv hε hres hs e
  obtain ⟨g, f, hg, _, hf, rfl⟩ := eval_split hn
  rw [e1] at hg
  rw [e2] at hf
  have := nextFrame_unit hε hf (hinv g hg).unit
  exact (rotate_unit this.1.d this.1.n _).1

/-- C21: for every parameter where the normal is computed, its scalar product with the unit tangent is
at most `(resolution + 1)·√ε` plus the error of the start normal; the tangent is taken at the parameter,
or at an earlier one whose point is within the tolerance. -/
theorem C21_perpendicular {ε : ℝ} (hε : 0 < ε) {res : ℕ} (hres : 0 < res) {c : Curve ℝ} {start fin : P3 ℝ} (hs : P3.dot start start = 1)
    {r : Rmf ℝ} (h : RMF.update ε res c start fin = .ok r) {u : ℝ} {n : P3 ℝ} (hn : RMF.eval ε r u = .ok n) :
    ∃ u' ≤ u, (u' = u ∨ 0 ≤ u' ∧ P3.dot (c.pt u - c.pt u') (c.pt u - c.pt u') < ε) ∧
      |P3.dot n (unitTangent c u') - P3.dot start (unitTangent c 0)| ≤ (res + 1) * Real.sqrt ε := by
  obtain ⟨fs, e, e1, e2, _, _⟩ := rmf_update_parts h
  obtain ⟨f0, hu0, _, hn0, hd0, _, _, _, hinv, _, _⟩ := frames_inv hε hres hs e
  obtain ⟨g, f, hg, hgu, hf, rfl⟩ := eval_split hn
  rw [e1] at hg
  rw [e2] at hf
  have hi := hinv g hg
  have hfu := nextFrame_unit hε hf hi.unit
  have hrot := (rotate_unit hfu.1.d hfu.1.n (f.s * r.angleCorrection)).2
  have hd0' : f0.d = unitTangent c 0 := (P3.normalize_unit hd0).2.1
  have hdev : |P3.dot f.n f.d - P3.dot start (unitTangent c 0)| ≤ (res + 1) * Real.sqrt ε := by
    have := abs_sub_le (P3.dot f.n f.d) (P3.dot g.n g.d) (P3.dot f0.n f0.d)
    have := hfu.2
    have := hi.dev
    rw [← hn0, ← hd0']
    linarith
  rcases (nextFrame_cases hε hf).2 with ⟨q1, q2⟩ | ⟨_, q2, _, _, q5, _⟩
  · refine ⟨g.u, hgu, Or.inr ⟨hi.nonneg, by rw [← hi.p]; exact q1⟩, ?_⟩
    have : f.d = unitTangent c g.u := by rw [q2]; exact (P3.normalize_unit hi.d).2.1
    rw [← this, hrot]; exact hdev
  · refine ⟨u, le_rfl, Or.inl rfl, ?_⟩
    have : f.d = unitTangent c u := (P3.normalize_unit q5).2.1
    rw [← this, hrot]; exact hdev

/-- The frames are sorted by parameter, which `std::upper_bound` requires, and the normal is defined for
all parameters in [0,1] if the tangents do not vanish. -/
theorem C21_defined {ε : ℝ} (hε : 0 < ε) {res : ℕ} (hres : 0 < res) {c : Curve ℝ} {start fin : P3 ℝ} (hs : P3.dot start start = 1)
    {r : Rmf ℝ} (h : RMF.update ε res c start fin = .ok r) :
    r.frames.Pairwise (fun f g => f.u ≤ g.u) ∧ ∀ u, 0 ≤ u → c.der u ≠ 0 → ∃ n, RMF.eval ε r u = .ok n := by
  obtain ⟨fs, e, e1, e2, _, _⟩ := rmf_update_parts h
  obtain ⟨f0, hu, hs0, hn, hd, hl, hg0, _, hinv, hsorted, _⟩ := frames_inv hε hres hs e
  refine ⟨by rw [e1]; exact hsorted, ?_⟩
  intro u h0 hdu
  unfold RMF.eval
  dsimp only
  rw [e1, e2]
  have hi : List.findIdx (fun f : Frame ℝ => decide (u < f.u)) fs.1 ≠ 0 := by
    intro h0'
    have hlt : List.findIdx (fun f : Frame ℝ => decide (u < f.u)) fs.1 < fs.1.length := by rw [h0']; omega
    have := List.findIdx_getElem (w := hlt)
    obtain ⟨_, q⟩ := List.getElem?_eq_some_iff.mp hg0
    simp only [h0', q, hu, decide_eq_true_eq] at this
    linarith
  rw [if_neg hi]
  have hlt : List.findIdx (fun f : Frame ℝ => decide (u < f.u)) fs.1 - 1 < fs.1.length := by
    have := List.findIdx_le_length (xs := fs.1) (p := fun f : Frame ℝ => decide (u < f.u))
    omega
  rw [vget_of_lt hlt, M_bind_ok]
  generalize fs.1[List.findIdx (fun f : Frame ℝ => decide (u < f.u)) fs.1 - 1] = g
  have : ∃ f, nextFrame ε c g u = .ok f := by
    unfold nextFrame
    rw [P3.normalize_ok hdu, M_bind_ok]
    dsimp only
    split
    · exact ⟨_, rfl⟩
    · rename_i hc
      rw [fdiv_of_ne (by linarith), M_bind_ok]
      split
      · exact ⟨_, rfl⟩
      · rename_i hc2
        rw [fdiv_of_ne (by linarith)]
        exact ⟨_, rfl⟩
  obtain ⟨f, hf⟩ := this
  rw [hf]
  exact ⟨_, rfl⟩

/-- C21, disagreement: for negative parameters (however small) the iterator is decremented below `begin()`. -/
theorem C21_negative {ε : ℝ} (hε : 0 < ε) {res : ℕ} (hres : 0 < res) {c : Curve ℝ} {start fin : P3 ℝ} (hs : P3.dot start start = 1)
    {r : Rmf ℝ} (h : RMF.update ε res c start fin = .ok r) {u : ℝ} (hu : u < 0) : RMF.eval ε r u = .error .oob := by
  obtain ⟨fs, e, e1, e2, _, _⟩ := rmf_update_parts h
  obtain ⟨f0, hf0, hs0, hn, hd, hl, hg0, _⟩ := frames_inv hε hres hs e
  unfold RMF.eval
  dsimp only
  rw [e1]
  obtain ⟨q0, q⟩ := List.getElem?_eq_some_iff.mp hg0
  have hi : List.findIdx (fun f : Frame ℝ => decide (u < f.u)) fs.1 = 0 := by
    cases hfs : fs.1 with
    | nil => rfl
    | cons a l =>
      have : a = f0 := by rw [← q]; simp [hfs]
      rw [List.findIdx_cons, this, hf0]
      simp [hu]
  rw [if_pos hi]

/-- Without tolerance steps the frames are at the grid parameters, and perpendicular to the tangents. -/
theorem exact_frames {ε : ℝ} (hε : 0 < ε) {res : ℕ} (hres : 0 < res) {c : Curve ℝ} {start : P3 ℝ} (hs : P3.dot start start = 1)
    (hperp : P3.dot start (unitTangent c 0) = 0) (hder : ∀ k ≤ res, c.der (k / res) ≠ 0)
    (hex : ∀ k < res, ExactStep ε c (k / res) ((k + 1 : ℕ) / res)) :
    ∃ F : ℕ → Frame ℝ, computeFrames ε res c start = .ok (tab (res + 1) F, F res) ∧
      ∀ k ≤ res, (F k).u = k / res ∧ (F k).s = ∑ j ∈ Finset.range k, c.arc (j / res) ((j + 1 : ℕ) / res) ∧ (F k).p = c.pt (k / res) ∧
        (F k).d = unitTangent c (k / res) ∧ IsUnit (F k) ∧ P3.dot (F k).n (F k).d = 0 := by
  have hr : (res : ℝ) ≠ 0 := by positivity
  have step : ∀ k < res, ∀ f : Frame ℝ, f.u = k / res → f.p = c.pt (k / res) → f.d = unitTangent c (k / res) → IsUnit f →
      P3.dot f.n f.d = 0 →
      ∃ g, nextFrame ε c f ((k + 1 : ℕ) / res) = .ok g ∧ g.u = (k + 1 : ℕ) / res ∧ g.s = f.s + c.arc (k / res) ((k + 1 : ℕ) / res) ∧
        g.p = c.pt ((k + 1 : ℕ) / res) ∧ g.d = unitTangent c ((k + 1 : ℕ) / res) ∧ IsUnit g ∧ P3.dot g.n g.d = 0 := by
    intro k hk f fu fp fd fun' fperp
    obtain ⟨x1, x2⟩ := hex k hk
    have : ∃ g, nextFrame ε c f ((k + 1 : ℕ) / res) = .ok g := by
      unfold nextFrame
      rw [P3.normalize_ok (hder (k + 1) hk), M_bind_ok]
      dsimp only
      split
      · exact ⟨_, rfl⟩
      · rename_i hc
        rw [fdiv_of_ne (by linarith), M_bind_ok]
        split
        · exact ⟨_, rfl⟩
        · rename_i hc2
          rw [fdiv_of_ne (by linarith)]
          exact ⟨_, rfl⟩
    obtain ⟨g, hg⟩ := this
    rcases (nextFrame_cases hε hg).2 with ⟨q1, _⟩ | ⟨_, q2, q3, q4, q5, _⟩
    · rw [fp] at q1; linarith
    · have gd : g.d = unitTangent c ((k + 1 : ℕ) / res) := (P3.normalize_unit q5).2.1
      refine ⟨g, hg, q2, by rw [q3, fu], q4, gd, (nextFrame_unit hε hg fun').1, ?_⟩
      rw [nextFrame_exact hε hg fun', fperp]
      rw [gd, fp, fd]
      exact x2.symm
  set f0 : Frame ℝ := ⟨0, 0, c.pt 0, unitTangent c 0, start⟩ with hf0
  have hd0 : (c.der 0).normalize = .ok (unitTangent c 0) := by
    have := hder 0 (Nat.zero_le _)
    rw [Nat.cast_zero, zero_div] at this
    exact P3.normalize_ok this
  let F : ℕ → Frame ℝ := fun k => Nat.rec f0 (fun j f =>
    match nextFrame ε c f ((j + 1 : ℕ) / res) with | .ok g => g | .error _ => f) k
  have hF : ∀ k, F (k + 1) = match nextFrame ε c (F k) ((k + 1 : ℕ) / res) with | .ok g => g | .error _ => F k := fun k => rfl
  have hall : ∀ k ≤ res, (F k).u = k / res ∧ (F k).s = ∑ j ∈ Finset.range k, c.arc (j / res) ((j + 1 : ℕ) / res) ∧ (F k).p = c.pt (k / res) ∧
        (F k).d = unitTangent c (k / res) ∧ IsUnit (F k) ∧ P3.dot (F k).n (F k).d = 0 := by
    intro k
    induction k with
    | zero =>
      intro _
      refine ⟨?_, ?_, ?_, ?_, ⟨hs, (P3.normalize_unit hd0).2.2⟩, hperp⟩
      · simp [F, hf0]
      · simp [F, hf0]
      · simp [F, hf0]
      · simp [F, hf0]
    | succ k ih =>
      intro hk
      obtain ⟨a, b, c', d, e, f⟩ := ih (by omega)
      obtain ⟨g, hg, g1, g2, g3, g4, g5, g6⟩ := step k (by omega) _ a c' d e f
      have : F (k + 1) = g := by rw [hF, hg]
      rw [this]
      exact ⟨g1, by rw [g2, b, Finset.sum_range_succ], g3, g4, g5, g6⟩
  refine ⟨F, ?_, hall⟩
  unfold computeFrames
  rw [hd0, M_bind_ok]
  dsimp only
  have hl : forLoop res (fun i (st : List (Frame ℝ) × Frame ℝ) => do
        let u ← fdiv ((i + 1 : ℕ) : ℝ) (res : ℝ)
        let f ← nextFrame ε c st.2 u
        .ok (st.1 ++ [st.2], f)) ([], f0) = .ok (tab res F, F res) := by
    refine forLoop_eq (fun k => (tab k F, F k)) rfl ?_
    intro k hk
    obtain ⟨a, b, c', d, e, f⟩ := hall k hk.le
    obtain ⟨g, hg, _⟩ := step k hk _ a c' d e f
    have hFk : F (k + 1) = g := by rw [hF, hg]
    rw [fdiv_of_ne hr, M_bind_ok]
    dsimp only
    rw [hg, M_bind_ok, hFk, tab_succ]
  rw [hl, M_bind_ok, tab_succ]

/-- C20: when no step falls into the tolerances, the total arc length is not zero and the end normal is a unit
vector perpendicular to the end tangent, the fence is defined, and its value at 1 is the prescribed end
normal. -/
theorem C20_end {ε : ℝ} (hε : 0 < ε) {res : ℕ} (hres : 0 < res) {c : Curve ℝ} {start fin : P3 ℝ} (hs : P3.dot start start = 1)
    (hperp : P3.dot start (unitTangent c 0) = 0) (hfin : P3.dot fin fin = 1) (hperp' : P3.dot fin (unitTangent c 1) = 0)
    (hder : ∀ k ≤ res, c.der (k / res) ≠ 0) (hex : ∀ k < res, ExactStep ε c (k / res) ((k + 1 : ℕ) / res))
    (harc : ∑ j ∈ Finset.range res, c.arc (j / res) ((j + 1 : ℕ) / res) ≠ 0) :
    ∃ r, RMF.update ε res c start fin = .ok r ∧ RMF.eval ε r 0 = .ok start ∧ RMF.eval ε r 1 = .ok fin := by
  obtain ⟨F, hF, hall⟩ := exact_frames hε hres hs hperp hder hex
  have hr : (res : ℝ) ≠ 0 := by positivity
  obtain ⟨a, b, cc, d, e, f⟩ := hall res le_rfl
  rw [div_self hr] at a cc d
  have hsne : (F res).s ≠ 0 := by rw [b]; exact harc
  have hupd : ∃ r, RMF.update ε res c start fin = .ok r := by
    unfold RMF.update
    rw [hF, M_bind_ok]
    dsimp only
    rw [fdiv_of_ne hsne]
    exact ⟨_, rfl⟩
  obtain ⟨r, hr'⟩ := hupd
  refine ⟨r, hr', C20_start hε hres hs hr', ?_⟩
  obtain ⟨fs, e0, e1, e2, _, e3⟩ := rmf_update_parts hr'
  rw [hF] at e0
  cases e0
  unfold RMF.eval
  dsimp only
  rw [e1, e2]
  have hidx : List.findIdx (fun f : Frame ℝ => decide (1 < f.u)) (tab (res + 1) F) = res + 1 := by
    rw [List.findIdx_eq_length.mpr]
    · simp
    · intro x hx
      rw [List.mem_map] at hx
      obtain ⟨k, hk, rfl⟩ := hx
      rw [List.mem_range] at hk
      rw [(hall k (by omega)).1, decide_eq_false_iff_not, not_lt, div_le_one (by positivity)]
      have : k ≤ res := by omega
      exact_mod_cast this
  rw [hidx, if_neg (by omega), Nat.add_sub_cancel, vget_tab _ (by omega), M_bind_ok]
  have hstep : nextFrame ε c (F res) 1 = .ok (F res) := by
    unfold nextFrame
    have h1 := hder res le_rfl
    rw [div_self hr] at h1
    rw [P3.normalize_ok h1, M_bind_ok]
    rw [if_pos (by unfold P3.normSqr; rw [cc, sub_self, P3.dot_zero_left]; exact hε)]
  rw [hstep, M_bind_ok, e3]
  congr 1
  dsimp only at hsne ⊢
  rw [mul_div_cancel₀ _ hsne]
  exact rotate_hits e.d e.n hfin f (by rw [d]; exact hperp') rfl

/-- C21: when no step of the construction falls into the tolerances, nor does the step from the last grid
parameter to `u`, the normal at `u` is exactly perpendicular to the tangent. -/
theorem C21_exact {ε : ℝ} (hε : 0 < ε) {res : ℕ} (hres : 0 < res) {c : Curve ℝ} {start fin : P3 ℝ} (hs : P3.dot start start = 1)
    (hperp : P3.dot start (unitTangent c 0) = 0) (hder : ∀ k ≤ res, c.der (k / res) ≠ 0)
    (hex : ∀ k < res, ExactStep ε c (k / res) ((k + 1 : ℕ) / res)) {r : Rmf ℝ} (h : RMF.update ε res c start fin = .ok r)
    {k : ℕ} (hk : k < res) {u : ℝ} (hku : k / res ≤ u) (hku' : u < (k + 1 : ℕ) / res)
    (hu : u = k / res ∨ ExactStep ε c (k / res) u) {n : P3 ℝ} (hn : RMF.eval ε r u = .ok n) :
    P3.dot n n = 1 ∧ P3.dot n (unitTangent c u) = 0 := by
  refine ⟨C21_unit hε hres hs h hn, ?_⟩
  obtain ⟨F, hF, hall⟩ := exact_frames hε hres hs hperp hder hex
  obtain ⟨fs, e0, e1, e2, _, _⟩ := rmf_update_parts h
  rw [hF] at e0
  cases e0
  unfold RMF.eval at hn
  dsimp only at hn
  rw [e1, e2] at hn
  have hr : (0 : ℝ) < res := by positivity
  have hidx : List.findIdx (fun f : Frame ℝ => decide (u < f.u)) (tab (res + 1) F) = k + 1 := by
    rw [List.findIdx_eq (by simp; omega)]
    constructor
    · simp only [tab, List.getElem_map, List.getElem_range]
      rw [(hall (k + 1) (by omega)).1, decide_eq_true_eq]; exact hku'
    · intro j hj
      simp only [tab, List.getElem_map, List.getElem_range]
      rw [(hall j (by omega)).1, decide_eq_false_iff_not, not_lt]
      refine le_trans (div_le_div_of_nonneg_right ?_ hr.le) hku
      have : j ≤ k := by omega
      exact_mod_cast this
  rw [hidx, if_neg (by omega), Nat.add_sub_cancel, vget_tab _ (by omega), M_bind_ok] at hn
  obtain ⟨a, b, cc, d, e, f⟩ := hall k hk.le
  cases hg : nextFrame ε c (F k) u with
  | error x => rw [hg] at hn; cases hn
  | ok g =>
    rw [hg] at hn
    cases hn
    have hgu := nextFrame_unit hε hg e
    rcases (nextFrame_cases hε hg).2 with ⟨q1, q2⟩ | ⟨q1, q2, q3, q4, q5, _⟩
    · rcases hu with rfl | ⟨x1, _⟩
      · rw [q2, ← d, (rotate_unit e.d e.n _).2, f]
      · rw [cc] at q1; linarith
    · have gd : g.d = unitTangent c u := (P3.normalize_unit q5).2.1
      rw [← gd, (rotate_unit hgu.1.d hgu.1.n _).2]
      rcases hu with rfl | ⟨_, x2⟩
      · rw [cc, sub_self, P3.dot_zero_left] at q1; linarith
      · rw [nextFrame_exact hε hg e, f]
        rw [gd, cc, d]; exact x2.symm

/-- C20, disagreement: on a regular curve that is shorter than the tolerance (all grid points are closer to the start
point than `√ε`) no fence is computed, as the angle correction is divided by zero. -/
theorem C20_tiny_curve {ε : ℝ} {res : ℕ} (hres : 0 < res) {c : Curve ℝ} (start fin : P3 ℝ)
    (hder : ∀ k ≤ res, c.der (k / res) ≠ 0)
    (htiny : ∀ k ≤ res, P3.dot (c.pt (k / res) - c.pt 0) (c.pt (k / res) - c.pt 0) < ε) :
    RMF.update ε res c start fin = .error .divZero := by
  have hr : (res : ℝ) ≠ 0 := by positivity
  have hd0 : (c.der 0).normalize = .ok (unitTangent c 0) := by
    have := hder 0 (Nat.zero_le _)
    rw [Nat.cast_zero, zero_div] at this
    exact P3.normalize_ok this
  have hl : forLoop res (fun i (st : List (Frame ℝ) × Frame ℝ) => do
        let u ← fdiv ((i + 1 : ℕ) : ℝ) (res : ℝ)
        let f ← nextFrame ε c st.2 u
        .ok (st.1 ++ [st.2], f)) ([], ⟨0, 0, c.pt 0, unitTangent c 0, start⟩) =
      .ok (tab res fun _ => ⟨0, 0, c.pt 0, unitTangent c 0, start⟩, ⟨0, 0, c.pt 0, unitTangent c 0, start⟩) := by
    refine forLoop_eq (fun k => (tab k (fun _ => (⟨0, 0, c.pt 0, unitTangent c 0, start⟩ : Frame ℝ)),
      (⟨0, 0, c.pt 0, unitTangent c 0, start⟩ : Frame ℝ))) rfl ?_
    intro k hk
    rw [fdiv_of_ne hr, M_bind_ok]
    dsimp only
    have : nextFrame ε c ⟨0, 0, c.pt 0, unitTangent c 0, start⟩ (((k + 1 : ℕ) : ℝ) / res) =
        .ok ⟨0, 0, c.pt 0, unitTangent c 0, start⟩ := by
      unfold nextFrame
      rw [P3.normalize_ok (hder (k + 1) hk), M_bind_ok]
      dsimp only
      rw [if_pos]
      exact htiny (k + 1) hk
    rw [this, M_bind_ok, tab_succ]
  unfold RMF.update computeFrames
  rw [hd0, M_bind_ok]
  dsimp only
  rw [hl, M_bind_ok, M_bind_ok]
  dsimp only
  rw [fdiv_zero]
  rfl

/-- The hypotheses of `C20_tiny_curve` are met by a straight segment of length 1/1000, with ε = 10⁻⁵. -/
example : RMF.update (1 / 100000) 100 ⟨fun u : ℝ => ⟨u / 1000, 0, 0⟩, fun _ => ⟨1 / 1000, 0, 0⟩, fun a b => (b - a) / 1000⟩
    ⟨0, 0, 1⟩ ⟨0, 1, 0⟩ = .error .divZero := by
  apply C20_tiny_curve (by norm_num)
  · intro k _ h
    have := congrArg P3.x h
    norm_num at this
  · intro k hk
    have hk' : (k : ℝ) ≤ 100 := by exact_mod_cast hk
    have h0 : (0 : ℝ) ≤ k := by positivity
    simp only [P3.dot, P3.sub_x, P3.sub_y, P3.sub_z]
    push_cast
    nlinarith

/-- A straight segment (of length 10) meets the hypotheses of `C20_end`, for any pair of unit end
normals perpendicular to it. -/
theorem segment_ends : ∃ r, RMF.update (1 / 10000) 100 ⟨fun u => ⟨10 * u, 0, 0⟩, fun _ => ⟨10, 0, 0⟩, fun a b => 10 * (b - a)⟩ ⟨0, 0, 1⟩ ⟨0, 1, 0⟩ = .ok r ∧
    RMF.eval (1 / 10000) r 0 = .ok ⟨0, 0, 1⟩ ∧ RMF.eval (1 / 10000 : ℝ) r 1 = .ok ⟨0, 1, 0⟩ := by
  have hT : ∀ u, unitTangent ⟨fun u : ℝ => ⟨10 * u, 0, 0⟩, fun _ => ⟨10, 0, 0⟩, fun a b => 10 * (b - a)⟩ u = ⟨1, 0, 0⟩ := by
    intro u
    have : P3.norm (⟨10, 0, 0⟩ : P3 ℝ) = 10 := by
      unfold P3.norm P3.dot
      change Real.sqrt _ = _
      rw [show (10 * 10 + 0 * 0 + 0 * 0 : ℝ) = 10 ^ 2 by norm_num]
      exact Real.sqrt_sq (by norm_num)
    unfold unitTangent
    dsimp only
    rw [this]
    ext <;> simp
  apply C20_end (by norm_num) (by norm_num)
  · simp [P3.dot]
  · rw [hT]; simp [P3.dot]
  · simp [P3.dot]
  · rw [hT]; simp [P3.dot]
  · intro k _ h
    have := congrArg P3.x h
    norm_num at this
  · intro k hk
    unfold ExactStep
    rw [hT, hT]
    dsimp only
    constructor
    · simp only [P3.dot, P3.sub_x, P3.sub_y, P3.sub_z]
      push_cast
      norm_num
      ring_nf
      norm_num
    · right
      unfold reflect
      simp only [P3.dot, P3.sub_x, P3.sub_y, P3.sub_z, P3.smul_x, P3.smul_y, P3.smul_z]
      push_cast
      ring_nf
      norm_num
  · apply ne_of_gt
    apply Finset.sum_pos
    · intro j _
      push_cast
      ring_nf
      norm_num
    · exact ⟨0, by simp⟩

example : ∃ r, RMF.update (1 / 10000) 100 ⟨fun u => ⟨10 * u, 0, 0⟩, fun _ => ⟨10, 0, 0⟩, fun a b => 10 * (b - a)⟩ ⟨0, 0, 1⟩ ⟨0, 1, 0⟩ = .ok r ∧
    RMF.eval (1 / 10000) r 0 = .ok ⟨0, 0, 1⟩ ∧ RMF.eval (1 / 10000 : ℝ) r (-1 / 10 ^ 20) = .error .oob := by
  obtain ⟨r, h1, h2, _⟩ := segment_ends
  exact ⟨r, h1, h2, C21_negative (by norm_num) (by norm_num) (by simp [P3.dot]) h1 (by norm_num)⟩

end Transfinite
