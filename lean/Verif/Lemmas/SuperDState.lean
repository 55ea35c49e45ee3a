import Verif.Lemmas.SuperD

/-! # The state of SuperD patches -/

namespace Transfinite

open Spec Real

namespace SuperD

section field

variable {K : Type} [Field K] [LinearOrder K] [Libm K] {n : ℕ} {ε : K} {arc : List (P3 K) → K → K → K} {S S' : SuperD K}

/-- What always holds for an object. -/
def Inv (ε : K) (S : SuperD K) : Prop :=
  S.dom.dom.n = 0 ∨ Param.Fresh ε .superD S.dom.dom S.param ∧ ∃ vs, Domain.regularVertices S.dom.dom.n = .ok vs ∧ Domain.updateFrom vs 0 = .ok S.dom.dom

theorem new_inv (ε : K) : Inv ε (SuperD.new : SuperD K) := Or.inl rfl

theorem eval_keeps {uv : P2 K} {r : P3 K × SuperD K} (h : S.eval ε uv = .ok r) : r.2 = { S with param := r.2.param } := by
  unfold eval at h
  obtain ⟨x, e, h⟩ := bind_ok h
  obtain ⟨b, _, h⟩ := bind_ok h
  obtain ⟨p, _, h⟩ := bind_ok h
  cases h
  rfl

theorem eval_inv {uv : P2 K} {r : P3 K × SuperD K} (h : S.eval ε uv = .ok r) (hi : Inv ε S) : Inv ε r.2 := by
  unfold eval at h
  obtain ⟨x, e, h⟩ := bind_ok h
  obtain ⟨b, _, h⟩ := bind_ok h
  obtain ⟨p, _, h⟩ := bind_ok h
  cases h
  exact hi.imp id fun q => ⟨q.1.maps e, q.2⟩

theorem updateDomain_keeps (h : S.updateDomain = .ok S') : S' = { S with dom := S'.dom, param := S'.param } := by
  unfold updateDomain at h
  obtain ⟨r, e, h⟩ := bind_ok h
  split_ifs at h
  · obtain ⟨o, e3, h⟩ := bind_ok h
    cases h; rfl
  · cases h; rfl

theorem updateDomain_inv (h : S.updateDomain = .ok S') (hi : Inv ε S) : Inv ε S' ∧ S'.dom.dom.n = S.curves.length := by
  unfold updateDomain at h
  obtain ⟨r, e, h⟩ := bind_ok h
  unfold Domain.regularUpdate at e
  split_ifs at e with hn
  · cases e
    cases h
    exact ⟨hi, hn⟩
  · obtain ⟨vs, e1, e⟩ := bind_ok e
    obtain ⟨d, e2, e⟩ := bind_ok e
    cases e
    rw [if_pos rfl] at h
    obtain ⟨o, e3, h⟩ := bind_ok h
    cases h
    have hdn : d.n = S.curves.length := by rw [Patch.updateFrom_n e2, Patch.regularVertices_length e1]
    refine ⟨Or.inr ⟨Param.Fresh.new e3, vs, ?_, e2⟩, hdn⟩
    change Domain.regularVertices d.n = _
    rw [hdn, e1]

theorem setupLoop_inv (h : S.setupLoop arc = .ok S') (hi : Inv ε S) : Inv ε S' := by
  unfold setupLoop at h
  obtain ⟨r, e1, h⟩ := bind_ok h
  obtain ⟨cs, e2, h⟩ := bind_ok h
  have := updateDomain_inv (ε := ε) h hi
  exact this.1

theorem updateRibbons_keeps (h : S.updateRibbons = .ok S') : S' = { S with quartic := S'.quartic } := by
  unfold updateRibbons at h
  obtain ⟨q, _, h⟩ := bind_ok h
  cases h; rfl

theorem setF_keeps {i : ℕ} {p : P3 K} (h : S.setFaceControlPoint i p = .ok S') : ∃ l, vset S.cpF i p = .ok l ∧ S' = { S with cpF := l } := by
  unfold setFaceControlPoint at h
  obtain ⟨l, e, h⟩ := bind_ok h
  cases h
  exact ⟨l, e, rfl⟩

theorem setE_keeps {i : ℕ} {p : P3 K} (h : S.setEdgeControlPoint i p = .ok S') : ∃ l, vset S.cpE i p = .ok l ∧ S' = { S with cpE := l } := by
  unfold setEdgeControlPoint at h
  obtain ⟨l, e, h⟩ := bind_ok h
  cases h
  exact ⟨l, e, rfl⟩

theorem step_inv {c : Call K} (hi : Inv ε S) (e : S.step ε arc c = .ok S') : Inv ε S' := by
  cases c with
  | init n => cases e; exact hi
  | setV p => cases e; exact hi
  | setF i p => obtain ⟨l, _, rfl⟩ := setF_keeps e; exact hi
  | setE i p => obtain ⟨l, _, rfl⟩ := setE_keeps e; exact hi
  | setFull f => cases e; exact hi
  | loop => exact setupLoop_inv e hi
  | ribbons => rw [updateRibbons_keeps e]; exact hi
  | eval uv =>
    unfold step at e
    obtain ⟨r, e1, e⟩ := bind_ok e
    cases e
    exact eval_inv e1 hi

theorem run_inv {cs : List (Call K)} (hi : Inv ε S) (e : S.run ε arc cs = .ok S') : Inv ε S' := by
  induction cs generalizing S with
  | nil => cases e; exact hi
  | cons c cs ih =>
    unfold run at e
    obtain ⟨S1, e1, e⟩ := bind_ok e
    exact ih (step_inv hi e1) e

theorem run_split {xs ys : List (Call K)} (e : S.run ε arc (xs ++ ys) = .ok S') : ∃ S1, S.run ε arc xs = .ok S1 ∧ S1.run ε arc ys = .ok S' := by
  induction xs generalizing S with
  | nil => exact ⟨S, rfl, e⟩
  | cons c xs ih =>
    rw [List.cons_append] at e
    unfold run at e
    obtain ⟨S1, e1, e⟩ := bind_ok e
    obtain ⟨S2, e2, e3⟩ := ih e
    exact ⟨S2, by unfold run; rw [e1]; exact e2, e3⟩

end field

section real

variable {n : ℕ} {ε : ℝ} {arc : List (P3 ℝ) → ℝ → ℝ → ℝ} {S S' : SuperD ℝ} {F E : ℕ → P3 ℝ} {r φ : ℝ}

/-- An object with `n` sides. -/
structure Shape (n : ℕ) (S : SuperD ℝ) : Prop where
  n_eq : S.n = n
  lenF : S.cpF.length = n
  lenE : S.cpE.length = n

theorem Shape.points (h : Shape n S) : ∃ F E, S.cpF = tab n F ∧ S.cpE = tab n E := by
  haveI : Inhabited (P3 ℝ) := ⟨0⟩
  obtain ⟨F, hF⟩ := exists_tab S.cpF
  obtain ⟨E, hE⟩ := exists_tab S.cpE
  rw [h.lenF] at hF
  rw [h.lenE] at hE
  exact ⟨F, E, hF, hE⟩

theorem boundaries_eq (hF : S.cpF = tab n F) (hE : S.cpE = tab n E) (hn : S.n = n) :
    S.boundaries arc = .ok (tab n fun i => bezierCurve arc (tab 5 (basePoint S.fullness n F E i))) := by
  unfold boundaries
  rw [hn]
  refine (forLoop_push n _ _ [] ?_).trans (by rw [List.nil_append, tab])
  intro i l hi
  rw [generateBase_eq hF hE hn hi, M_bind_ok]

theorem curve_pt (f : ℝ) (i : ℕ) (u : ℝ) : (bezierCurve arc (tab 5 (basePoint f n F E i))).pt u = bezier 4 (basePoint f n F E i) u := GB.bezierCurve_pt arc 4 _ u

theorem setupLoop_eq (hF : S.cpF = tab n F) (hE : S.cpE = tab n E) (hn : S.n = n) :
    S.setupLoop arc = updateDomain { S with n := n, curves := tab n fun i => bezierCurve arc (tab 5 (basePoint S.fullness n F E i)) } := by
  unfold setupLoop
  rw [boundaries_eq hF hE hn, M_bind_ok, C26_oriented (fun i hi => ?_), M_bind_ok, length_tab]
  rw [curve_pt, Ribbon.bezier_one]
  change _ = (bezierCurve arc (tab 5 (basePoint S.fullness n F E (nextIx n i)))).pt 0
  rw [curve_pt, Ribbon.bezier_zero]
  change F i = F (prevIx n (nextIx n i))
  rw [prevIx_nextIx hi]

/-- The heights of the vertices used by the parameterization. -/
theorem superD_height (hn : 3 ≤ n) {r φ : ℝ} (hr : 0 < r) : ∃ k < n, k = (if n ≤ 6 then 1 else (n - 3) / 2) ∧ 0 < leftOf n (regularVertex n r φ) 0 (regularVertex n r φ k) ∧
    0 < superDScale n ∧ superDScale n ≤ 1 ∧
    r ^ 2 * (4 * sin (π / n) ^ 2) * sin (2 * π / n) = superDScale n * leftOf n (regularVertex n r φ) 0 (regularVertex n r φ k) := by
  obtain ⟨sp1, sp2⟩ := sin_pi_div_pos hn
  have hH : 0 < r ^ 2 * (4 * sin (π / n) ^ 2) * sin (2 * π / n) := by positivity
  set k := if n ≤ 6 then 1 else (n - 3) / 2 with hk
  have hk1 : 1 ≤ k ∧ k + 2 ≤ n := by rw [hk]; split_ifs <;> omega
  have hge := regular_leftOf_ge hn (r := r) (φ := φ) (j := 0) (by omega) hk1.1 hk1.2
  have he := regular_leftOf hn (r := r) (φ := φ) (j := 0) (m := k) (by omega) (by omega)
  rw [zero_add, Nat.mod_eq_of_lt (by omega)] at hge he
  have hpos := lt_of_lt_of_le hH hge
  have key : r ^ 2 * (4 * sin (π / n) ^ 2) * sin (2 * π / n) = superDScale n * leftOf n (regularVertex n r φ) 0 (regularVertex n r φ k) := by
    unfold superDScale
    by_cases h6 : n ≤ 6
    · have hk' : k = 1 := by rw [hk, if_pos h6]
      rw [if_pos h6, he, hk']
      push_cast
      rw [one_mul, show ((1 : ℝ) + 1) * (π / n) = 2 * π / n by ring]
      ring_nf
    · have hk' : k = (n - 3) / 2 := by rw [hk, if_neg h6]
      rw [if_neg h6, ← hk', he]
      rw [he] at hpos
      have e1 : (k : ℝ) * π / n = k * (π / n) := by ring
      have e2 : ((k : ℝ) + 1) * π / n = (k + 1) * (π / n) := by ring
      rw [e1, e2]
      have hne : sin (k * (π / n)) * sin ((k + 1) * (π / n)) ≠ 0 := by
        intro q
        rw [mul_assoc, q] at hpos
        simp at hpos
      have h1 := left_ne_zero_of_mul hne
      have h2 := right_ne_zero_of_mul hne
      generalize sin (k * (π / n)) = A at *
      generalize sin ((k + 1) * (π / n)) = B at *
      field_simp
  refine ⟨k, by omega, rfl, hpos, ?_, ?_, key⟩
  · by_contra q
    have := mul_nonpos_of_nonpos_of_nonneg (not_lt.mp q) hpos.le
    linarith
  · by_contra q
    have := mul_lt_mul_of_pos_right (not_le.mp q) hpos
    linarith

theorem superD_mult (hr : 0 < r) {d : Domain ℝ} (h : ConvexDomain d n (regularVertex n r φ)) : ∃ m, Param.superDMultipliers d = .ok m ∧
    ∀ ε uv s, ∀ j < n, Param.bilinearSide ε d j uv = .ok s →
      Param.parallelMap ε m d j uv = .ok ⟨s, superDScale n * (leftOf n (regularVertex n r φ) j uv / (r ^ 2 * (4 * sin (π / n) ^ 2) * sin (2 * π / n)))⟩ := by
  have hn := h.hn
  obtain ⟨k, hk, hk', h1, h2, _, h3⟩ := superD_height hn (φ := φ) hr
  obtain ⟨sp1, sp2⟩ := sin_pi_div_pos hn
  have hN : 0 < r ^ 2 * (4 * sin (π / n) ^ 2) := by positivity
  obtain ⟨x, e⟩ := h.toLocal_self (i := 0) (by omega) (regularVertex n r φ k)
  rw [regular_du hn] at e
  have hy : 0 < leftOf n (regularVertex n r φ) 0 (regularVertex n r φ k) / (r ^ 2 * (4 * sin (π / n) ^ 2)) := div_pos h1 hN
  refine ⟨List.replicate n (1 / (leftOf n (regularVertex n r φ) 0 (regularVertex n r φ k) / (r ^ 2 * (4 * sin (π / n) ^ 2)))), ?_, ?_⟩
  · unfold Param.superDMultipliers
    rw [h.length_eq]
    dsimp only
    rw [← hk', h.vget_vertex hk, M_bind_ok, h.vget_vertex (by omega), M_bind_ok, e, M_bind_ok]
    dsimp only
    rw [fdiv_of_ne hy.ne', M_bind_ok]
  · intro ε uv s j hj hb
    obtain ⟨x', e'⟩ := h.toLocal_self hj uv
    rw [regular_du hn] at e'
    unfold Param.parallelMap
    rw [hb, M_bind_ok, h.vget_vertex hj, M_bind_ok, e', M_bind_ok, replicate_eq_tab, vget_tab _ hj, M_bind_ok]
    congr 2
    rw [h3]
    have := h2.ne'
    field_simp

theorem updateDomain_total (hn : 3 ≤ n) (h : S.curves.length = n) : ∃ S', S.updateDomain = .ok S' := by
  unfold updateDomain
  rw [h]
  by_cases h0 : S.dom.dom.n = n
  · unfold Domain.regularUpdate
    rw [if_pos h0, M_bind_ok, if_neg (by simp)]
    exact ⟨_, rfl⟩
  · obtain ⟨d, r, φ, hr, e, hd, _⟩ := regular_normal hn S.dom.dom h0
    rw [e, M_bind_ok, if_pos rfl]
    obtain ⟨m, hm, _⟩ := superD_mult hr hd
    unfold Param.update
    dsimp only
    rw [hm, M_bind_ok, M_bind_ok]
    exact ⟨_, rfl⟩

theorem length_vset {α : Type} {l l' : List α} {i : ℕ} {a : α} (h : vset l i a = .ok l') : l'.length = l.length := by
  unfold vset at h
  split_ifs at h
  cases h
  simp

/-- A call that does not change the control points. -/
def Call.Still : Call ℝ → Prop
  | .loop => True
  | .eval _ => True
  | _ => False

theorem step_shape (h : Shape n S) {c : Call ℝ} (hc : ∀ m, c ≠ .init m) (e : S.step ε arc c = .ok S') :
    Shape n S' ∧ (c = .loop ∧ Inv ε S ∨ S.dom.dom.n = n → S'.dom.dom.n = n) := by
  obtain ⟨h1, h2, h3⟩ := h
  cases c with
  | init n => exact absurd rfl (hc n)
  | setV p => cases e; exact ⟨⟨h1, h2, h3⟩, fun q => q.resolve_left (fun w => by cases w.1)⟩
  | setF i p =>
    obtain ⟨l, e', rfl⟩ := setF_keeps e
    exact ⟨⟨h1, (length_vset e').trans h2, h3⟩, fun q => q.resolve_left (fun w => by cases w.1)⟩
  | setE i p =>
    obtain ⟨l, e', rfl⟩ := setE_keeps e
    exact ⟨⟨h1, h2, (length_vset e').trans h3⟩, fun q => q.resolve_left (fun w => by cases w.1)⟩
  | setFull f => cases e; exact ⟨⟨h1, h2, h3⟩, fun q => q.resolve_left (fun w => by cases w.1)⟩
  | loop =>
    obtain ⟨F, E, hF, hE⟩ := Shape.points ⟨h1, h2, h3⟩
    change S.setupLoop arc = _ at e
    rw [setupLoop_eq hF hE h1] at e
    have k := updateDomain_keeps e
    refine ⟨by rw [k]; exact ⟨rfl, h2, h3⟩, fun q => ?_⟩
    rcases q with ⟨_, q⟩ | q
    · have := (updateDomain_inv (ε := ε) e q).2
      rwa [length_tab] at this
    · unfold updateDomain at e
      dsimp only at e
      rw [length_tab] at e
      unfold Domain.regularUpdate at e
      rw [if_pos q, M_bind_ok, if_neg (by simp)] at e
      cases e
      exact q
  | ribbons =>
    rw [updateRibbons_keeps e]
    exact ⟨⟨h1, h2, h3⟩, fun q => q.resolve_left (fun w => by cases w.1)⟩
  | eval uv =>
    unfold step at e
    obtain ⟨r, e1, e⟩ := bind_ok e
    cases e
    rw [eval_keeps e1]
    exact ⟨⟨h1, h2, h3⟩, fun q => q.resolve_left (fun w => by cases w.1)⟩

theorem run_shape (h : Shape n S) (hi : Inv ε S) {cs : List (Call ℝ)} (hc : ∀ c ∈ cs, ∀ m, c ≠ .init m) (e : S.run ε arc cs = .ok S') :
    Shape n S' ∧ (.loop ∈ cs ∨ S.dom.dom.n = n → S'.dom.dom.n = n) := by
  induction cs generalizing S with
  | nil => cases e; exact ⟨h, fun q => q.resolve_left (by simp)⟩
  | cons c cs ih =>
    unfold run at e
    obtain ⟨S1, e1, e⟩ := bind_ok e
    obtain ⟨s1, s2⟩ := step_shape h (hc c (by simp)) e1
    obtain ⟨t1, t2⟩ := ih s1 (step_inv hi e1) (fun x hx => hc x (List.mem_cons_of_mem _ hx)) e
    refine ⟨t1, fun q => t2 ?_⟩
    rcases q with q | q
    · rcases List.mem_cons.mp q with w | w
      · exact Or.inr (s2 (Or.inl ⟨w.symm, hi⟩))
      · exact Or.inl w
    · exact Or.inr (s2 (Or.inr q))

/-- The ribbons were generated from the current control points. -/
def Current (S : SuperD ℝ) : Prop := S.updateRibbons = .ok S

theorem generateRibbon_congr (h1 : S'.n = S.n) (h2 : S'.fullness = S.fullness) (h3 : S'.cpV = S.cpV) (h4 : S'.cpF = S.cpF) (h5 : S'.cpE = S.cpE) (i : ℕ) :
    S'.generateRibbon i = S.generateRibbon i := by
  unfold generateRibbon generateOpp generateMid generateBase
  rw [h1, h2, h3, h4, h5]

theorem current_iff : Current S ↔ forLoop S.n (fun i (l : List (List (List (P3 ℝ)))) => do
    let r ← S.generateRibbon i
    .ok (l ++ [r])) [] = .ok S.quartic := by
  unfold Current updateRibbons
  constructor
  · intro h
    obtain ⟨q, e, h⟩ := bind_ok h
    have := Except.ok.inj h
    rw [e, ← this]
  · intro h
    rw [h]; rfl

theorem current_congr (h : Current S) (h1 : S'.n = S.n) (h2 : S'.fullness = S.fullness) (h3 : S'.cpV = S.cpV) (h4 : S'.cpF = S.cpF) (h5 : S'.cpE = S.cpE)
    (h6 : S'.quartic = S.quartic) : Current S' := by
  rw [current_iff] at h ⊢
  rw [h6, ← h, h1]
  congr 1
  funext i l
  rw [generateRibbon_congr h1 h2 h3 h4 h5]

theorem updateRibbons_current (h : S.updateRibbons = .ok S') : Current S' := by
  unfold updateRibbons at h
  obtain ⟨q, e, h⟩ := bind_ok h
  cases h
  rw [current_iff]
  rw [← e]
  rfl

theorem still_current (hs : Shape n S) (h : Current S) {cs : List (Call ℝ)} (hc : ∀ c ∈ cs, c.Still) (e : S.run ε arc cs = .ok S') : Current S' := by
  induction cs generalizing S with
  | nil => cases e; exact h
  | cons c cs ih =>
    unfold run at e
    obtain ⟨S1, e1, e⟩ := bind_ok e
    have hc' := hc c (by simp)
    have hni : ∀ m, c ≠ .init m := fun m q => by rw [q] at hc'; exact hc'
    refine ih (step_shape hs hni e1).1 ?_ (fun x hx => hc x (List.mem_cons_of_mem _ hx)) e
    cases c with
    | loop =>
      obtain ⟨F, E, hF, hE⟩ := hs.points
      change S.setupLoop arc = _ at e1
      rw [setupLoop_eq hF hE hs.n_eq] at e1
      have k := updateDomain_keeps e1
      rw [k]
      exact current_congr h hs.n_eq.symm rfl rfl rfl rfl rfl
    | eval uv =>
      unfold step at e1
      obtain ⟨r, e2, e1⟩ := bind_ok e1
      cases e1
      rw [eval_keeps e2]
      exact current_congr h rfl rfl rfl rfl rfl rfl
    | _ => exact absurd hc' id

/-- `S` is the result of a history of calls: anything, then `initNetwork(n)`, then any number of calls of the other functions, at least one of them `setupLoop`,
with `updateRibbons` called after the last change of the control points and the fullness. -/
def Usable (ε : ℝ) (arc : List (P3 ℝ) → ℝ → ℝ → ℝ) (n : ℕ) (calls : List (Call ℝ)) (S : SuperD ℝ) : Prop :=
  ∃ before middle tail, calls = before ++ .init n :: (middle ++ .ribbons :: tail) ∧ SuperD.new.run ε arc calls = .ok S ∧ (∀ c ∈ middle, ∀ m, c ≠ .init m) ∧
    (∀ c ∈ tail, c.Still) ∧ (.loop ∈ middle ∨ .loop ∈ tail)

theorem resize_length (l : List (P3 ℝ)) (m : ℕ) : (resize l m).length = m := by
  unfold resize
  simp
  omega

theorem Usable.state {calls : List (Call ℝ)} (hn : 3 ≤ n) (h : Usable ε arc n calls S) : Shape n S ∧ Inv ε S ∧ Current S ∧ ∃ r φ, 1 ≤ r ∧ ConvexDomain S.dom.dom n (regularVertex n r φ) := by
  obtain ⟨before, middle, tail, rfl, hr, hm, ht, hl⟩ := h
  have hi := run_inv (new_inv ε) hr
  obtain ⟨S1, e1, e2⟩ := run_split hr
  unfold run at e2
  obtain ⟨S2, e3, e2⟩ := bind_ok e2
  have i2 := step_inv (run_inv (new_inv ε) e1) e3
  cases e3
  have hs : Shape n (S1.initNetwork n) := ⟨rfl, resize_length _ _, resize_length _ _⟩
  have hni : ∀ c ∈ middle ++ .ribbons :: tail, ∀ m, c ≠ .init m := by
    intro c hc m
    rcases List.mem_append.mp hc with q | q
    · exact hm c q m
    · rcases List.mem_cons.mp q with w | w
      · rw [w]; simp
      · intro x; have := ht c w; rw [x] at this; exact this
  obtain ⟨s1, s2⟩ := run_shape hs i2 hni e2
  have hdn := s2 (Or.inl (by rcases hl with q | q <;> simp [q]))
  obtain ⟨S3, e3, e4⟩ := run_split e2
  have s3 := (run_shape hs i2 hm e3).1
  unfold run at e4
  obtain ⟨S4, e5, e4⟩ := bind_ok e4
  have s4 := (step_shape s3 (by simp) e5).1
  refine ⟨s1, hi, still_current s4 (updateRibbons_current e5) ht e4, ?_⟩
  rcases hi with q | ⟨_, vs, q1, q2⟩
  · omega
  · rw [hdn] at q1
    obtain ⟨r, φ, hr, hd, _⟩ := regular_convex hn q1 q2
    exact ⟨r, φ, hr, hd⟩

end real

end SuperD

end Transfinite
