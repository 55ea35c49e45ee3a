import Verif.Lemmas.FileIO

/-! # Reading S-patches and SuperD models -/

namespace Transfinite

open Spec

section general

theorem forLoop_idx {σ : Type} {n : ℕ} {f : ℕ → σ → M σ} {a b : σ} (I : ℕ → σ → Prop) (h0 : I 0 a) (hs : ∀ k x y, k < n → I k x → f k x = .ok y → I (k + 1) y)
    (h : forLoop n f a = .ok b) : I n b := by
  induction n generalizing b with
  | zero => cases h; exact h0
  | succ n ih =>
    rw [forLoop_succ] at h
    obtain ⟨x, e, h⟩ := bind_ok h
    exact hs _ _ _ (Nat.lt_succ_self n) (ih (fun k x y hk => hs k x y (by omega)) e) h

/-- A loop fails in one way only if its steps do. -/
theorem forLoop_fault {σ : Type} {n : ℕ} {f : ℕ → σ → M σ} {a : σ} {e : Fault} (I : σ → Prop) (h0 : I a) (hs : ∀ k x, k < n → I x → f k x = .error e ∨ ∃ y, f k x = .ok y ∧ I y) :
    forLoop n f a = .error e ∨ ∃ b, forLoop n f a = .ok b ∧ I b := by
  induction n with
  | zero => exact Or.inr ⟨a, rfl, h0⟩
  | succ n ih =>
    rw [forLoop_succ]
    rcases ih fun k x hk => hs k x (by omega) with h | ⟨b, h, hb⟩
    · rw [h]; exact Or.inl rfl
    · rw [h, M_bind_ok]; exact hs n b (by omega) hb

end general

section tokens

variable {α : Type} {T : Type} {read : T → Option α}

theorem readThrow_cons {v : α} {t : T} {ts : List T} {f : Bool} (h : read t = some v) : readThrow read ⟨t :: ts, f⟩ = .ok (v, ⟨ts, false⟩) := by
  unfold readThrow
  dsimp only
  rw [h]

theorem readThrow_ok {v : α} {s s' : IStream T} (h : readThrow read s = .ok (v, s')) : ∃ t, s.toks = t :: s'.toks ∧ read t = some v := by
  unfold readThrow at h
  split at h
  · cases h
  · rename_i t ts e
    split at h
    · rename_i w hw
      cases h
      exact ⟨t, e, hw⟩
    · cases h

theorem readThrow_cases (s : IStream T) : readThrow read s = .error .exception ∨ ∃ r, readThrow read s = .ok r := by
  unfold readThrow
  split
  · exact Or.inl rfl
  · split
    · exact Or.inr ⟨_, rfl⟩
    · exact Or.inl rfl

theorem readVec_throw_ok {l xs : List α} {s s' : IStream T} (h : readVec (fun _ s => readThrow read s) l s = .ok (xs, s')) :
    xs.length = l.length ∧ ∃ ts, s.toks = ts ++ s'.toks ∧ List.Forall₂ (fun t x => read t = some x) ts xs := by
  unfold readVec at h
  have := forLoop_idx (I := fun j (st : List α × IStream T) => st.1.length = l.length ∧ ∃ ts, s.toks = ts ++ st.2.toks ∧ List.Forall₂ (fun t x => read t = some x) ts (st.1.take j))
    ⟨rfl, [], rfl, by rw [List.take_zero]; exact .nil⟩ (fun j st st' hj ⟨h1, ts, h2, h3⟩ e => by
      obtain ⟨o, _, e⟩ := bind_ok e
      obtain ⟨r, e2, e⟩ := bind_ok e
      obtain ⟨l', e3, e⟩ := bind_ok e
      cases e
      obtain ⟨t, q1, q2⟩ := readThrow_ok e2
      rw [vset_of_lt (by omega)] at e3
      cases e3
      refine ⟨by rw [List.length_set]; exact h1, ts ++ [t], by rw [h2, q1]; simp, ?_⟩
      dsimp only
      rw [List.take_add_one, List.getElem?_set_self (by omega), List.take_set_of_le (by omega)]
      exact List.rel_append h3 (.cons q2 .nil)) h
  obtain ⟨h1, ts, h2, h3⟩ := this
  refine ⟨h1, ts, h2, ?_⟩
  dsimp only at h1 h3
  rwa [← h1, List.take_length] at h3

theorem readVec_throw_cases (l : List α) (s : IStream T) : readVec (fun _ s => readThrow read s) l s = .error .exception ∨ ∃ xs s', readVec (fun _ s => readThrow read s) l s = .ok (xs, s') ∧
    xs.length = l.length := by
  unfold readVec
  rcases forLoop_fault (n := l.length) (f := fun j (st : List α × IStream T) => do
    let old ← vget st.1 j
    let r ← readThrow read st.2
    let l ← vset st.1 j r.1
    .ok (l, r.2)) (a := (l, s)) (e := .exception) (fun st => st.1.length = l.length) rfl (fun j st hj hs => by
      rw [vget_of_lt (by omega), M_bind_ok]
      rcases readThrow_cases (read := read) st.2 with q | ⟨r, q⟩
      · rw [q]; exact Or.inl rfl
      · rw [q, M_bind_ok, vset_of_lt (by omega), M_bind_ok]
        exact Or.inr ⟨_, rfl, by rw [List.length_set]; exact hs⟩) with h | ⟨r, h, hl⟩
  · exact Or.inl h
  · exact Or.inr ⟨r.1, r.2, h, hl⟩

end tokens

section spatch

variable {T : Type} {io : Fmt ℝ T} {n d : ℕ}

theorem spatchEntry_block {b : List T} {e : List ℕ × P3 ℝ} (h : IsEntry io n b e) {rest : List T} {st : SPatch ℝ × List ℕ × IStream T} (hi : st.2.1.length = n)
    (hf : st.2.2 = ⟨b ++ rest, false⟩) : spatchEntry io st = .ok (st.1.setControlPoint e.1 e.2, e.1, ⟨rest, false⟩) := by
  obtain ⟨ls, ps, rfl, hl, h1, h2⟩ := h
  unfold spatchEntry
  rw [hf, List.append_assoc, readVec_blocks (A := fun b x => ∃ t, b = [t] ∧ io.readNat t = some x) (fun b x old rest ⟨t, hb, ht⟩ => by rw [hb]; exact readThrow_cons ht)
    (blocks_single h1) (by omega), M_bind_ok]
  unfold IsPoint Nums at h2
  cases h2 with
  | cons a1 h => cases h with
    | cons a2 h => cases h with
      | cons a3 h =>
        cases h
        simp only [List.cons_append, List.nil_append, readThrow_cons a1, readThrow_cons a2, readThrow_cons a3, M_bind_ok]

theorem spatchEntry_ok {st st' : SPatch ℝ × List ℕ × IStream T} (hi : st.2.1.length = n) (h : spatchEntry io st = .ok st') :
    ∃ b e, IsEntry io n b e ∧ st.2.2.toks = b ++ st'.2.2.toks ∧ st'.1 = st.1.setControlPoint e.1 e.2 ∧ st'.2.1.length = n := by
  unfold spatchEntry at h
  obtain ⟨ix, e1, h⟩ := bind_ok h
  obtain ⟨x, e2, h⟩ := bind_ok h
  obtain ⟨y, e3, h⟩ := bind_ok h
  obtain ⟨z, e4, h⟩ := bind_ok h
  cases h
  obtain ⟨h1, ts, h2, h3⟩ := readVec_throw_ok (xs := ix.1) (s' := ix.2) e1
  obtain ⟨tx, x1, x2⟩ := readThrow_ok (v := x.1) (s' := x.2) e2
  obtain ⟨ty, y1, y2⟩ := readThrow_ok (v := y.1) (s' := y.2) e3
  obtain ⟨tz, z1, z2⟩ := readThrow_ok (v := z.1) (s' := z.2) e4
  exact ⟨ts ++ [tx, ty, tz], (ix.1, ⟨x.1, y.1, z.1⟩), ⟨ts, [tx, ty, tz], rfl, h1.trans hi, h3, .cons x2 (.cons y2 (.cons z2 .nil))⟩, by rw [h2, x1, y1, z1]; simp, rfl, h1.trans hi⟩

theorem spatchEntry_cases {st : SPatch ℝ × List ℕ × IStream T} : spatchEntry io st = .error .exception ∨ ∃ st', spatchEntry io st = .ok st' := by
  unfold spatchEntry
  rcases readVec_throw_cases (read := io.readNat) st.2.1 st.2.2 with q | ⟨xs, s', q, _⟩
  · rw [q]; exact Or.inl rfl
  rw [q, M_bind_ok]
  dsimp only
  rcases readThrow_cases (read := io.readNum) s' with q | ⟨x, q⟩
  · rw [q]; exact Or.inl rfl
  rw [q, M_bind_ok]
  rcases readThrow_cases (read := io.readNum) x.2 with q | ⟨y, q⟩
  · rw [q]; exact Or.inl rfl
  rw [q, M_bind_ok]
  rcases readThrow_cases (read := io.readNum) y.2 with q | ⟨z, q⟩
  · rw [q]; exact Or.inl rfl
  rw [q, M_bind_ok]
  exact Or.inr ⟨_, rfl⟩

theorem spatchLoop_blocks {es : List (List ℕ × P3 ℝ)} {bs : List (List T)} (h : List.Forall₂ (IsEntry io n) bs es) {ε : ℝ} {arc : List (P3 ℝ) → ℝ → ℝ → ℝ} {rest : List T}
    {st : SPatch ℝ × List ℕ × IStream T} (hi : st.2.1.length = n) (hf : st.2.2 = ⟨bs.flatten ++ rest, false⟩) :
    ∃ st', forLoop es.length (fun _ st => spatchEntry io st) st = .ok st' ∧ st.1.run ε arc (es.map fun e => .set e.1 e.2) = .ok st'.1 := by
  induction h generalizing st with
  | nil => exact ⟨st, rfl, rfl⟩
  | @cons b e bs es h _ ih =>
    have e1 := spatchEntry_block h hi (rest := bs.flatten ++ rest) (by rw [hf, List.flatten_cons, List.append_assoc])
    obtain ⟨st2, e2, r2⟩ := ih (st := (st.1.setControlPoint e.1 e.2, e.1, ⟨bs.flatten ++ rest, false⟩)) (by obtain ⟨_, _, _, q, _⟩ := h; exact q) rfl
    refine ⟨st2, ?_, ?_⟩
    · rw [List.length_cons, forLoop_front, e1, M_bind_ok, e2]
    · rw [List.map_cons]
      unfold SPatch.run SPatch.step
      rw [M_bind_ok]
      exact r2

theorem spatchLoop_ok {ε : ℝ} {arc : List (P3 ℝ) → ℝ → ℝ → ℝ} (m : ℕ) {st st' : SPatch ℝ × List ℕ × IStream T} (hi : st.2.1.length = n)
    (h : forLoop m (fun _ st => spatchEntry io st) st = .ok st') : ∃ bs es, List.Forall₂ (IsEntry io n) bs es ∧ es.length = m ∧ st.2.2.toks = bs.flatten ++ st'.2.2.toks ∧
      st.1.run ε arc (es.map fun e => .set e.1 e.2) = .ok st'.1 := by
  induction m generalizing st with
  | zero => cases h; exact ⟨[], [], .nil, rfl, rfl, rfl⟩
  | succ m ih =>
    rw [forLoop_front] at h
    obtain ⟨st1, e1, h⟩ := bind_ok h
    obtain ⟨b, e, h1, h2, h3, h4⟩ := spatchEntry_ok hi e1
    obtain ⟨bs, es, q1, q2, q3, q4⟩ := ih h4 h
    refine ⟨b :: bs, e :: es, .cons h1 q1, by rw [List.length_cons, q2], by rw [h2, q3, List.flatten_cons, List.append_assoc], ?_⟩
    rw [List.map_cons]
    unfold SPatch.run SPatch.step
    rw [M_bind_ok, ← h3]
    exact q4

theorem card_labels (n d : ℕ) : (labels n d).card = (n + d - 1).choose d := by
  have := Finset.card_finsuppAntidiag_nat_eq_choose (s := Finset.range n) d
  rw [Finset.card_range] at this
  rw [← this]
  symm
  refine Finset.card_bij (fun f _ => (f : ℕ → ℕ)) (fun f hf => ?_) (fun f _ g _ h => DFunLike.coe_injective h) fun k hk => ?_
  · rw [Finset.mem_finsuppAntidiag] at hf
    unfold labels
    rw [Finset.mem_piAntidiag]
    exact ⟨hf.1, fun i hi => hf.2 (Finsupp.mem_support_iff.mpr hi)⟩
  · unfold labels at hk
    rw [Finset.mem_piAntidiag] at hk
    refine ⟨Finsupp.onFinset (Finset.range n) k hk.2, ?_, rfl⟩
    rw [Finset.mem_finsuppAntidiag]
    exact ⟨hk.1, Finsupp.support_onFinset_subset⟩

theorem binomial_total (n k : ℕ) : ∃ r, binomial n k = .ok r := by
  unfold binomial
  split
  · exact ⟨0, rfl⟩
  · obtain ⟨s, e, _⟩ := forLoop_inv (n := k) (body := binomialStep) (s := (1, n)) (fun _ _ => True) trivial fun j s _ _ => ⟨_, rfl, trivial⟩
    rw [e]
    exact ⟨_, rfl⟩

theorem binomial_cps (h : n + d ≤ 63) : binomial (usub (n + d) 1) d = .ok ((n + d - 1).choose d) := by
  unfold usub
  split
  · exact C54_binomial_small _ _ (by omega)
  · have h0 : n = 0 ∧ d = 0 := by omega
    rw [h0.1, h0.2]
    rfl

/-- The last entry with a label determines the control point. -/
theorem run_entries {ε : ℝ} {arc : List (P3 ℝ) → ℝ → ℝ → ℝ} (es : List (List ℕ × P3 ℝ)) (S : SPatch ℝ) : ∃ S', S.run ε arc (es.map fun e => .set e.1 e.2) = .ok S' ∧ S'.n = S.n ∧ S'.depth = S.depth ∧
    (∀ l, (∀ e ∈ es, e.1 ≠ l) → S'.controlPoint l = S.controlPoint l) ∧ ((es.map Prod.fst).Nodup → ∀ e ∈ es, S'.controlPoint e.1 = .ok e.2) := by
  induction es generalizing S with
  | nil => exact ⟨S, rfl, rfl, rfl, fun _ _ => rfl, fun _ e he => absurd he List.not_mem_nil⟩
  | cons x es ih =>
    obtain ⟨S', e0, h1, h2, h3, h4⟩ := ih (S.setControlPoint x.1 x.2)
    refine ⟨S', ?_, h1, h2, fun l hl => ?_, fun hd e he => ?_⟩
    · rw [List.map_cons]
      unfold SPatch.run SPatch.step
      rw [M_bind_ok, e0]
    · rw [h3 l fun e he => hl e (List.mem_cons_of_mem _ he)]
      exact (SPatch.C50_control S x.1 l x.2 0 0).2.1 (hl x List.mem_cons_self).symm
    · rw [List.map_cons, List.nodup_cons] at hd
      rcases List.mem_cons.mp he with rfl | he
      · rw [h3 e.1 fun y hy q => hd.1 (q ▸ List.mem_map_of_mem hy)]
        exact (SPatch.C50_control S e.1 [] e.2 0 0).1
      · exact h4 hd.2 e he

end spatch

section superd

variable {T : Type} {io : Fmt ℝ T} {n : ℕ} {arc : List (P3 ℝ) → ℝ → ℝ → ℝ} {ε : ℝ}

theorem superDPoints_face {S : SuperD ℝ} (hS : S.cpF.length = n) {P : ℕ → P3 ℝ × IStream T} (hP : ∀ j < n, readPoint io (P j).1 (P j).2 = P (j + 1)) :
    superDPoints io SuperD.setFaceControlPoint n (S, P 0) = .ok ({ S with cpF := tab n fun j => (P (j + 1)).1 }, P n) := by
  unfold superDPoints
  rw [forLoop_eq (fun j => ({ S with cpF := (tab n fun j => (P (j + 1)).1).take j ++ S.cpF.drop j }, P j)) (by simp)]
  · rw [← hS, List.drop_length, List.append_nil, hS]
    rw [List.take_of_length_le (by rw [length_tab])]
  · intro j hj
    dsimp only
    unfold SuperD.setFaceControlPoint
    dsimp only
    rw [hP j hj, vset_drop (x := (P (j + 1)).1) _ (by omega) (by rw [← vget_eq_ok]; exact vget_tab _ hj), M_bind_ok, M_bind_ok]

theorem superDPoints_edge {S : SuperD ℝ} (hS : S.cpE.length = n) {P : ℕ → P3 ℝ × IStream T} (hP : ∀ j < n, readPoint io (P j).1 (P j).2 = P (j + 1)) :
    superDPoints io SuperD.setEdgeControlPoint n (S, P 0) = .ok ({ S with cpE := tab n fun j => (P (j + 1)).1 }, P n) := by
  unfold superDPoints
  rw [forLoop_eq (fun j => ({ S with cpE := (tab n fun j => (P (j + 1)).1).take j ++ S.cpE.drop j }, P j)) (by simp)]
  · rw [← hS, List.drop_length, List.append_nil, hS]
    rw [List.take_of_length_le (by rw [length_tab])]
  · intro j hj
    dsimp only
    unfold SuperD.setEdgeControlPoint
    dsimp only
    rw [hP j hj, vset_drop (x := (P (j + 1)).1) _ (by omega) (by rw [← vget_eq_ok]; exact vget_tab _ hj), M_bind_ok, M_bind_ok]

theorem run_faces {S : SuperD ℝ} (hS : S.cpF.length = n) (F : ℕ → P3 ℝ) : S.run ε arc ((List.range n).map fun j => .setF j (F j)) = .ok { S with cpF := tab n F } := by
  have : ∀ m ≤ n, S.run ε arc ((List.range m).map fun j => .setF j (F j)) = .ok { S with cpF := (tab n F).take m ++ S.cpF.drop m } := by
    intro m hm
    induction m with
    | zero => simp [SuperD.run]
    | succ m ih =>
      rw [List.range_succ, List.map_append]
      refine SuperD.run_append (ih (by omega)) ?_
      rw [List.map_singleton]
      unfold SuperD.run SuperD.step SuperD.setFaceControlPoint
      dsimp only
      rw [vset_drop (x := F m) _ (by omega) (by rw [← vget_eq_ok]; exact vget_tab _ (by omega)), M_bind_ok, M_bind_ok]
      rfl
  have := this n (le_refl n)
  rwa [← hS, List.drop_length, List.append_nil, hS, List.take_of_length_le (by rw [length_tab])] at this

theorem run_edges {S : SuperD ℝ} (hS : S.cpE.length = n) (E : ℕ → P3 ℝ) : S.run ε arc ((List.range n).map fun j => .setE j (E j)) = .ok { S with cpE := tab n E } := by
  have : ∀ m ≤ n, S.run ε arc ((List.range m).map fun j => .setE j (E j)) = .ok { S with cpE := (tab n E).take m ++ S.cpE.drop m } := by
    intro m hm
    induction m with
    | zero => simp [SuperD.run]
    | succ m ih =>
      rw [List.range_succ, List.map_append]
      refine SuperD.run_append (ih (by omega)) ?_
      rw [List.map_singleton]
      unfold SuperD.run SuperD.step SuperD.setEdgeControlPoint
      dsimp only
      rw [vset_drop (x := E m) _ (by omega) (by rw [← vget_eq_ok]; exact vget_tab _ (by omega)), M_bind_ok, M_bind_ok]
      rfl
  have := this n (le_refl n)
  rwa [← hS, List.drop_length, List.append_nil, hS, List.take_of_length_le (by rw [length_tab])] at this

/-- The last calls for a patch. -/
theorem superD_finish (hn : 3 ≤ n) {S : SuperD ℝ} {F E : ℕ → P3 ℝ} (hs : S.n = n) (hF : S.cpF = tab n F) (hE : S.cpE = tab n E) : ∃ S2 S3, S.setupLoop arc = .ok S2 ∧ S2.updateRibbons = .ok S3 ∧
    S3.cpF = tab n F ∧ S3.cpE = tab n E ∧ S3.cpV = S.cpV ∧ S3.fullness = S.fullness := by
  have h1 : SuperD.Shape n S := ⟨hs, by rw [hF, length_tab], by rw [hE, length_tab]⟩
  obtain ⟨S2, e2, h5, h6, _⟩ := SuperD.C51_setupLoop (arc := arc) hn h1 (F := F) (E := E) fun i hi => ⟨by unfold SuperD.faceControlPoint; rw [hF, vget_tab _ hi],
    by unfold SuperD.edgeControlPoint; rw [hE, vget_tab _ hi]⟩
  have k := SuperD.setupLoop_eq (arc := arc) hF hE h1.n_eq
  have k2 := SuperD.updateDomain_keeps (k.symm.trans e2)
  have hF2 : S2.cpF = tab n F := by rw [k2]; exact hF
  have hE2 : S2.cpE = tab n E := by rw [k2]; exact hE
  have e3 : ∃ q, S2.updateRibbons = .ok { S2 with quartic := q } := by
    unfold SuperD.updateRibbons
    have : ∀ i, ∃ g, i < n → S2.generateRibbon i = .ok g := by
      intro i
      by_cases hi : i < n
      · obtain ⟨g, hg, _⟩ := SuperD.generateRibbon_eq hF2 hE2 h6 hn hi
        exact ⟨_, fun _ => hg⟩
      · exact ⟨[], fun q => absurd q hi⟩
    choose g hg using this
    rw [h6, forLoop_push n _ g [] (fun i l hi => by rw [hg i hi, M_bind_ok]), M_bind_ok]
    exact ⟨_, rfl⟩
  obtain ⟨q, e3⟩ := e3
  exact ⟨S2, _, e2, e3, hF2, hE2, by rw [k2], by rw [k2]⟩

/-- The calls made for a patch. -/
def superDCalls (D : SuperDData ℝ) : List (SuperD.Call ℝ) :=
  [] ++ .init D.n :: ((((List.range D.n).map fun j => .setF j (D.F j)) ++ ((List.range D.n).map fun j => .setE j (D.E j)) ++ [.setV D.V, .loop]) ++ .ribbons :: [])

/-- The patch `S` has the data `D`, and its object is in the state described by C51. -/
def Built (ε : ℝ) (arc : List (P3 ℝ) → ℝ → ℝ → ℝ) (D : SuperDData ℝ) (S : SuperD ℝ) : Prop :=
  SuperD.Usable ε arc D.n (superDCalls D) S ∧ SuperD.Points D.n S D.F D.E ∧ S.vertexControlPoint = D.V ∧ S.fullness = 1 / 2

/-- A patch is built from the points that are read. -/
theorem superDPatch_eq {n0 : ℕ} {p0 : P3 ℝ} {s s1 : IStream T} (hn : 3 ≤ n) (h0 : readTok io.readNat 0 n0 s = (n, s1)) {P Q : ℕ → P3 ℝ × IStream T} {r : P3 ℝ × IStream T}
    (hP0 : P 0 = (p0, s1)) (hP : ∀ j < n, readPoint io (P j).1 (P j).2 = P (j + 1)) (hQ0 : Q 0 = P n) (hQ : ∀ j < n, readPoint io (Q j).1 (Q j).2 = Q (j + 1))
    (hr : readPoint io (Q n).1 (Q n).2 = r) : ∃ S, superDPatch io arc n0 p0 s = .ok (S, r.2) ∧ Built ε arc ⟨n, fun j => (P (j + 1)).1, fun j => (Q (j + 1)).1, r.1⟩ S := by
  unfold superDPatch
  dsimp only
  rw [h0]
  dsimp only
  have l0 : (SuperD.new.initNetwork n : SuperD ℝ).cpF.length = n := SuperD.resize_length _ _
  have l1 : (SuperD.new.initNetwork n : SuperD ℝ).cpE.length = n := SuperD.resize_length _ _
  rw [← hP0, superDPoints_face l0 hP, M_bind_ok, ← hQ0, superDPoints_edge (S := { (SuperD.new.initNetwork n : SuperD ℝ) with cpF := tab n fun j => (P (j + 1)).1 }) l1 hQ, M_bind_ok]
  dsimp only
  rw [hr]
  obtain ⟨S2, S3, e2, e3, hF, hE, hV, hf⟩ := superD_finish (arc := arc) hn
    (S := SuperD.setVertexControlPoint { (SuperD.new.initNetwork n : SuperD ℝ) with cpF := tab n fun j => (P (j + 1)).1, cpE := tab n fun j => (Q (j + 1)).1 } r.1) rfl rfl rfl
  rw [e2, M_bind_ok, e3, M_bind_ok]
  refine ⟨S3, rfl, ⟨_, _, _, rfl, ?_, ?_, by simp, Or.inl (by simp)⟩, fun i hi => ⟨?_, ?_⟩, hV, hf⟩
  · unfold superDCalls
    rw [List.nil_append]
    unfold SuperD.run SuperD.step
    rw [M_bind_ok]
    refine SuperD.run_append (SuperD.run_append (SuperD.run_append (run_faces l0 _) (run_edges (S := { (SuperD.new.initNetwork n : SuperD ℝ) with cpF := tab n fun j => (P (j + 1)).1 }) l1 _)) (S2 := S2) ?_) ?_
    · simp only [SuperD.run, SuperD.step, e2, M_bind_ok]
    · simp only [SuperD.run, SuperD.step, e3, M_bind_ok]
  · intro c hc m hcm
    rw [hcm] at hc
    simp at hc
  · unfold SuperD.faceControlPoint
    rw [hF]
    exact vget_tab _ hi
  · unfold SuperD.edgeControlPoint
    rw [hE]
    exact vget_tab _ hi

end superd

end Transfinite
