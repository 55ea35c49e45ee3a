import Verif.Lemmas.FileIOPatch

/-! # C82-C85: reading curve loops, writing point clouds, reading S-patches and SuperD models -/

namespace Transfinite

open Spec

section lop

variable {K : Type} [Field K] [LinearOrder K] [Libm K] {T : Type} {io : Fmt K T}

/-- C82: `readLOP` gives the curves in the file, in the order of the file. The rest of the file does not matter. -/
theorem C82_read {cs : List (LopCurve K)} {ts : List T} (h : IsLOP io cs.length cs ts) (n0 deg0 nk0 nc0 : ℕ) (rest : List T) :
    readLOP io n0 deg0 nk0 nc0 (some (ts ++ rest)) = .ok cs := by
  obtain ⟨t, _, rfl, h1, bs, rfl, h2⟩ := h
  unfold readLOP
  dsimp only
  rw [List.cons_append, GB.readTok_cons h1]
  obtain ⟨st, e, r, _⟩ := lopLoop_blocks h2 (rest := rest) (st := ⟨deg0, nk0, nc0, [], [], [], ⟨bs.flatten ++ rest, false⟩⟩) rfl
  dsimp only
  rw [e, M_bind_ok, r]
  rfl

/-- C82: the number of the curves is always the number at the beginning of the file, whatever follows it; and no error is reported. If the file does not begin
with a number, or it is missing, there are no curves. -/
theorem C82_count (n0 deg0 nk0 nc0 : ℕ) (t : T) (ts : List T) : (∃ cs, readLOP io n0 deg0 nk0 nc0 (some (t :: ts)) = .ok cs ∧ cs.length = (io.readNat t).getD 0) ∧
    readLOP io n0 deg0 nk0 nc0 none = .ok [] := by
  refine ⟨?_, rfl⟩
  unfold readLOP
  dsimp only
  have e : (readTok io.readNat 0 n0 ⟨t :: ts, false⟩).1 = (io.readNat t).getD 0 := by
    unfold readTok
    cases q : io.readNat t <;> simp [q]
  obtain ⟨st, e1, r⟩ := lopLoop_total (io := io) (readTok io.readNat 0 n0 ⟨t :: ts, false⟩).1 ⟨deg0, nk0, nc0, [], [], [], (readTok io.readNat 0 n0 ⟨t :: ts, false⟩).2⟩
  rw [e1, M_bind_ok]
  refine ⟨_, rfl, ?_⟩
  rw [r, e]
  simp

/-- C82: when the file has fewer curves than it says, the last curve is repeated, and no error is reported. -/
theorem C82_truncated {n : ℕ} {cs : List (LopCurve K)} {c : LopCurve K} {ts : List T} (h : IsLOP io n (cs ++ [c]) ts) (hn : cs.length + 1 ≤ n) (n0 deg0 nk0 nc0 : ℕ) :
    readLOP io n0 deg0 nk0 nc0 (some ts) = .ok (cs ++ List.replicate (n - cs.length) c) := by
  obtain ⟨t, _, rfl, h1, bs, rfl, h2⟩ := h
  unfold readLOP
  dsimp only
  rw [GB.readTok_cons h1]
  obtain ⟨st, e, r, f, l⟩ := lopLoop_blocks h2 (rest := []) (st := ⟨deg0, nk0, nc0, [], [], [], ⟨bs.flatten, false⟩⟩) (by rw [List.append_nil])
  obtain ⟨st', e', r'⟩ := lopLoop_dead (io := io) (n - (cs.length + 1)) (st := st) (by rw [f]; exact Or.inr rfl) (l c (by simp))
  dsimp only
  have hsplit : ∀ (a b : ℕ) (s : LopState K T), forLoop (a + b) (fun _ st => lopStep io st) s = forLoop a (fun _ st => lopStep io st) s >>= forLoop b (fun _ st => lopStep io st) := by
    intro a b
    induction a with
    | zero => intro s; rw [Nat.zero_add]; rfl
    | succ a ih =>
      intro s
      rw [Nat.succ_add, forLoop_front, forLoop_front, bind_assoc]
      exact congrArg _ (funext ih)
  rw [List.length_append, List.length_singleton] at e
  rw [show n = cs.length + 1 + (n - (cs.length + 1)) by omega, hsplit, e, M_bind_ok, e', M_bind_ok, r', r]
  rw [List.nil_append, List.append_assoc, List.singleton_append, ← List.replicate_succ, show n - (cs.length + 1) + 1 = cs.length + 1 + (n - (cs.length + 1)) - cs.length by omega]

/-- C82: for an empty file the result is determined by the memory that is not initialized: any number of curves of any degree may be returned. -/
theorem C82_empty (n deg nk nc : ℕ) : readLOP io n deg nk nc (some []) = .ok (List.replicate n ⟨deg, List.replicate nk 0, List.replicate nc 0⟩) := by
  unfold readLOP
  dsimp only
  have e : readTok io.readNat 0 n ⟨[], false⟩ = (n, ⟨[], true⟩) := rfl
  rw [e]
  dsimp only
  cases n with
  | zero => rfl
  | succ n =>
    rw [forLoop_front]
    have step : ∃ st' : LopState K T, lopStep io ⟨deg, nk, nc, [], [], [], ⟨[], true⟩⟩ = .ok st' ∧ st'.result = [⟨deg, List.replicate nk 0, List.replicate nc 0⟩] ∧ st'.f.Dead ∧
        st'.Holds ⟨deg, List.replicate nk 0, List.replicate nc 0⟩ := by
      unfold lopStep
      dsimp only
      have hd : (⟨[], true⟩ : IStream T).Dead := Or.inl rfl
      have e1 : ∀ o, readTok io.readNat 0 o ⟨[], true⟩ = (o, ⟨[], true⟩) := fun _ => rfl
      rw [e1]
      dsimp only
      rw [e1]
      dsimp only
      obtain ⟨s3, e3, h3⟩ := readVec_dead (rd := readTok io.readNum 0) (fun o s hs => readTok_dead hs) (resizeVec 0 [] nk) hd
      rw [e3, M_bind_ok]
      dsimp only
      obtain ⟨s4, e4, h4⟩ := readTok_dead (read := io.readNat) (zero := 0) (old := nc) h3
      rw [e4]
      dsimp only
      obtain ⟨s5, e5, h5⟩ := readVec_dead (rd := readPoint io) (fun o s hs => readPoint_dead hs) (resizeVec 0 [] nc) h4
      rw [e5, M_bind_ok]
      have r : ∀ {α : Type} (z : α) m, resizeVec z [] m = List.replicate m z := fun z m => by unfold resizeVec; simp
      rw [r, r]
      exact ⟨_, rfl, rfl, h5, rfl, by simp, rfl, by simp, rfl⟩
    obtain ⟨st', e1, r1, f1, l1⟩ := step
    rw [e1, M_bind_ok]
    obtain ⟨st2, e2, r2⟩ := lopLoop_dead (io := io) n f1 l1
    rw [e2, M_bind_ok, r2, r1, List.replicate_succ]
    rfl

end lop

section pcp

variable {K : Type} [Field K] [LinearOrder K] [Libm K] {T : Type} {io : Fmt K T}

/-- C83: the first line of the file is the number of the parameter points, and line `i + 1` has the coordinates of point `i` and its parameters. -/
theorem C83_lines {uvs : List (P2 K)} {points : List (P3 K)} (h : uvs.length ≤ points.length) : ∃ lines, writePCP io uvs points = .ok lines ∧ lines.length = uvs.length + 1 ∧
    lines[0]? = some [io.printNat uvs.length] ∧ ∀ i uv p, uvs[i]? = some uv → points[i]? = some p →
      lines[i + 1]? = some [io.printNum p.x, io.printNum p.y, io.printNum p.z, io.printNum uv.x, io.printNum uv.y] := by
  unfold writePCP
  have e : ∀ i, ∃ l, ∀ (h : i < uvs.length) (h' : i < points.length), l = [io.printNum points[i].x, io.printNum points[i].y, io.printNum points[i].z, io.printNum uvs[i].x, io.printNum uvs[i].y] := by
    intro i
    by_cases q : i < uvs.length
    · exact ⟨[io.printNum points[i].x, io.printNum points[i].y, io.printNum points[i].z, io.printNum uvs[i].x, io.printNum uvs[i].y], fun _ _ => rfl⟩
    · exact ⟨[], fun h => absurd h q⟩
  choose g hg using e
  rw [forLoop_push uvs.length _ g [[io.printNat uvs.length]] (fun i l hi => by
    rw [vget_of_lt hi, M_bind_ok, vget_of_lt (by omega), M_bind_ok, hg i hi (by omega)])]
  refine ⟨_, rfl, by simp [Nat.add_comm], rfl, fun i uv p h1 h2 => ?_⟩
  obtain ⟨i1, rfl⟩ := List.getElem?_eq_some_iff.mp h1
  obtain ⟨i2, rfl⟩ := List.getElem?_eq_some_iff.mp h2
  rw [← hg i i1 i2]
  simp [i1]

/-- C83: with fewer points than parameters, there is a read out of bounds. -/
theorem C83_short {uvs : List (P2 K)} {points : List (P3 K)} (h : points.length < uvs.length) : writePCP io uvs points = .error .oob := by
  unfold writePCP
  have step : ∀ (f : ℕ → List (List T) → M (List (List T))) (a : List (List T)) (m : ℕ), (∀ i x, i < m → ∃ y, f i x = .ok y) → (∀ x, f m x = .error .oob) → ∀ k, m < k → forLoop k f a = .error .oob := by
    intro f a m h1 h2 k hk
    induction k with
    | zero => omega
    | succ k ih =>
      rw [forLoop_succ]
      by_cases q : m < k
      · rw [ih q]; rfl
      · obtain ⟨b, e, _⟩ := forLoop_inv (n := m) (body := f) (s := a) (fun _ _ => True) trivial fun j x hj _ => by
          obtain ⟨y, e⟩ := h1 j x hj
          exact ⟨y, e, trivial⟩
        rw [show k = m by omega, e, M_bind_ok, h2]
  refine step _ _ points.length (fun i x hi => ?_) (fun x => ?_) _ h
  · rw [vget_of_lt (by omega), M_bind_ok, vget_of_lt hi, M_bind_ok]
    exact ⟨_, rfl⟩
  · rw [vget_of_lt h, M_bind_ok, vget_oob (le_refl _)]
    rfl

end pcp

section spatch

variable {T : Type} {io : Fmt ℝ T} {n d : ℕ} {arc : List (P3 ℝ) → ℝ → ℝ → ℝ} {ε : ℝ}

/-- The calls that make an S-patch with the control points `es`. -/
def spatchCalls (n d : ℕ) (es : List (List ℕ × P3 ℝ)) : List (SPatch.Call ℝ) := [] ++ .init n d :: ((es.map fun e => .set e.1 e.2) ++ [.loop])

/-- C84: loading a file gives the same object as the calls that set the control points in the file one by one; so it is equivalent to the object that was described by them. The labels
may be in any order, and they are not checked. -/
theorem C84_read (hn : 3 ≤ n) (hnd : n + d ≤ 63) {es : List (List ℕ × P3 ℝ)} {ts : List T} (h : IsSPatch io n d es ts) (hes : es.length = (n + d - 1).choose d) (depth0 : ℕ) (rest : List T) :
    ∃ S, loadSPatch io arc depth0 (some (ts ++ rest)) = .ok S ∧ (SPatch.new depth0).run ε arc (spatchCalls n d es) = .ok S := by
  obtain ⟨tn, td, _, rfl, h1, h2, bs, rfl, h3⟩ := h
  unfold loadSPatch
  rw [List.cons_append, List.cons_append]
  dsimp only
  rw [readThrow_cons h1, M_bind_ok]
  dsimp only
  rw [readThrow_cons h2, M_bind_ok]
  dsimp only
  rw [binomial_cps hnd, M_bind_ok, ← hes]
  obtain ⟨st, e, r⟩ := spatchLoop_blocks h3 (ε := ε) (arc := arc) (rest := rest) (st := ((SPatch.new depth0).initNetwork n d, List.replicate n 0, ⟨bs.flatten ++ rest, false⟩))
    List.length_replicate rfl
  rw [e, M_bind_ok]
  obtain ⟨S', e', q1, _⟩ := run_entries (ε := ε) (arc := arc) es ((SPatch.new depth0).initNetwork n d)
  obtain rfl : S' = st.1 := Except.ok.inj (e'.symm.trans r)
  obtain ⟨S, e2, _⟩ := SPatch.C50_setupLoop (arc := arc) hn st.1 q1
  refine ⟨S, e2, ?_⟩
  unfold spatchCalls
  rw [List.nil_append]
  unfold SPatch.run SPatch.step
  rw [M_bind_ok]
  refine SPatch.run_join r ?_
  unfold SPatch.run SPatch.step
  rw [e2]
  rfl

/-- C84: conversely, when a file can be loaded, it begins with the right number of labelled control points, and the object is the one made from them. -/
theorem C84_only {toks : List T} {depth0 : ℕ} {S : SPatch ℝ} (h : loadSPatch io arc depth0 (some toks) = .ok S) : ∃ n d es ts rest, toks = ts ++ rest ∧ IsSPatch io n d es ts ∧
    (n + d ≤ 63 → es.length = (n + d - 1).choose d) ∧ (SPatch.new depth0).run ε arc (spatchCalls n d es) = .ok S := by
  unfold loadSPatch at h
  obtain ⟨n, e1, h⟩ := bind_ok h
  obtain ⟨d, e2, h⟩ := bind_ok h
  obtain ⟨cp, e3, h⟩ := bind_ok h
  obtain ⟨st, e4, h⟩ := bind_ok h
  obtain ⟨tn, n1, n2⟩ := readThrow_ok (v := n.1) (s' := n.2) e1
  obtain ⟨td, d1, d2⟩ := readThrow_ok (v := d.1) (s' := d.2) e2
  obtain ⟨bs, es, q1, q2, q3, q4⟩ := spatchLoop_ok (n := n.1) (ε := ε) (arc := arc) cp List.length_replicate e4
  refine ⟨n.1, d.1, es, tn :: td :: bs.flatten, st.2.2.toks, ?_, ⟨tn, td, _, rfl, n2, d2, bs, rfl, q1⟩, fun hb => ?_, ?_⟩
  · dsimp only at n1 q3
    rw [n1, d1, q3]
    rfl
  · rw [binomial_cps hb] at e3
    rw [q2]
    exact (Except.ok.inj e3).symm
  · unfold spatchCalls
    rw [List.nil_append]
    unfold SPatch.run SPatch.step
    rw [M_bind_ok]
    refine SPatch.run_join q4 ?_
    unfold SPatch.run SPatch.step
    rw [h]
    rfl

/-- C84: when no label is repeated, and the sum of every label is the depth, then the loaded patch has all of its control points, with the coordinates in the file,
and C50 applies to it. -/
theorem C84_complete (hn : 3 ≤ n) (hnd : n + d ≤ 63) {es : List (List ℕ × P3 ℝ)} {ts : List T} (h : IsSPatch io n d es ts) (hes : es.length = (n + d - 1).choose d)
    (hlab : ∀ e ∈ es, Label n d e.1) (hdup : (es.map Prod.fst).Nodup) (depth0 : ℕ) (rest : List T) :
    ∃ S, loadSPatch io arc depth0 (some (ts ++ rest)) = .ok S ∧ SPatch.Usable ε arc n d (spatchCalls n d es) S ∧ (∀ e ∈ es, S.controlPoint e.1 = .ok e.2) ∧
      ∀ k ∈ labels n d, ∃ e ∈ es, e.1 = tab n k := by
  obtain ⟨S, h1, h2⟩ := C84_read (arc := arc) (ε := ε) hn hnd h hes depth0 rest
  refine ⟨S, h1, ⟨depth0, [], _, rfl, h2, fun c hc => ?_, by simp⟩, fun e he => ?_, fun k hk => ?_⟩
  · rcases List.mem_append.mp hc with q | q
    · obtain ⟨e, he, rfl⟩ := List.mem_map.mp q
      exact hlab e he
    · rw [List.mem_singleton.mp q]; trivial
  · obtain ⟨S1, e1, q1, _, _, q2⟩ := run_entries (ε := ε) (arc := arc) es ((SPatch.new depth0).initNetwork n d)
    obtain ⟨S2, e2, _, _, _, q3⟩ := SPatch.C50_setupLoop (arc := arc) hn S1 q1
    have : (SPatch.new depth0).run ε arc (spatchCalls n d es) = .ok S2 := by
      unfold spatchCalls
      rw [List.nil_append]
      unfold SPatch.run SPatch.step
      rw [M_bind_ok]
      refine SPatch.run_join e1 ?_
      unfold SPatch.run SPatch.step
      rw [e2]
      rfl
    obtain rfl : S2 = S := Except.ok.inj (this.symm.trans h2)
    rcases q3 e.1 with w | ⟨w, _⟩
    · rw [w, q2 hdup e he]
    · rw [q2 hdup e he] at w; cases w
  · classical
    have hsub : (es.map Prod.fst).toFinset ⊆ (labels n d).image fun k => tab n k := by
      intro l hl
      obtain ⟨e, he, rfl⟩ := List.mem_map.mp (List.mem_toFinset.mp hl)
      obtain ⟨k, hk, q⟩ := SPatch.label_labels (hlab e he)
      exact Finset.mem_image.mpr ⟨k, hk, q⟩
    have hcard : ((labels n d).image fun k => tab n k).card ≤ (es.map Prod.fst).toFinset.card := by
      rw [List.toFinset_card_of_nodup hdup, List.length_map, hes, ← card_labels]
      exact Finset.card_image_le
    have := Finset.eq_of_subset_of_card_le hsub hcard
    have hm : tab n k ∈ (es.map Prod.fst).toFinset := by rw [this]; exact Finset.mem_image_of_mem _ hk
    obtain ⟨e, he, q⟩ := List.mem_map.mp (List.mem_toFinset.mp hm)
    exact ⟨e, he, q⟩

/-- C84: a missing file, a file that ends early, or one with something else in the place of a number leads to an exception (and not to an incomplete patch). -/
theorem C84_exception {toks : List T} (hbad : ¬ ∃ n d es ts rest, toks = ts ++ rest ∧ IsSPatch io n d es ts ∧ binomial (usub (n + d) 1) d = .ok es.length) (depth0 : ℕ) :
    loadSPatch io arc depth0 (some toks) = .error .exception ∧ loadSPatch io arc depth0 none = .error .exception := by
  refine ⟨?_, rfl⟩
  unfold loadSPatch
  dsimp only
  rcases readThrow_cases (read := io.readNat) ⟨toks, false⟩ with q | ⟨n, e1⟩
  · rw [q]; rfl
  rw [e1, M_bind_ok]
  rcases readThrow_cases (read := io.readNat) n.2 with q | ⟨d, e2⟩
  · rw [q]; rfl
  rw [e2, M_bind_ok]
  obtain ⟨cp, e3⟩ := binomial_total (usub (n.1 + d.1) 1) d.1
  rw [e3, M_bind_ok]
  rcases forLoop_fault (n := cp) (f := fun _ st => spatchEntry io st) (a := ((SPatch.new depth0).initNetwork n.1 d.1, List.replicate n.1 0, d.2)) (e := .exception) (fun _ => True) trivial
    (fun k st _ _ => (spatchEntry_cases (io := io) (st := st)).imp id fun ⟨y, h⟩ => ⟨y, h, trivial⟩) with q | ⟨st, q, _⟩
  · rw [q]; rfl
  exfalso
  apply hbad
  obtain ⟨tn, n1, n2⟩ := readThrow_ok (v := n.1) (s' := n.2) e1
  obtain ⟨td, d1, d2⟩ := readThrow_ok (v := d.1) (s' := d.2) e2
  obtain ⟨bs, es, q1, q2, q3, q4⟩ := spatchLoop_ok (n := n.1) (ε := 0) (arc := arc) cp List.length_replicate q
  refine ⟨n.1, d.1, es, tn :: td :: bs.flatten, st.2.2.toks, ?_, ⟨tn, td, _, rfl, n2, d2, bs, rfl, q1⟩, by rw [q2]; exact e3⟩
  dsimp only at n1 q3
  rw [n1, d1, q3]
  rfl

/-- C84: labels are not checked: a patch is also loaded when the label of a control point on the boundary is missing (and another label is repeated, or it is not a label at all);
then the control point is zero. -/
theorem C84_missing (hn : 3 ≤ n) (hnd : n + d ≤ 63) {es : List (List ℕ × P3 ℝ)} {ts : List T} (h : IsSPatch io n d es ts) (hes : es.length = (n + d - 1).choose d) (depth0 : ℕ) (rest : List T)
    {i j : ℕ} (hi : i < n) (hj : j ≤ d) (hmiss : ∀ e ∈ es, e.1 ≠ tab n (sideLabel d i ((i + 1) % n) j)) :
    ∃ S, loadSPatch io arc depth0 (some (ts ++ rest)) = .ok S ∧ S.controlPoint (tab n (sideLabel d i ((i + 1) % n) j)) = .ok 0 := by
  obtain ⟨S, h1, h2⟩ := C84_read (arc := arc) (ε := 1) hn hnd h hes depth0 rest
  refine ⟨S, h1, ?_⟩
  obtain ⟨S1, e1, q1, qd, q2, _⟩ := run_entries (ε := 1) (arc := arc) es ((SPatch.new depth0).initNetwork n d)
  obtain ⟨net', x1, x3, e⟩ := SPatch.setupLoop_parts (n := n) (arc := arc) (S := S1) (by omega) q1 rfl
  obtain ⟨S2, e2, _, _, _, q3⟩ := SPatch.C50_setupLoop (arc := arc) hn S1 q1
  have : (SPatch.new depth0).run 1 arc (spatchCalls n d es) = .ok S2 := by
    unfold spatchCalls
    rw [List.nil_append]
    unfold SPatch.run SPatch.step
    rw [M_bind_ok]
    refine SPatch.run_join e1 ?_
    unfold SPatch.run SPatch.step
    rw [e2]
    rfl
  obtain rfl : S2 = S := Except.ok.inj (this.symm.trans h2)
  have hnone := q2 _ hmiss
  rcases q3 (tab n (sideLabel d i ((i + 1) % n) j)) with w | ⟨_, w, _⟩
  · exfalso
    rw [e] at e2
    have k := SPatch.updateDomain_keeps e2
    rw [hnone] at w
    have x3 := x3 i hi j (by rw [qd]; exact hj)
    rw [qd] at x3
    unfold SPatch.controlPoint at w
    rw [k] at w
    dsimp only at w
    change _ = Except.error _ at w
    split at w
    · cases w
    · rename_i q
      exact x3 q
  · exact w

end spatch

section superd

variable {T : Type} {io : Fmt ℝ T} {arc : List (P3 ℝ) → ℝ → ℝ → ℝ} {ε : ℝ}

theorem points_seq {fs : List T} {n : ℕ} {F : ℕ → P3 ℝ} (h : Blocks (IsPoint io) fs (tab n F)) (p0 : P3 ℝ) (rest : List T) : ∃ P : ℕ → P3 ℝ × IStream T,
    P 0 = (p0, ⟨fs ++ rest, false⟩) ∧ (∀ j < n, readPoint io (P j).1 (P j).2 = P (j + 1)) ∧ (P n).2 = ⟨rest, false⟩ ∧ ∀ j < n, (P (j + 1)).1 = F j := by
  obtain ⟨bs, rfl, hf⟩ := h
  have hlen := hf.length_eq
  rw [length_tab] at hlen
  refine ⟨fun j => (match j with | 0 => p0 | j + 1 => F j, ⟨(bs.drop j).flatten ++ rest, false⟩), rfl, fun j hj => ?_, ?_, fun j hj => rfl⟩
  · dsimp only
    rw [List.drop_eq_getElem_cons (by omega), List.flatten_cons, List.append_assoc]
    have := hf.get (i := j) (by omega) (by rw [length_tab]; omega)
    rw [show (tab n F).get ⟨j, by rw [length_tab]; omega⟩ = F j by unfold tab; simp] at this
    exact readPoint_block this
  · dsimp only
    rw [← hlen, List.drop_length]
    rfl

theorem superDPatch_block {D : SuperDData ℝ} (hn : 3 ≤ D.n) {b : List T} (h : IsPatch io b D) (n0 : ℕ) (p0 : P3 ℝ) (rest : List T) :
    ∃ S, superDPatch io arc n0 p0 ⟨b ++ rest, false⟩ = .ok (S, ⟨rest, false⟩) ∧ Built ε arc D S := by
  obtain ⟨tn, fs, es, vs, rfl, h1, h2, h3, h4⟩ := h
  obtain ⟨P, p1, p2, p3, p4⟩ := points_seq h2 p0 (es ++ vs ++ rest)
  obtain ⟨Q, q1, q2, q3, q4⟩ := points_seq h3 (P D.n).1 (vs ++ rest)
  have hr := readPoint_block h4 (old := (Q D.n).1) (rest := rest)
  obtain ⟨S, e, u1, u2, u3, u4⟩ := superDPatch_eq (arc := arc) (ε := ε) (n0 := n0) (p0 := p0) (s := ⟨tn :: (fs ++ es ++ vs) ++ rest, false⟩) hn (GB.readTok_cons h1)
    (P := P) (Q := Q) (r := (D.V, ⟨rest, false⟩)) (by rw [p1]; simp) p2 (by rw [q1, ← List.append_assoc, ← p3]) q2 (by rw [q3]; exact hr)
  refine ⟨S, e, ?_, ?_, u3, u4⟩
  · have : superDCalls ⟨D.n, fun j => (P (j + 1)).1, fun j => (Q (j + 1)).1, D.V⟩ = superDCalls D := by
      unfold superDCalls
      dsimp only
      rw [List.map_congr_left (f := fun j => SuperD.Call.setF j (P (j + 1)).1) (g := fun j => SuperD.Call.setF j (D.F j)) fun j hj => by rw [p4 j (List.mem_range.mp hj)],
        List.map_congr_left (f := fun j => SuperD.Call.setE j (Q (j + 1)).1) (g := fun j => SuperD.Call.setE j (D.E j)) fun j hj => by rw [q4 j (List.mem_range.mp hj)]]
    rw [← this]
    exact u1
  · intro i hi
    obtain ⟨a, b⟩ := u2 i hi
    exact ⟨a.trans (congrArg _ (p4 i hi)), b.trans (congrArg _ (q4 i hi))⟩

theorem superDPatch_dead {n0 : ℕ} (hn : 3 ≤ n0) (p0 : P3 ℝ) {s : IStream T} (hs : s.Dead) :
    ∃ S s', superDPatch io arc n0 p0 s = .ok (S, s') ∧ s'.Dead ∧ Built ε arc ⟨n0, fun _ => p0, fun _ => p0, p0⟩ S := by
  obtain ⟨s1, e1, h1⟩ := readTok_dead (read := io.readNat) (zero := 0) (old := n0) hs
  have seq : ∀ s : IStream T, s.Dead → ∃ P : ℕ → P3 ℝ × IStream T, P 0 = (p0, s) ∧ (∀ j < n0, readPoint io (P j).1 (P j).2 = P (j + 1)) ∧ ∀ j, (P j).1 = p0 ∧ (P j).2.Dead := by
    intro s hs
    have : ∀ j, ((fun r : P3 ℝ × IStream T => readPoint io r.1 r.2)^[j] (p0, s)).1 = p0 ∧ ((fun r : P3 ℝ × IStream T => readPoint io r.1 r.2)^[j] (p0, s)).2.Dead := by
      intro j
      induction j with
      | zero => exact ⟨rfl, hs⟩
      | succ j ih =>
        rw [Function.iterate_succ_apply']
        obtain ⟨s', e, h⟩ := readPoint_dead (io := io) (p := p0) ih.2
        rw [ih.1, e]
        exact ⟨rfl, h⟩
    exact ⟨fun j => (fun r : P3 ℝ × IStream T => readPoint io r.1 r.2)^[j] (p0, s), rfl, fun j _ => (Function.iterate_succ_apply' (fun r : P3 ℝ × IStream T => readPoint io r.1 r.2) j (p0, s)).symm, this⟩
  obtain ⟨P, p1, p2, p3⟩ := seq s1 h1
  obtain ⟨Q, q1, q2, q3⟩ := seq (P n0).2 (p3 n0).2
  obtain ⟨s', er, hr⟩ := readPoint_dead (io := io) (p := p0) (q3 n0).2
  obtain ⟨S, e, u⟩ := superDPatch_eq (arc := arc) (ε := ε) (n0 := n0) (p0 := p0) (s := s) hn e1 (P := P) (Q := Q) (r := (p0, s')) p1 p2 (by rw [q1, ← (p3 n0).1]) q2 (by rw [(q3 n0).1]; exact er)
  refine ⟨S, s', e, hr, ?_⟩
  simp only [(p3 _).1, (q3 _).1] at u
  exact u

/-- C85: every patch of the model has the control points in the file, and is in the state described by C51 (with fullness 1/2). When the file has fewer patches than it says, no
error is reported: the missing patches have the number of sides and the coordinates that were in memory that is not initialized. -/
theorem C85_read {m : ℕ} {Ds : List (SuperDData ℝ)} {ts rest : List T} (h : IsSuperD io m Ds ts) (hn : ∀ D ∈ Ds, 3 ≤ D.n) (m0 : ℕ) (n0 : ℕ → ℕ) (p0 : ℕ → P3 ℝ)
    (hm : Ds.length = m ∨ Ds.length < m ∧ rest = [] ∧ ∀ i, Ds.length ≤ i → i < m → 3 ≤ n0 i) :
    ∃ Ss, loadSuperD io arc m0 n0 p0 (some (ts ++ rest)) = .ok Ss ∧ Ss.length = m ∧
      List.Forall₂ (Built ε arc) (Ds ++ (List.range (m - Ds.length)).map fun i => ⟨n0 (Ds.length + i), fun _ => p0 (Ds.length + i), fun _ => p0 (Ds.length + i), p0 (Ds.length + i)⟩) Ss := by
  obtain ⟨t, _, rfl, h1, bs, rfl, h2⟩ := h
  unfold loadSuperD
  rw [List.cons_append]
  dsimp only
  rw [GB.readTok_cons h1]
  have hlen := h2.length_eq
  obtain ⟨r, e, q1, q2, q3⟩ := forLoop_inv (n := m) (body := fun i (st : List (SuperD ℝ) × IStream T) => do
      let r ← superDPatch io arc (n0 i) (p0 i) st.2
      .ok (st.1 ++ [r.1], r.2)) (s := ([], ⟨bs.flatten ++ rest, false⟩))
    (fun j st => st.1.length = j ∧ (if j ≤ Ds.length then st.2 = ⟨(bs.drop j).flatten ++ rest, false⟩ else st.2.Dead) ∧
      List.Forall₂ (Built ε arc) ((Ds ++ (List.range (m - Ds.length)).map fun i => ⟨n0 (Ds.length + i), fun _ => p0 (Ds.length + i), fun _ => p0 (Ds.length + i), p0 (Ds.length + i)⟩ : List (SuperDData ℝ)).take j) st.1)
    ⟨rfl, by rw [if_pos (Nat.zero_le _)]; rfl, by rw [List.take_zero]; exact .nil⟩ fun j st hj ⟨i1, i2, i3⟩ => by
      by_cases hD : j < Ds.length
      · rw [if_pos (by omega), List.drop_eq_getElem_cons (by omega), List.flatten_cons, List.append_assoc] at i2
        obtain ⟨S, e, hb⟩ := superDPatch_block (arc := arc) (ε := ε) (io := io) (D := Ds[j]) (hn _ (List.getElem_mem hD)) (b := bs[j]) (h2.get (by omega) hD) (n0 j) (p0 j) ((bs.drop (j + 1)).flatten ++ rest)
        rw [i2, e, M_bind_ok]
        refine ⟨_, rfl, by rw [List.length_append, i1]; rfl, by rw [if_pos (by omega)], ?_⟩
        rw [List.take_add_one]
        refine List.rel_append i3 ?_
        rw [List.getElem?_append_left hD, List.getElem?_eq_getElem hD]
        exact .cons hb .nil
      · rcases hm with hm | ⟨hm, rfl, hm3⟩
        · omega
        have hd : st.2.Dead := by
          split at i2
          · rw [i2, show j = bs.length by omega, List.drop_length]
            exact Or.inr rfl
          · exact i2
        obtain ⟨S, s', e, hd', hb⟩ := superDPatch_dead (arc := arc) (ε := ε) (io := io) (hm3 j (by omega) hj) (p0 j) hd
        rw [e, M_bind_ok]
        refine ⟨_, rfl, by rw [List.length_append, i1]; rfl, by rw [if_neg (by omega)]; exact hd', ?_⟩
        rw [List.take_add_one]
        refine List.rel_append i3 ?_
        rw [List.getElem?_append_right (by omega), List.getElem?_map, List.getElem?_range (by omega), Option.map_some, show Ds.length + (j - Ds.length) = j by omega]
        exact .cons hb .nil
  dsimp only
  rw [e, M_bind_ok]
  refine ⟨_, rfl, q1, ?_⟩
  rw [List.take_of_length_le] at q3
  · exact q3
  · rw [List.length_append, List.length_map, List.length_range]
    rcases hm with hm | ⟨hm, _⟩ <;> omega

end superd

section examples

/-- A format for the examples: tokens are integers or words. -/
noncomputable def exampleFmt : Fmt ℝ (ℤ ⊕ String) where
  printNat n := .inl n
  printNum x := .inl ⌊x⌋
  readNat t := match t with | .inl z => some z.toNat | .inr _ => none
  readNum t := match t with | .inl z => some z | .inr _ => none

theorem example_point (x y z : ℤ) : IsPoint exampleFmt [.inl x, .inl y, .inl z] ⟨x, y, z⟩ := .cons rfl (.cons rfl (.cons rfl .nil))

/-- A line segment. -/
noncomputable def exampleSegment : LopCurve ℝ := ⟨1, [((0 : ℤ) : ℝ), ((0 : ℤ) : ℝ), ((1 : ℤ) : ℝ), ((1 : ℤ) : ℝ)], [⟨((0 : ℤ) : ℝ), ((0 : ℤ) : ℝ), ((0 : ℤ) : ℝ)⟩, ⟨((5 : ℤ) : ℝ), ((-2 : ℤ) : ℝ), ((0 : ℤ) : ℝ)⟩]⟩

theorem example_curve : IsCurve exampleFmt [.inl 1, .inl 4, .inl 0, .inl 0, .inl 1, .inl 1, .inl 2, .inl 0, .inl 0, .inl 0, .inl 5, .inl (-2), .inl 0] exampleSegment :=
  ⟨.inl 1, .inl 4, .inl 2, [.inl 0, .inl 0, .inl 1, .inl 1], [.inl 0, .inl 0, .inl 0, .inl 5, .inl (-2), .inl 0], rfl, rfl, rfl, .cons rfl (.cons rfl (.cons rfl (.cons rfl .nil))), rfl,
    [[.inl 0, .inl 0, .inl 0], [.inl 5, .inl (-2), .inl 0]], rfl, .cons (example_point _ _ _) (.cons (example_point _ _ _) .nil)⟩

/-- A file with one curve that says that it has `n`. -/
theorem example_lop (n : ℕ) : IsLOP exampleFmt n [exampleSegment] (.inl n :: [.inl 1, .inl 4, .inl 0, .inl 0, .inl 1, .inl 1, .inl 2, .inl 0, .inl 0, .inl 0, .inl 5, .inl (-2), .inl 0]) :=
  ⟨_, _, rfl, by simp [exampleFmt], [_], rfl, .cons example_curve .nil⟩

example : readLOP exampleFmt 7 7 7 7 (some ([.inl (1 : ℕ), .inl 1, .inl 4, .inl 0, .inl 0, .inl 1, .inl 1, .inl 2, .inl 0, .inl 0, .inl 0, .inl 5, .inl (-2), .inl 0] ++ [.inr "end"])) =
    .ok [exampleSegment] := C82_read (example_lop 1) 7 7 7 7 _

example : readLOP exampleFmt 7 7 7 7 (some [.inl (3 : ℕ), .inl 1, .inl 4, .inl 0, .inl 0, .inl 1, .inl 1, .inl 2, .inl 0, .inl 0, .inl 0, .inl 5, .inl (-2), .inl 0]) =
    .ok [exampleSegment, exampleSegment, exampleSegment] := C82_truncated (cs := []) (example_lop 3) (by simp) 7 7 7 7

example : ∃ lines, writePCP exampleFmt [⟨0, 1⟩] [⟨1, 2, 3⟩, ⟨4, 5, 6⟩] = .ok lines ∧ lines.length = 2 := by
  obtain ⟨l, h1, h2, _⟩ := C83_lines (io := exampleFmt) (uvs := [⟨0, 1⟩]) (points := [⟨1, 2, 3⟩, ⟨4, 5, 6⟩]) (by simp)
  exact ⟨l, h1, h2⟩

/-- A triangle as an S-patch of depth 1, with labels `l`, `l'` and `l''`. -/
theorem example_spatch (a b c a' b' c' a'' b'' c'' : ℕ) : IsSPatch exampleFmt 3 1
    [([a, b, c], ⟨((0 : ℤ) : ℝ), ((0 : ℤ) : ℝ), ((0 : ℤ) : ℝ)⟩), ([a', b', c'], ⟨((1 : ℤ) : ℝ), ((0 : ℤ) : ℝ), ((0 : ℤ) : ℝ)⟩), ([a'', b'', c''], ⟨((0 : ℤ) : ℝ), ((2 : ℤ) : ℝ), ((4 : ℤ) : ℝ)⟩)]
    [.inl 3, .inl 1, .inl a, .inl b, .inl c, .inl 0, .inl 0, .inl 0, .inl a', .inl b', .inl c', .inl 1, .inl 0, .inl 0, .inl a'', .inl b'', .inl c'', .inl 0, .inl 2, .inl 4] := by
  have label : ∀ a b c : ℕ, Nats exampleFmt [.inl a, .inl b, .inl c] [a, b, c] := fun a b c => .cons (by simp [exampleFmt]) (.cons (by simp [exampleFmt]) (.cons (by simp [exampleFmt]) .nil))
  refine ⟨_, _, _, rfl, rfl, rfl, [[.inl a, .inl b, .inl c, .inl 0, .inl 0, .inl 0], [.inl a', .inl b', .inl c', .inl 1, .inl 0, .inl 0], [.inl a'', .inl b'', .inl c'', .inl 0, .inl 2, .inl 4]], rfl, ?_⟩
  exact .cons ⟨_, _, rfl, rfl, label a b c, example_point _ _ _⟩ (.cons ⟨_, _, rfl, rfl, label a' b' c', example_point _ _ _⟩ (.cons ⟨_, _, rfl, rfl, label a'' b'' c'', example_point _ _ _⟩ .nil))

example (arc : List (P3 ℝ) → ℝ → ℝ → ℝ) : ∃ S, loadSPatch exampleFmt arc 9 (some ([.inl 3, .inl 1, .inl (1 : ℕ), .inl (0 : ℕ), .inl (0 : ℕ), .inl 0, .inl 0, .inl 0,
      .inl (0 : ℕ), .inl (1 : ℕ), .inl (0 : ℕ), .inl 1, .inl 0, .inl 0, .inl (0 : ℕ), .inl (0 : ℕ), .inl (1 : ℕ), .inl 0, .inl 2, .inl 4] ++ [])) = .ok S ∧
    S.controlPoint [0, 0, 1] = .ok ⟨0, 2, 4⟩ := by
  obtain ⟨S, h1, _, h2, _⟩ := C84_complete (arc := arc) (ε := 1) (by omega) (by omega) (example_spatch 1 0 0 0 1 0 0 0 1) (by decide) (by
    intro e he
    simp only [List.mem_cons, List.not_mem_nil, or_false] at he
    rcases he with rfl | rfl | rfl <;> exact ⟨rfl, rfl⟩) (by simp) 9 []
  refine ⟨S, h1, ?_⟩
  have := h2 ([0, 0, 1], ⟨((0 : ℤ) : ℝ), ((2 : ℤ) : ℝ), ((4 : ℤ) : ℝ)⟩) (by simp)
  simpa using this

/-- The label `[0, 1, 0]` is missing, and `[7, 0, 0]` is not a label. -/
example (arc : List (P3 ℝ) → ℝ → ℝ → ℝ) : ∃ S, loadSPatch exampleFmt arc 9 (some ([.inl 3, .inl 1, .inl (1 : ℕ), .inl (0 : ℕ), .inl (0 : ℕ), .inl 0, .inl 0, .inl 0,
      .inl (7 : ℕ), .inl (0 : ℕ), .inl (0 : ℕ), .inl 1, .inl 0, .inl 0, .inl (0 : ℕ), .inl (0 : ℕ), .inl (1 : ℕ), .inl 0, .inl 2, .inl 4] ++ [])) = .ok S ∧
    S.controlPoint [0, 1, 0] = .ok 0 :=
  C84_missing (arc := arc) (by omega) (by omega) (example_spatch 1 0 0 7 0 0 0 0 1) (by decide) 9 [] (i := 0) (j := 1) (by omega) (by omega) (by
    intro e he
    simp only [List.mem_cons, List.not_mem_nil, or_false] at he
    rcases he with rfl | rfl | rfl <;> decide)

/-- A file that ends early. -/
example (arc : List (P3 ℝ) → ℝ → ℝ → ℝ) : loadSPatch exampleFmt arc 9 (some [.inl 3, .inl 1, .inl 1]) = .error .exception := by
  refine (C84_exception ?_ 9).1
  rintro ⟨n, d, es, ts, rest, e, ⟨tn, td, _, rfl, h1, h2, bs, rfl, h3⟩, hb⟩
  rw [List.cons_append, List.cons_append, List.cons.injEq, List.cons.injEq] at e
  obtain ⟨rfl, rfl, h⟩ := e
  cases h1
  cases h2
  have hc : binomial (usub (Int.toNat 3 + Int.toNat 1) 1) (Int.toNat 1) = .ok 3 := rfl
  rw [hc] at hb
  have hl : es.length = 3 := (Except.ok.inj hb).symm
  cases h3 with
  | nil => cases hl
  | cons q _ =>
    obtain ⟨ls, ps, rfl, w1, w2, w3⟩ := q
    have := congrArg List.length h
    rw [List.flatten_cons] at this
    have a := w2.length_eq
    have b := w3.length_eq
    simp only [List.length_append, List.length_cons, List.length_nil] at this a b
    omega

/-- A triangular patch. -/
noncomputable def exampleData : SuperDData ℝ := ⟨3, fun i => ⟨((i : ℤ) : ℝ), ((1 : ℤ) : ℝ), ((0 : ℤ) : ℝ)⟩, fun i => ⟨((0 : ℤ) : ℝ), ((i : ℤ) : ℝ), ((2 : ℤ) : ℝ)⟩, ⟨((5 : ℤ) : ℝ), ((5 : ℤ) : ℝ), ((5 : ℤ) : ℝ)⟩⟩

theorem example_patch : IsPatch exampleFmt [.inl 3, .inl (0 : ℕ), .inl 1, .inl 0, .inl (1 : ℕ), .inl 1, .inl 0, .inl (2 : ℕ), .inl 1, .inl 0, .inl 0, .inl (0 : ℕ), .inl 2, .inl 0, .inl (1 : ℕ), .inl 2,
    .inl 0, .inl (2 : ℕ), .inl 2, .inl 5, .inl 5, .inl 5] exampleData :=
  ⟨.inl 3, [.inl (0 : ℕ), .inl 1, .inl 0, .inl (1 : ℕ), .inl 1, .inl 0, .inl (2 : ℕ), .inl 1, .inl 0], [.inl 0, .inl (0 : ℕ), .inl 2, .inl 0, .inl (1 : ℕ), .inl 2, .inl 0, .inl (2 : ℕ), .inl 2],
    [.inl 5, .inl 5, .inl 5], rfl, rfl, ⟨[[.inl (0 : ℕ), .inl 1, .inl 0], [.inl (1 : ℕ), .inl 1, .inl 0], [.inl (2 : ℕ), .inl 1, .inl 0]], rfl,
      .cons (example_point _ _ _) (.cons (example_point _ _ _) (.cons (example_point _ _ _) .nil))⟩,
    ⟨[[.inl 0, .inl (0 : ℕ), .inl 2], [.inl 0, .inl (1 : ℕ), .inl 2], [.inl 0, .inl (2 : ℕ), .inl 2]], rfl,
      .cons (example_point _ _ _) (.cons (example_point _ _ _) (.cons (example_point _ _ _) .nil))⟩, example_point _ _ _⟩

theorem example_superd (m : ℕ) : IsSuperD exampleFmt m [exampleData] (.inl m :: [.inl 3, .inl (0 : ℕ), .inl 1, .inl 0, .inl (1 : ℕ), .inl 1, .inl 0, .inl (2 : ℕ), .inl 1, .inl 0, .inl 0, .inl (0 : ℕ),
    .inl 2, .inl 0, .inl (1 : ℕ), .inl 2, .inl 0, .inl (2 : ℕ), .inl 2, .inl 5, .inl 5, .inl 5]) := ⟨_, _, rfl, by simp [exampleFmt], [_], rfl, .cons example_patch .nil⟩

/-- The file says that it has two patches, but it has one. The other patch has as many sides as the number `5` in memory that is not initialized. -/
example (arc : List (P3 ℝ) → ℝ → ℝ → ℝ) : ∃ ts, IsSuperD exampleFmt 2 [exampleData] ts ∧ ∃ S S' p, loadSuperD exampleFmt arc 9 (fun _ => 5) (fun _ => p) (some ts) = .ok [S, S'] ∧
    S.edgeControlPoint 1 = .ok ⟨0, 1, 2⟩ ∧ S'.faceControlPoint 4 = .ok p := by
  refine ⟨_, example_superd 2, ?_⟩
  obtain ⟨Ss, h1, h2, h3⟩ := C85_read (arc := arc) (ε := 1) (rest := []) (example_superd 2) (by simp [exampleData]) 9 (fun _ => 5) (fun _ => (⟨1, 2, 3⟩ : P3 ℝ)) (Or.inr ⟨by simp, rfl, by simp⟩)
  rw [List.append_nil] at h1
  match Ss, h2 with
  | [S, S'], _ =>
    refine ⟨S, S', _, h1, ?_, ?_⟩
    · cases h3 with
      | cons a _ =>
        have := (a.2.1 1 (by simp [exampleData])).2
        simpa [exampleData] using this
    · cases h3 with
      | cons _ b => cases b with
        | cons b _ => exact (b.2.1 4 (by simp)).1

end examples

end Transfinite
