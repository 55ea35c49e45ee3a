import Verif.Model.OBJ
import Mathlib.Tactic.NormNum
import Mathlib.Data.List.TakeWhile

/-! # Property C62: reading OBJ files -/

namespace Transfinite

namespace OBJ

variable {K : Type} [Field K]

/-! ### Specification -/

/-- C62: the white space between the numbers: blanks, tabs, and the ends of lines and pages. -/
theorem C62_white (c : Char) : isSpace c = true ↔ c ∈ [' ', '\t', '\n', '\r', Char.ofNat 11, Char.ofNat 12] := by
  unfold isSpace
  simp only [Bool.or_eq_true, decide_eq_true_eq, List.mem_cons, List.not_mem_nil, or_false, or_assoc]

/-- `text` is the text of the number `x`: it is read as `x` in front of white space, and at the end of a line. -/
def Writes {α : Type} (scan : List Char → Option (α × List Char)) (text : List Char) (x : α) : Prop :=
  (∃ c cs, text = c :: cs ∧ isSpace c = false) ∧ ∀ rest, (∀ c ∈ rest.head?, isSpace c = true) → scan (text ++ rest) = some (x, rest)

/-- Nonempty white space. -/
def Blank (s : List Char) : Prop := s ≠ [] ∧ ∀ c ∈ s, isSpace c = true

/-- `line` is `tag`, a white space character, and the texts of three numbers separated by white space, maybe followed by white space and
anything else. -/
def Triple {α : Type} (scan : List Char → Option (α × List Char)) (tag : Char) (line : List Char) (x y z : α) : Prop :=
  ∃ sep s0 tx s1 ty s2 tz s3, Writes scan tx x ∧ Writes scan ty y ∧ Writes scan tz z ∧ isSpace sep = true ∧ (∀ c ∈ s0, isSpace c = true) ∧
    Blank s1 ∧ Blank s2 ∧ (∀ c ∈ s3.head?, isSpace c = true) ∧ line = tag :: sep :: (s0 ++ tx ++ s1 ++ ty ++ s2 ++ tz ++ s3)

/-- What a line of an OBJ file says. -/
inductive Item (K : Type) where
  | vertex (p : P3 K)
  | face (a b c : ℕ)
  | other

/-- `line` is a line of an OBJ file that says `item`; other lines do not begin with `v` or `f`. -/
def Says (scan : Scan K) (line : List Char) : Item K → Prop
  | .vertex p => Triple scan.num 'v' line p.x p.y p.z
  | .face a b c => 1 ≤ a ∧ 1 ≤ b ∧ 1 ≤ c ∧ Triple scan.nat 'f' line a b c
  | .other => ∀ c ∈ line.head?, c ≠ 'v' ∧ c ≠ 'f'

/-- The vertices of a list of items. -/
def vertices : List (Item K) → List (P3 K)
  | [] => []
  | .vertex p :: l => p :: vertices l
  | _ :: l => vertices l

/-- The faces of a list of items, with indices that begin with zero. -/
def faces : List (Item K) → List (ℕ × ℕ × ℕ)
  | [] => []
  | .face a b c :: l => (a - 1, b - 1, c - 1) :: faces l
  | _ :: l => faces l

/-- `line` is a line with `v`, another character, and the texts of two numbers only; for example a texture coordinate. -/
def Texture (scan : Scan K) (line : List Char) (x y : K) : Prop :=
  ∃ ch s0 tx s1 ty s2, Writes scan.num tx x ∧ Writes scan.num ty y ∧ (∀ c ∈ s0, isSpace c = true) ∧ Blank s1 ∧ (∀ c ∈ s2, isSpace c = true) ∧
    line = 'v' :: ch :: (s0 ++ tx ++ s1 ++ ty ++ s2)

/-- The number of lines that begin with a given character. -/
def starting (c : Char) (lines : List (List Char)) : ℕ := lines.countP fun l => l.head? = some c

/-! ### Proof -/

private theorem dropWhile_blank {s t : List Char} (hs : ∀ c ∈ s, isSpace c = true) {c : Char} {cs : List Char} (ht : t = c :: cs)
    (hc : isSpace c = false) : (s ++ t).dropWhile isSpace = t := by
  induction s with
  | nil => rw [List.nil_append, ht, List.dropWhile_cons_of_neg (by simp [hc])]
  | cons a s ih =>
    rw [List.cons_append, List.dropWhile_cons_of_pos (hs a List.mem_cons_self)]
    exact ih fun c hc => hs c (List.mem_cons_of_mem _ hc)

private theorem read_text {α : Type} {scan : List Char → Option (α × List Char)} {zero old x : α} {s text rest : List Char} (hw : Writes scan text x)
    (hs : ∀ c ∈ s, isSpace c = true) (hr : ∀ c ∈ rest.head?, isSpace c = true) :
    SS.read scan zero old ⟨s ++ (text ++ rest), false⟩ = (x, ⟨rest, false⟩) := by
  obtain ⟨⟨c, cs, e, hc⟩, hw⟩ := hw
  unfold SS.read
  rw [dropWhile_blank (t := text ++ rest) hs (c := c) (cs := cs ++ rest) (by rw [e]; rfl) hc]
  have := hw rest hr
  rw [e] at this ⊢
  rw [List.cons_append] at this ⊢
  simp only [Bool.false_eq_true, if_false, this]

private theorem blank_head {s t : List Char} (h : Blank s) : ∀ c ∈ (s ++ t).head?, isSpace c = true := by
  obtain ⟨h1, h2⟩ := h
  cases s with
  | nil => exact absurd rfl h1
  | cons a s =>
    intro c hc
    simp at hc
    subst hc
    exact h2 _ List.mem_cons_self

private theorem read_triple {α : Type} {scan : List Char → Option (α × List Char)} {zero o1 o2 o3 x y z : α} {tag : Char} {line : List Char} {ss : SS}
    (hf : ss.fail = false) (h : Triple scan tag line x y z) :
    ∃ r1 r2 r3, SS.read scan zero o1 (ss.start line) = (x, r1) ∧ SS.read scan zero o2 r1 = (y, r2) ∧ SS.read scan zero o3 r2 = (z, r3) ∧
      r3.fail = false := by
  obtain ⟨sep, s0, tx, s1, ty, s2, tz, s3, w1, w2, w3, _, b0, b1, b2, b3, rfl⟩ := h
  have e : ss.start (tag :: sep :: (s0 ++ tx ++ s1 ++ ty ++ s2 ++ tz ++ s3)) = ⟨s0 ++ (tx ++ (s1 ++ (ty ++ (s2 ++ (tz ++ s3))))), false⟩ := by
    unfold SS.start
    rw [hf, if_neg (by simp), if_neg (by simp)]
    simp
  rw [e]
  exact ⟨_, _, _, read_text w1 b0 (blank_head b1), read_text w2 b1.2 (blank_head b2), read_text w3 b2.2 b3, rfl⟩

private theorem triangle_pos {a b c : ℕ} (ha : 1 ≤ a) (hb : 1 ≤ b) (hc : 1 ≤ c) : triangle (a, b, c) = (a - 1, b - 1, c - 1) := by
  unfold triangle pred64
  dsimp only
  rw [if_neg (by omega : a ≠ 0), if_neg (by omega : b ≠ 0), if_neg (by omega : c ≠ 0)]

/-- The variables after reading the items. -/
private theorem run_items {scan : Scan K} {lines : List (List Char)} {items : List (Item K)} (h : List.Forall₂ (Says scan) lines items)
    (st : State K) (hf : st.ss.fail = false) : ∃ st', lines.foldl (step scan) st = st' ∧ st'.ss.fail = false ∧ st'.pv = st.pv ++ vertices items ∧
      st'.tris = st.tris ++ faces items ∧ (faces items = [] → st'.points = st.points ∧ st'.set = st.set) ∧
      (st.set = true → st'.points = st.points ∧ st'.set = true) ∧ st'.p = (vertices items).getLast?.getD st.p ∧
      triangle st'.t = (faces items).getLast?.getD (triangle st.t) ∧
      (st.set = false → ∀ before after a b c, items = before ++ .face a b c :: after → faces before = [] → st'.points = st.pv ++ vertices before) := by
  induction h generalizing st with
  | nil =>
    refine ⟨_, rfl, hf, by simp [vertices], by simp [faces], fun _ => ⟨rfl, rfl⟩, fun h => ⟨rfl, h⟩, rfl, rfl, ?_⟩
    intro _ before after a b c e
    simp at e
  | @cons line item lines items h hs ih =>
    rw [List.foldl_cons]
    cases item with
    | vertex p =>
      have hv : ∃ ss, step scan st line = { st with p := p, ss := ss, pv := st.pv ++ [p] } ∧ ss.fail = false := by
        obtain ⟨r1, r2, r3, e1, e2, e3, e4⟩ := read_triple (zero := (0 : K)) (o1 := st.p.x) (o2 := st.p.y) (o3 := st.p.z) hf h
        refine ⟨r3, ?_, e4⟩
        have es : step scan st line = vertexLine scan st line := by
          obtain ⟨_, _, _, _, _, _, _, _, _, _, _, _, _, _, _, _, rfl⟩ := h
          rfl
        rw [es]
        unfold vertexLine readVertex
        simp only [e1, e2, e3]
      obtain ⟨ss, e1, e2⟩ := hv
      rw [e1]
      obtain ⟨st', k1, k2, k3, k4, k5, k6, k8, k9, k7⟩ := ih { st with p := p, ss := ss, pv := st.pv ++ [p] } e2
      refine ⟨st', k1, k2, ?_, k4, k5, k6, ?_, k9, ?_⟩
      · rw [k3]; simp [vertices]
      · rw [k8]; simp only [vertices, List.getLast?_cons, Option.getD_some]
      · intro hs before after a b c e hb
        cases before with
        | nil => simp at e
        | cons x before =>
          rw [List.cons_append] at e
          obtain ⟨rfl, e'⟩ := List.cons.inj e
          rw [k7 hs before after a b c e' hb]
          simp [vertices]
    | face a b c =>
      obtain ⟨ha, hb, hc, h⟩ := h
      have hv : ∃ ss, step scan st line = { st with points := if st.set then st.points else st.pv, set := true, t := (a, b, c), ss := ss, tris := st.tris ++ [(a - 1, b - 1, c - 1)] } ∧ ss.fail = false := by
        obtain ⟨r1, r2, r3, e1, e2, e3, e4⟩ := read_triple (zero := 0) (o1 := st.t.1) (o2 := st.t.2.1) (o3 := st.t.2.2) hf h
        refine ⟨r3, ?_, e4⟩
        have es : step scan st line = faceLine scan st line := by
          obtain ⟨_, _, _, _, _, _, _, _, _, _, _, _, _, _, _, _, rfl⟩ := h
          rfl
        rw [es]
        unfold faceLine readFace
        simp only [e1, e2, e3, triangle_pos ha hb hc]
      obtain ⟨ss, e1, e2⟩ := hv
      rw [e1]
      obtain ⟨st', k1, k2, k3, k4, k5, k6, k8, k9, k7⟩ := ih { st with points := if st.set then st.points else st.pv, set := true, t := (a, b, c), ss := ss, tris := st.tris ++ [(a - 1, b - 1, c - 1)] } e2
      obtain ⟨k6a, k6b⟩ := k6 rfl
      refine ⟨st', k1, k2, k3, ?_, fun h => by simp [faces] at h, ?_, k8, ?_, ?_⟩
      · rw [k4]; simp [faces]
      · intro hs
        rw [k6a]
        exact ⟨by simp [hs], k6b⟩
      · rw [k9]; simp only [faces, List.getLast?_cons, Option.getD_some, triangle_pos ha hb hc]
      · intro hs before after a' b' c' e hb
        cases before with
        | nil => rw [k6a]; simp [hs, vertices]
        | cons x before =>
          rw [List.cons_append] at e
          obtain ⟨rfl, e'⟩ := List.cons.inj e
          simp [faces] at hb
    | other =>
      have hv : step scan st line = st := by
        unfold step
        split
        · exact absurd rfl (h 'v' (by simp)).1
        · exact absurd rfl (h 'f' (by simp)).2
        · rfl
      rw [hv]
      obtain ⟨st', k1, k2, k3, k4, k5, k6, k8, k9, k7⟩ := ih st hf
      refine ⟨st', k1, k2, k3, k4, k5, k6, k8, k9, ?_⟩
      intro hs before after a b c e hb
      cases before with
      | nil => simp at e
      | cons x before =>
        rw [List.cons_append] at e
        obtain ⟨rfl, e'⟩ := List.cons.inj e
        exact k7 hs before after a b c e' hb

private theorem read_fail {α : Type} (scan : List Char → Option (α × List Char)) (zero old : α) {ss : SS} (h : ss.fail = true) :
    SS.read scan zero old ss = (old, ss) := by
  unfold SS.read
  rw [if_pos h]

private theorem start_fail {ss : SS} (h : ss.fail = true) (line : List Char) : ss.start line = ⟨[], true⟩ := by
  unfold SS.start
  rw [if_pos h]

/-- After a failure the same point and the same triangle are added again and again. -/
private theorem run_fail (scan : Scan K) (lines : List (List Char)) (st : State K) (hf : st.ss.fail = true) :
    ∃ st', lines.foldl (step scan) st = st' ∧ st'.ss.fail = true ∧ st'.p = st.p ∧ st'.t = st.t ∧
      st'.pv = st.pv ++ List.replicate (starting 'v' lines) st.p ∧ st'.tris = st.tris ++ List.replicate (starting 'f' lines) (triangle st.t) ∧
      (st.set = true → st'.points = st.points ∧ st'.set = true) ∧
      (st.set = false → ∀ before l after, lines = before ++ ('f' :: l) :: after → starting 'f' before = 0 →
        st'.points = st.pv ++ List.replicate (starting 'v' before) st.p) := by
  induction lines generalizing st with
  | nil =>
    refine ⟨_, rfl, hf, rfl, rfl, by simp [starting], by simp [starting], fun h => ⟨rfl, h⟩, ?_⟩
    intro _ before l after e
    simp at e
  | cons line lines ih =>
    rw [List.foldl_cons]
    have hother : (∀ c ∈ line.head?, c ≠ 'v' ∧ c ≠ 'f') → step scan st line = st ∧ starting 'v' (line :: lines) = starting 'v' lines ∧
        starting 'f' (line :: lines) = starting 'f' lines := by
      intro h
      refine ⟨?_, ?_, ?_⟩
      · unfold step
        split
        · exact absurd rfl (h 'v' (by simp)).1
        · exact absurd rfl (h 'f' (by simp)).2
        · rfl
      · unfold starting
        rw [List.countP_cons_of_neg]
        intro hc
        exact (h 'v' (by simpa using hc)).1 rfl
      · unfold starting
        rw [List.countP_cons_of_neg]
        intro hc
        exact (h 'f' (by simpa using hc)).2 rfl
    by_cases hv : line.head? = some 'v'
    · obtain ⟨l, rfl⟩ : ∃ l, line = 'v' :: l := by
        cases line with
        | nil => simp at hv
        | cons a l => simp at hv; exact ⟨l, by rw [hv]⟩
      have e1 : step scan st ('v' :: l) = { st with ss := ⟨[], true⟩, pv := st.pv ++ [st.p] } := by
        change vertexLine scan st _ = _
        unfold vertexLine readVertex
        rw [start_fail hf]
        simp only [read_fail _ _ _ (show (SS.mk [] true).fail = true from rfl)]
      rw [e1]
      have cv : starting 'v' (('v' :: l) :: lines) = starting 'v' lines + 1 := by
        unfold starting
        rw [List.countP_cons_of_pos (by simp)]
      have cf : starting 'f' (('v' :: l) :: lines) = starting 'f' lines := by
        unfold starting
        rw [List.countP_cons_of_neg (by simp)]
      obtain ⟨st', k1, k2, k3, k4, k5, k6, k7, k8⟩ := ih { st with ss := ⟨[], true⟩, pv := st.pv ++ [st.p] } rfl
      refine ⟨st', k1, k2, k3, k4, ?_, ?_, k7, ?_⟩
      · rw [k5, cv, List.replicate_succ]; simp
      · rw [k6, cf]
      · intro hs before l' after e hb
        cases before with
        | nil => simp at e
        | cons x before =>
          rw [List.cons_append] at e
          obtain ⟨rfl, e'⟩ := List.cons.inj e
          have cv' : starting 'v' (('v' :: l) :: before) = starting 'v' before + 1 := by
            unfold starting
            rw [List.countP_cons_of_pos (by simp)]
          have cf' : starting 'f' (('v' :: l) :: before) = starting 'f' before := by
            unfold starting
            rw [List.countP_cons_of_neg (by simp)]
          rw [k8 hs before l' after e' (by rw [← cf']; exact hb), cv', List.replicate_succ]
          simp
    · by_cases hf' : line.head? = some 'f'
      · obtain ⟨l, rfl⟩ : ∃ l, line = 'f' :: l := by
          cases line with
          | nil => simp at hf'
          | cons a l => simp at hf'; exact ⟨l, by rw [hf']⟩
        have e1 : step scan st ('f' :: l) = { st with points := if st.set then st.points else st.pv, set := true, ss := ⟨[], true⟩, tris := st.tris ++ [triangle st.t] } := by
          change faceLine scan st _ = _
          unfold faceLine readFace
          rw [start_fail hf]
          simp only [read_fail _ _ _ (show (SS.mk [] true).fail = true from rfl)]
        rw [e1]
        have cv : starting 'v' (('f' :: l) :: lines) = starting 'v' lines := by
          unfold starting
          rw [List.countP_cons_of_neg (by simp)]
        have cf : starting 'f' (('f' :: l) :: lines) = starting 'f' lines + 1 := by
          unfold starting
          rw [List.countP_cons_of_pos (by simp)]
        obtain ⟨st', k1, k2, k3, k4, k5, k6, k7, k8⟩ := ih { st with points := if st.set then st.points else st.pv, set := true, ss := ⟨[], true⟩, tris := st.tris ++ [triangle st.t] } rfl
        obtain ⟨k7a, k7b⟩ := k7 rfl
        refine ⟨st', k1, k2, k3, k4, ?_, ?_, ?_, ?_⟩
        · rw [k5, cv]
        · rw [k6, cf, List.replicate_succ]; simp
        · intro hs
          rw [k7a]
          exact ⟨by simp [hs], k7b⟩
        · intro hs before l' after e hb
          cases before with
          | nil => rw [k7a]; simp [hs, starting]
          | cons x before =>
            rw [List.cons_append] at e
            obtain ⟨rfl, e'⟩ := List.cons.inj e
            unfold starting at hb
            rw [List.countP_cons_of_pos (by simp)] at hb
            omega
      · obtain ⟨e1, cv, cf⟩ := hother (by
          intro c hc
          constructor
          · rintro rfl; exact hv hc
          · rintro rfl; exact hf' hc)
        rw [e1]
        obtain ⟨st', k1, k2, k3, k4, k5, k6, k7, k8⟩ := ih st hf
        refine ⟨st', k1, k2, k3, k4, by rw [k5, cv], by rw [k6, cf], k7, ?_⟩
        intro hs before l' after e hb
        cases before with
        | nil =>
          rw [List.nil_append] at e
          obtain ⟨rfl, e'⟩ := List.cons.inj e
          exact absurd rfl hf'
        | cons x before =>
          rw [List.cons_append] at e
          obtain ⟨rfl, e'⟩ := List.cons.inj e
          have ev : starting 'v' (line :: before) = starting 'v' before := by
            unfold starting
            rw [List.countP_cons_of_neg (by simpa using hv)]
          have ef : starting 'f' (line :: before) = starting 'f' before := by
            unfold starting
            rw [List.countP_cons_of_neg (by simpa using hf')]
          rw [ev]
          exact k8 hs before l' after e' (by rw [← ef]; exact hb)

private theorem read_end {α : Type} (scan : List Char → Option (α × List Char)) (zero old : α) {s : List Char} (h : ∀ c ∈ s, isSpace c = true) :
    SS.read scan zero old ⟨s, false⟩ = (old, ⟨[], true⟩) := by
  unfold SS.read
  rw [show s.dropWhile isSpace = [] from by
    rw [List.dropWhile_eq_nil_iff]; exact h]
  simp

end OBJ

open OBJ

variable {K : Type} [Field K] {scan : Scan K} {p0 : P3 K} {t0 : ℕ × ℕ × ℕ}

/-- C62: in a file of vertices, faces and lines that begin with other characters, with at least one face, the points are the vertices in
front of the first face, and the triangles are all faces, with indices decreased by one. -/
theorem C62_read {lines : List (List Char)} {before after : List (Item K)} {a b c : ℕ} (hb : faces before = [])
    (h : List.Forall₂ (Says scan) lines (before ++ .face a b c :: after)) :
    readOBJ scan p0 t0 lines = (vertices before, faces (before ++ .face a b c :: after)) := by
  obtain ⟨st', k1, _, _, k4, _, _, _, _, k7⟩ := run_items h (start p0 t0) rfl
  unfold readOBJ
  rw [k1]
  dsimp only
  rw [k7 rfl before after a b c rfl hb, k4]
  rfl

/-- C62: when all faces follow the vertices, nothing is lost. -/
theorem C62_complete {lines : List (List Char)} {vs fs : List (Item K)} (hv : faces vs = []) (hf : vertices fs = []) (hne : faces fs ≠ [])
    (h : List.Forall₂ (Says scan) lines (vs ++ fs)) : readOBJ scan p0 t0 lines = (vertices vs, faces fs) := by
  have app1 : ∀ l m : List (Item K), vertices (l ++ m) = vertices l ++ vertices m := by
    intro l m
    induction l with
    | nil => rfl
    | cons x l ih => cases x <;> simp [vertices, ih]
  have app2 : ∀ l m : List (Item K), faces (l ++ m) = faces l ++ faces m := by
    intro l m
    induction l with
    | nil => rfl
    | cons x l ih => cases x <;> simp [faces, ih]
  have split : ∃ b2 a b c after, fs = b2 ++ .face a b c :: after ∧ faces b2 = [] := by
    clear h
    induction fs with
    | nil => exact absurd rfl hne
    | cons x fs ih =>
      cases x with
      | vertex p => simp [vertices] at hf
      | face a b c => exact ⟨[], a, b, c, fs, rfl, rfl⟩
      | other =>
        obtain ⟨b2, a, b, c, after, rfl, h2⟩ := ih hf hne
        exact ⟨.other :: b2, a, b, c, after, rfl, h2⟩
  obtain ⟨b2, a, b, c, after, rfl, h2⟩ := split
  rw [← List.append_assoc] at h
  rw [C62_read (by rw [app2, hv, h2]; rfl) h, app1, app2 (vs ++ b2), app2 vs b2, app2 b2, hv]
  rw [app1] at hf
  rw [(List.append_eq_nil_iff.mp hf).1]
  simp

/-- C62: a file without faces gives no points. -/
theorem C62_no_faces {lines : List (List Char)} {items : List (Item K)} (hb : faces items = []) (h : List.Forall₂ (Says scan) lines items) :
    readOBJ scan p0 t0 lines = ([], []) := by
  obtain ⟨st', k1, _, _, k4, k5, _⟩ := run_items h (start p0 t0) rfl
  unfold readOBJ
  rw [k1]
  dsimp only
  rw [(k5 hb).1, k4, hb]
  rfl

/-- C62: vertex normals (and all other lines that begin with `v` and another character, followed by three numbers) are read as vertices. -/
theorem C62_normals {lines lines' : List (List Char)} (h : List.Forall₂ (fun l l' => l = l' ∨ ∃ x y l1, l = 'v' :: x :: l1 ∧ l' = 'v' :: y :: l1) lines lines') :
    readOBJ scan p0 t0 lines = readOBJ scan p0 t0 lines' := by
  have : ∀ st, lines.foldl (step scan) st = lines'.foldl (step scan) st := by
    induction h with
    | nil => intro st; rfl
    | cons h hs ih =>
      intro st
      rw [List.foldl_cons, List.foldl_cons]
      rcases h with rfl | ⟨x, y, l1, rfl, rfl⟩
      · exact ih _
      · have : step scan st ('v' :: x :: l1) = step scan st ('v' :: y :: l1) := by
          change vertexLine scan st _ = vertexLine scan st _
          unfold vertexLine
          have : st.ss.start ('v' :: x :: l1) = st.ss.start ('v' :: y :: l1) := by
            unfold SS.start
            simp
          rw [this]
        rw [this]
        exact ih _
  unfold readOBJ
  rw [this]

/-- C62: a line `vt x y` breaks the rest of the file: all later faces are read as copies of the last face before it (or of an uninitialized
variable), and all later vertices as copies of one point. -/
theorem C62_texture {lines : List (List Char)} {items : List (Item K)} {line : List Char} {x y : K} {rest : List (List Char)}
    (h : List.Forall₂ (Says scan) lines items) (ht : Texture scan line x y) :
    (readOBJ scan p0 t0 (lines ++ line :: rest)).2 =
      faces items ++ List.replicate (starting 'f' rest) ((faces items).getLast?.getD (triangle t0)) ∧
    ∀ before l after, faces items = [] → rest = before ++ ('f' :: l) :: after → starting 'f' before = 0 →
      (readOBJ scan p0 t0 (lines ++ line :: rest)).1 =
        vertices items ++ List.replicate (starting 'v' before + 1) ⟨x, y, ((vertices items).getLast?.getD p0).z⟩ := by
  obtain ⟨st', k1, k2, k3, k4, k5, k6, k8, k9, k7⟩ := run_items h (start p0 t0) rfl
  have hstep : step scan st' line = { st' with p := ⟨x, y, st'.p.z⟩, ss := ⟨[], true⟩, pv := st'.pv ++ [⟨x, y, st'.p.z⟩] } := by
    obtain ⟨ch, s0, tx, s1, ty, s2, w1, w2, b0, b1, b2, rfl⟩ := ht
    change vertexLine scan st' _ = _
    have e : st'.ss.start ('v' :: ch :: (s0 ++ tx ++ s1 ++ ty ++ s2)) = ⟨s0 ++ (tx ++ (s1 ++ (ty ++ s2))), false⟩ := by
      unfold SS.start
      rw [k2, if_neg (by simp), if_neg (by simp)]
      simp
    have hh : ∀ c ∈ s2.head?, isSpace c = true := fun c hc => b2 c (List.mem_of_mem_head? hc)
    unfold vertexLine readVertex
    rw [e]
    simp only [read_text w1 b0 (blank_head b1), read_text w2 b1.2 hh, read_end _ _ _ b2]
  obtain ⟨st2, q1, q2, q3, q4, q5, q6, q7, q8⟩ := run_fail scan rest _ (show (State.ss { st' with p := ⟨x, y, st'.p.z⟩, ss := ⟨[], true⟩, pv := st'.pv ++ [⟨x, y, st'.p.z⟩] }).fail = true from rfl)
  have hread : readOBJ scan p0 t0 (lines ++ line :: rest) = (st2.points, st2.tris) := by
    unfold readOBJ
    rw [List.foldl_append, k1, List.foldl_cons, hstep, q1]
  rw [hread]
  refine ⟨?_, ?_⟩
  · change st2.tris = _
    rw [q6]
    dsimp only
    rw [k4, k9]
    rfl
  · intro before l after hno hr hb
    change st2.points = _
    rw [q8 (k5 hno).2 before l after hr hb]
    dsimp only
    rw [k3, k8, List.replicate_succ]
    simp [start]

/-- C62: the first index of a face with slashes is read, but the second one is read as zero (so the index is `2^64 - 1`), and all later faces
are copies of this one. -/
theorem C62_slashes {lines : List (List Char)} {items : List (Item K)} {a : ℕ} {sep : Char} {s0 ta more : List Char} {rest : List (List Char)}
    (h : List.Forall₂ (Says scan) lines items) (ha : 1 ≤ a) (h0 : ∀ c ∈ s0, isSpace c = true)
    (hta : ∃ c cs, ta = c :: cs ∧ isSpace c = false) (hscan : scan.nat (ta ++ '/' :: more) = some (a, '/' :: more))
    (hslash : scan.nat ('/' :: more) = none) :
    ∃ k, (readOBJ scan p0 t0 (lines ++ ('f' :: sep :: (s0 ++ ta ++ '/' :: more)) :: rest)).2 =
      faces items ++ List.replicate (starting 'f' rest + 1) (a - 1, 2 ^ 64 - 1, k) := by
  obtain ⟨st', k1, k2, k3, k4, k5, k6, k8, k9, k7⟩ := run_items h (start p0 t0) rfl
  have hstep : step scan st' ('f' :: sep :: (s0 ++ ta ++ '/' :: more)) =
      { st' with points := if st'.set then st'.points else st'.pv, set := true, ss := ⟨[], true⟩, t := (a, 0, st'.t.2.2),
                 tris := st'.tris ++ [triangle (a, 0, st'.t.2.2)] } := by
    change faceLine scan st' _ = _
    have e : st'.ss.start ('f' :: sep :: (s0 ++ ta ++ '/' :: more)) = ⟨s0 ++ (ta ++ '/' :: more), false⟩ := by
      unfold SS.start
      rw [k2, if_neg (by simp), if_neg (by simp)]
      simp
    have e1 : SS.read scan.nat 0 st'.t.1 ⟨s0 ++ (ta ++ '/' :: more), false⟩ = (a, ⟨'/' :: more, false⟩) := by
      obtain ⟨c, cs, rfl, hc⟩ := hta
      unfold SS.read
      rw [dropWhile_blank (t := c :: cs ++ '/' :: more) h0 rfl hc]
      rw [List.cons_append] at hscan ⊢
      simp [hscan]
    have e2 : SS.read scan.nat 0 st'.t.2.1 ⟨'/' :: more, false⟩ = (0, ⟨[], true⟩) := by
      unfold SS.read
      rw [show ('/' :: more).dropWhile isSpace = '/' :: more from List.dropWhile_cons_of_neg (by decide)]
      simp [hslash]
    unfold faceLine readFace
    rw [e]
    simp only [e1, e2, read_fail _ _ _ (show (SS.mk [] true).fail = true from rfl)]
  obtain ⟨st2, q1, q2, q3, q4, q5, q6, q7, q8⟩ := run_fail scan rest (step scan st' ('f' :: sep :: (s0 ++ ta ++ '/' :: more))) (by rw [hstep])
  refine ⟨pred64 st'.t.2.2, ?_⟩
  unfold readOBJ
  rw [List.foldl_append, k1, List.foldl_cons]
  dsimp only
  rw [q1, q6, hstep]
  dsimp only
  rw [k4, List.replicate_succ, List.append_assoc]
  have ht : triangle (a, 0, st'.t.2.2) = (a - 1, 2 ^ 64 - 1, pred64 st'.t.2.2) := by
    unfold triangle pred64
    dsimp only
    rw [if_neg (by omega : a ≠ 0), if_pos rfl]
  rw [ht]
  rfl

/-! ### Examples -/

/-- A scanner of decimal numerals without sign. -/
def digits (l : List Char) : Option (ℕ × List Char) :=
  if (l.takeWhile Char.isDigit).isEmpty then none
  else some ((l.takeWhile Char.isDigit).foldl (fun n c => 10 * n + (c.toNat - 48)) 0, l.dropWhile Char.isDigit)

def digitScan : Scan ℚ := ⟨fun l => (digits l).map fun r => ((r.1 : ℚ), r.2), digits⟩

private theorem writes_digits {text : List Char} (h : text ≠ []) (hd : ∀ c ∈ text, c.isDigit = true) :
    Writes digits text (text.foldl (fun n c => 10 * n + (c.toNat - 48)) 0) := by
  constructor
  · cases text with
    | nil => exact absurd rfl h
    | cons c cs =>
      refine ⟨c, cs, rfl, ?_⟩
      have := hd c List.mem_cons_self
      by_contra hc
      have hc : isSpace c = true := by simpa using hc
      unfold isSpace at hc
      simp only [Bool.or_eq_true, decide_eq_true_eq] at hc
      rcases hc with ((((rfl | rfl) | rfl) | rfl) | rfl) | rfl <;> exact absurd this (by decide)
  · intro rest hr
    have e1 : (text ++ rest).takeWhile Char.isDigit = text := by
      rw [List.takeWhile_append_of_pos hd]
      cases rest with
      | nil => simp
      | cons c cs =>
        have := hr c (by simp)
        rw [List.takeWhile_cons_of_neg, List.append_nil]
        intro hdig
        unfold isSpace at this
        simp only [Bool.or_eq_true, decide_eq_true_eq] at this
        rcases this with ((((rfl | rfl) | rfl) | rfl) | rfl) | rfl <;> exact absurd hdig (by decide)
    have e2 : (text ++ rest).dropWhile Char.isDigit = rest := by
      have := List.takeWhile_append_dropWhile (p := Char.isDigit) (l := text ++ rest)
      rw [e1] at this
      exact List.append_cancel_left this
    unfold digits
    rw [e1, e2, if_neg (by simpa using h)]

private theorem writes_num {text : List Char} {x : ℚ} (h : text ≠ []) (hd : ∀ c ∈ text, c.isDigit = true)
    (hx : x = ((text.foldl (fun n c => 10 * n + (c.toNat - 48)) 0 : ℕ) : ℚ)) : Writes digitScan.num text x := by
  obtain ⟨h1, h2⟩ := writes_digits h hd
  refine ⟨h1, fun rest hr => ?_⟩
  change (digits (text ++ rest)).map _ = _
  rw [h2 rest hr, hx]
  rfl

private theorem writes_nat {text : List Char} {x : ℕ} (h : text ≠ []) (hd : ∀ c ∈ text, c.isDigit = true)
    (hx : x = text.foldl (fun n c => 10 * n + (c.toNat - 48)) 0) : Writes digitScan.nat text x := by
  rw [hx]; exact writes_digits h hd

private theorem says_vertex {s : List Char} {p : P3 ℚ} (tx ty tz : List Char) (n1 : tx ≠ []) (n2 : ty ≠ []) (n3 : tz ≠ [])
    (d1 : ∀ c ∈ tx, c.isDigit = true) (d2 : ∀ c ∈ ty, c.isDigit = true) (d3 : ∀ c ∈ tz, c.isDigit = true)
    (h1 : p.x = ((tx.foldl (fun n c => 10 * n + (c.toNat - 48)) 0 : ℕ) : ℚ)) (h2 : p.y = ((ty.foldl (fun n c => 10 * n + (c.toNat - 48)) 0 : ℕ) : ℚ))
    (h3 : p.z = ((tz.foldl (fun n c => 10 * n + (c.toNat - 48)) 0 : ℕ) : ℚ)) (e : s = 'v' :: ' ' :: ([] ++ tx ++ [' '] ++ ty ++ [' '] ++ tz ++ [])) :
    Says digitScan s (.vertex p) :=
  ⟨' ', [], tx, [' '], ty, [' '], tz, [], writes_num n1 d1 h1, writes_num n2 d2 h2, writes_num n3 d3 h3, rfl, by simp,
    ⟨by simp, by decide⟩, ⟨by simp, by decide⟩, by simp, e⟩

private theorem says_face {s : List Char} {a b c : ℕ} (tx ty tz : List Char) (n1 : tx ≠ []) (n2 : ty ≠ []) (n3 : tz ≠ [])
    (d1 : ∀ c ∈ tx, c.isDigit = true) (d2 : ∀ c ∈ ty, c.isDigit = true) (d3 : ∀ c ∈ tz, c.isDigit = true)
    (h1 : a = tx.foldl (fun n c => 10 * n + (c.toNat - 48)) 0) (h2 : b = ty.foldl (fun n c => 10 * n + (c.toNat - 48)) 0)
    (h3 : c = tz.foldl (fun n c => 10 * n + (c.toNat - 48)) 0) (ha : 1 ≤ a) (hb : 1 ≤ b) (hc : 1 ≤ c)
    (e : s = 'f' :: ' ' :: ([] ++ tx ++ [' '] ++ ty ++ [' '] ++ tz ++ [])) : Says digitScan s (.face a b c) :=
  ⟨ha, hb, hc, ' ', [], tx, [' '], ty, [' '], tz, [], writes_nat n1 d1 h1, writes_nat n2 d2 h2, writes_nat n3 d3 h3, rfl, by simp,
    ⟨by simp, by decide⟩, ⟨by simp, by decide⟩, by simp, e⟩

/-- A file with a comment, three vertices and a face. -/
theorem objExample : List.Forall₂ (Says digitScan) ["# a".toList, "v 0 0 12".toList, "v 1 0 3".toList, "v 0 1 7".toList, [], "f 3 2 1".toList]
    ([.other, .vertex ⟨0, 0, 12⟩, .vertex ⟨1, 0, 3⟩, .vertex ⟨0, 1, 7⟩, .other] ++ .face 3 2 1 :: []) := by
  refine .cons ?_ (.cons ?_ (.cons ?_ (.cons ?_ (.cons ?_ (.cons ?_ .nil)))))
  · intro c hc
    have : c = '#' := by simpa using hc.symm
    subst this
    decide
  · exact says_vertex ['0'] ['0'] ['1', '2'] (by simp) (by simp) (by simp) (by decide) (by decide) (by decide) (by decide +kernel) (by decide +kernel) (by decide +kernel) rfl
  · exact says_vertex ['1'] ['0'] ['3'] (by simp) (by simp) (by simp) (by decide) (by decide) (by decide) (by decide +kernel) (by decide +kernel) (by decide +kernel) rfl
  · exact says_vertex ['0'] ['1'] ['7'] (by simp) (by simp) (by simp) (by decide) (by decide) (by decide) (by decide +kernel) (by decide +kernel) (by decide +kernel) rfl
  · intro c hc; simp at hc
  · exact says_face ['3'] ['2'] ['1'] (by simp) (by simp) (by simp) (by decide) (by decide) (by decide) (by decide +kernel) (by decide +kernel) (by decide +kernel) (by omega) (by omega) (by omega) rfl

example : readOBJ digitScan ⟨5, 5, 5⟩ (7, 7, 7) ["# a".toList, "v 0 0 12".toList, "v 1 0 3".toList, "v 0 1 7".toList, [], "f 3 2 1".toList] =
    ([⟨0, 0, 12⟩, ⟨1, 0, 3⟩, ⟨0, 1, 7⟩], [(2, 1, 0)]) := C62_read rfl objExample

/-- The hypotheses of C62_texture: `vt 1 0` after the face. -/
example (rest : List (List Char)) : (readOBJ digitScan ⟨5, 5, 5⟩ (7, 7, 7)
    (["# a".toList, "v 0 0 12".toList, "v 1 0 3".toList, "v 0 1 7".toList, [], "f 3 2 1".toList] ++ "vt 1 0".toList :: rest)).2 =
    [(2, 1, 0)] ++ List.replicate (starting 'f' rest) (2, 1, 0) :=
  (C62_texture objExample ⟨'t', [' '], ['1'], [' '], ['0'], [], writes_num (x := 1) (by simp) (by decide) (by decide +kernel), writes_num (x := 0) (by simp) (by decide) (by decide +kernel), by decide,
    ⟨by simp, by decide⟩, by simp, rfl⟩).1

/-- The hypotheses of C62_slashes: the face `f 1/1 2/2 3/3`. -/
example (rest : List (List Char)) : ∃ k, (readOBJ digitScan ⟨5, 5, 5⟩ (7, 7, 7)
    (["# a".toList, "v 0 0 12".toList, "v 1 0 3".toList, "v 0 1 7".toList, [], "f 3 2 1".toList] ++ "f 1/1 2/2 3/3".toList :: rest)).2 =
    [(2, 1, 0)] ++ List.replicate (starting 'f' rest + 1) (0, 2 ^ 64 - 1, k) :=
  C62_slashes (a := 1) (s0 := []) (ta := ['1']) (more := "1 2/2 3/3".toList) objExample (by omega) (by simp) ⟨'1', [], rfl, by decide⟩ rfl rfl

/-- C62_normals is not vacuous. -/
example : readOBJ digitScan ⟨5, 5, 5⟩ (7, 7, 7) ["v 0 0 1".toList, "vn 0 0 1".toList, "f 1 2 3".toList] =
    readOBJ digitScan ⟨5, 5, 5⟩ (7, 7, 7) ["v 0 0 1".toList, "v  0 0 1".toList, "f 1 2 3".toList] :=
  C62_normals (.cons (Or.inl rfl) (.cons (Or.inr ⟨'n', ' ', " 0 0 1".toList, rfl, rfl⟩) (.cons (Or.inl rfl) .nil)))

end Transfinite
