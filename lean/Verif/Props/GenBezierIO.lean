import Verif.Model.GBIO
import Verif.Props.GenBezierEnum
import Verif.Lemmas.GenBezierSets
import Verif.Lemmas.MeshBase

/-! # C45: saving and loading Generalized Bézier patches -/

namespace Transfinite

open Spec Param

namespace GB

section io

variable {K : Type} [Field K] [LinearOrder K] [Libm K] {T : Type} {io : Fmt K T}

/-- A point with rounded coordinates. -/
def roundPoint (rd : K → K) (p : P3 K) : P3 K := ⟨rd p.x, rd p.y, rd p.z⟩

theorem readTok_cons {α : Type} {read : T → Option α} {zero old v : α} {t : T} {ts : List T} (h : read t = some v) :
    readTok read zero old ⟨t :: ts, false⟩ = (v, ⟨ts, false⟩) := by
  unfold readTok
  simp [h]

theorem readPoint_print {rd : K → K} (h : ∀ x, io.readNum (io.printNum x) = some (rd x)) (p q : P3 K) (ts : List T) :
    readPoint io q ⟨printPoint io p ++ ts, false⟩ = (roundPoint rd p, ⟨ts, false⟩) := by
  unfold readPoint printPoint roundPoint
  simp only [List.cons_append, List.nil_append, readTok_cons (h _)]

theorem vget_cons_succ {α : Type} (a : α) (l : List α) (t : ℕ) : vget (a :: l) (t + 1) = vget l t := rfl

/-- The loop of `loadBezier` writes the points of the file. -/
theorem loadLoop {rd : K → K} (h : ∀ x, io.readNum (io.printNum x) = some (rd x)) {ε : K} {arc : List (P3 K) → K → K → K} (q : Name → P3 K) (V : List Name)
    {G G' : GB K} (e : G.run ε arc (V.map fun a => Call.set a.side a.col a.row (roundPoint rd (q a))) = .ok G') (p : P3 K) (ts : List T) (i : ℕ) :
    ∃ p', forLoop V.length (fun t (st : GB K × P3 K × IStream T) => vget V t >>= fun a => do
      let p := readPoint io st.2.1 st.2.2
      let G ← st.1.setControlPoint a.side a.col a.row p.1
      .ok (G, p)) (G, p, ⟨V.flatMap (fun a => printPoint io (q a)) ++ ts, false⟩) = .ok (G', p', ⟨ts, false⟩) := by
  induction V generalizing G p with
  | nil =>
    cases e
    exact ⟨p, rfl⟩
  | cons a V ih =>
    rw [List.map_cons] at e
    unfold run at e
    obtain ⟨G1, e1, e⟩ := bind_ok e
    obtain ⟨p', ih⟩ := ih e (roundPoint rd (q a))
    refine ⟨p', ?_⟩
    rw [List.length_cons, forLoop_front]
    change (Except.ok a >>= _) >>= _ = _
    rw [M_bind_ok]
    dsimp only
    rw [List.flatMap_cons, List.append_assoc, readPoint_print h]
    dsimp only
    rw [show G.setControlPoint a.side a.col a.row (roundPoint rd (q a)) = .ok G1 from e1, M_bind_ok, M_bind_ok]
    simp only [vget_cons_succ]
    exact ih

theorem visited_main {n d : ℕ} {a : Name} : a ∈ visited n d ↔ Name.Main n d a := by
  constructor
  · intro ha
    obtain ⟨t, ht, rfl⟩ := List.mem_map.mp ha
    exact visited_spec (List.mem_range.mp ht)
  · intro ha
    obtain ⟨t, ht, e, _⟩ := visited_mem ha.1 ha.2.1 ha.2.2
    exact List.mem_map.mpr ⟨t, List.mem_range.mpr ht, e⟩

theorem visited_loop {σ : Type} (n d : ℕ) (body : ℕ → Name → σ → M σ) (s : σ) : enumLoop n d body 1 (enumCount n d) ⟨0, 0, 0⟩ s =
    forLoop (visited n d).length (fun t s => vget (visited n d) t >>= fun a => body (1 + t) a s) s := by
  rw [enumLoop_eq, show (visited n d).length = enumCount n d from length_tab _ _]
  apply forLoop_congr
  intro t s ht
  unfold visited
  rw [vget_tab _ ht, M_bind_ok]

theorem save_eq {G : GB K} {n d : ℕ} {F : ℕ → ℕ → ℕ → P3 K} (h : HasNet G n d F) (hn : G.dom.dom.vertices.length = n) :
    G.save io = .ok ([io.printNat n, io.printNat d] ++ printPoint io G.central ++ (visited n d).flatMap fun a => printPoint io (F a.side a.col a.row)) := by
  unfold save
  dsimp only
  rw [hn, h.degree, enumLoop_eq, forLoop_flatMap _ _ (fun t => printPoint io (F (enumPos n d ⟨0, 0, 0⟩ t).side (enumPos n d ⟨0, 0, 0⟩ t).col (enumPos n d ⟨0, 0, 0⟩ t).row))]
  · unfold visited tab
    rw [List.flatMap_map]
  · intro t s ht
    obtain ⟨h1, h2, h3⟩ := visited_spec ht
    rw [show G.controlPoint _ _ _ = _ from h.cpt h1 (by omega) (by omega), M_bind_ok]

end io

variable {ε : ℝ} {arc : List (P3 ℝ) → ℝ → ℝ → ℝ} {n d : ℕ} {calls : List (Call ℝ)} {G : GB ℝ} {T : Type}

theorem initNetwork_net {H : GB ℝ} (h : NetShape H) (hn : n ≠ 0) (hk : H.kind = .side ∨ d % 2 = 1) : ∃ F, H.initNetwork n d = .ok (H.initBase n d) ∧
    HasNet (H.initBase n d) n d F := by
  have e : H.initNetwork n d = .ok (H.initBase n d) := by
    unfold initNetwork
    split
    · rfl
    · rename_i hc
      rw [if_pos]
      exact hk.resolve_left (by rw [hc]; simp)
  by_cases hq : n = H.n ∧ d = H.degree
  · obtain ⟨rfl, rfl⟩ := hq
    rcases h with ⟨h, _⟩ | ⟨F, hF⟩
    · exact absurd h hn
    · refine ⟨F, e, ?_⟩
      unfold initBase
      rw [if_pos ⟨rfl, rfl⟩]
      exact hF
  · exact ⟨_, e, initBase_net hq⟩

/-- The calls made by `loadBezier`. -/
def loadCalls (n d : ℕ) (c : P3 ℝ) (V : List Name) (q : Name → P3 ℝ) : List (Call ℝ) :=
  (.init n d :: .central c :: V.map fun a => Call.set a.side a.col a.row (q a)) ++ [.loop]

/-- C45: a patch with at least 3 sides, of degree at least 1 (with consistent network) after `setupLoop` can be saved, and the file can be loaded into any object of either
class (for corner-based patches the degree should be odd) that was used in any way before, except for setting its curves directly. Then the number of sides and the
degree are the same, and the central and all other control points are the same up to the rounding `rd` by printing and reading.
The resulting object is the same as the one created by the corresponding calls, so all other properties hold for it. -/
theorem C45_roundtrip (hn : 3 ≤ n) (hd : 1 ≤ d) {kind : GBKind ℝ} (hG : Usable ε arc kind n d calls G) (hreg : ∀ c ∈ calls, c.regular = true) {io : Fmt ℝ T}
    {rd : ℝ → ℝ} (h1 : ∀ k, io.readNat (io.printNat k) = some k) (h2 : ∀ x, io.readNum (io.printNum x) = some (rd x)) {kind' : GBKind ℝ} {g l : ℕ}
    {hist : List (Call ℝ)} {H : GB ℝ} (hH : (GB.new kind' g l).run ε arc hist = .ok H) (hhist : ∀ c ∈ hist, c.keepsCurves = true)
    (hk : kind' = .side ∨ d % 2 = 1) (n0 d0 : ℕ) (p0 : P3 ℝ) :
    ∃ toks H', G.save io = .ok toks ∧ H.load io arc n0 d0 p0 toks = .ok H' ∧ H'.n = n ∧ H'.degree = d ∧ H'.central = roundPoint rd G.central ∧
      H'.squared = H.squared ∧
      (∀ a : Name, a.InRange n d → ∃ p, G.controlPoint a.side a.col a.row = .ok p ∧ H'.controlPoint a.side a.col a.row = .ok (roundPoint rd p)) ∧
      ∃ V q, Usable ε arc kind' n d (hist ++ loadCalls n d H'.central V q) H' := by
  obtain ⟨hi, _, hdn, _, _⟩ := hG.state (by omega)
  obtain ⟨F, hF, hcons⟩ := hG.consistent hn hreg
  have hlen : G.dom.dom.vertices.length = n := by rw [hi.len, hdn]
  have hHk : H.kind = kind' := (run_inv (new_inv ε kind' g l) hH).2.1
  have hsh : NetShape H := run_shape hhist (Or.inl ⟨rfl, rfl⟩) hH
  obtain ⟨F0, e0, hF0⟩ := initNetwork_net (n := n) (d := d) hsh (by omega) (by rw [hHk]; exact hk)
  set c := roundPoint rd G.central with hc
  set H1 := (H.initBase n d).setCentral c with hH1
  have hF1 : HasNet H1 n d F0 := ⟨hF0.n_eq, hF0.degree, hF0.layers, hF0.nets⟩
  set w : List (Name × P3 ℝ) := (visited n d).map fun a => (a, roundPoint rd (F a.side a.col a.row)) with hw
  have hwr : ∀ x ∈ w, x.1.InRange n d := by
    intro x hx
    obtain ⟨a, ha, rfl⟩ := List.mem_map.mp hx
    exact (visited_main.mp ha).inRange
  obtain ⟨H2, e2, q2, hF2⟩ := writes_run (ε := ε) (arc := arc) hwr hF1
  have e2' : H1.run ε arc ((visited n d).map fun a => Call.set a.side a.col a.row (roundPoint rd (F a.side a.col a.row))) = .ok H2 := by
    rw [hw, List.map_map] at e2
    exact e2
  obtain ⟨H3, e3⟩ := setupLoop_total (arc := arc) hF2 hn hd
  have k3 := setupLoop_keeps e3
  have hF3 : HasNet H3 n d _ := ⟨k3.n_eq.trans hF2.n_eq, k3.degree.trans hF2.degree, k3.layers.trans hF2.layers, k3.nets.trans hF2.nets⟩
  have hcen : H3.central = c := by rw [k3.central, q2]; rfl
  refine ⟨_, H3, save_eq hF hlen, ?_, hF3.n_eq, hF3.degree, hcen, ?_, ?_, ?_⟩
  · unfold load
    rw [List.cons_append, List.cons_append, List.cons_append, List.nil_append, readTok_cons (h1 _)]
    dsimp only
    rw [List.cons_append, readTok_cons (h1 _)]
    dsimp only
    rw [e0, M_bind_ok, readPoint_print h2]
    dsimp only
    obtain ⟨p', e⟩ := loadLoop h2 (fun a => F a.side a.col a.row) (visited n d) e2' c [] 0
    rw [visited_loop]
    rw [List.append_nil] at e
    change forLoop _ _ (H1, c, _) >>= _ = _
    rw [e, M_bind_ok]
    exact e3
  · rw [k3.squared, q2]
    dsimp only [H1, setCentral]
    unfold initBase
    split_ifs <;> rfl
  · intro a ha
    refine ⟨_, hF.cpt ha.1 ha.2.1 ha.2.2, ?_⟩
    rw [show H3.controlPoint a.side a.col a.row = _ from hF3.cpt ha.1 ha.2.1 ha.2.2]
    congr 1
    refine foldl_const (y := roundPoint rd (F a.side a.col a.row)) ?_ _ ?_
    · intro x hx hs
      obtain ⟨b, hb, rfl⟩ := List.mem_map.mp hx
      dsimp only at hs ⊢
      rw [hcons a b ha (visited_main.mp hb).inRange hs]
    · right
      obtain ⟨b, hb, hab⟩ := main_exists ha
      exact ⟨(b, roundPoint rd (F b.side b.col b.row)), List.mem_map.mpr ⟨b, visited_main.mpr hb, rfl⟩, hab⟩
  · refine ⟨visited n d, fun a => roundPoint rd (F a.side a.col a.row), g, l,
      hist ++ (.init n d :: .central H3.central :: (visited n d).map fun a => Call.set a.side a.col a.row (roundPoint rd (F a.side a.col a.row))), [], ?_, ?_, ?_, ?_, hF3.n_eq,
      hF3.degree⟩
    · unfold loadCalls
      rw [List.append_assoc]
    · refine run_join hH ?_
      unfold loadCalls
      rw [hcen]
      refine run_join (G1 := H2) ?_ ?_
      · unfold run
        rw [show H.step ε arc (.init n d) = .ok (H.initBase n d) from e0, M_bind_ok]
        unfold run
        rw [show (H.initBase n d).step ε arc (.central c) = .ok H1 from rfl, M_bind_ok]
        exact e2'
      · unfold run
        rw [show H2.step ε arc .loop = .ok H3 from e3, M_bind_ok]
        rfl
    · intro c hc
      rcases List.mem_append.mp hc with hc | hc
      · exact hhist c hc
      · simp only [List.mem_cons, List.mem_map] at hc
        rcases hc with rfl | rfl | ⟨a, _, rfl⟩ <;> rfl
    · simp

/-! ### The surface is the same -/

theorem mapM_congr' {α : Type} {m : ℕ} {f f' : ℕ → M α} (h : ∀ i, f i = f' i) : (List.range m).mapM f = (List.range m).mapM f' := by
  rw [show f = f' from funext h]

/-- Two usable objects of the same class with the same number of sides have the same parameterization. -/
theorem Usable.sameMaps {kind : GBKind ℝ} {calls' : List (Call ℝ)} {d' : ℕ} {H : GB ℝ} (hG : Usable ε arc kind n d calls G)
    (hH : Usable ε arc kind n d' calls' H) (hn : n ≠ 0) (uv : P2 ℝ) :
    Prod.fst <$> mapToRibbons ε kind.param uv G.param = Prod.fst <$> mapToRibbons ε kind.param uv H.param := by
  obtain ⟨i1, k1, n1, _, _⟩ := hG.state hn
  obtain ⟨i2, k2, n2, _, _⟩ := hH.state hn
  obtain ⟨o1, cs1, u1, hcs1, r1⟩ := i1.param.resolve_left (by omega)
  obtain ⟨o2, cs2, u2, hcs2, r2⟩ := i2.param.resolve_left (by omega)
  rw [k1] at u1 r1
  rw [k2] at u2 r2
  obtain ⟨fr1, a1, b1, _, _, _, c1, _⟩ := C19_transparent u1 r1
  obtain ⟨fr2, a2, b2, _, _, _, c2, _⟩ := C19_transparent u2 r2
  rw [Patch.lastDomain_queries hcs1] at a1 b1
  rw [Patch.lastDomain_queries hcs2] at a2 b2
  rw [(c1 uv).2, (c2 uv).2, b1, b2]
  cases kind with
  | side =>
    obtain ⟨vs, x1, x2⟩ := (i1.regular k1).resolve_left (by omega)
    obtain ⟨vs', y1, y2⟩ := (i2.regular k2).resolve_left (by omega)
    rw [n1] at x1
    rw [n2, x1] at y1
    cases y1
    rw [x2] at y2
    rw [Except.ok.inj y2] at a1 ⊢
    rw [a1] at a2
    rw [Except.ok.inj a2]
  | corner fmod =>
    rw [i1.len, i2.len, n1, n2]
    apply mapM_congr'
    intro i
    change circularMap ε fmod _ i uv = circularMap ε fmod _ i uv
    rw [i1.len, i2.len, n1, n2]

/-- The value of a patch depends only on its class, number of sides, degree, control points, and the kind of rational weights. -/
theorem Usable.sameEval {kind : GBKind ℝ} {calls' : List (Call ℝ)} {H : GB ℝ} (hG : Usable ε arc kind n d calls G)
    (hH : Usable ε arc kind n d calls' H) (hn : n ≠ 0) (hc : H.central = G.central) (hs : H.squared = G.squared)
    (hp : ∀ a : Name, a.InRange n d → H.controlPoint a.side a.col a.row = G.controlPoint a.side a.col a.row) (uv : P2 ℝ) :
    Prod.fst <$> H.eval ε uv = Prod.fst <$> G.eval ε uv := by
  obtain ⟨_, k1, _, ⟨F, hF⟩, _⟩ := hG.state hn
  obtain ⟨_, k2, _, ⟨F', hF'⟩, _⟩ := hH.state hn
  have hnets : H.nets = G.nets := by
    rw [hF.nets, hF'.nets]
    apply net3_congr
    intro i hi j hj k hk
    have := hp ⟨i, j, k⟩ ⟨hi, hj, hk⟩
    rw [show H.controlPoint i j k = _ from hF'.cpt hi hj hk, show G.controlPoint i j k = _ from hF.cpt hi hj hk] at this
    exact Except.ok.inj this
  have he : H = { G with dom := H.dom, param := H.param, curves := H.curves } := by
    cases H; cases G
    simp only [GB.mk.injEq, true_and, and_true] at *
    exact ⟨k2.trans k1.symm, hF'.n_eq.trans hF.n_eq.symm, hF'.degree.trans hF.degree.symm, hF'.layers.trans hF.layers.symm, hc, hnets, hs⟩
  have hev : ∀ l, H.evalWith ε l = G.evalWith ε l := by
    intro l
    rw [he]
    rfl
  have hm := hG.sameMaps hH hn uv
  unfold eval
  rw [k1, k2]
  cases e1 : mapToRibbons ε kind.param uv G.param with
  | error x =>
    rw [e1] at hm
    cases e2 : mapToRibbons ε kind.param uv H.param with
    | error y => rw [e2] at hm; cases hm; rfl
    | ok y => rw [e2] at hm; cases hm
  | ok x =>
    rw [e1] at hm
    cases e2 : mapToRibbons ε kind.param uv H.param with
    | error y => rw [e2] at hm; cases hm
    | ok y =>
      rw [e2] at hm
      have hxy : x.1 = y.1 := Except.ok.inj hm
      rw [M_bind_ok, M_bind_ok, hev, hxy]
      cases G.evalWith ε y.1 <;> rfl

/-- C45, the surface: if numbers are printed exactly, then the loaded patch of the same class evaluates to the same points. The kind of rational weights, however, is not stored in the
file. -/
theorem C45_surface (hn : 3 ≤ n) (hd : 1 ≤ d) {kind : GBKind ℝ} (hG : Usable ε arc kind n d calls G) (hreg : ∀ c ∈ calls, c.regular = true) {io : Fmt ℝ T}
    (h1 : ∀ k, io.readNat (io.printNat k) = some k) (h2 : ∀ x, io.readNum (io.printNum x) = some x) {g l : ℕ}
    {hist : List (Call ℝ)} {H : GB ℝ} (hH : (GB.new kind g l).run ε arc hist = .ok H) (hhist : ∀ c ∈ hist, c.keepsCurves = true)
    (hk : kind = .side ∨ d % 2 = 1) (n0 d0 : ℕ) (p0 : P3 ℝ) (hs : H.squared = G.squared) :
    ∃ toks H', G.save io = .ok toks ∧ H.load io arc n0 d0 p0 toks = .ok H' ∧ ∀ uv, Prod.fst <$> H'.eval ε uv = Prod.fst <$> G.eval ε uv := by
  obtain ⟨toks, H', e1, e2, _, _, e5, e6, e7, V, q, e8⟩ := C45_roundtrip hn hd hG hreg h1 (rd := id) h2 hH hhist hk n0 d0 p0
  refine ⟨toks, H', e1, e2, hG.sameEval e8 (by omega) e5 (e6.trans hs) ?_⟩
  intro a ha
  obtain ⟨p, x1, x2⟩ := e7 a ha
  rw [x1, x2]
  rfl

/-- C45, before `setupLoop`: the number of sides in the file is that of the domain, so when the control points have been set but `setupLoop` was not called,
the file does not contain these (it has 0 sides). -/
theorem C45_before_setup {K : Type} [Field K] [LinearOrder K] [Libm K] {ε : K} {arc : List (P3 K) → K → K → K} (io : Fmt K T) (kind : GBKind K) {g l : ℕ} (hist : List (Call K))
    {G : GB K} (hG : (GB.new kind g l).run ε arc hist = .ok G) (h : ∀ c ∈ hist, c ≠ .loop) :
    G.save io = .ok ([io.printNat 0, io.printNat G.degree] ++ printPoint io G.central) := by
  have key : ∀ (hist : List (Call K)) {G0 G : GB K}, G0.run ε arc hist = .ok G → (∀ c ∈ hist, c ≠ .loop) → G.dom = G0.dom := by
    intro hist
    induction hist with
    | nil => intro G0 G e _; cases e; rfl
    | cons c cs ih =>
      intro G0 G e hc
      unfold run at e
      obtain ⟨G1, e1, e⟩ := bind_ok e
      rw [ih e fun c h => hc c (List.mem_cons_of_mem _ h)]
      cases c with
      | init n d =>
        obtain ⟨rfl, _⟩ := initNetwork_eq (show G0.initNetwork n d = .ok G1 from e1)
        unfold initBase
        split_ifs <;> rfl
      | set i j k p => rw [setControlPoint_keeps (show G0.setControlPoint i j k p = .ok G1 from e1)]
      | setIndividual i j k p => rw [setIndividual_keeps (show G0.setIndividualControlPoint i j k p = .ok G1 from e1)]
      | central p => cases e1; rfl
      | squared b => cases e1; rfl
      | curves cs => cases e1; rfl
      | loop => exact absurd rfl (hc _ (by simp))
      | eval uv =>
        obtain ⟨r, e2, e3⟩ := bind_ok (show (G0.eval ε uv >>= fun r => .ok r.2) = .ok G1 from e1)
        cases e3
        unfold eval at e2
        obtain ⟨_, _, e2⟩ := bind_ok e2
        obtain ⟨_, _, e2⟩ := bind_ok e2
        cases e2; rfl
      | weight i j k uv =>
        obtain ⟨r, e2, e3⟩ := bind_ok (show (G0.weight ε i j k uv >>= fun r => .ok r.2) = .ok G1 from e1)
        cases e3
        unfold weight at e2
        split at e2
        · split_ifs at e2
          · cases e2; rfl
          · obtain ⟨_, _, e2⟩ := bind_ok e2
            obtain ⟨_, _, e2⟩ := bind_ok e2
            cases e2; rfl
        · obtain ⟨_, _, e2⟩ := bind_ok e2
          obtain ⟨_, _, e2⟩ := bind_ok e2
          cases e2; rfl
  have hdom := key hist hG h
  unfold save
  rw [hdom]
  dsimp only
  rw [show (GB.new kind g l : GB K).dom.dom.vertices.length = 0 from rfl, show enumCount 0 G.degree = 0 by simp [enumCount]]
  rfl

/-- The hypotheses are satisfiable: a triangular patch of degree 3 with some control points, loaded into a used five-sided corner-based patch, where numbers are printed as
they are (tokens are numbers of both kinds). -/
example : ∃ (calls hist : List (Call ℝ)) (G H : GB ℝ) (io : Fmt ℝ (ℕ ⊕ ℝ)), Usable (1 / 10000) (fun _ _ _ => 0) .side 3 3 calls G ∧ (∀ c ∈ calls, c.regular = true) ∧
    (∀ k, io.readNat (io.printNat k) = some k) ∧ (∀ x, io.readNum (io.printNum x) = some x) ∧
    (GB.new (.corner fun x _ => x) 0 0).run (1 / 10000) (fun _ _ _ => 0) hist = .ok H ∧ (∀ c ∈ hist, c.keepsCurves = true) ∧ H.n = 5 ∧
    G.controlPoint 1 1 1 = .ok ⟨1, 2, 3⟩ := by
  obtain ⟨G, hG, hr, _, _, hp⟩ := built (ε := 1 / 10000) (arc := fun _ _ _ => 0) .side (n := 3) (d := 3) (by omega) (by omega) (Or.inl rfl)
    (w := [(⟨1, 1, 1⟩, ⟨1, 2, 3⟩)]) (by intro x hx; simp only [List.mem_singleton] at hx; subst hx; exact ⟨by decide, by decide, by decide⟩) 0 false
  refine ⟨_, .init 5 3 :: [], G, ((GB.new (.corner fun x _ => x) 0 0).initBase 5 3), ⟨Sum.inl, Sum.inr, fun t => t.elim some (fun _ => none), fun t => t.elim (fun _ => none) some⟩, hG, hr,
    fun _ => rfl, fun _ => rfl, ?_, by simp [Call.keepsCurves], ?_, ?_⟩
  · rfl
  · unfold initBase
    rw [if_neg (by simp [GB.new])]
  · rw [hp ⟨1, 1, 1⟩ ⟨by decide, by decide, by decide⟩]
    rfl

end GB

end Transfinite
