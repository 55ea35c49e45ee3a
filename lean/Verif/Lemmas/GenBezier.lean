import Verif.Lemmas.Net

/-! Calls on Generalized Bézier patches. -/

namespace Transfinite

namespace GB

open Spec

variable {K : Type} [Field K] [LinearOrder K] [Libm K]

/-- `G'` has the same network and flags as `G`. -/
structure SameNet (G G' : GB K) : Prop where
  kind : G'.kind = G.kind
  n_eq : G'.n = G.n
  degree : G'.degree = G.degree
  layers : G'.layers = G.layers
  central : G'.central = G.central
  nets : G'.nets = G.nets
  squared : G'.squared = G.squared

theorem SameNet.refl (G : GB K) : SameNet G G := ⟨rfl, rfl, rfl, rfl, rfl, rfl, rfl⟩

theorem SameNet.hasNet {G G' : GB K} (h : SameNet G G') {n d : ℕ} {F : ℕ → ℕ → ℕ → P3 K} (hn : HasNet G n d F) : HasNet G' n d F :=
  ⟨h.n_eq.trans hn.n_eq, h.degree.trans hn.degree, h.layers.trans hn.layers, h.nets.trans hn.nets⟩

theorem eval_keeps {ε : K} {G : GB K} {uv : P2 K} {r : P3 K × GB K} (h : G.eval ε uv = .ok r) : SameNet G r.2 := by
  unfold eval at h
  obtain ⟨x, _, h⟩ := bind_ok h
  obtain ⟨p, _, h⟩ := bind_ok h
  cases h
  exact ⟨rfl, rfl, rfl, rfl, rfl, rfl, rfl⟩

theorem weight_keeps {ε : K} {G : GB K} {i j k : ℕ} {uv : P2 K} {r : K × GB K} (h : G.weight ε i j k uv = .ok r) : SameNet G r.2 := by
  unfold weight at h
  split at h
  · split_ifs at h
    · cases h; exact SameNet.refl G
    · obtain ⟨x, _, h⟩ := bind_ok h
      obtain ⟨p, _, h⟩ := bind_ok h
      cases h
      exact ⟨rfl, rfl, rfl, rfl, rfl, rfl, rfl⟩
  · obtain ⟨x, _, h⟩ := bind_ok h
    obtain ⟨p, _, h⟩ := bind_ok h
    cases h
    exact ⟨rfl, rfl, rfl, rfl, rfl, rfl, rfl⟩

theorem updateDomain_keeps {G G' : GB K} (h : G.updateDomain = .ok G') : SameNet G G' ∧ G'.curves = G.curves := by
  unfold updateDomain at h
  split at h
  · obtain ⟨r, _, h⟩ := bind_ok h
    split_ifs at h
    · obtain ⟨o, _, h⟩ := bind_ok h
      cases h
      exact ⟨⟨rfl, rfl, rfl, rfl, rfl, rfl, rfl⟩, rfl⟩
    · cases h; exact ⟨SameNet.refl G, rfl⟩
  · obtain ⟨o, _, h⟩ := bind_ok h
    cases h
    exact ⟨⟨rfl, rfl, rfl, rfl, rfl, rfl, rfl⟩, rfl⟩

theorem pushLoop_length {α β : Type} {m : ℕ} {f : ℕ → M β} {g : β → α} {l : List α}
    (h : forLoop m (fun i (l : List α) => do
      let b ← f i
      .ok (l ++ [g b])) [] = .ok l) : l.length = m := by
  induction m generalizing l with
  | zero => cases h; rfl
  | succ m ih =>
    rw [forLoop_succ] at h
    obtain ⟨l', e, h⟩ := bind_ok h
    obtain ⟨b, _, h⟩ := bind_ok h
    cases h
    rw [List.length_append, ih e]
    rfl

theorem setupLoop_parts {arc : List (P3 K) → K → K → K} {G G' : GB K} (h : G.setupLoop arc = .ok G') :
    ∃ curves cs, forLoop G.n (fun i (l : List (Curve K)) => do
      let cpts ← G.boundary i
      .ok (l ++ [bezierCurve arc cpts])) [] = .ok curves ∧ orientLoop curves = .ok cs ∧ curves.length = G.n ∧
      updateDomain { G with curves := cs } = .ok G' := by
  unfold setupLoop at h
  obtain ⟨curves, e1, h⟩ := bind_ok h
  obtain ⟨cs, e2, h⟩ := bind_ok h
  have el := pushLoop_length e1
  rw [el] at h
  exact ⟨curves, cs, e1, e2, el, h⟩

theorem setupLoop_keeps {arc : List (P3 K) → K → K → K} {G G' : GB K} (h : G.setupLoop arc = .ok G') : SameNet G G' := by
  obtain ⟨_, _, _, _, _, h⟩ := setupLoop_parts h
  obtain ⟨k, _⟩ := updateDomain_keeps h
  exact ⟨k.kind, k.n_eq, k.degree, k.layers, k.central, k.nets, k.squared⟩

theorem initNetwork_eq {G G' : GB K} {n d : ℕ} (h : G.initNetwork n d = .ok G') : G' = G.initBase n d ∧ (∀ f, G.kind = .corner f → d % 2 = 1) := by
  unfold initNetwork at h
  cases hk : G.kind with
  | side =>
    rw [hk] at h
    cases h
    exact ⟨rfl, fun f e => by cases e⟩
  | corner f =>
    rw [hk] at h
    dsimp only at h
    split_ifs at h with hd
    cases h
    exact ⟨rfl, fun _ _ => hd⟩

theorem initBase_net {G : GB K} {n d : ℕ} (h : ¬(n = G.n ∧ d = G.degree)) : HasNet (G.initBase n d) n d (fun _ _ _ => 0) := by
  unfold initBase
  rw [if_neg h]
  refine ⟨rfl, rfl, rfl, ?_⟩
  dsimp only
  simp only [replicate_eq_tab]
  rfl

theorem replicate_net3 (n d l : ℕ) :
    List.replicate n (List.replicate (d + 1) (List.replicate l (0 : P3 K))) = net3 n d l (fun _ _ _ => 0) := by
  simp only [replicate_eq_tab]
  rfl

end GB

end Transfinite
