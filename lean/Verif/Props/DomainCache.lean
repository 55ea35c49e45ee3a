import Verif.Model.DomainCache
import Verif.Lemmas.DomainUpdate
import Verif.Lemmas.MeshAll
import Mathlib.Data.Rat.Defs

/-! # Property C06: the mesh parameter cache -/

namespace Transfinite

open Domain Spec

theorem meshSize_inj {n : ℕ} (hn : 3 ≤ n) {r r' : ℕ} (h : meshSize n r = meshSize n r') : r = r' := by
  have mono : ∀ a b, a < b → meshSize n a < meshSize n b := by
    intro a b hab
    by_cases h3 : n = 3
    · subst h3; rw [meshSize3, meshSize3]
      have := triNum_mono (show a + 2 ≤ b + 1 by omega)
      rw [triNum_succ (a + 1)] at this; omega
    · by_cases h4 : n = 4
      · subst h4; rw [meshSize4, meshSize4]; nlinarith
      · rw [meshSizeN h3 h4, meshSizeN h3 h4]
        have := ringStart_mono n (show a + 2 ≤ b + 1 by omega)
        rw [ringStart_succ] at this
        have : 0 < n * (a + 1) := by positivity
        omega
  rcases Nat.lt_trichotomy r r' with h1 | h1 | h1
  · have := mono _ _ h1; omega
  · exact h1
  · have := mono _ _ h1; omega

variable {K : Type} [Field K] [LinearOrder K]

/-- All polygons given to `update` have at least three sides. -/
def OpsOk (os : List (Op K)) : Prop := ∀ vs c, Op.update vs c ∈ os → 3 ≤ vs.length

/-- The polygon (and centre) set by the last `update`, starting from `p`. -/
def lastPolygon (p : List (P2 K) × P2 K) : List (Op K) → List (P2 K) × P2 K
  | [] => p
  | .update vs c :: os => lastPolygon (vs, c) os
  | .query _ :: os => lastPolygon p os

/-- The cache is empty or holds the parameters of the current polygon for some resolution. -/
private def CacheInv (s : Cached (Domain K) K) : Prop :=
  3 ≤ s.dom.n ∧ s.dom.vertices.length = s.dom.n ∧
    (s.cache = [] ∨ ∃ r, 1 ≤ r ∧ s.dom.parametersImpl r = .ok s.cache)

private theorem meshSize_pos (n r : ℕ) : 0 < meshSize n r := by
  unfold meshSize
  split
  · apply Nat.div_pos _ (by omega); nlinarith
  · split <;> positivity

variable [IsStrictOrderedRing K]

/-- C06: let `s` be a freshly updated polygonal domain and run any history of `update` and
`parameters(r)` calls with resolutions of at least one. Then `parameters(r)` returns exactly what
`parametersImpl(r)` computes for the current polygon, and does not change the polygon. -/
theorem C06_cache_transparent {d : Domain K} (hd : 3 ≤ d.n) (hdv : d.vertices.length = d.n)
    (os : List (Op K)) (hos : OpsOk os) (hr : ∀ r, Op.query r ∈ os → 1 ≤ r) :
    ∃ s, runOps ⟨d, []⟩ os = .ok s ∧
      (s.dom.vertices, s.dom.center) = lastPolygon (d.vertices, d.center) os ∧ ∀ r, 1 ≤ r → ∃ ps s',
      parameters (fun d => meshSize d.n) parametersImpl s r = .ok (ps, s') ∧
      s.dom.parametersImpl r = .ok ps ∧ s'.dom = s.dom := by
  have len : ∀ (d : Domain K), 3 ≤ d.n → d.vertices.length = d.n → ∀ r, 1 ≤ r →
      ∃ ps, d.parametersImpl r = .ok ps ∧ ps.length = meshSize d.n r := by
    intro d hn hv r hr
    have : Inhabited (P2 K) := ⟨0⟩
    obtain ⟨v, hv'⟩ := exists_tab d.vertices
    rw [hv] at hv'
    obtain ⟨f, h1, _⟩ := parametersImpl_eq hn hv' hr
    exact ⟨_, h1, by simp⟩
  have query : ∀ s : Cached (Domain K) K, CacheInv s → ∀ r, 1 ≤ r → ∃ ps s',
      parameters (fun d => meshSize d.n) parametersImpl s r = .ok (ps, s') ∧
      s.dom.parametersImpl r = .ok ps ∧ s'.dom = s.dom ∧ CacheInv s' := by
    rintro s ⟨hn, hv, hc⟩ r hr
    obtain ⟨ps, e, _⟩ := len s.dom hn hv r hr
    unfold parameters
    by_cases hl : s.cache.length = meshSize s.dom.n r
    · simp only [hl, if_true]
      rcases hc with hc | ⟨r', hr', e'⟩
      · rw [hc] at hl; have := meshSize_pos s.dom.n r; simp at hl; omega
      · obtain ⟨ps', e2, l2⟩ := len s.dom hn hv r' hr'
        rw [e'] at e2
        obtain rfl := Except.ok.inj e2
        have : r = r' := meshSize_inj hn (by rw [← hl, l2])
        subst this
        exact ⟨_, _, rfl, e', rfl, hn, hv, Or.inr ⟨r, hr, e'⟩⟩
    · simp only [hl, if_false, e, M_bind_ok]
      exact ⟨_, _, rfl, rfl, rfl, hn, hv, Or.inr ⟨r, hr, e⟩⟩
  have run : ∀ (os : List (Op K)) s, CacheInv s → OpsOk os → (∀ r, Op.query r ∈ os → 1 ≤ r) →
      ∃ s', runOps s os = .ok s' ∧ CacheInv s' ∧
        (s'.dom.vertices, s'.dom.center) = lastPolygon (s.dom.vertices, s.dom.center) os := by
    intro os
    induction os with
    | nil => intro s h _ _; exact ⟨s, rfl, h, rfl⟩
    | cons o os ih =>
      intro s hs ho hr
      have : ∃ s', stepOp s o = .ok s' ∧ CacheInv s' ∧
          (s'.dom.vertices, s'.dom.center) = lastPolygon (s.dom.vertices, s.dom.center) [o] := by
        cases o with
        | update vs c =>
          have : Inhabited (P2 K) := ⟨0⟩
          obtain ⟨v, hv⟩ := exists_tab vs
          have h3 := ho vs c (by simp)
          simp only [stepOp]
          generalize hm : vs.length = m at *
          rw [hv, updateFrom_eq]
          exact ⟨_, rfl, ⟨h3, by simp, Or.inl rfl⟩, rfl⟩
        | query r =>
          obtain ⟨ps, s', e, _, j, i⟩ := query s hs r (hr r (by simp))
          simp only [stepOp]; rw [e]; exact ⟨s', rfl, i, by rw [j]; rfl⟩
      obtain ⟨s', e, i, j⟩ := this
      obtain ⟨s'', e', i', j'⟩ := ih s' i (fun vs c h => ho vs c (by simp [h])) (fun r h => hr r (by simp [h]))
      refine ⟨s'', by unfold runOps; rw [e]; exact e', i', ?_⟩
      rw [j', j]; cases o <;> rfl
  obtain ⟨s, e, i, j⟩ := run os ⟨d, []⟩ ⟨hd, hdv, Or.inl rfl⟩ hos hr
  refine ⟨s, e, j, fun r hr => ?_⟩
  obtain ⟨ps, s', a, b, c, _⟩ := query s i r hr
  exact ⟨ps, s', a, b, c⟩

/-- A non-trivial history with two different polygons. -/
example : OpsOk [Op.query 3, Op.update [(⟨0, 0⟩ : P2 ℚ), ⟨1, 0⟩, ⟨1, 1⟩, ⟨0, 1⟩] ⟨1/2, 1/2⟩, Op.query 2] := by
  intro vs c h; simp at h; rw [h.1]; decide

/-- C06 (disagreement): the cache of `DomainCircle` is stale after its side count changes from 3 to 6:
`parameters(2)` then returns the 3-sided points computed for resolution 3. -/
theorem C06_circle_stale [Libm K] :
    ∃ s ps s', runCircle (K := K) ⟨0, []⟩ [.update 3, .query 3, .update 6] = .ok s ∧
      parameters circleMeshSize circleParams s 2 = .ok (ps, s') ∧
      circleParams 3 3 = .ok ps ∧ circleParams (K := K) s.dom 2 ≠ .ok ps := by
  have h3 : ((2 : ℕ) : K) + 1 ≠ 0 := by exact_mod_cast (show (2 + 1 : ℕ) ≠ 0 by omega)
  obtain ⟨ps, e, l, h1⟩ : ∃ ps, circleParams (K := K) 3 3 = .ok ps ∧ ps.length = 19 ∧ ps[1]? = some ⟨1 / 3, 0⟩ := by
    simp [circleParams, forLoop, fdiv]
  have e2 : ∃ ps', circleParams (K := K) 6 2 = .ok ps' ∧ ps'[1]? = some ⟨1 / 2, 0⟩ := by
    simp [circleParams, forLoop, fdiv]
  obtain ⟨ps', e2, h2⟩ := e2
  have c1 : circleMeshSize 3 3 = 19 := by decide
  have c2 : circleMeshSize 6 2 = 19 := by decide
  refine ⟨⟨6, ps⟩, ps, ⟨6, ps⟩, ?_, ?_, e, ?_⟩
  · simp [runCircle, stepCircle, parameters, e, c1]
  · simp [parameters, c2, l]
  · intro h
    simp only [e2] at h
    obtain rfl := Except.ok.inj h
    rw [h1] at h2
    have := congrArg P2.x (Option.some.inj h2)
    norm_num at this

end Transfinite
