import Verif.Model.Patch
import Mathlib.Analysis.SpecialFunctions.Trigonometric.Basic

/-! # Specification: the same surface with another first curve -/

namespace Transfinite.Spec

/-- The boundary curves form a loop: curve `i` joins the corners `i-1` and `i` in one direction or the other, with gaps of at most `δ`,
which is less than a quarter of the distance between any two corners. -/
def ClosedLoop (cs : List (Curve ℝ)) : Prop :=
  ∃ (δ : ℝ) (q : ℕ → P3 ℝ), (∀ i < cs.length, ∀ j < cs.length, i ≠ j → 4 * δ < (q i - q j).norm) ∧
    ∀ i < cs.length, ∀ c, cs[i]? = some c →
      ((c.pt 0 - q ((i + cs.length - 1) % cs.length)).norm ≤ δ ∧ (c.pt 1 - q i).norm ≤ δ) ∨
        ((c.pt 0 - q i).norm ≤ δ ∧ (c.pt 1 - q ((i + cs.length - 1) % cs.length)).norm ≤ δ)

/-- The point `uv` rotated around the origin by `k` times the central angle of a side. -/
noncomputable def turned (n k : ℕ) (uv : P2 ℝ) : P2 ℝ :=
  ⟨Real.cos (2 * Real.pi / n * k) * uv.x - Real.sin (2 * Real.pi / n * k) * uv.y, Real.sin (2 * Real.pi / n * k) * uv.x + Real.cos (2 * Real.pi / n * k) * uv.y⟩

/-- Corresponding calls on two surfaces with the same `n` curves, where curve `i` of the second one is curve `i + k` (counted cyclically) of the first one. -/
inductive SameCall (n k : ℕ) : Patch.Call ℝ → Patch.Call ℝ → Prop
  | gamma (g : Bool) : SameCall n k (.gamma g) (.gamma g)
  | curves (cs : List (Curve ℝ)) (hl : cs.length = n) (hc : ClosedLoop cs) : SameCall n k (.curves cs) (.curves (cs.rotate k))
  | loop : SameCall n k .loop .loop
  | handler (i : ℕ) (hi : i < n) (h : P3 ℝ) : SameCall n k (.handler ((i + k) % n) h) (.handler i h)
  | mult (i : ℕ) (hi : i < n) (m : ℝ) : SameCall n k (.mult ((i + k) % n) m) (.mult i m)
  | fence (i : ℕ) (hi : i < n) (f : Option (ℝ → P3 ℝ)) : SameCall n k (.fence ((i + k) % n) f) (.fence i f)
  | reset (i : ℕ) (hi : i < n) : SameCall n k (.reset ((i + k) % n)) (.reset i)
  | setMid (p : P3 ℝ) : SameCall n k (.setMid p) (.setMid p)
  | unsetMid : SameCall n k .unsetMid .unsetMid
  | update : SameCall n k .update .update
  | updateSide (i : ℕ) (hi : i < n) : SameCall n k (.updateSide ((i + k) % n)) (.updateSide i)
  | eval (uv : P2 ℝ) : SameCall n k (.eval (turned n k uv)) (.eval uv)
  | mapSides (uv : P2 ℝ) : SameCall n k (.mapSides (turned n k uv)) (.mapSides uv)

end Transfinite.Spec
