import Verif.Model.FileIO

/-! # The formats of the files read by `io.cc`

The tokens of a file are related to the numbers that are read from them. -/

namespace Transfinite.Spec

variable {K T : Type}

/-- The tokens `ts` are natural numbers, with values `xs`. -/
def Nats (io : Fmt K T) (ts : List T) (xs : List ℕ) : Prop := List.Forall₂ (fun t x => io.readNat t = some x) ts xs

/-- The tokens `ts` are numbers, with values `xs`. -/
def Nums (io : Fmt K T) (ts : List T) (xs : List K) : Prop := List.Forall₂ (fun t x => io.readNum t = some x) ts xs

/-- The tokens `ts` are the coordinates of one point. -/
def IsPoint (io : Fmt K T) (ts : List T) (p : P3 K) : Prop := Nums io ts [p.x, p.y, p.z]

/-- The tokens `ts` are one block after the other; `A` relates the tokens of a block to its contents. -/
def Blocks {α : Type} (A : List T → α → Prop) (ts : List T) (xs : List α) : Prop := ∃ bs, ts = bs.flatten ∧ List.Forall₂ A bs xs

/-- A curve in a LOP file: the degree, the number of the knots, the knots, the number of the control points, and the control points. -/
def IsCurve (io : Fmt K T) (ts : List T) (c : LopCurve K) : Prop :=
  ∃ td tk tn ks ps, ts = td :: tk :: (ks ++ tn :: ps) ∧ io.readNat td = some c.deg ∧ io.readNat tk = some c.knots.length ∧ Nums io ks c.knots ∧
    io.readNat tn = some c.cpts.length ∧ Blocks (IsPoint io) ps c.cpts

/-- A LOP file that says that it has `n` curves, and has the curves `cs`. -/
def IsLOP (io : Fmt K T) (n : ℕ) (cs : List (LopCurve K)) (ts : List T) : Prop := ∃ t bs, ts = t :: bs ∧ io.readNat t = some n ∧ Blocks (IsCurve io) bs cs

/-- A labelled control point of an S-patch with `n` sides: the label and the coordinates. -/
def IsEntry (io : Fmt K T) (n : ℕ) (ts : List T) (e : List ℕ × P3 K) : Prop := ∃ ls ps, ts = ls ++ ps ∧ e.1.length = n ∧ Nats io ls e.1 ∧ IsPoint io ps e.2

/-- The file of an S-patch: the number of sides, the depth, and labelled control points. -/
def IsSPatch (io : Fmt K T) (n d : ℕ) (es : List (List ℕ × P3 K)) (ts : List T) : Prop :=
  ∃ tn td bs, ts = tn :: td :: bs ∧ io.readNat tn = some n ∧ io.readNat td = some d ∧ Blocks (IsEntry io n) bs es

/-- The data of a SuperD patch with `n` sides: the face, edge and vertex control points. -/
structure SuperDData (K : Type) where
  n : ℕ
  F : ℕ → P3 K
  E : ℕ → P3 K
  V : P3 K

/-- A patch in the file of a SuperD model. -/
def IsPatch (io : Fmt K T) (ts : List T) (D : SuperDData K) : Prop :=
  ∃ tn fs es vs, ts = tn :: (fs ++ es ++ vs) ∧ io.readNat tn = some D.n ∧ Blocks (IsPoint io) fs ((List.range D.n).map D.F) ∧
    Blocks (IsPoint io) es ((List.range D.n).map D.E) ∧ IsPoint io vs D.V

/-- The file of a SuperD model that says that it has `m` patches, and has the patches `Ds`. -/
def IsSuperD (io : Fmt K T) (m : ℕ) (Ds : List (SuperDData K)) (ts : List T) : Prop := ∃ t bs, ts = t :: bs ∧ io.readNat t = some m ∧ Blocks (IsPatch io) bs Ds

end Transfinite.Spec
