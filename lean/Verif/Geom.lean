import Verif.Prelude
import Mathlib.Algebra.Module.Basic
import Mathlib.Algebra.Module.BigOperators
import Mathlib.Tactic.Module
import Mathlib.Tactic.Abel
import Mathlib.Analysis.SpecialFunctions.Trigonometric.Inverse

/-!
# Points and vectors

Models `Geometry::Point2D/Vector2D` and `Point3D/Vector3D` of libgeom (external; the submodule
`src/geom` is empty at this commit) by their obvious component-wise meaning.
-/

namespace Transfinite

/-- 2D points/vectors (libgeom `Point2D`, `Vector2D`). -/
@[ext] structure P2 (K : Type*) where
  x : K
  y : K
  deriving DecidableEq, Repr

/-- 3D points/vectors (libgeom `Point3D`, `Vector3D`). -/
@[ext] structure P3 (K : Type*) where
  x : K
  y : K
  z : K
  deriving DecidableEq, Repr

section P2
variable {K : Type*} [Field K]
namespace P2
instance : Zero (P2 K) := ⟨⟨0, 0⟩⟩
instance : Add (P2 K) := ⟨fun a b => ⟨a.x + b.x, a.y + b.y⟩⟩
instance : Neg (P2 K) := ⟨fun a => ⟨-a.x, -a.y⟩⟩
instance : Sub (P2 K) := ⟨fun a b => ⟨a.x - b.x, a.y - b.y⟩⟩
instance : SMul K (P2 K) := ⟨fun c a => ⟨c * a.x, c * a.y⟩⟩
@[simp] theorem zero_x : (0 : P2 K).x = 0 := rfl
@[simp] theorem zero_y : (0 : P2 K).y = 0 := rfl
@[simp] theorem add_x (a b : P2 K) : (a + b).x = a.x + b.x := rfl
@[simp] theorem add_y (a b : P2 K) : (a + b).y = a.y + b.y := rfl
@[simp] theorem neg_x (a : P2 K) : (-a).x = -a.x := rfl
@[simp] theorem neg_y (a : P2 K) : (-a).y = -a.y := rfl
@[simp] theorem sub_x (a b : P2 K) : (a - b).x = a.x - b.x := rfl
@[simp] theorem sub_y (a b : P2 K) : (a - b).y = a.y - b.y := rfl
@[simp] theorem smul_x (c : K) (a : P2 K) : (c • a).x = c * a.x := rfl
@[simp] theorem smul_y (c : K) (a : P2 K) : (c • a).y = c * a.y := rfl

instance : AddCommGroup (P2 K) where
  add_assoc a b c := by ext <;> simp [add_assoc]
  zero_add a := by ext <;> simp
  add_zero a := by ext <;> simp
  add_comm a b := by ext <;> simp [add_comm]
  neg_add_cancel a := by ext <;> simp
  sub_eq_add_neg a b := by ext <;> simp [sub_eq_add_neg]
  nsmul := nsmulRec
  zsmul := zsmulRec

instance : Module K (P2 K) where
  one_smul a := by ext <;> simp
  mul_smul a b c := by ext <;> simp [mul_assoc]
  smul_zero a := by ext <;> simp
  smul_add a b c := by ext <;> simp [mul_add]
  add_smul a b c := by ext <;> simp [add_mul]
  zero_smul a := by ext <;> simp

/-- scalar product, libgeom `operator*(Vector2D, Vector2D)` -/
def dot (a b : P2 K) : K := a.x * b.x + a.y * b.y
/-- the z-coordinate of the cross product, written out as `a[0]*b[1] - a[1]*b[0]` in the code -/
def cross (a b : P2 K) : K := a.x * b.y - a.y * b.x

/-- x-coordinate as an additive map -/
def xHom : P2 K →ₗ[K] K where
  toFun a := a.x
  map_add' _ _ := rfl
  map_smul' _ _ := rfl
/-- y-coordinate as an additive map -/
def yHom : P2 K →ₗ[K] K where
  toFun a := a.y
  map_add' _ _ := rfl
  map_smul' _ _ := rfl

theorem sum_x {ι : Type*} (s : Finset ι) (f : ι → P2 K) : (∑ i ∈ s, f i).x = ∑ i ∈ s, (f i).x :=
  map_sum (xHom (K := K)) f s
theorem sum_y {ι : Type*} (s : Finset ι) (f : ι → P2 K) : (∑ i ∈ s, f i).y = ∑ i ∈ s, (f i).y :=
  map_sum (yHom (K := K)) f s
end P2
end P2

section P3
variable {K : Type*} [Field K]
namespace P3
instance : Zero (P3 K) := ⟨⟨0, 0, 0⟩⟩
instance : Add (P3 K) := ⟨fun a b => ⟨a.x + b.x, a.y + b.y, a.z + b.z⟩⟩
instance : Neg (P3 K) := ⟨fun a => ⟨-a.x, -a.y, -a.z⟩⟩
instance : Sub (P3 K) := ⟨fun a b => ⟨a.x - b.x, a.y - b.y, a.z - b.z⟩⟩
instance : SMul K (P3 K) := ⟨fun c a => ⟨c * a.x, c * a.y, c * a.z⟩⟩
@[simp] theorem zero_x : (0 : P3 K).x = 0 := rfl
@[simp] theorem zero_y : (0 : P3 K).y = 0 := rfl
@[simp] theorem zero_z : (0 : P3 K).z = 0 := rfl
@[simp] theorem add_x (a b : P3 K) : (a + b).x = a.x + b.x := rfl
@[simp] theorem add_y (a b : P3 K) : (a + b).y = a.y + b.y := rfl
@[simp] theorem add_z (a b : P3 K) : (a + b).z = a.z + b.z := rfl
@[simp] theorem neg_x (a : P3 K) : (-a).x = -a.x := rfl
@[simp] theorem neg_y (a : P3 K) : (-a).y = -a.y := rfl
@[simp] theorem neg_z (a : P3 K) : (-a).z = -a.z := rfl
@[simp] theorem sub_x (a b : P3 K) : (a - b).x = a.x - b.x := rfl
@[simp] theorem sub_y (a b : P3 K) : (a - b).y = a.y - b.y := rfl
@[simp] theorem sub_z (a b : P3 K) : (a - b).z = a.z - b.z := rfl
@[simp] theorem smul_x (c : K) (a : P3 K) : (c • a).x = c * a.x := rfl
@[simp] theorem smul_y (c : K) (a : P3 K) : (c • a).y = c * a.y := rfl
@[simp] theorem smul_z (c : K) (a : P3 K) : (c • a).z = c * a.z := rfl

instance : AddCommGroup (P3 K) where
  add_assoc a b c := by ext <;> simp [add_assoc]
  zero_add a := by ext <;> simp
  add_zero a := by ext <;> simp
  add_comm a b := by ext <;> simp [add_comm]
  neg_add_cancel a := by ext <;> simp
  sub_eq_add_neg a b := by ext <;> simp [sub_eq_add_neg]
  nsmul := nsmulRec
  zsmul := zsmulRec

instance : Module K (P3 K) where
  one_smul a := by ext <;> simp
  mul_smul a b c := by ext <;> simp [mul_assoc]
  smul_zero a := by ext <;> simp
  smul_add a b c := by ext <;> simp [mul_add]
  add_smul a b c := by ext <;> simp [add_mul]
  zero_smul a := by ext <;> simp

/-- scalar product, libgeom `operator*(Vector3D, Vector3D)` -/
def dot (a b : P3 K) : K := a.x * b.x + a.y * b.y + a.z * b.z
/-- cross product, libgeom `operator^(Vector3D, Vector3D)` -/
def cross (a b : P3 K) : P3 K :=
  ⟨a.y * b.z - a.z * b.y, a.z * b.x - a.x * b.z, a.x * b.y - a.y * b.x⟩
/-- squared norm, libgeom `Vector3D::normSqr` -/
def normSqr (a : P3 K) : K := dot a a

theorem dot_comm (a b : P3 K) : dot a b = dot b a := by unfold dot; ring
theorem dot_add_left (a b c : P3 K) : dot (a + b) c = dot a c + dot b c := by simp [dot]; ring
theorem dot_add_right (a b c : P3 K) : dot a (b + c) = dot a b + dot a c := by simp [dot]; ring
theorem dot_sub_left (a b c : P3 K) : dot (a - b) c = dot a c - dot b c := by simp [dot]; ring
theorem dot_sub_right (a b c : P3 K) : dot a (b - c) = dot a b - dot a c := by simp [dot]; ring
theorem dot_smul_left (t : K) (a b : P3 K) : dot (t • a) b = t * dot a b := by simp [dot]; ring
theorem dot_smul_right (t : K) (a b : P3 K) : dot a (t • b) = t * dot a b := by simp [dot]; ring
theorem dot_neg_left (a b : P3 K) : dot (-a) b = -dot a b := by simp [dot]; ring
theorem dot_neg_right (a b : P3 K) : dot a (-b) = -dot a b := by simp [dot]; ring
@[simp] theorem dot_zero_left (a : P3 K) : dot 0 a = 0 := by simp [dot]
@[simp] theorem dot_zero_right (a : P3 K) : dot a 0 = 0 := by simp [dot]
theorem dot_cross_self_left (a b : P3 K) : dot a (cross a b) = 0 := by simp [dot, cross]; ring
theorem dot_cross_self_right (a b : P3 K) : dot b (cross a b) = 0 := by simp [dot, cross]; ring
end P3
end P3

section libm

/-- The functions of `<cmath>` that the code uses, abstractly. The instance for `ℝ` below is the
mathematical one; it is the one used in all theorems that depend on their values. -/
class Libm (K : Type*) where
  sqrt : K → K
  sin : K → K
  cos : K → K
  acos : K → K
  pi : K

noncomputable instance : Libm ℝ where
  sqrt := Real.sqrt
  sin := Real.sin
  cos := Real.cos
  acos := Real.arccos
  pi := Real.pi

variable {K : Type*} [Field K] [Libm K]

/-- libgeom `Vector2D::norm` -/
def P2.norm (a : P2 K) : K := Libm.sqrt (P2.dot a a)
/-- libgeom `Vector3D::norm` -/
def P3.norm (a : P3 K) : K := Libm.sqrt (P3.dot a a)
/-- libgeom `Vector2D::normalize`; the zero vector is a division by zero -/
def P2.normalize [DecidableEq K] (a : P2 K) : M (P2 K) :=
  if a.norm = 0 then .error .divZero else .ok (a.norm⁻¹ • a)
/-- libgeom `Vector3D::normalize`; the zero vector is a division by zero -/
def P3.normalize [DecidableEq K] (a : P3 K) : M (P3 K) :=
  if a.norm = 0 then .error .divZero else .ok (a.norm⁻¹ • a)

end libm

end Transfinite
