import Mathlib.Algebra.Order.Field.Basic
import Mathlib.Tactic.Ring
import Mathlib.Tactic.Linarith
import Mathlib.Tactic.LinearCombination
import Mathlib.Tactic.NormNum
import Mathlib.Tactic.ByContra

/-
Three-dimensional vectors (src/vw/Math/Vector.h), exact numbers.
-/

namespace Verif.Camera

/-- `Vector3`. -/
@[ext] structure V3 (K : Type) where
  x : K
  y : K
  z : K
  deriving DecidableEq

variable {K : Type}

section ring
variable [CommRing K]

instance : Zero (V3 K) := ⟨⟨0, 0, 0⟩⟩
instance : Add (V3 K) := ⟨fun a b => ⟨a.x + b.x, a.y + b.y, a.z + b.z⟩⟩
instance : Sub (V3 K) := ⟨fun a b => ⟨a.x - b.x, a.y - b.y, a.z - b.z⟩⟩
instance : Neg (V3 K) := ⟨fun a => ⟨-a.x, -a.y, -a.z⟩⟩
instance : HMul K (V3 K) (V3 K) := ⟨fun s a => ⟨s * a.x, s * a.y, s * a.z⟩⟩

@[simp] theorem zero_x : (0 : V3 K).x = 0 := rfl
@[simp] theorem zero_y : (0 : V3 K).y = 0 := rfl
@[simp] theorem zero_z : (0 : V3 K).z = 0 := rfl
@[simp] theorem add_x (a b : V3 K) : (a + b).x = a.x + b.x := rfl
@[simp] theorem add_y (a b : V3 K) : (a + b).y = a.y + b.y := rfl
@[simp] theorem add_z (a b : V3 K) : (a + b).z = a.z + b.z := rfl
@[simp] theorem sub_x (a b : V3 K) : (a - b).x = a.x - b.x := rfl
@[simp] theorem sub_y (a b : V3 K) : (a - b).y = a.y - b.y := rfl
@[simp] theorem sub_z (a b : V3 K) : (a - b).z = a.z - b.z := rfl
@[simp] theorem neg_x (a : V3 K) : (-a).x = -a.x := rfl
@[simp] theorem neg_y (a : V3 K) : (-a).y = -a.y := rfl
@[simp] theorem neg_z (a : V3 K) : (-a).z = -a.z := rfl
@[simp] theorem smul_x (s : K) (a : V3 K) : (s * a).x = s * a.x := rfl
@[simp] theorem smul_y (s : K) (a : V3 K) : (s * a).y = s * a.y := rfl
@[simp] theorem smul_z (s : K) (a : V3 K) : (s * a).z = s * a.z := rfl

/-- `dot_prod` (src/vw/Math/Vector.h:1717-1726). -/
def dot (a b : V3 K) : K := a.x * b.x + a.y * b.y + a.z * b.z

/-- `cross_prod` (src/vw/Math/Vector.h:1736-1746). -/
def cross (a b : V3 K) : V3 K := ⟨a.y * b.z - a.z * b.y, a.z * b.x - a.x * b.z, a.x * b.y - a.y * b.x⟩

/-- The square of the length. -/
def sq (a : V3 K) : K := dot a a

end ring

section ordered
variable [Field K] [LinearOrder K] [IsStrictOrderedRing K]

theorem sq_nonneg' (a : V3 K) : 0 ≤ sq a := by
  unfold sq dot; nlinarith [mul_self_nonneg a.x, mul_self_nonneg a.y, mul_self_nonneg a.z]

theorem sq_eq_zero (a : V3 K) : sq a = 0 ↔ a = 0 := by
  constructor
  · intro h
    unfold sq dot at h
    have hx := mul_self_nonneg a.x
    have hy := mul_self_nonneg a.y
    have hz := mul_self_nonneg a.z
    refine V3.ext (mul_self_eq_zero.1 ?_) (mul_self_eq_zero.1 ?_) (mul_self_eq_zero.1 ?_) <;> linarith
  · rintro rfl
    simp [sq, dot]

theorem sq_pos (a : V3 K) (h : a ≠ 0) : 0 < sq a :=
  lt_of_le_of_ne (sq_nonneg' a) (fun e => h ((sq_eq_zero a).1 e.symm))

end ordered

end Verif.Camera
